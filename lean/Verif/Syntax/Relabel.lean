import Verif.Parser.Relabel
import Verif.Syntax.Tokens

/-! The elements of a tree and those of the tree with other names at its leaves. -/

namespace Verif.Syntax
open Verif.Parser (Green Piece texts texts_append relabelPieces relabelPieces_append relabel_leaves relabelList_leaves)
open Verif.Lexer (blen blen_append)

variable {f : Nat → Option (List Char)}

/-- Where an offset goes when the leaves from `o` on get their new texts, which begin at `o'`. -/
def moved (f : Nat → Option (List Char)) : Nat → Nat → List Piece → Nat → Nat
  | _, o', [], _ => o'
  | o, o', p :: ps, q =>
    if q ≤ o then o' else moved f (o + blen p.text) (o' + blen ((f o).getD p.text)) ps q

theorem blen_pos {l : List Char} (h : l ≠ []) : 0 < blen l := by
  cases l with
  | nil => exact absurd rfl h
  | cons c cs => have := Char.utf8Size_pos c; simp only [blen]; omega

theorem moved_at (o o' : Nat) (a b : List Piece) (ha : ∀ p ∈ a, p.text ≠ []) :
    moved f o o' (a ++ b) (o + blen (texts a)) = o' + blen (texts (relabelPieces f o a)) := by
  induction a generalizing o o' with
  | nil => cases b <;> simp [moved, relabelPieces, blen]
  | cons p a ih =>
    have := blen_pos (ha p (by simp))
    simp only [List.cons_append, moved, Verif.Parser.texts_cons, blen_append, relabelPieces]
    rw [if_neg (by omega), ← Nat.add_assoc, ih _ _ fun q hq => ha q (by simp [hq])]
    omega

theorem moved_lower (o o' q : Nat) (ps : List Piece) : o' ≤ moved f o o' ps q := by
  induction ps generalizing o o' with
  | nil => exact Nat.le_refl _
  | cons p ps ih =>
    rw [moved]
    split
    · exact Nat.le_refl _
    · exact Nat.le_trans (Nat.le_add_right _ _) (ih _ _)

theorem moved_mono (o o' : Nat) (ps : List Piece) {q r : Nat} (h : q ≤ r) : moved f o o' ps q ≤ moved f o o' ps r := by
  induction ps generalizing o o' with
  | nil => exact Nat.le_refl _
  | cons p ps ih =>
    rw [moved, moved]
    by_cases hq : q ≤ o
    · rw [if_pos hq]
      split
      · exact Nat.le_refl _
      · exact Nat.le_trans (Nat.le_add_right _ _) (moved_lower _ _ _ _)
    · rw [if_neg hq, if_neg (by omega)]
      exact ih _ _

/-- Where an offset of the tree goes. -/
def move (f : Nat → Option (List Char)) (t : Green) (q : Nat) : Nat := moved f 0 0 t.leaves q

/-- The element of the tree with the new names. -/
def Elem.relabel (f : Nat → Option (List Char)) (t : Green) (e : Elem) : Elem := ⟨e.path, move f t e.start, e.green.relabel f e.start⟩

@[simp] theorem relabel_path (t : Green) (e : Elem) : (e.relabel f t).path = e.path := rfl

@[simp] theorem green_relabel_kind (o : Nat) (g : Green) : (g.relabel f o).kind = g.kind := by
  cases g <;> rfl

@[simp] theorem green_relabel_isTok (o : Nat) (g : Green) : (g.relabel f o).isTok = g.isTok := by
  cases g <;> rfl

theorem green_relabel_children (o : Nat) (g : Green) : (g.relabel f o).children = Green.relabelList f o g.children := by
  cases g <;> rfl

@[simp] theorem relabel_kind (t : Green) (e : Elem) : (e.relabel f t).kind = e.kind := green_relabel_kind _ _

@[simp] theorem relabel_isTok (t : Green) (e : Elem) : (e.relabel f t).green.isTok = e.green.isTok := green_relabel_isTok _ _

@[simp] theorem relabel_isNode (t : Green) (k : SyntaxKind) (e : Elem) : isNode k (e.relabel f t) = isNode k e := by
  simp [isNode]

@[simp] theorem relabel_isToken (t : Green) (k : SyntaxKind) (e : Elem) : isToken k (e.relabel f t) = isToken k e := by
  simp [isToken]

/-- The offset is one between two leaves. -/
def Edge (t : Green) (q : Nat) : Prop := ∃ a b, t.leaves = a ++ b ∧ q = blen (texts a)

/-- The element has its place in the tree. -/
def Located (t : Green) (e : Elem) : Prop := ∃ a b, t.leaves = a ++ e.green.leaves ++ b ∧ e.start = blen (texts a)

theorem Located.start {t : Green} {e : Elem} (h : Located t e) : Edge t e.start := by
  obtain ⟨a, b, h1, h2⟩ := h
  exact ⟨a, e.green.leaves ++ b, by rw [h1, List.append_assoc], h2⟩

theorem Located.stop {t : Green} {e : Elem} (h : Located t e) : Edge t e.stop := by
  obtain ⟨a, b, h1, h2⟩ := h
  refine ⟨a ++ e.green.leaves, b, h1, ?_⟩
  rw [texts_append, blen_append, ← h2]; rfl

/-- All leaves have a text, before and after. -/
structure Solid (f : Nat → Option (List Char)) (t : Green) : Prop where
  old : ∀ p ∈ t.leaves, p.text ≠ []
  new : ∀ q y, f q = some y → y ≠ []

section
variable {t : Green} (hs : Solid f t)
include hs

theorem move_edge {a b : List Piece} (h : t.leaves = a ++ b) : move f t (blen (texts a)) = blen (texts (relabelPieces f 0 a)) := by
  have := moved_at (f := f) 0 0 a b fun p hp => hs.old p (by rw [h]; simp [hp])
  rw [move, h]
  simpa using this

theorem relabelPieces_solid {o : Nat} {a : List Piece} (ha : ∀ p ∈ a, p.text ≠ []) : ∀ p ∈ relabelPieces f o a, p.text ≠ [] := by
  induction a generalizing o with
  | nil => simp [relabelPieces]
  | cons p a ih =>
    intro q hq
    rw [relabelPieces] at hq
    rcases List.mem_cons.1 hq with rfl | hq
    · cases hf : f o with
      | none => simpa [hf] using ha p (by simp)
      | some y => simpa [hf] using hs.new _ _ hf
    · exact ih (fun q hq => ha q (by simp [hq])) q hq

theorem move_lt {q r : Nat} (hq : Edge t q) (hr : Edge t r) (h : q < r) : move f t q < move f t r := by
  obtain ⟨a, b, h1, rfl⟩ := hq
  obtain ⟨c, d, h2, rfl⟩ := hr
  rw [move_edge hs h1, move_edge hs h2]
  rw [h1] at h2
  rcases List.append_eq_append_iff.1 h2 with ⟨m, rfl, rfl⟩ | ⟨m, rfl, rfl⟩
  · rw [relabelPieces_append, texts_append, blen_append]
    cases m with
    | nil => simp at h
    | cons p m =>
      have hsol := relabelPieces_solid hs (o := 0 + blen (texts a)) (a := p :: m) fun q hq => hs.old q (by rw [h1]; simp at hq ⊢; tauto)
      have := blen_pos (hsol ⟨p.kind, (f (0 + blen (texts a))).getD p.text⟩ (by simp [relabelPieces]))
      simp only [relabelPieces, Verif.Parser.texts_cons, blen_append] at this ⊢
      omega
  · rw [texts_append, blen_append] at h
    omega

theorem move_le_iff {q r : Nat} (hq : Edge t q) (hr : Edge t r) : move f t q ≤ move f t r ↔ q ≤ r := by
  refine ⟨fun h => ?_, fun h => moved_mono _ _ _ h⟩
  by_contra hlt
  have := move_lt hs hr hq (by omega)
  omega

theorem move_lt_iff {q r : Nat} (hq : Edge t q) (hr : Edge t r) : move f t q < move f t r ↔ q < r := by
  have := move_le_iff hs hr hq
  omega

theorem move_inj {q r : Nat} (hq : Edge t q) (hr : Edge t r) (h : move f t q = move f t r) : q = r := by
  have h1 := move_le_iff hs hr hq
  have h2 := move_le_iff hs hq hr
  omega

theorem move_zero : move f t 0 = 0 := by
  have := move_edge hs (a := []) (b := t.leaves) rfl
  simpa [blen, relabelPieces] using this

theorem root_relabel : (Elem.root t).relabel f t = Elem.root (t.relabel f 0) := by
  simp [Elem.relabel, Elem.root, move_zero hs]

/-- The new text of an element ends where the old end goes. -/
theorem move_len {a b : List Piece} {g : Green} (h : t.leaves = a ++ g.leaves ++ b) :
    move f t (blen (texts a)) + (g.relabel f (blen (texts a))).len = move f t (blen (texts a) + g.len) := by
  have h1 := move_edge hs (a := a) (b := g.leaves ++ b) (by rw [h, List.append_assoc])
  have h2 := move_edge hs h
  rw [texts_append, blen_append, relabelPieces_append, texts_append, blen_append, ← h1] at h2
  have h3 : blen (texts (relabelPieces f (0 + blen (texts a)) g.leaves)) = (g.relabel f (blen (texts a))).len := by
    rw [Nat.zero_add, ← relabel_leaves]; rfl
  rw [← h3, ← h2]
  rfl

theorem relabel_stop {e : Elem} (h : Located t e) : (e.relabel f t).stop = move f t e.stop := by
  obtain ⟨a, b, h1, h2⟩ := h
  have := move_len hs h1
  rw [← h2] at this
  exact this

theorem placed_relabel (path : List Nat) (i : Nat) (a b : List Piece) (gs : List Green)
    (h : t.leaves = a ++ Green.leavesList gs ++ b) :
    placed path i (move f t (blen (texts a))) (Green.relabelList f (blen (texts a)) gs) =
      (placed path i (blen (texts a)) gs).map (Elem.relabel f t) := by
  induction gs generalizing i a with
  | nil => rfl
  | cons g gs ih =>
    simp only [Green.relabelList, placed, List.map_cons, Elem.relabel]
    have h1 : t.leaves = a ++ g.leaves ++ (Green.leavesList gs ++ b) := by rw [h, Green.leavesList]; simp
    rw [move_len hs h1]
    have h2 := ih (i + 1) (a ++ g.leaves) (by rw [h1]; simp)
    rw [texts_append, blen_append] at h2
    rw [show blen (texts a) + g.len = blen (texts a) + blen (texts g.leaves) from rfl, ← h2]
    rfl

omit hs in
theorem placed_located (path : List Nat) (i : Nat) (a b : List Piece) (gs : List Green)
    (h : t.leaves = a ++ Green.leavesList gs ++ b) : ∀ e ∈ placed path i (blen (texts a)) gs, Located t e := by
  induction gs generalizing i a with
  | nil => simp [placed]
  | cons g gs ih =>
    have h1 : t.leaves = a ++ g.leaves ++ (Green.leavesList gs ++ b) := by rw [h, Green.leavesList]; simp
    intro e he
    rcases List.mem_cons.1 he with rfl | he
    · exact ⟨a, _, h1, rfl⟩
    · refine ih (i + 1) (a ++ g.leaves) (by rw [h1]; simp) e ?_
      rw [texts_append, blen_append]
      exact he

omit hs in
theorem Located.children {e : Elem} (h : Located t e) : ∀ c ∈ e.children, Located t c := by
  obtain ⟨a, b, h1, h2⟩ := h
  intro c hc
  unfold Elem.children at hc
  rw [h2] at hc
  cases hg : e.green with
  | tok k x => rw [hg] at hc; cases hc
  | node k cs =>
    rw [hg] at h1 hc
    exact placed_located e.path 0 a b cs h1 c hc

theorem children_relabel {e : Elem} (h : Located t e) : (e.relabel f t).children = e.children.map (Elem.relabel f t) := by
  obtain ⟨a, b, h1, h2⟩ := h
  unfold Elem.children
  cases hg : e.green with
  | tok k x => simp [Elem.relabel, hg, Green.relabel, Green.children, placed]
  | node k cs =>
    rw [hg] at h1
    have := placed_relabel hs e.path 0 a b cs h1
    simp only [Elem.relabel, hg, Green.relabel, Green.children]
    rw [h2]
    exact this

omit hs in
theorem find?_relabel (P : Elem → Bool) (hP : ∀ e, P (e.relabel f t) = P e) (l : List Elem) :
    (l.map (Elem.relabel f t)).find? P = (l.find? P).map (Elem.relabel f t) := by
  rw [List.find?_map]
  congr 2
  funext e
  exact hP e

omit hs in
theorem filter_relabel (P : Elem → Bool) (hP : ∀ e, P (e.relabel f t) = P e) (l : List Elem) :
    (l.map (Elem.relabel f t)).filter P = (l.filter P).map (Elem.relabel f t) := by
  rw [List.filter_map]
  congr 2
  funext e
  exact hP e

theorem nodeChild_relabel {e : Elem} (h : Located t e) (k : SyntaxKind) :
    nodeChild (e.relabel f t) k = (nodeChild e k).map (Elem.relabel f t) := by
  rw [nodeChild, children_relabel hs h, find?_relabel _ (relabel_isNode t k)]; rfl

theorem tokenChild_relabel {e : Elem} (h : Located t e) (k : SyntaxKind) :
    tokenChild (e.relabel f t) k = (tokenChild e k).map (Elem.relabel f t) := by
  rw [tokenChild, children_relabel hs h, find?_relabel _ (relabel_isToken t k)]; rfl

omit hs in
theorem Located.up {top : Elem} (h : Located t top) {l : List Elem} (hl : Up top l) : ∀ e ∈ l, Located t e := by
  induction hl with
  | top => simpa using h
  | @child c p ps hp hc ih =>
    intro e he
    rcases List.mem_cons.1 he with rfl | he
    · exact (ih p (by simp)).children _ hc
    · exact ih e he

omit hs in
theorem located_root : Located t (Elem.root t) := ⟨[], [], by simp [Elem.root], rfl⟩

omit hs in
theorem located_chain {l : List Elem} (h : Chain t l) : ∀ e ∈ l, Located t e := located_root.up h

omit hs in
theorem Located.descendants {e : Elem} (h : Located t e) : ∀ d ∈ e.descendants, Located t d := by
  intro d hd
  obtain ⟨-, m, hm⟩ := (mem_descendants e d).1 hd
  exact h.up hm d (by simp)

theorem up_relabel {top : Elem} (h : Located t top) {l : List Elem} (hl : Up top l) :
    Up (top.relabel f t) (l.map (Elem.relabel f t)) := by
  induction hl with
  | top => exact .top
  | @child c p ps hp hc ih =>
    refine .child ih ?_
    have : Located t p := h.up hp p (by simp)
    rw [children_relabel hs this]
    exact List.mem_map_of_mem hc

theorem chain_relabel {l : List Elem} (h : Chain t l) : Chain (t.relabel f 0) (l.map (Elem.relabel f t)) := by
  have := up_relabel hs located_root h
  rwa [root_relabel hs] at this

set_option linter.unusedSectionVars false in
mutual
theorem descs_relabel (path : List Nat) (a b : List Piece) (g : Green) (h : t.leaves = a ++ g.leaves ++ b) :
    descs path (move f t (blen (texts a))) (g.relabel f (blen (texts a))) =
      (descs path (blen (texts a)) g).map (Elem.relabel f t) := by
  cases g with
  | tok k x => rfl
  | node k cs =>
    simp only [Green.relabel, descs, List.map_cons]
    rw [descss_relabel path 0 a b cs h]
    rfl
theorem descss_relabel (path : List Nat) (i : Nat) (a b : List Piece) (gs : List Green)
    (h : t.leaves = a ++ Green.leavesList gs ++ b) :
    descss path i (move f t (blen (texts a))) (Green.relabelList f (blen (texts a)) gs) =
      (descss path i (blen (texts a)) gs).map (Elem.relabel f t) := by
  cases gs with
  | nil => rfl
  | cons g gs =>
    have h1 : t.leaves = a ++ g.leaves ++ (Green.leavesList gs ++ b) := by rw [h, Green.leavesList]; simp
    have h2 := descss_relabel path (i + 1) (a ++ g.leaves) b gs (by rw [h1]; simp)
    rw [texts_append, blen_append] at h2
    simp only [Green.relabelList, descss, List.map_append]
    rw [descs_relabel (i :: path) a _ g h1, move_len hs h1,
      show blen (texts a) + g.len = blen (texts a) + blen (texts g.leaves) from rfl, ← h2]
    rfl
end

theorem descendants_relabel {e : Elem} (h : Located t e) : (e.relabel f t).descendants = e.descendants.map (Elem.relabel f t) := by
  obtain ⟨a, b, h1, h2⟩ := h
  have := descs_relabel hs e.path a b e.green h1
  unfold Elem.descendants Elem.relabel
  simp only [h2]
  exact this

set_option linter.unusedSectionVars false in
mutual
theorem tokens_relabel (anc : List Elem) (path : List Nat) (a b : List Piece) (g : Green) (h : t.leaves = a ++ g.leaves ++ b) :
    tokens (anc.map (Elem.relabel f t)) path (move f t (blen (texts a))) (g.relabel f (blen (texts a))) =
      (tokens anc path (blen (texts a)) g).map (List.map (Elem.relabel f t)) := by
  cases g with
  | tok k x => rfl
  | node k cs =>
    simp only [Green.relabel, tokens]
    rw [← tokenss_relabel (⟨path, blen (texts a), .node k cs⟩ :: anc) path 0 a b cs h]
    rfl
theorem tokenss_relabel (anc : List Elem) (path : List Nat) (i : Nat) (a b : List Piece) (gs : List Green)
    (h : t.leaves = a ++ Green.leavesList gs ++ b) :
    tokenss (anc.map (Elem.relabel f t)) path i (move f t (blen (texts a))) (Green.relabelList f (blen (texts a)) gs) =
      (tokenss anc path i (blen (texts a)) gs).map (List.map (Elem.relabel f t)) := by
  cases gs with
  | nil => rfl
  | cons g gs =>
    have h1 : t.leaves = a ++ g.leaves ++ (Green.leavesList gs ++ b) := by rw [h, Green.leavesList]; simp
    have h2 := tokenss_relabel anc path (i + 1) (a ++ g.leaves) b gs (by rw [h1]; simp)
    rw [texts_append, blen_append] at h2
    simp only [Green.relabelList, tokenss, List.map_append]
    rw [tokens_relabel anc (i :: path) a _ g h1, move_len hs h1,
      show blen (texts a) + g.len = blen (texts a) + blen (texts g.leaves) from rfl, ← h2]
    rfl
end

/-- The tokens of the tree with the new names. -/
theorem allTokens_relabel : allTokens (t.relabel f 0) = (allTokens t).map (List.map (Elem.relabel f t)) := by
  have := tokens_relabel hs [] [] [] [] t (by simp)
  simpa [allTokens, move_zero hs, blen] using this

end

end Verif.Syntax
