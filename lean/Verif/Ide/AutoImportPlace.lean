import Verif.Ide.AutoImport
import Verif.Ide.Extend
import Verif.Editor.Props

/-! C69: where "Add import" puts a new statement. -/

namespace Verif.Nameres.AutoImport
open Verif.Parser (Green Piece)
open Verif.Syntax Verif.Editor
open Verif.Lexer (blen blen_append)
open Verif.TextEdit.TreeDiff (Solid Below)

/-! ### Leaves -/

/-- The text of some leaves. -/
def leafText (ls : List Piece) : Text := (ls.map Piece.text).flatten

theorem leafText_append (a b : List Piece) : leafText (a ++ b) = leafText a ++ leafText b := by simp [leafText]

theorem leavesList_append (a b : List Green) : Green.leavesList (a ++ b) = Green.leavesList a ++ Green.leavesList b := by
  induction a with
  | nil => rfl
  | cons g gs ih => simp [Green.leavesList, ih]

theorem leavesList_text (gs : List Green) : leafText (Green.leavesList gs) = (gs.map Green.text).flatten := by
  induction gs with
  | nil => rfl
  | cons g gs ih => rw [Green.leavesList, leafText_append, ih]; rfl

theorem placed_leaves {path : List Nat} {i s : Nat} {gs : List Green} {e : Elem} (h : e ∈ placed path i s gs) :
    ∃ pre post, gs = pre ++ e.green :: post ∧ e.start = s + blen (leafText (Green.leavesList pre)) ∧ e.path = (i + pre.length) :: path := by
  induction gs generalizing i s with
  | nil => cases h
  | cons g gs ih =>
    rcases List.mem_cons.1 h with rfl | h
    · exact ⟨[], gs, rfl, rfl, by simp⟩
    · obtain ⟨pre, post, h1, h2, h3⟩ := ih h
      refine ⟨g :: pre, post, by simp [h1], ?_, ?_⟩
      · rw [h2, Green.leavesList, leafText_append, blen_append]
        unfold Green.len Green.text leafText
        omega
      · rw [h3]; simp; omega

/-- The first token of something that is not empty is its first leaf. -/
theorem firstToken_leaf {g : Green} (hs : Solid g) (hne : g.text ≠ []) :
    ∃ p ∈ g.leaves.head?, firstToken g = some (p.kind, p.text) := by
  match g, hs, hne with
  | .tok k t, _, _ => exact ⟨⟨k, t⟩, rfl, rfl⟩
  | .node k [], _, hne => exact absurd rfl hne
  | .node k (c :: cs), hs, _ =>
    have hc : c ∈ (Green.node k (c :: cs)).children := List.mem_cons_self
    obtain ⟨p, h1, h2⟩ := firstToken_leaf (hs.child hc) (hs c (.child hc))
    refine ⟨p, ?_, h2⟩
    rw [Green.leaves, Green.leavesList, List.head?_append_of_ne_nil _ (by intro h; rw [h] at h1; cases h1)]
    exact h1

theorem chain_below {g : Green} {e : Elem} {anc : List Elem} (h : Chain g (e :: anc)) (hs : Solid g) : Solid e.green := by
  generalize hl : e :: anc = l at h
  induction h generalizing e anc with
  | top => cases hl; exact hs
  | @child c p qs h1 h2 ih =>
    cases hl
    have hp := ih rfl
    obtain ⟨pre, post, h3, -, -⟩ := placed_leaves h2
    exact hp.child (by rw [h3]; simp)

/-- The leaves before an element and those after it; the first of those is its next token. -/
theorem chain_leaves {g : Green} {e : Elem} {anc : List Elem} (h : Chain g (e :: anc)) (hs : Solid g) :
    ∃ l r, g.leaves = l ++ e.green.leaves ++ r ∧ e.start = blen (leafText l) ∧ nextToken (e :: anc) = r.head?.map fun p => (p.kind, p.text) := by
  generalize hl : e :: anc = L at h
  induction h generalizing e anc with
  | top => cases hl; exact ⟨[], [], by simp [Elem.root], rfl, rfl⟩
  | @child c p qs h1 h2 ih =>
    cases hl
    obtain ⟨l, r, h3, h4, h5⟩ := ih rfl
    obtain ⟨pre, post, h6, h7, h8⟩ := placed_leaves h2
    have hp : p.green.leaves = Green.leavesList p.green.children := by
      have := (Elem.mem_children h2).2.2.2.2
      cases hg : p.green with
      | node k cs => rfl
      | tok k t => rw [hg] at this; cases this
    refine ⟨l ++ Green.leavesList pre, Green.leavesList post ++ r, ?_, ?_, ?_⟩
    · rw [h3, hp, h6, leavesList_append, Green.leavesList]
      simp
    · rw [h7, h4, leafText_append, blen_append]
    · have hcs : p.green.children[0 + pre.length + 1]? = post.head? := by
        rw [h6, Nat.zero_add, List.getElem?_append_right (by omega), Nat.add_sub_cancel_left, List.getElem?_cons_succ, List.head?_eq_getElem?]
      rw [nextToken, h8]
      dsimp only
      rw [hcs]
      cases post with
      | nil => exact h5
      | cons x post =>
        have hx : x ∈ p.green.children := by rw [h6]; simp
        have hsp := chain_below h1 hs
        obtain ⟨q, h9, h10⟩ := firstToken_leaf (hsp.child hx) (hsp x (.child hx))
        simp only [List.head?_cons]
        rw [h10, Green.leavesList, List.append_assoc, List.head?_append_of_ne_nil _ (by intro h; rw [h] at h9; cases h9), h9]
        rfl

/-! ### The level of a line -/

/-- Leaves with the offsets that they start at. -/
def offsets (o : Nat) : List Piece → List (Nat × Piece)
  | [] => []
  | p :: ps => (o, p) :: offsets (o + blen p.text) ps

theorem offsets_append (o : Nat) (a b : List Piece) : offsets o (a ++ b) = offsets o a ++ offsets (o + blen (leafText a)) b := by
  induction a generalizing o with
  | nil => rfl
  | cons p ps ih =>
    have : leafText (p :: ps) = p.text ++ leafText ps := rfl
    rw [List.cons_append, offsets, ih, offsets, this, blen_append, List.cons_append, Nat.add_assoc]

def pieceOf (t : Elem) : Nat × Piece := (t.start, ⟨t.kind, t.green.text⟩)

mutual
theorem tokens_offsets (anc : List Elem) (path : List Nat) (start : Nat) (g : Green) :
    ((tokens anc path start g).filterMap List.head?).map pieceOf = offsets start g.leaves := by
  cases g with
  | tok k t => simp [tokens, Green.leaves, offsets, pieceOf, Elem.kind, Green.kind, Green.text_tok]
  | node k cs => rw [tokens, Green.leaves]; exact tokenss_offsets _ path 0 start cs
theorem tokenss_offsets (anc : List Elem) (path : List Nat) (i start : Nat) (gs : List Green) :
    ((tokenss anc path i start gs).filterMap List.head?).map pieceOf = offsets start (Green.leavesList gs) := by
  cases gs with
  | nil => rfl
  | cons g gs =>
    rw [tokenss, List.filterMap_append, List.map_append, tokens_offsets, tokenss_offsets, Green.leavesList, offsets_append]
    rfl
end

/-- White space with a line break. -/
def lineBreak (p : Piece) : Bool := decide (p.kind = .WHITESPACE) && p.text.contains '\n'

theorem indentLevel_eq (g : Green) (e : Elem) : indentLevel g e =
    match ((offsets 0 g.leaves).filter fun x => decide (x.1 ≤ e.start)).reverse.find? fun x => lineBreak x.2 with
    | none => 0
    | some x => (x.2.text.reverse.takeWhile (· != '\n')).length / 4 := by
  rw [← tokens_offsets [] [] 0 g]
  unfold indentLevel allTokens
  generalize ((tokens [] [] 0 g).filterMap List.head?) = ts
  have h1 : ((ts.map pieceOf).filter fun x => decide (x.1 ≤ e.start)) = (ts.filter fun t => decide (t.start ≤ e.start)).map pieceOf := by
    rw [List.filter_map]; rfl
  rw [h1, ← List.map_reverse, List.find?_map]
  have h2 : ((fun x : Nat × Piece => lineBreak x.2) ∘ pieceOf) = fun t : Elem => decide (t.kind = .WHITESPACE) && t.green.text.contains '\n' := rfl
  rw [h2]
  cases (ts.filter fun t => decide (t.start ≤ e.start)).reverse.find? fun t => decide (t.kind = .WHITESPACE) && t.green.text.contains '\n' <;> rfl

theorem offsets_le {o : Nat} {ls : List Piece} : ∀ x ∈ offsets o ls, o ≤ x.1 ∧ x.1 + blen x.2.text ≤ o + blen (leafText ls) ∧ x.2 ∈ ls := by
  induction ls generalizing o with
  | nil => simp [offsets]
  | cons p ps ih =>
    have e : leafText (p :: ps) = p.text ++ leafText ps := rfl
    rw [e, blen_append]
    intro x hx
    rcases List.mem_cons.1 hx with rfl | hx
    · exact ⟨le_refl _, by dsimp only; omega, List.mem_cons_self⟩
    · have := ih x hx
      exact ⟨by omega, by omega, List.mem_cons_of_mem _ this.2.2⟩

/-- What stands before an element: the leaves from its start. -/
theorem before_filter {l r : List Piece} (hr : ∀ p ∈ r, p.text ≠ []) :
    ((offsets 0 (l ++ r)).filter fun x => decide (x.1 ≤ blen (leafText l))) = offsets 0 l ++ (offsets (blen (leafText l)) (r.take 1)) := by
  rw [offsets_append, Nat.zero_add, List.filter_append]
  congr 1
  · rw [List.filter_eq_self]
    intro x hx
    have := offsets_le x hx
    simp only [decide_eq_true_eq]
    omega
  · cases r with
    | nil => rfl
    | cons p ps =>
      rw [offsets, List.filter_cons_of_pos (by simp)]
      have hp : 0 < blen p.text := Lexer.blen_pos (hr p (by simp))
      have : (offsets (blen (leafText l) + blen p.text) ps).filter (fun x => decide (x.1 ≤ blen (leafText l))) = [] := by
        rw [List.filter_eq_nil_iff]
        intro x hx
        have := offsets_le x hx
        simp only [decide_eq_true_eq]
        omega
      rw [this]
      rfl

mutual
theorem leaf_below {g : Green} {p : Piece} (h : p ∈ g.leaves) : g = .tok p.kind p.text ∨ Below (.tok p.kind p.text) g := by
  cases g with
  | tok k t =>
    rw [Green.leaves, List.mem_singleton] at h
    subst h
    exact .inl rfl
  | node k cs =>
    rw [Green.leaves] at h
    obtain ⟨c, hc, hb⟩ := leaf_belows h
    refine .inr ?_
    rcases hb with rfl | hb
    · exact .child hc
    · exact .step hc hb
theorem leaf_belows {gs : List Green} {p : Piece} (h : p ∈ Green.leavesList gs) :
    ∃ c ∈ gs, c = .tok p.kind p.text ∨ Below (.tok p.kind p.text) c := by
  cases gs with
  | nil => cases h
  | cons g gs =>
    rw [Green.leavesList] at h
    rcases List.mem_append.1 h with h | h
    · exact ⟨g, List.mem_cons_self, leaf_below h⟩
    · obtain ⟨c, hc, hb⟩ := leaf_belows h
      exact ⟨c, List.mem_cons_of_mem _ hc, hb⟩
end

theorem solid_leaves {g : Green} (hs : Solid g) (ht : g.isTok = false) : ∀ p ∈ g.leaves, p.text ≠ [] := by
  intro p hp
  rcases leaf_below hp with rfl | h
  · cases ht
  · have := hs _ h
    rwa [Green.text_tok] at this

/-- With these leaves before it, an element starts on a line that begins with so many characters of white space. -/
inductive Indented : List Piece → Nat → Prop where
  | first {l} : (∀ p ∈ l, p.kind = .WHITESPACE → '\n' ∉ p.text) → Indented l 0
  | after {l w m u v} : w.kind = .WHITESPACE → w.text = u ++ '\n' :: v → '\n' ∉ v → (∀ p ∈ m, p.kind = .WHITESPACE → '\n' ∉ p.text) →
      Indented (l ++ w :: m) v.length

theorem lineBreak_false {p : Piece} (h : p.kind = .WHITESPACE → '\n' ∉ p.text) : lineBreak p = false := by
  unfold lineBreak
  by_cases hk : p.kind = .WHITESPACE
  · simp [hk, h hk]
  · simp [hk]

theorem takeWhile_break {u v : Text} (h : '\n' ∉ v) : ((u ++ '\n' :: v).reverse.takeWhile (· != '\n')) = v.reverse := by
  have : (u ++ '\n' :: v).reverse = v.reverse ++ ('\n' :: u.reverse) := by simp
  rw [this, List.takeWhile_append_of_pos]
  · simp
  · intro c hc
    simp only [bne_iff_ne]
    rintro rfl
    exact h (by simpa using hc)

/-- The indentation of a new statement: four spaces for each full four characters that the line of the module starts with, and four
more. -/
theorem C69_indent {g : Green} {owner : Elem} (hs : Solid g) (ht : g.isTok = false)
    {l r : List Piece} {n : Nat} (hl : g.leaves = l ++ r) (hb : owner.start = blen (leafText l)) (hi : Indented l n) (hn : n < 1024)
    (hr : ∀ p ∈ r.head?, p.kind ≠ .WHITESPACE) : indentText g owner = List.replicate (4 * (n / 4) + 4) ' ' := by
  have hne : ∀ p ∈ r, p.text ≠ [] := fun p hp => solid_leaves hs ht p (by rw [hl]; simp [hp])
  have key : indentLevel g owner = n / 4 := by
    rw [indentLevel_eq, hl, hb, before_filter hne, List.reverse_append]
    have hfirst : ((offsets (blen (leafText l)) (r.take 1)).reverse.find? fun x => lineBreak x.2) = none := by
      rw [List.find?_eq_none]
      intro x hx
      have h1 := (offsets_le x (List.mem_reverse.1 hx)).2.2
      cases r with
      | nil => cases h1
      | cons p ps =>
        rw [List.take_one, List.head?_cons, Option.toList_some, List.mem_singleton] at h1
        have h2 : lineBreak x.2 = false := by
          rw [h1]
          unfold lineBreak
          simp [hr p rfl]
        simp [h2]
    rw [List.find?_append, hfirst, Option.none_or]
    have hnone : ∀ (o : Nat) (m : List Piece), (∀ p ∈ m, p.kind = .WHITESPACE → '\n' ∉ p.text) →
        ((offsets o m).reverse.find? fun x => lineBreak x.2) = none := by
      intro o m hm
      rw [List.find?_eq_none]
      intro x hx
      simp [lineBreak_false (hm x.2 (offsets_le x (List.mem_reverse.1 hx)).2.2)]
    cases hi with
    | first h1 => rw [hnone 0 l h1]
    | @after l0 w m u v h1 h2 h3 h4 =>
      rw [offsets_append, offsets, List.reverse_append, List.reverse_cons, List.append_assoc, List.find?_append, hnone _ m h4, Option.none_or]
      have : lineBreak w = true := by unfold lineBreak; simp [h1, h2]
      simp only [List.singleton_append, List.find?_cons, this]
      rw [h2, takeWhile_break h3, List.length_reverse]
  unfold indentText
  rw [key, Nat.mod_eq_of_lt (by omega)]
  rfl

end Verif.Nameres.AutoImport
