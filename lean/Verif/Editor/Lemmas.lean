import Verif.Editor.Model
import Verif.TextEdit.TreeDiff

/-! Changing a tree step by step comes to the same as making all changes at once. -/

namespace Verif.Editor
open Verif Verif.Syntax
open Verif.Parser (Green)
open Verif.Lexer (blen)
open Verif.TextEdit (Change.mk)
open Verif.TextEdit.TreeDiff (Edits)

abbrev TextChange := TextEdit.Change

/-- The text of elements one after the other. -/
def texts (gs : List Green) : List Char := (gs.map Green.text).flatten

/-- The element that a step is about. -/
def Act.at : Act → List Nat
  | .first q _ | .after q _ | .delete q | .replace q _ | .replaceMany q _ => q

/-- What a step puts in the place of the element. -/
def Act.rep (q : List Nat) : Act → Option (List Green)
  | .delete p => if p = q then some [] else none
  | .replace p g => if p = q then some [g] else none
  | .replaceMany p gs => if p = q then some gs else none
  | _ => none

/-- What a step puts after the element. -/
def Act.aft (q : List Nat) : Act → Option (List Green)
  | .after p gs => if p = q then some gs else none
  | _ => none

/-- What a step puts before the children of the node. -/
def Act.fst (q : List Nat) : Act → Option (List Green)
  | .first p gs => if p = q then some gs else none
  | _ => none

def repOf (D : List Act) (q : List Nat) : Option (List Green) := D.findSome? (Act.rep q)
def aftOf (D : List Act) (q : List Nat) : List (List Green) := (D.filterMap (Act.aft q)).reverse
def fstOf (D : List Act) (q : List Nat) : List (List Green) := (D.filterMap (Act.fst q)).reverse

mutual
/-- The tree after the steps. -/
def core (D : List Act) (p : List Nat) : Green → Mut
  | .node k cs => .node (some p) k (freshAll (fstOf D p).flatten ++ coreAll D p 0 cs)
  | .tok k t => .tok (some p) k t
def coreAll (D : List Act) (p : List Nat) (i : Nat) : List Green → List Mut
  | [] => []
  | g :: gs => (match repOf D (i :: p) with
      | some ts => freshAll ts
      | none => [core D (i :: p) g]) ++ freshAll (aftOf D (i :: p)).flatten ++ coreAll D p (i + 1) gs
end

/-- Insertions at an offset. -/
def ins (s : Nat) (ls : List (List Green)) : List TextChange := ls.map fun gs => ⟨s, s, encode (texts gs)⟩

mutual
/-- The changes to the text, from left to right. -/
def edits (D : List Act) (p : List Nat) (s : Nat) : Green → List TextChange
  | .node _ cs => ins s (fstOf D p) ++ editsAll D p 0 s cs
  | .tok _ _ => []
def editsAll (D : List Act) (p : List Nat) (i s : Nat) : List Green → List TextChange
  | [] => []
  | g :: gs => (match repOf D (i :: p) with
      | some ts => [⟨s, s + g.len, encode (texts ts)⟩]
      | none => edits D (i :: p) s g) ++ ins (s + g.len) (aftOf D (i :: p)) ++ editsAll D p (i + 1) (s + g.len) gs
end

/-! ### Lists -/

theorem freshAll_append (a b : List Green) : freshAll (a ++ b) = freshAll a ++ freshAll b := by
  induction a with
  | nil => rfl
  | cons g gs ih => simp [freshAll, ih]

theorem greens_append (a b : List Mut) : Mut.greens (a ++ b) = Mut.greens a ++ Mut.greens b := by
  induction a with
  | nil => rfl
  | cons g gs ih => simp [Mut.greens, ih]

theorem spliceIn_append (q : List Nat) (f : Mut → List Mut) (a b : List Mut) :
    Mut.spliceIn q f (a ++ b) = Mut.spliceIn q f a ++ Mut.spliceIn q f b := by
  induction a with
  | nil => rfl
  | cons g gs ih => simp [Mut.spliceIn, ih]

theorem prependIn_append (q : List Nat) (new a b : List Mut) :
    Mut.prependIn q new (a ++ b) = Mut.prependIn q new a ++ Mut.prependIn q new b := by
  induction a with
  | nil => rfl
  | cons g gs ih => simp [Mut.prependIn, ih]

theorem hasIn_append (q : List Nat) (a b : List Mut) : Mut.hasIn q (a ++ b) = (Mut.hasIn q a || Mut.hasIn q b) := by
  induction a with
  | nil => rfl
  | cons g gs ih => simp [Mut.hasIn, ih, Bool.or_assoc]

mutual
theorem fresh_green (g : Green) : (fresh g).green = g := by
  cases g with
  | node k cs => rw [fresh, Mut.green, freshAll_green]
  | tok k t => rfl
theorem freshAll_green (gs : List Green) : Mut.greens (freshAll gs) = gs := by
  cases gs with
  | nil => rfl
  | cons g gs => rw [freshAll, Mut.greens, fresh_green g, freshAll_green gs]
end

theorem fresh_id (g : Green) : (fresh g).id = none := by cases g <;> rfl

mutual
theorem fresh_splice (q : List Nat) (f : Mut → List Mut) (g : Green) : (fresh g).splice q f = fresh g := by
  cases g with
  | node k cs => rw [fresh, Mut.splice, freshAll_splice q f cs]
  | tok k t => rfl
theorem freshAll_splice (q : List Nat) (f : Mut → List Mut) (gs : List Green) :
    Mut.spliceIn q f (freshAll gs) = freshAll gs := by
  cases gs with
  | nil => rfl
  | cons g gs => simp [freshAll, Mut.spliceIn, fresh_id, fresh_splice q f g, freshAll_splice q f gs]
end

mutual
theorem fresh_prepend (q : List Nat) (new : List Mut) (g : Green) : (fresh g).prepend q new = fresh g := by
  cases g with
  | node k cs => rw [fresh, Mut.prepend, freshAll_prepend q new cs]; simp
  | tok k t => rfl
theorem freshAll_prepend (q : List Nat) (new : List Mut) (gs : List Green) :
    Mut.prependIn q new (freshAll gs) = freshAll gs := by
  cases gs with
  | nil => rfl
  | cons g gs => simp [freshAll, Mut.prependIn, fresh_prepend q new g, freshAll_prepend q new gs]
end

theorem core_id (D : List Act) (p : List Nat) (g : Green) : (core D p g).id = some p := by cases g <;> simp [core, Mut.id]

/-! ### One more step -/

theorem repOf_snoc (D : List Act) (a : Act) (q : List Nat) : repOf (D ++ [a]) q = (repOf D q).or (a.rep q) := by
  unfold repOf
  rw [List.findSome?_append]
  simp [List.findSome?]
  cases a.rep q <;> rfl

theorem aftOf_snoc (D : List Act) (a : Act) (q : List Nat) : aftOf (D ++ [a]) q = (a.aft q).toList ++ aftOf D q := by
  unfold aftOf
  rw [List.filterMap_append, List.reverse_append]
  simp [List.filterMap_cons]
  cases a.aft q <;> rfl

theorem fstOf_snoc (D : List Act) (a : Act) (q : List Nat) : fstOf (D ++ [a]) q = (a.fst q).toList ++ fstOf D q := by
  unfold fstOf
  rw [List.filterMap_append, List.reverse_append]
  simp [List.filterMap_cons]
  cases a.fst q <;> rfl

theorem Act.rep_at {a : Act} {q : List Nat} (h : a.at ≠ q) : a.rep q = none := by
  cases a <;> simp_all [Act.rep, Act.at]
theorem Act.aft_at {a : Act} {q : List Nat} (h : a.at ≠ q) : a.aft q = none := by
  cases a <;> simp_all [Act.aft, Act.at]
theorem Act.fst_at {a : Act} {q : List Nat} (h : a.at ≠ q) : a.fst q = none := by
  cases a <;> simp_all [Act.fst, Act.at]

mutual
theorem clone_core (p : List Nat) (g : Green) : clone p g = core [] p g := by
  cases g with
  | node k cs => rw [clone, core, clone_coreAll p 0 cs]; rfl
  | tok k t => rw [clone, core]
theorem clone_coreAll (p : List Nat) (i : Nat) (gs : List Green) : cloneAll p i gs = coreAll [] p i gs := by
  cases gs with
  | nil => rfl
  | cons g gs => rw [cloneAll, coreAll, clone_core (i :: p) g, clone_coreAll p (i + 1) gs]; rfl
end

theorem suffix_skip {i : Nat} {p q : List Nat} (h : ¬ i :: p <:+ q) (j : Nat) : ¬ j :: i :: p <:+ q :=
  fun h' => h ((List.suffix_cons j (i :: p)).trans h')

theorem suffix_ne {p q : List Nat} (h : ¬ p <:+ q) : q ≠ p := fun h' => h (h' ▸ List.suffix_refl _)

mutual
/-- A step about an element that is not below. -/
theorem core_same (D : List Act) (a : Act) (p : List Nat) (g : Green) (h : ∀ i, ¬ i :: p <:+ a.at) (hf : a.fst p = none) :
    core (D ++ [a]) p g = core D p g := by
  cases g with
  | tok k t => rw [core, core]
  | node k cs => rw [core, core, coreAll_same D a p 0 cs h, fstOf_snoc, hf]; rfl
theorem coreAll_same (D : List Act) (a : Act) (p : List Nat) (i : Nat) (gs : List Green) (h : ∀ i, ¬ i :: p <:+ a.at) :
    coreAll (D ++ [a]) p i gs = coreAll D p i gs := by
  cases gs with
  | nil => rfl
  | cons g gs =>
    have hn := suffix_ne (h i)
    rw [coreAll, coreAll, coreAll_same D a p (i + 1) gs h, core_same D a (i :: p) g (suffix_skip (h i)) (Act.fst_at hn), repOf_snoc,
      aftOf_snoc, Act.rep_at hn, Act.aft_at hn]
    simp
end

mutual
/-- Replacing an element. -/
theorem core_rep (D : List Act) (a : Act) (ts : List Green) (q : List Nat) (ha : a.at = q) (hr : a.rep q = some ts)
    (p : List Nat) (g : Green) : (core D p g).splice q (fun _ => freshAll ts) = core (D ++ [a]) p g := by
  have hf : ∀ r, a.fst r = none := by intro r; cases a <;> simp_all [Act.rep, Act.fst]
  cases g with
  | tok k t => rfl
  | node k cs =>
    rw [core, core, Mut.splice, spliceIn_append, freshAll_splice, coreAll_rep D a ts q ha hr p 0 cs, fstOf_snoc, hf]
    rfl
theorem coreAll_rep (D : List Act) (a : Act) (ts : List Green) (q : List Nat) (ha : a.at = q) (hr : a.rep q = some ts)
    (p : List Nat) (i : Nat) (gs : List Green) :
    Mut.spliceIn q (fun _ => freshAll ts) (coreAll D p i gs) = coreAll (D ++ [a]) p i gs := by
  have hf : ∀ r, a.aft r = none := by intro r; cases a <;> simp_all [Act.rep, Act.aft]
  cases gs with
  | nil => rfl
  | cons g gs =>
    rw [coreAll, coreAll, spliceIn_append, spliceIn_append, freshAll_splice, coreAll_rep D a ts q ha hr p (i + 1) gs, aftOf_snoc, hf,
      repOf_snoc]
    cases h : repOf D (i :: p) with
    | some us => simp [freshAll_splice]
    | none =>
      by_cases hq : i :: p = q
      · subst hq
        simp [hr, Mut.spliceIn, core_id]
      · rw [Act.rep_at (by rw [ha]; exact fun h => hq h.symm)]
        simp [Mut.spliceIn, core_id, hq, core_rep D a ts q ha hr (i :: p) g]
end

mutual
/-- Inserting after an element that is still there. -/
theorem core_aft (D : List Act) (ts : List Green) (q : List Nat) (hn : repOf D q = none)
    (p : List Nat) (g : Green) : (core D p g).splice q (fun m => m :: freshAll ts) = core (D ++ [.after q ts]) p g := by
  have hf : ∀ r, (Act.after q ts).fst r = none := fun r => rfl
  cases g with
  | tok k t => rfl
  | node k cs =>
    rw [core, core, Mut.splice, spliceIn_append, freshAll_splice, coreAll_aft D ts q hn p 0 cs, fstOf_snoc, hf]
    rfl
theorem coreAll_aft (D : List Act) (ts : List Green) (q : List Nat) (hn : repOf D q = none)
    (p : List Nat) (i : Nat) (gs : List Green) :
    Mut.spliceIn q (fun m => m :: freshAll ts) (coreAll D p i gs) = coreAll (D ++ [.after q ts]) p i gs := by
  have hf : ∀ r, (Act.after q ts).rep r = none := fun r => rfl
  cases gs with
  | nil => rfl
  | cons g gs =>
    rw [coreAll, coreAll, spliceIn_append, spliceIn_append, freshAll_splice, coreAll_aft D ts q hn p (i + 1) gs, aftOf_snoc, repOf_snoc, hf]
    by_cases hq : i :: p = q
    · subst hq
      rw [hn]
      have hs : ∀ m : Mut, m.id = some (i :: p) → Mut.spliceIn (i :: p) (fun m => m :: freshAll ts) [m] = m :: freshAll ts := by
        intro m hm
        simp [Mut.spliceIn, hm]
      dsimp only [Option.or]
      have hc : core (D ++ [Act.after (i :: p) ts]) (i :: p) g = core D (i :: p) g := 
        core_same D _ _ _ (fun j hj => by have := hj.length_le; simp [Act.at] at this; omega) rfl
      rw [hs _ (core_id _ _ _), hc]
      simp [Act.aft, freshAll_append]
    · rw [Act.aft_at (by exact fun h => hq h.symm)]
      cases h : repOf D (i :: p) with
      | some us => simp [freshAll_splice]
      | none => simp [Mut.spliceIn, core_id, hq, core_aft D ts q hn (i :: p) g]
end

mutual
/-- Inserting before the children of a node. -/
theorem core_fst (D : List Act) (ts : List Green) (q p : List Nat) (g : Green) :
    (core D p g).prepend q (freshAll ts) = core (D ++ [.first q ts]) p g := by
  cases g with
  | tok k t => rfl
  | node k cs =>
    rw [core, core, Mut.prepend, prependIn_append, freshAll_prepend, coreAll_fst D ts q p 0 cs, fstOf_snoc]
    by_cases hq : p = q
    · subst hq
      simp [Act.fst, freshAll_append]
    · have : ¬ q = p := fun h => hq h.symm
      simp [Act.fst, hq, this]
theorem coreAll_fst (D : List Act) (ts : List Green) (q p : List Nat) (i : Nat) (gs : List Green) :
    Mut.prependIn q (freshAll ts) (coreAll D p i gs) = coreAll (D ++ [.first q ts]) p i gs := by
  cases gs with
  | nil => rfl
  | cons g gs =>
    rw [coreAll, coreAll, prependIn_append, prependIn_append, freshAll_prepend, coreAll_fst D ts q p (i + 1) gs, aftOf_snoc, repOf_snoc]
    cases h : repOf D (i :: p) with
    | some us => simp [freshAll_prepend, Act.rep, Act.aft]
    | none => simp [Act.rep, Act.aft, Mut.prependIn, core_fst D ts q (i :: p) g]
end

/-! ### The text -/

theorem ins_edits (s : Nat) (ls : List (List Green)) : Edits s (ins s ls) [] (texts ls.flatten) := by
  induction ls with
  | nil => exact Edits.keep s []
  | cons gs ls ih =>
    have h := Edits.seq (x1 := []) (x2 := []) (Edits.change s [] (texts gs)) ih
    have e : texts (gs :: ls).flatten = texts gs ++ texts ls.flatten := by simp [texts]
    rw [e]
    exact h

theorem texts_append (a b : List Green) : texts (a ++ b) = texts a ++ texts b := by simp [texts]

mutual
theorem core_edits (D : List Act) (p : List Nat) (s : Nat) (g : Green) : Edits s (edits D p s g) g.text (core D p g).green.text := by
  cases g with
  | tok k t => rw [edits, core, Mut.green]; exact Edits.keep s _
  | node k cs =>
    rw [edits, core, Mut.green, greens_append, freshAll_green, Green.text_node, Green.text_node]
    have h := Edits.seq (ins_edits s (fstOf D p)) (coreAll_edits D p 0 (s + blen []) cs)
    have e : s + blen [] = s := rfl
    rw [e] at h
    have e2 := texts_append (fstOf D p).flatten (Mut.greens (coreAll D p 0 cs))
    unfold texts at e2 h
    rw [e2]
    exact h
theorem coreAll_edits (D : List Act) (p : List Nat) (i s : Nat) (gs : List Green) :
    Edits s (editsAll D p i s gs) (texts gs) (texts (Mut.greens (coreAll D p i gs))) := by
  cases gs with
  | nil => exact Edits.keep s _
  | cons g gs =>
    rw [editsAll, coreAll, greens_append, greens_append, texts_append, texts_append, freshAll_green]
    have h2 := ins_edits (s + g.len) (aftOf D (i :: p))
    have h3 := coreAll_edits D p (i + 1) (s + g.len) gs
    have e : texts (g :: gs) = (g.text ++ []) ++ texts gs := by simp [texts]
    have e2 : s + g.len = s + blen (g.text ++ []) := by simp [Green.len]
    rw [e]
    refine Edits.seq (Edits.seq ?_ h2) (e2 ▸ h3)
    cases h : repOf D (i :: p) with
    | some ts => rw [freshAll_green]; exact Edits.change s g.text (texts ts)
    | none =>
      have := core_edits D (i :: p) s g
      simpa [Mut.greens, texts] using this
end

mutual
theorem edits_same (D : List Act) (a : Act) (p : List Nat) (s : Nat) (g : Green) (h : ∀ i, ¬ i :: p <:+ a.at) (hf : a.fst p = none) :
    edits (D ++ [a]) p s g = edits D p s g := by
  cases g with
  | tok k t => rw [edits, edits]
  | node k cs => rw [edits, edits, editsAll_same D a p 0 s cs (fun j _ => h j), fstOf_snoc, hf]; rfl
theorem editsAll_same (D : List Act) (a : Act) (p : List Nat) (i s : Nat) (gs : List Green)
    (h : ∀ j, i ≤ j ∧ j < i + gs.length → ¬ j :: p <:+ a.at) :
    editsAll (D ++ [a]) p i s gs = editsAll D p i s gs := by
  cases gs with
  | nil => rfl
  | cons g gs =>
    have h0 := h i (by simp)
    have hn := suffix_ne h0
    rw [editsAll, editsAll, editsAll_same D a p (i + 1) (s + g.len) gs (fun j hj => h j (by simp only [List.length_cons]; omega)),
      edits_same D a (i :: p) s g (suffix_skip h0) (Act.fst_at hn), repOf_snoc, aftOf_snoc, Act.rep_at hn, Act.aft_at hn]
    simp
end

mutual
/-- No step is about an element below. -/
theorem edits_nil (D : List Act) (p : List Nat) (s : Nat) (g : Green) (h : ∀ a ∈ D, (∀ i, ¬ i :: p <:+ a.at) ∧ a.fst p = none) :
    edits D p s g = [] := by
  cases g with
  | tok k t => rw [edits]
  | node k cs =>
    have hf : fstOf D p = [] := by
      unfold fstOf
      rw [List.reverse_eq_nil_iff, List.filterMap_eq_nil_iff]
      exact fun a ha => (h a ha).2
    rw [edits, hf, editsAll_nil D p 0 s cs (fun a ha => (h a ha).1)]
    rfl
theorem editsAll_nil (D : List Act) (p : List Nat) (i s : Nat) (gs : List Green) (h : ∀ a ∈ D, ∀ i, ¬ i :: p <:+ a.at) :
    editsAll D p i s gs = [] := by
  cases gs with
  | nil => rfl
  | cons g gs =>
    have hr : repOf D (i :: p) = none := by
      unfold repOf
      rw [List.findSome?_eq_none_iff]
      exact fun a ha => Act.rep_at (suffix_ne (h a ha i))
    have hf : aftOf D (i :: p) = [] := by
      unfold aftOf
      rw [List.reverse_eq_nil_iff, List.filterMap_eq_nil_iff]
      exact fun a ha => Act.aft_at (suffix_ne (h a ha i))
    rw [editsAll, hr, hf, editsAll_nil D p (i + 1) (s + g.len) gs h]
    dsimp only
    rw [edits_nil D (i :: p) s g (fun a ha => ⟨suffix_skip (h a ha i), Act.fst_at (suffix_ne (h a ha i))⟩)]
    rfl
end

theorem editsAll_append (D : List Act) (p : List Nat) (i s : Nat) (a b : List Green) :
    editsAll D p i s (a ++ b) = editsAll D p i s a ++ editsAll D p (i + a.length) (s + (a.map Green.len).sum) b := by
  induction a generalizing i s with
  | nil => simp [editsAll]
  | cons g gs ih =>
    rw [List.cons_append, editsAll, editsAll, ih]
    simp only [List.map_cons, List.sum_cons, List.length_cons, List.append_assoc]
    rw [show i + 1 + gs.length = i + (gs.length + 1) by omega, show s + g.len + (gs.map Green.len).sum = s + (g.len + (gs.map Green.len).sum) by omega]

theorem coreAll_append (D : List Act) (p : List Nat) (i : Nat) (a b : List Green) :
    coreAll D p i (a ++ b) = coreAll D p i a ++ coreAll D p (i + a.length) b := by
  induction a generalizing i with
  | nil => simp [coreAll]
  | cons g gs ih =>
    rw [List.cons_append, coreAll, coreAll, ih]
    simp only [List.length_cons, List.append_assoc]
    rw [show i + 1 + gs.length = i + (gs.length + 1) by omega]

/-! ### One more step changes one place of the text -/

theorem placed_split {path : List Nat} {i s : Nat} {gs : List Green} {c : Elem} (h : c ∈ placed path i s gs) :
    ∃ pre x post, gs = pre ++ x :: post ∧ c = ⟨(i + pre.length) :: path, s + (pre.map Green.len).sum, x⟩ := by
  induction gs generalizing i s with
  | nil => cases h
  | cons g gs ih =>
    rcases List.mem_cons.1 h with rfl | h
    · exact ⟨[], g, gs, rfl, by simp⟩
    · obtain ⟨pre, x, post, rfl, rfl⟩ := ih h
      refine ⟨g :: pre, x, post, rfl, ?_⟩
      simp only [List.map_cons, List.sum_cons, List.length_cons]
      rw [show i + 1 + pre.length = i + (pre.length + 1) by omega, show s + g.len + (pre.map Green.len).sum = s + (g.len + (pre.map Green.len).sum) by omega]

theorem child_split {e c : Elem} (h : c ∈ e.children) :
    ∃ pre x post, e.green.children = pre ++ x :: post ∧ c = ⟨pre.length :: e.path, e.start + (pre.map Green.len).sum, x⟩ := by
  obtain ⟨pre, x, post, h1, h2⟩ := placed_split h
  exact ⟨pre, x, post, h1, by rw [h2, Nat.zero_add]⟩

/-- The way to an element passes through its ancestors. -/
theorem up_suffix {top : Elem} {l : List Elem} (h : Up top l) : ∀ e ∈ l.head?, ∀ x ∈ l, x.path <:+ e.path := by
  induction h with
  | top => simp
  | @child c p ps _ hc ih =>
    intro e he x hx
    simp only [List.head?_cons, Option.mem_def, Option.some.injEq] at he
    subst he
    rcases List.mem_cons.1 hx with rfl | hx
    · exact List.suffix_refl _
    · obtain ⟨-, -, -, ⟨j, hj⟩, -⟩ := Elem.mem_children hc
      rw [hj]
      exact (ih p (by simp) x hx).trans (List.suffix_cons _ _)

/-- The change of the text that a step makes. -/
def Act.text (e : Elem) : Act → TextChange
  | .first _ gs => ⟨e.start, e.start, encode (texts gs)⟩
  | .after _ gs => ⟨e.stop, e.stop, encode (texts gs)⟩
  | .delete _ => ⟨e.start, e.stop, encode (texts [])⟩
  | .replace _ g => ⟨e.start, e.stop, encode (texts [g])⟩
  | .replaceMany _ gs => ⟨e.start, e.stop, encode (texts gs)⟩

/-- A step that fits the steps before it: the element is still there, an element that is replaced has not been changed inside,
and only nodes have first children. -/
structure Fits (D : List Act) (a : Act) (e : Elem) : Prop where
  at_ : a.at = e.path
  open_ : ∀ r, r <:+ e.path → repOf D r = none
  inside : (∃ ts, a.rep e.path = some ts) → ∀ b ∈ D, ¬ e.path <:+ b.at
  node : (∃ ts, a.fst e.path = some ts) → e.green.isTok = false

/-- The changes in the place of an element and after it. -/
def block (D : List Act) (c : Elem) : List TextChange :=
  (match repOf D c.path with
    | some ts => [⟨c.start, c.stop, encode (texts ts)⟩]
    | none => edits D c.path c.start c.green) ++ ins c.stop (aftOf D c.path)

theorem editsAll_cons (D : List Act) (p : List Nat) (i s : Nat) (g : Green) (gs : List Green) :
    editsAll D p i s (g :: gs) = block D ⟨i :: p, s, g⟩ ++ editsAll D p (i + 1) (s + g.len) gs := by
  rw [editsAll]
  rfl

theorem edits_perm_of_block {D : List Act} {a : Act} {e t c : Elem} {l : List Elem} (ht : t.green.isTok = false) (hc : c ∈ t.children)
    (hl : Up c l) (he : l.head? = some e) (hf : Fits D a e)
    (hb : (block (D ++ [a]) c).Perm (a.text e :: block D c)) :
    (edits (D ++ [a]) t.path t.start t.green).Perm (a.text e :: edits D t.path t.start t.green) := by
  obtain ⟨pre, x, post, h1, h2⟩ := child_split hc
  have hcm : c ∈ l := by
    rcases hl.top_cases with h | ⟨d, _, l', _, rfl⟩
    · simp [h]
    · simp
  have hsuf := up_suffix hl e (by simp [he]) c hcm
  cases hg : t.green with
  | tok k x => rw [hg] at ht; cases ht
  | node k cs =>
    rw [hg] at h1
    simp only [Green.children] at h1
    subst h1
    have hne : a.at ≠ t.path := by
      intro h
      rw [hf.at_] at h
      have := hsuf.length_le
      rw [h, h2] at this
      simp at this
      omega
    have hother : ∀ j, j ≠ pre.length → ¬ j :: t.path <:+ a.at := by
      intro j hj h
      rw [hf.at_] at h
      rw [h2] at hsuf
      have := TextEdit.TreeDiff.suffix_len_eq h hsuf (by simp)
      simp only [List.cons.injEq] at this
      exact hj this.1
    rw [edits, edits, fstOf_snoc, Act.fst_at hne, editsAll_append, editsAll_append, editsAll_cons, editsAll_cons]
    rw [editsAll_same D a t.path 0 t.start pre (fun j hj => hother j (by omega)),
      editsAll_same D a t.path (0 + pre.length + 1) _ post (fun j hj => hother j (by omega))]
    rw [h2] at hb
    simp only [Nat.zero_add, Option.toList_none, List.nil_append]
    have p1 := (hb.append_right (editsAll D t.path (pre.length + 1) (t.start + (pre.map Green.len).sum + x.len) post))
    have p2 := (p1.append_left (editsAll D t.path 0 t.start pre)).append_left (ins t.start (fstOf D t.path))
    refine p2.trans ?_
    rw [List.cons_append, ← List.append_assoc, ← List.append_assoc]
    exact List.perm_middle

theorem edits_perm_first {D : List Act} {a : Act} {e : Elem} {gs : List Green} (ha : a = .first e.path gs) (hn : e.green.isTok = false) :
    edits (D ++ [a]) e.path e.start e.green = a.text e :: edits D e.path e.start e.green := by
  subst ha
  cases hg : e.green with
  | tok k x => rw [hg] at hn; cases hn
  | node k cs =>
    rw [edits, edits, fstOf_snoc, editsAll_same]
    · simp [Act.fst, ins, Act.text]
    · intro j _ h
      have := h.length_le
      simp [Act.at] at this
      omega

theorem block_perm (n : Nat) {D : List Act} {a : Act} {e c : Elem} {l : List Elem} (hn : l.length = n)
    (hl : Up c l) (he : l.head? = some e) (hf : Fits D a e) :
    (block (D ++ [a]) c).Perm (a.text e :: block D c) := by
  induction n generalizing c l with
  | zero =>
    have : l = [] := List.length_eq_zero_iff.1 hn
    subst this
    cases hl
  | succ n ih =>
    rcases hl.top_cases with rfl | ⟨d, hd, l', hl', rfl⟩
    · simp only [List.head?_cons, Option.some.injEq] at he
      subst he
      have h0 := hf.open_ _ (List.suffix_refl _)
      unfold block
      rw [repOf_snoc, aftOf_snoc, h0]
      have hnot : ∀ j, ¬ j :: c.path <:+ a.at := by
        intro j h
        have := h.length_le
        rw [hf.at_] at this
        simp at this
        omega
      have hat := hf.at_
      cases a with
      | first q gs =>
        cases hat
        have := edits_perm_first (D := D) (gs := gs) (e := c) rfl (hf.node ⟨gs, by simp [Act.fst]⟩)
        dsimp only [Act.rep, Act.aft, Option.or, Option.toList]
        rw [this]
        simp
      | after q gs =>
        cases hat
        dsimp only [Act.rep, Option.or]
        rw [edits_same D _ _ _ _ hnot rfl]
        simp only [Act.aft, if_true, Option.toList_some, ins, List.map_cons, Act.text,
          List.singleton_append]
        exact List.perm_middle
      | delete q =>
        cases hat
        have hi := hf.inside ⟨[], by simp [Act.rep]⟩
        rw [edits_nil D _ _ _ (fun b hb => ⟨fun j h => hi b hb ((List.suffix_cons _ _).trans h), Act.fst_at (suffix_ne (hi b hb))⟩)]
        simp [Act.rep, Act.aft, Act.text]
      | replace q g =>
        cases hat
        have hi := hf.inside ⟨[g], by simp [Act.rep]⟩
        rw [edits_nil D _ _ _ (fun b hb => ⟨fun j h => hi b hb ((List.suffix_cons _ _).trans h), Act.fst_at (suffix_ne (hi b hb))⟩)]
        simp [Act.rep, Act.aft, Act.text]
      | replaceMany q gs =>
        cases hat
        have hi := hf.inside ⟨gs, by simp [Act.rep]⟩
        rw [edits_nil D _ _ _ (fun b hb => ⟨fun j h => hi b hb ((List.suffix_cons _ _).trans h), Act.fst_at (suffix_ne (hi b hb))⟩)]
        simp [Act.rep, Act.aft, Act.text]
    · have hne : l' ≠ [] := by rintro rfl; cases hl'
      have he' : l'.head? = some e := by
        cases l' with
        | nil => exact absurd rfl hne
        | cons x xs => simpa using he
      have hb := ih (by simpa using hn) hl' he'
      have hdm : d ∈ l' := by
        rcases hl'.top_cases with h | ⟨_, _, _, _, rfl⟩
        · simp [h]
        · simp
      have hsuf := up_suffix hl' e (by simp [he']) d hdm
      obtain ⟨-, -, -, ⟨j, hj⟩, hct⟩ := Elem.mem_children hd
      have hcs : c.path <:+ e.path := by
        rw [hj] at hsuf
        exact (List.suffix_cons _ _).trans hsuf
      have hne : a.at ≠ c.path := by
        intro h
        rw [hf.at_] at h
        have := hsuf.length_le
        rw [h, hj] at this
        simp at this
        omega
      unfold block
      rw [repOf_snoc, aftOf_snoc, Act.rep_at hne, Act.aft_at hne, hf.open_ _ hcs]
      have := edits_perm_of_block hct hd hl' he' hf hb
      exact this.append_right _

/-- One more step makes one more change of the text. -/
theorem edits_perm {D : List Act} {a : Act} {e t : Elem} {l : List Elem} (hl : Up t l) (he : l.head? = some e) (hf : Fits D a e)
    (ht : l = [t] → ∃ gs, a = .first t.path gs) :
    (edits (D ++ [a]) t.path t.start t.green).Perm (a.text e :: edits D t.path t.start t.green) := by
  rcases hl.top_cases with rfl | ⟨d, hd, l', hl', rfl⟩
  · simp only [List.head?_cons, Option.some.injEq] at he
    subst he
    obtain ⟨gs, rfl⟩ := ht rfl
    rw [edits_perm_first rfl (hf.node ⟨gs, by simp [Act.fst]⟩)]
  · have he' : l'.head? = some e := by
      cases l' with
      | nil => cases hl'
      | cons x xs => simpa using he
    exact edits_perm_of_block (Elem.mem_children hd).2.2.2.2 hd hl' he' hf (block_perm _ rfl hl' he' hf)

/-! ### The elements that are still there -/

theorem core_has {D : List Act} {e t : Elem} {l : List Elem} (hl : Up t l) (he : l.head? = some e)
    (ho : ∀ r, r <:+ e.path → repOf D r = none) (ht : l ≠ [t]) : (core D t.path t.green).has e.path = true := by
  generalize hn : l.length = n
  induction n generalizing t l with
  | zero =>
    have : l = [] := List.length_eq_zero_iff.1 hn
    subst this
    cases hl
  | succ n ih =>
    rcases hl.top_cases with h | ⟨d, hd, l', hl', rfl⟩
    · exact absurd h ht
    · have he' : l'.head? = some e := by
        cases l' with
        | nil => cases hl'
        | cons x xs => simpa using he
      have hdm : d ∈ l' := by
        rcases hl'.top_cases with h | ⟨_, _, _, _, rfl⟩
        · simp [h]
        · simp
      have hsuf := up_suffix hl' e (by simp [he']) d hdm
      obtain ⟨pre, x, post, h1, h2⟩ := child_split hd
      cases hg : t.green with
      | tok k y => rw [hg] at h1; simp [Green.children] at h1
      | node k cs =>
        rw [hg] at h1
        simp only [Green.children] at h1
        subst h1
        rw [core, Mut.has, hasIn_append, coreAll_append, hasIn_append, coreAll, hasIn_append, hasIn_append]
        have hr := ho _ hsuf
        rw [h2] at hr
        rw [Nat.zero_add, hr]
        have : Mut.hasIn e.path [core D (pre.length :: t.path) x] = true := by
          simp only [Mut.hasIn, core_id, Bool.or_false, Bool.or_eq_true, beq_iff_eq, Option.some.injEq]
          by_cases hs : l' = [d]
          · left
            rw [hs] at he'
            simp only [List.head?_cons, Option.some.injEq] at he'
            rw [← he', h2]
          · right
            have := ih hl' he' hs (by simpa using hn)
            rw [h2] at this
            exact this
        simp [this]

end Verif.Editor
