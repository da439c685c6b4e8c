import Verif.Parser.Content
import Verif.Parser.Shape

/-! From the calls on the sink to the tree: what the calls have at the outermost level a node of the tree has among its
children, and there are no white space and comments at the ends of a node that does not take them. -/

namespace Verif.Parser
open Verif.Syntax (SyntaxKind)

/-- The children without white space and comments. -/
def tops : List Green → List Top
  | [] => []
  | .node k _ :: gs => .node k :: tops gs
  | .tok k _ :: gs => if k.isTrivia then tops gs else .tok k :: tops gs

mutual
/-- Every node of the tree has what is required of its kind. -/
def Green.Full (I : Input) : Green → Prop
  | .node k cs => Req I k (tops cs) ∧ Green.FullList I cs
  | .tok _ _ => True
def Green.FullList (I : Input) : List Green → Prop
  | [] => True
  | g :: gs => g.Full I ∧ Green.FullList I gs
end

/-! ### One reading of a walk -/

/-- The part of a walk up to the end of the node it is in, at the given depth, and the rest. -/
def upTo : Nat → List Mark → Option (List Mark × List Mark)
  | _, [] => none
  | d, .enter k :: ms => (upTo (d + 1) ms).map fun r => (.enter k :: r.1, r.2)
  | 0, .leave :: ms => some ([], ms)
  | d + 1, .leave :: ms => (upTo d ms).map fun r => (.leave :: r.1, r.2)
  | d, .leaf k :: ms => (upTo d ms).map fun r => (.leaf k :: r.1, r.2)

/-- A walk that stays within the node. -/
def Inner (a : List Mark) : Prop := ∀ d rest, upTo d (a ++ rest) = (upTo d rest).map fun r => (a ++ r.1, r.2)

theorem Inner.nil : Inner [] := fun d rest => by
  cases h : upTo d rest <;> simp [h]

theorem Inner.append {a b : List Mark} (ha : Inner a) (hb : Inner b) : Inner (a ++ b) := fun d rest => by
  rw [List.append_assoc, ha, hb, Option.map_map]
  congr 1
  funext r
  simp

theorem Inner.leaf (k : SyntaxKind) : Inner [.leaf k] := fun d rest => by
  cases d <;> rfl

theorem Inner.node {a : List Mark} (k : SyntaxKind) (ha : Inner a) : Inner (.enter k :: a ++ [.leave]) := fun d rest => by
  have h : .enter k :: a ++ [.leave] ++ rest = .enter k :: (a ++ .leave :: rest) := by simp
  rw [h]
  simp only [upTo, ha (d + 1), Option.map_map]
  congr 1
  funext r
  simp

mutual
theorem Green.inner : ∀ g : Green, Inner g.marks
  | .node k cs => Inner.node k (Green.innerList cs)
  | .tok k _ => by
    unfold Green.marks
    split
    · exact Inner.nil
    · exact Inner.leaf k
theorem Green.innerList : ∀ gs : List Green, Inner (Green.marksList gs)
  | [] => Inner.nil
  | g :: gs => g.inner.append (Green.innerList gs)
end

variable {I : Input}

theorem Sh.inner {ts : List Top} {xs : List Step} (h : Sh I ts xs) : Inner (marks xs) := by
  induction h with
  | nil => exact Inner.nil
  | token _ ih => exact (Inner.leaf _).append ih
  | error _ ih => exact ih
  | @node k _ _ inner steps _ _ _ ih1 ih2 =>
    have := (ih1.node k).append ih2
    simpa [marks, marks_append] using this

/-- Where a node ends is known from the walk. -/
theorem Inner.unique {a a' b b' : List Mark} (ha : Inner a) (ha' : Inner a') (h : a ++ .leave :: b = a' ++ .leave :: b') :
    a = a' ∧ b = b' := by
  have h1 := ha 0 (.leave :: b)
  have h2 := ha' 0 (.leave :: b')
  rw [h, h2] at h1
  simpa [upTo, eq_comm] using h1

/-- Only white space and comments have no marks. -/
theorem marksList_nil : ∀ {gs : List Green}, Green.marksList gs = [] → tops gs = [] ∧ Green.FullList I gs
  | [], _ => ⟨rfl, trivial⟩
  | .node k cs :: gs, h => by simp [Green.marksList, Green.marks] at h
  | .tok k t :: gs, h => by
    simp only [Green.marksList, List.append_eq_nil_iff, Green.marks] at h
    have hk : k.isTrivia = true := by
      by_contra hk
      simp [hk] at h
    obtain ⟨h1, h2⟩ := marksList_nil h.2
    exact ⟨by simp [tops, hk, h1], trivial, h2⟩

/-- The first mark comes from the first child that is neither white space nor a comment. -/
theorem marksList_cons : ∀ {gs : List Green} {m : Mark} {ms : List Mark}, Green.marksList gs = m :: ms →
    ∃ g gs', Green.marks g ++ Green.marksList gs' = m :: ms ∧ Green.marks g ≠ [] ∧ tops gs = tops (g :: gs') ∧
      (Green.FullList I (g :: gs') → Green.FullList I gs)
  | [], m, ms, h => by cases h
  | .node k cs :: gs, m, ms, h => ⟨.node k cs, gs, h, by simp [Green.marks], rfl, id⟩
  | .tok k t :: gs, m, ms, h => by
    by_cases hk : k.isTrivia = true
    · simp only [Green.marksList, Green.marks, hk, if_true, List.nil_append] at h
      obtain ⟨g, gs', h1, h2, h3, h4⟩ := marksList_cons h
      exact ⟨g, gs', h1, h2, by rw [← h3]; simp [tops, hk], fun hf => ⟨trivial, h4 hf⟩⟩
    · exact ⟨.tok k t, gs, h, by simp [Green.marks, hk], rfl, id⟩

/-- Children that are walked through like the calls have what the calls have. -/
theorem Sh.full {ts : List Top} {xs : List Step} (h : Sh I ts xs) : ∀ {gs : List Green}, Green.marksList gs = marks xs →
    tops gs = ts ∧ Green.FullList I gs := by
  induction h with
  | nil => exact fun h => marksList_nil h
  | error _ ih => exact fun h => ih h
  | @token k n ts steps _ ih =>
    intro gs h
    obtain ⟨g, gs', h1, h2, h3, h4⟩ := marksList_cons (I := I) h
    cases g with
    | node k' cs => simp [Green.marks] at h1
    | tok k' t =>
      by_cases hk : k'.isTrivia = true
      · simp [Green.marks, hk] at h2
      · simp only [Green.marks, hk, if_false, Bool.false_eq_true, List.singleton_append, List.cons.injEq, Mark.leaf.injEq] at h1
        obtain ⟨rfl, h1⟩ := h1
        obtain ⟨h5, h6⟩ := ih h1
        exact ⟨by rw [h3]; simp [tops, hk, h5], h4 ⟨trivial, h6⟩⟩
  | @node k xs ts inner steps hr hx hs ih1 ih2 =>
    intro gs h
    simp only [marks, marks_append] at h
    obtain ⟨g, gs', h1, h2, h3, h4⟩ := marksList_cons (I := I) h
    cases g with
    | tok k' t =>
      by_cases hk : k'.isTrivia = true
      · simp [Green.marks, hk] at h2
      · simp [Green.marks, hk] at h1
    | node k' cs =>
      simp only [Green.marks, List.cons_append, List.cons.injEq, Mark.enter.injEq, List.append_assoc, List.nil_append] at h1
      obtain ⟨rfl, h1⟩ := h1
      obtain ⟨h5, h6⟩ := (Green.innerList cs).unique hx.inner h1
      obtain ⟨h7, h8⟩ := ih1 h5
      obtain ⟨h9, h10⟩ := ih2 h6
      exact ⟨by rw [h3]; simp [tops, h9], h4 ⟨⟨h7 ▸ hr, h8⟩, h10⟩⟩

end Verif.Parser
