import Verif.TextEdit.Model

/-! Specification for text edits, independent of the model's algorithms. -/

namespace Verif.TextEdit.Spec
open Verif Verif.TextEdit

/-- Simultaneous replacement in one left-to-right pass: `t` is the part of the document from offset
`pos` on; `cs` lists the replacements from left to right. -/
def splice (pos : Nat) : List Change → Text → Text
  | [], t => t
  | c :: cs, t =>
    t.take (c.start - pos) ++ c.newText ++ splice c.stop cs (t.drop (c.stop - pos))

/-- Two replacements do not overlap. -/
def Disjoint (a b : Change) : Prop := a.stop ≤ b.start ∨ b.stop ≤ a.start

/-- A replacement that makes sense for the document `t`. -/
structure ValidIn (t : Text) (c : Change) : Prop where
  le : c.start ≤ c.stop
  inside : c.stop ≤ t.length
  boundStart : isCharBoundary t c.start = true
  boundStop : isCharBoundary t c.stop = true
  str : IsStr c.newText

/-- A well-formed edit: replacements from left to right without overlap ("Invariant: disjoint and
sorted by `range`", text_edit.rs 23). -/
structure WellFormed (cs : List Change) : Prop where
  valid : ∀ c ∈ cs, c.start ≤ c.stop
  ordered : cs.Pairwise (fun a b => a.stop ≤ b.start)

end Verif.TextEdit.Spec
