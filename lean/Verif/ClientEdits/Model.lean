import Verif.Base.Lsp
import Verif.Base.StableSort
import Verif.TextEdit.Model
import Mathlib.Data.Prod.Lex

/-! Model of the edits attached to completions: `all_edits_are_disjoint`
(crates/aptos-language-server/src/lsp/utils.rs 247-276) and the splitting of an edit in `completion_item`
(crates/aptos-language-server/src/lsp/to_proto.rs 407-450). -/

namespace Verif.ClientEdits

/-- `CompletionItemTextEdit`, without texts. -/
inductive MainEdit where
  | textEdit (range : Range)
  | insertReplace (insert replace : Range)
deriving DecidableEq, Repr

/-- Sorting key `(range.start, range.end)` (utils.rs 270). -/
def rangeKey (r : Range) : Nat ×ₗ Nat ×ₗ Nat ×ₗ Nat :=
  toLex (r.start.line, toLex (r.start.character, toLex (r.stop.line, r.stop.character)))

/-- Comparison of neighbours (utils.rs 271-274). -/
def neighboursOk : List Range → Bool
  | [] => true
  | [_] => true
  | a :: b :: l => decide (a.stop.le b.start) && neighboursOk (b :: l)

/-- `all_edits_are_disjoint` (utils.rs 247-276): main edit, additional edits of the completion, further
additional edits. `insert.start > insert.end` is `¬ start ≤ end`. -/
def allEditsAreDisjoint (main : Option MainEdit) (completionEdits : Option (List Range))
    (additional : List Range) : Bool :=
  let rest := completionEdits.getD [] ++ additional
  match main with
  | some (.textEdit r) => neighboursOk (sortByKey rangeKey (r :: rest))
  | some (.insertReplace i r) =>
    if r.start ≠ i.start ∨ ¬ i.start.le i.stop ∨ ¬ i.stop.le r.stop then false
    else neighboursOk (sortByKey rangeKey (r :: rest))
  | none => neighboursOk (sortByKey rangeKey rest)

/-! Splitting -/

open Verif.TextEdit (Change)

/-- The loop over the changes of the completion's edit (to_proto.rs 424-450), in offsets; positions come
from `lsp_text_edit`. `main` and `adds` are `text_edit` and `additional_text_edits`; `[is, ie)` is
`ident_range`. `none` is a failed assertion. `TextRange::intersect` is `None` only if the ranges neither
overlap nor touch. -/
def splitLoop (is ie : Nat) (main : Option Change) (adds : List Change) :
    List Change → Option (Option Change × List Change)
  | [] => some (main, adds)
  | c :: cs =>
    if ¬ (c.start ≤ is ∧ ie ≤ c.stop) then
      if max is c.start ≤ min ie c.stop then none
      else splitLoop is ie main (adds ++ [c]) cs
    else if c.start = is ∧ c.stop = ie then splitLoop is ie (some c) adds cs
    else if ie ≠ c.stop then none
    else splitLoop is ie (some ⟨is, ie, c.newText⟩) (adds ++ [⟨c.start, is, []⟩]) cs

/-- `completion_item`, the edits only. -/
def split (is ie : Nat) (cs : List Change) : Option (Option Change × List Change) :=
  splitLoop is ie none [] cs

end Verif.ClientEdits
