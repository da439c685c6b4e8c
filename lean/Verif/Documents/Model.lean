import Verif.Documents.LineIndex

/-! Model of incremental document synchronisation: `apply_document_changes`
(crates/aptos-language-server/src/lsp/utils.rs 186-243). -/

namespace Verif.Documents
open Verif

/-- `TextDocumentContentChangeEvent`. -/
inductive Change where
  | whole (text : List Char)
  | edit (range : Range) (text : List Char)
deriving DecidableEq, Repr

/-- The `try_fold` over the reversed changes (utils.rs 194-205): partial changes are collected until a
whole-document change is met. -/
def scanReversed (acc : List (Range × List Char)) :
    List Change → Option (List Char) × List (Range × List Char)
  | [] => (none, acc)
  | .edit r t :: cs => scanReversed (acc ++ [(r, t)]) cs
  | .whole t :: _ => (some t, acc)

/-- State of the loop (utils.rs 219-241): text, cached index and the first line at which the index may be
stale (`none` stands for `!0u32`, beyond every line). -/
structure State where
  text : List Char
  index : LineIndex
  indexValid : Option Nat

/-- One iteration (utils.rs 233-241); `none` is a panic of `replace_range`. -/
def applyStep (enc : Encoding) (st : State) (ch : Range × List Char) : Option State :=
  let stale := match st.indexValid with
    | none => false
    | some v => decide (v ≤ ch.1.stop.line)
  let index := if stale then LineIndex.new st.text else st.index
  match textRange enc index ch.1 with
  | some (s, e) =>
    (replaceRange st.text s e ch.2).map fun t => ⟨t, index, some ch.1.start.line⟩
  | none => some ⟨st.text, index, some ch.1.start.line⟩

/-- The whole loop. -/
def applyLoop (enc : Encoding) (st : State) : List (Range × List Char) → Option State
  | [] => some st
  | ch :: chs => (applyStep enc st ch).bind fun st => applyLoop enc st chs

/-- `apply_document_changes` (utils.rs 186-243). `none` is a panic. -/
def applyDocumentChanges (enc : Encoding) (contents : List Char) (changes : List Change) :
    Option (List Char) :=
  let scan := scanReversed [] changes.reverse
  let text := scan.1.getD contents
  (applyLoop enc ⟨text, LineIndex.new text, none⟩ scan.2.reverse).map (·.text)

end Verif.Documents
