import Verif.Base.Bytes
import Verif.Base.StableSort
import Mathlib.Data.Prod.Lex

/-! Model of `crates/ide-db/src/text_edit.rs`. -/

namespace Verif.TextEdit
open Verif

/-- `TextChange` (text_edit.rs 14-19). `range` is given by its two offsets; `TextRange::new` asserts
`start ≤ end`, which theorems take as a hypothesis on the changes. -/
structure Change where
  start : Nat
  stop : Nat
  newText : Text
deriving DecidableEq, Repr

/-- `range.is_empty()`. -/
def Change.isInsert (c : Change) : Bool := c.start == c.stop

/-- `TextChange::apply` (text_edit.rs 53-57). -/
def Change.apply (c : Change) (t : Text) : Option Text := replaceRange t c.start c.stop c.newText

/-- Sorting key `(range.start(), range.end())` (text_edit.rs 212), ordered lexicographically. -/
def Change.key (c : Change) : Nat ×ₗ Nat := toLex (c.start, c.stop)

/-- The length bookkeeping of `TextEdit::apply` (text_edit.rs 106-113). `none` is the `u32` underflow
of `total_len -= range.len()` (a panic in builds with overflow checks). The reservation of
`max_total_len` has no observable effect and is dropped. -/
def totalLen : List Change → Nat → Option Nat
  | [], n => some n
  | c :: cs, n =>
    if c.stop - c.start ≤ n + c.newText.length
    then totalLen cs (n + c.newText.length - (c.stop - c.start)) else none

/-- The loop `for text_change in self.changes.iter().rev()` (text_edit.rs 118-120). -/
def applyRev (cs : List Change) (t : Text) : Option Text :=
  cs.foldr (fun c acc => acc.bind c.apply) (some t)

/-- `TextEdit::apply` (text_edit.rs 95-123); an edit is its list of changes. -/
def apply (cs : List Change) (t : Text) : Option Text :=
  match cs with
  | [] => some t
  | [c] => c.apply t
  | _ =>
    (totalLen cs t.length).bind fun total =>
      (applyRev cs t).bind fun r => if r.length = total then some r else none

/-- `check_disjoint` (text_edit.rs 216-224): every adjacent pair is disjoint or equal. -/
def checkDisjoint : List Change → Bool
  | [] => true
  | [_] => true
  | l :: r :: rest => (decide (l.stop ≤ r.start) || decide (l = r)) && checkDisjoint (r :: rest)

/-- `sort_by_key` of `check_disjoint_and_sort` (text_edit.rs 211-214). -/
def sortChanges (cs : List Change) : List Change := sortByKey Change.key cs

/-- `assert_disjoint_or_equal` (text_edit.rs 207-209): sorts in place, panics (`none`) on overlap. -/
def assertDisjoint (cs : List Change) : Option (List Change) :=
  let s := sortChanges cs
  if checkDisjoint s then some s else none

/-- `TextEditBuilder::add_change` (text_edit.rs 199-204). -/
def addChange (b : List Change) (c : Change) : Option (List Change) :=
  let b' := b ++ [c]
  if b'.length ≤ 16 then assertDisjoint b' else some b'

/-- The closure of `coalesce_text_changes` and `itertools::coalesce` (text_edit.rs 226-239): `last` is
the pending element. -/
def coalesceGo (last : Change) : List Change → List Change
  | [] => [last]
  | b :: bs =>
    if last.stop = b.start
    then coalesceGo ⟨last.start, b.stop, last.newText ++ b.newText⟩ bs
    else last :: coalesceGo b bs

/-- `coalesce_text_changes` (text_edit.rs 226-239). -/
def coalesce : List Change → List Change
  | [] => []
  | a :: bs => coalesceGo a bs

/-- `TextEditBuilder::finish` (text_edit.rs 188-193). -/
def finish (b : List Change) : Option (List Change) := (assertDisjoint b).map coalesce

/-- Adding changes one after another to a builder in state `b`
(`insert`/`delete`/`replace`, text_edit.rs 179-187). -/
def addAll (b : List Change) : List Change → Option (List Change)
  | [] => some b
  | c :: cs => (addChange b c).bind fun b' => addAll b' cs

/-- A builder that receives `cs` in this order and is finished. -/
def build (cs : List Change) : Option (List Change) := (addAll [] cs).bind finish

/-- `itertools::merge_by` with `|l, r| l.range.start() <= r.range.start()` (text_edit.rs 126-128). -/
def mergeChanges : List Change → List Change → List Change
  | [], r => r
  | l, [] => l
  | a :: l, b :: r =>
    if a.start ≤ b.start then a :: mergeChanges l (b :: r) else b :: mergeChanges (a :: l) r
termination_by l r => l.length + r.length

/-- `itertools::dedup_by(|a, b| a == b && !a.range.is_empty())` (text_edit.rs 134-137); the kept
element of a run is the first one. -/
def dedupGo (last : Change) : List Change → List Change
  | [] => [last]
  | b :: bs => if last = b ∧ last.isInsert = false then dedupGo last bs else last :: dedupGo b bs

def dedup : List Change → List Change
  | [] => []
  | a :: bs => dedupGo a bs

/-- `TextEdit::union` (text_edit.rs 125-139). `Except.error` is `Err(other)`; in that case `self` is
not assigned. -/
def union (self other : List Change) : Except (List Change) (List Change) :=
  let m := mergeChanges self other
  if checkDisjoint m then .ok (dedup m) else .error other

/-- The value of `self` after `TextEdit::union`. -/
def unionSelf (self other : List Change) : List Change :=
  match union self other with
  | .ok m => m
  | .error _ => self

/-- Outcome of `apply_to_offset`: `panic` is a `u32` underflow. -/
inductive OffsetResult where
  | panic
  | none
  | some (n : Nat)
deriving DecidableEq, Repr

/-- The loop of `TextEdit::apply_to_offset` (text_edit.rs 141-154); `res` is the accumulator. -/
def applyToOffsetGo (offset : Nat) (res : Nat) : List Change → OffsetResult
  | [] => .some res
  | c :: cs =>
    if offset ≤ c.start then .some res
    else if offset < c.stop then .none
    else if c.stop - c.start ≤ res + c.newText.length
      then applyToOffsetGo offset (res + c.newText.length - (c.stop - c.start)) cs
      else .panic

/-- `TextEdit::apply_to_offset` (text_edit.rs 141-154). -/
def applyToOffset (cs : List Change) (offset : Nat) : OffsetResult := applyToOffsetGo offset offset cs

/-- `TextEditBuilder::invalidates_offset` (text_edit.rs 194-198). -/
def invalidatesOffset (b : List Change) (offset : Nat) : Bool :=
  b.any fun c => decide (c.start ≤ offset) && decide (offset ≤ c.stop)

/-! `SourceChange` (crates/ide-db/src/source_change.rs). -/

/-- `SourceChange::source_file_edits` as a finite map from file ids. -/
abbrev FileEdits := Nat → Option (List Change)

/-- `SourceChange::insert_source_edit` (source_change.rs 51-61). `never!` only logs, so an overlapping
edit is dropped. -/
def insertSourceEdit (m : FileEdits) (file : Nat) (edit : List Change) : FileEdits := fun f =>
  if f = file then
    match m file with
    | some e => some (unionSelf e edit)
    | none => some edit
  else m f

end Verif.TextEdit
