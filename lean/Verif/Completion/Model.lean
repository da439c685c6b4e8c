/-! Model of completion relevance: `crates/ide-completion/src/item.rs` (130-205) and `set_score` in
`crates/aptos-language-server/src/lsp/to_proto.rs`. -/

namespace Verif.Completion

/-- `CompletionRelevanceTypeMatch` (item.rs). -/
inductive TypeMatch where
  | couldUnify
  | exact
deriving DecidableEq, Repr

/-- `CompletionRelevance` (item.rs). -/
structure Relevance where
  exactNameMatch : Bool
  typeMatch : Option TypeMatch
  isLocal : Bool
  isOutOfScope : Bool
deriving DecidableEq, Repr

/-- `BASE_SCORE` (item.rs 161). -/
def baseScore : UInt32 := (4294967295 : UInt32) / 2

/-- `CompletionRelevance::score` (item.rs 163-194). The `u32` additions wrap in this model; they stay
below 2^32, see `score_toNat`. -/
def Relevance.score (r : Relevance) : UInt32 :=
  let s := baseScore
  let s := if r.isLocal then s + 1 else s
  let s := if !r.isOutOfScope then s + 100 else s
  let s := if r.exactNameMatch then s + 20 else s
  s + (match r.typeMatch with
    | some .exact => 18
    | some .couldUnify => 5
    | none => 0)

/-- `CompletionRelevance::is_relevant` (item.rs 199-201). -/
def Relevance.isRelevant (r : Relevance) : Bool := baseScore < r.score

/-- Lower-case hexadecimal digit. -/
def hexDigit (n : Nat) : Char := Char.ofNat (if n < 10 then 48 + n else 87 + n)

/-- `format!("{x:08x}")` of a `u32` (to_proto.rs 509): eight digits, most significant first. -/
def hex8 (x : UInt32) : List Char :=
  let n := x.toNat
  [hexDigit (n / 16 ^ 7 % 16), hexDigit (n / 16 ^ 6 % 16), hexDigit (n / 16 ^ 5 % 16),
    hexDigit (n / 16 ^ 4 % 16), hexDigit (n / 16 ^ 3 % 16), hexDigit (n / 16 ^ 2 % 16),
    hexDigit (n / 16 % 16), hexDigit (n % 16)]

/-- The two fields of `lsp_types::CompletionItem` set by `set_score`. -/
structure Scored where
  preselect : Bool
  sortText : List Char
deriving DecidableEq, Repr

/-- Sort text of a score (to_proto.rs 504-509). -/
def sortTextOf (score : UInt32) : List Char := hex8 (score ^^^ 0xFFFFFFFF)

/-- `set_score` (to_proto.rs 498-510). -/
def setScore (maxRelevance : UInt32) (r : Relevance) : Scored :=
  { preselect := r.isRelevant && r.score == maxRelevance
    sortText := sortTextOf r.score }

/-- `completion_items` restricted to scores (to_proto.rs 388-404). -/
def completionScores (items : List Relevance) : List Scored :=
  let maxRelevance := items.foldl (fun m r => if m < r.score then r.score else m) 0
  items.map (setScore maxRelevance)

end Verif.Completion
