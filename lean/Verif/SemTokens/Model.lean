import Verif.Base.Lsp

/-! Model of `crates/aptos-language-server/src/lsp/semantic_tokens.rs` (329-411). -/

namespace Verif.SemTokens
open Verif

/-- `lsp_types::SemanticToken`, on the wire five consecutive integers. -/
structure Token where
  deltaLine : Nat
  deltaStart : Nat
  length : Nat
  tokenType : Nat
  modifiers : Nat
deriving DecidableEq, Repr

/-- `SemanticTokensBuilder` (329-334) without the result id. -/
structure Builder where
  prevLine : Nat := 0
  prevChar : Nat := 0
  data : List Token := []
deriving DecidableEq, Repr

/-- `u32` subtraction; `none` is overflow (panic in debug builds, wrap-around in release builds). -/
def checkedSub (a b : Nat) : Option Nat := if b ≤ a then some (a - b) else none

/-- `SemanticTokensBuilder::push` (347-373). -/
def Builder.push (b : Builder) (r : Range) (tokenIndex : Nat) : Option Builder :=
  let delta : Option (Nat × Nat) :=
    if b.data.isEmpty then some (r.start.line, r.start.character)
    else
      (checkedSub r.start.line b.prevLine).bind fun pushLine =>
        if pushLine = 0 then (checkedSub r.start.character b.prevChar).map fun c => (pushLine, c)
        else some (pushLine, r.start.character)
  delta.bind fun d =>
    (checkedSub r.stop.character r.start.character).map fun len =>
      { prevLine := r.start.line, prevChar := r.start.character
        data := b.data ++ [⟨d.1, d.2, len, tokenIndex, 0⟩] }

/-- The loop of `to_proto::semantic_tokens` over already split ranges (to_proto.rs 304-323). -/
def pushAll (b : Builder) : List (Range × Nat) → Option Builder
  | [] => some b
  | (r, t) :: rs => (b.push r t).bind fun b => pushAll b rs

/-- Length of the common prefix: `zip().take_while(==).count()` (384). -/
def commonPrefix {α : Type} [DecidableEq α] : List α → List α → Nat
  | a :: as, b :: bs => if a = b then commonPrefix as bs + 1 else 0
  | _, _ => 0

/-- `lsp_types::SemanticTokensEdit`; `start` and `deleteCount` count integers of the wire format. -/
structure Edit where
  start : Nat
  deleteCount : Nat
  data : List Token
deriving DecidableEq, Repr

/-- `diff_tokens` (383-411). The casts to `u32` are not modelled (arrays shorter than 2^32 / 5). -/
def diffTokens (old new : List Token) : List Edit :=
  let offset := commonPrefix new old
  let old1 := old.drop offset
  let new1 := new.drop offset
  let fromEnd := commonPrefix new1.reverse old1.reverse
  let old2 := old1.take (old1.length - fromEnd)
  let new2 := new1.take (new1.length - fromEnd)
  if old2.isEmpty && new2.isEmpty then []
  else [⟨5 * offset, 5 * old2.length, new2⟩]

end Verif.SemTokens
