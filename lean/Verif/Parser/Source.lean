import Verif.Parser.Sink

/-! Model of `crates/syntax/src/parse/text_token_source.rs`: the tokens the parser sees. The cursor itself is the
position in the parser state (`Api.lean`). -/

namespace Verif.Parser
open Verif.Syntax (SyntaxKind)
open Verif.Lexer (blen)

/-- A token of the source. `joint` is `is_jointed_to_next` (`token_at_pos`, text_token_source.rs 144-156), `text` is the
slice of `nth_text` (121-126), `gap` the bytes skipped before it (`Parser::prev_ws`, parser.rs 151-163). -/
structure PTok where
  kind : SyntaxKind
  joint : Bool
  text : List Char
  gap : Nat
deriving DecidableEq, Repr

/-- The tokens, and whether the build has debug assertions and overflow checks. -/
structure Input where
  toks : List PTok
  debug : Bool

/-- `raw_tokens_with_offsets` (37-52): the tokens that are not trivia with their offsets. -/
def withOffsets : Nat → List Piece → List (Piece × Nat)
  | _, [] => []
  | o, p :: ps =>
    if p.kind.isTrivia then withOffsets (o + blen p.text) ps else (p, o) :: withOffsets (o + blen p.text) ps

/-- `token_at_pos` (144-156) for every position. `prev` is the end of the token before, if there is one. -/
def sourceFrom : Option Nat → List (Piece × Nat) → List PTok
  | _, [] => []
  | prev, (p, o) :: rest =>
    { kind := p.kind
      joint := match rest with
        | [] => false
        | (_, o') :: _ => o + blen p.text == o'
      text := p.text
      gap := match prev with
        | none => 0
        | some e => o - e } :: sourceFrom (some (o + blen p.text)) rest

/-- `TextTokenSource::new` (36-60). -/
def source (ps : List Piece) : List PTok := sourceFrom none (withOffsets 0 ps)

/-- `lookahead_nth` (71-73). -/
def Input.kindAt (I : Input) (p : Nat) : SyntaxKind :=
  match I.toks[p]? with
  | some t => t.kind
  | none => .EOF

def Input.jointAt (I : Input) (p : Nat) : Bool :=
  match I.toks[p]? with
  | some t => t.joint
  | none => false

/-- `nth_text` (121-126). -/
def Input.textAt (I : Input) (p : Nat) : List Char :=
  match I.toks[p]? with
  | some t => t.text
  | none => []

/-- `is_keyword` (129-135). -/
def Input.isKeyword (I : Input) (p : Nat) (kw : String) : Bool :=
  match I.toks[p]? with
  | some t => t.text == kw.toList
  | none => false

/-- `prev_ws` (parser.rs 151-163). -/
def Input.prevWs (I : Input) (p : Nat) : Nat :=
  match I.toks[p]? with
  | some t => t.gap
  | none => 0

/-- The parts of a kind made of several tokens (`nth_at`, parser.rs 198-231). -/
def parts (k : SyntaxKind) : List SyntaxKind :=
  match k with
  | .AMP_AMP => [.AMP, .AMP]
  | .SHL => [.L_ANGLE, .L_ANGLE]
  | .LT_EQ => [.L_ANGLE, .EQ]
  | .GT_EQ => [.R_ANGLE, .EQ]
  | .SHR => [.R_ANGLE, .R_ANGLE]
  | .PIPE_PIPE => [.PIPE, .PIPE]
  | .SHL_EQ => [.L_ANGLE, .L_ANGLE, .EQ]
  | .SHR_EQ => [.R_ANGLE, .R_ANGLE, .EQ]
  | .LESS_IMPLIES => [.L_ANGLE, .IMPLIES]
  | k => [k]

/-- `at_composite2`, `at_composite3` (parser.rs 276-296), and the comparison for a single kind. -/
def Input.atParts (I : Input) (p : Nat) : List SyntaxKind → Bool
  | [] => true
  | [k] => I.kindAt p == k
  | k :: ks => I.kindAt p == k && I.jointAt p && I.atParts (p + 1) ks

/-- `nth_at` (parser.rs 198-231) at a position. -/
def Input.atKind (I : Input) (p : Nat) (k : SyntaxKind) : Bool := I.atParts p (parts k)

end Verif.Parser
