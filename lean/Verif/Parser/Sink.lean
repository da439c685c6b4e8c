import Verif.Parser.Event
import Verif.Lexer.Model
import Verif.Comments.Model

/-! Model of `crates/syntax/src/parse/text_tree_sink.rs` and of `SyntaxTreeBuilder`
(`crates/syntax/src/syntax_node.rs` 54-93), with the part of `rowan::GreenNodeBuilder` it uses.

The sink slices the text at the boundaries of the raw tokens, one token after the other. Here the text is
sliced beforehand: a `Piece` is a raw token with its text, and the sink holds the pieces it has not yet
used. -/

namespace Verif.Parser
open Verif.Syntax (SyntaxKind)
open Verif.Lexer (RawToken split blen)

/-- A raw token with its text. -/
structure Piece where
  kind : SyntaxKind
  text : List Char
deriving DecidableEq, Repr

/-- The raw tokens with their texts. `none` is a slice that is out of range or not at a character boundary. -/
def pieces : List Char → List RawToken → Option (List Piece)
  | _, [] => some []
  | text, t :: ts => do
    let (a, rest) ← split t.len text
    let ps ← pieces rest ts
    pure (⟨t.kind, a⟩ :: ps)

/-- `rowan::GreenNode` and `GreenToken`. -/
inductive Green where
  | node (kind : SyntaxKind) (children : List Green)
  | tok (kind : SyntaxKind) (text : List Char)
deriving Repr

/-- `GreenNodeBuilder`: the open nodes with the index of their first child, innermost first, and the
finished elements that have no parent yet. -/
structure Builder where
  parents : List (SyntaxKind × Nat)
  children : List Green

/-- `GreenNodeBuilder::token`. -/
def Builder.token (b : Builder) (k : SyntaxKind) (text : List Char) : Builder :=
  { b with children := b.children ++ [.tok k text] }

/-- `GreenNodeBuilder::start_node`. -/
def Builder.startNode (b : Builder) (k : SyntaxKind) : Builder :=
  { b with parents := (k, b.children.length) :: b.parents }

/-- `GreenNodeBuilder::finish_node`. `none` is the panic of `unwrap`. -/
def Builder.finishNode (b : Builder) : Option Builder :=
  match b.parents with
  | [] => none
  | (k, first) :: ps => some ⟨ps, b.children.take first ++ [.node k (b.children.drop first)]⟩

/-- `GreenNodeBuilder::finish`. `none` is the panic for anything but a single node. -/
def Builder.finish (b : Builder) : Option Green :=
  match b.children with
  | [.node k cs] => some (.node k cs)
  | _ => none

/-- `State` (text_tree_sink.rs 33-37). -/
inductive State where
  | PendingStart | Normal | PendingFinish
deriving DecidableEq, Repr

/-- `TextTreeSink` (24-31). `errors` are the offsets of the errors. -/
structure Sink where
  toks : List Piece
  textPos : Nat
  state : State
  builder : Builder
  errors : List Nat

/-- `TextTreeSink::new` (107-116). -/
def Sink.new (toks : List Piece) : Sink := ⟨toks, 0, .PendingStart, ⟨[], []⟩, []⟩

/-- `do_token` (147-153) for the next `n` raw tokens. -/
def Sink.doToken (s : Sink) (k : SyntaxKind) (n : Nat) : Sink :=
  let text := ((s.toks.take n).map Piece.text).flatten
  { s with toks := s.toks.drop n, textPos := s.textPos + blen text, builder := s.builder.token k text }

/-- `eat_trivias` (130-137). The number of remaining tokens bounds the loop. -/
def Sink.eatTrivias (s : Sink) : Sink := go s.toks.length s where
  go : Nat → Sink → Sink
  | 0, s => s
  | n + 1, s =>
    match s.toks with
    | [] => s
    | t :: _ => if t.kind.isTrivia then go n (s.doToken t.kind 1) else s

/-- `eat_n_trivias` (139-145). `none` is the index out of bounds or the failed assertion. -/
def Sink.eatNTrivias : Nat → Sink → Option Sink
  | 0, s => some s
  | n + 1, s =>
    match s.toks with
    | [] => none
    | t :: _ => if t.kind.isTrivia then Sink.eatNTrivias n (s.doToken t.kind 1) else none

/-- The state changes common to the calls (42-46, 58-67, 94-98), except for `PendingStart`. -/
def Sink.leave (s : Sink) (next : State) : Option Sink :=
  match s.state with
  | .PendingStart => none
  | .PendingFinish => s.builder.finishNode.map fun b => { s with state := next, builder := b }
  | .Normal => some { s with state := next }

/-- `token` (41-54). -/
def Sink.token (s : Sink) (k : SyntaxKind) (n : Nat) : Option Sink := do
  let s ← s.leave .Normal
  let s := s.eatTrivias
  if n ≤ s.toks.length then pure (s.doToken k n) else none

/-- Does the text contain two line feeds in a row? -/
def hasBlankLine : List Char → Bool
  | '\n' :: '\n' :: _ => true
  | _ :: cs => hasBlankLine cs
  | [] => false

/-- The loop of `n_attached_trivias` (166-188). `none` is the panic in `from_text`. -/
def attachedLoop : List Piece → Nat → Nat → Option Nat
  | [], _, res => some res
  | p :: rest, i, res =>
    if p.kind = .WHITESPACE ∧ hasBlankLine p.text then
      match rest.head? with
      | some q =>
        if q.kind = .COMMENT then do
          let c ← Comments.fromText q.text
          if c.doc = some .Outer then attachedLoop rest (i + 1) res else some res
        else some res
      | none => some res
    else if p.kind = .COMMENT then do
      let c ← Comments.fromText p.text
      if c.doc = some .Inner then some res else attachedLoop rest (i + 1) (i + 1)
    else attachedLoop rest (i + 1) res

/-- The kinds that take the comments before them (161-162). -/
def takesComments (k : SyntaxKind) : Bool :=
  [.CONST, .ENUM, .FUN, .SPEC_FUN, .SPEC_INLINE_FUN, .MODULE, .NAMED_FIELD, .TUPLE_FIELD, .STRUCT, .USE_STMT,
    .VARIANT].contains k

/-- `n_attached_trivias` (156-193). -/
def nAttachedTrivias (k : SyntaxKind) (trivias : List Piece) : Option Nat :=
  if takesComments k then attachedLoop trivias 0 0 else some 0

/-- `start_node` (57-89). -/
def Sink.startNode (s : Sink) (k : SyntaxKind) : Option Sink :=
  if s.state = .PendingStart then some { s with state := .Normal, builder := s.builder.startNode k }
  else do
    let s ← s.leave .Normal
    let leading := s.toks.takeWhile (·.kind.isTrivia)
    let n ← nAttachedTrivias k leading.reverse
    let s ← Sink.eatNTrivias (leading.length - n) s
    let s := { s with builder := s.builder.startNode k }
    Sink.eatNTrivias n s

/-- `finish_node` (93-99). -/
def Sink.finishNode (s : Sink) : Option Sink := s.leave .PendingFinish

/-- `error` (101-103). -/
def Sink.error (s : Sink) : Sink := { s with errors := s.errors ++ [s.textPos] }

/-- One call of `process` on the sink. -/
def Sink.step (s : Sink) : Step → Option Sink
  | .start k => s.startNode k
  | .finish => s.finishNode
  | .token k n => s.token k n
  | .error => some s.error

def Sink.run (s : Sink) : List Step → Option Sink
  | [] => some s
  | x :: xs => (s.step x).bind fun s => s.run xs

/-- `finish` (118-128): the tree and the offsets of the errors. -/
def Sink.finish (s : Sink) : Option (Green × List Nat) :=
  match s.state with
  | .PendingFinish => do
    let s := { s with state := .Normal }.eatTrivias
    let b ← s.builder.finishNode
    let g ← b.finish
    pure (g, s.errors)
  | _ => none

/-- `event::process` into a new sink and `finish` (parse.rs 49-52). -/
def buildTree (toks : List Piece) (events : List Event) : Option (Green × List Nat) := do
  let steps ← process events
  let s ← (Sink.new toks).run steps
  s.finish

mutual
/-- The leaves of an element, from left to right. -/
def Green.leaves : Green → List Piece
  | .node _ cs => Green.leavesList cs
  | .tok k t => [⟨k, t⟩]
def Green.leavesList : List Green → List Piece
  | [] => []
  | g :: gs => g.leaves ++ Green.leavesList gs
end

/-- The text of an element: the texts of its leaves. -/
def Green.text (g : Green) : List Char := (g.leaves.map Piece.text).flatten

end Verif.Parser
