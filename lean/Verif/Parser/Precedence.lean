import Verif.Parser.Words
import Verif.Parser.Event

/-! Expressions as a user writes them: what they are, when an operand needs parentheses, how they are written in tokens and
the syntax tree they stand for. Nothing here refers to the functions of the grammar. -/

namespace Verif.Parser
open Verif.Syntax (SyntaxKind)

/-- The operators before an operand. -/
inductive UnOp where
  | borrow | borrowMut | deref | not | neg | move | copy
deriving DecidableEq

mutual
/-- An expression. -/
inductive Ex where
  /-- names joined by `::`, `more` of them after the first; with `addr` the first is a number -/
  | path (addr : Bool) (more : Nat)
  | lit (k : SyntaxKind)
  | paren (e : Ex)
  | un (o : UnOp) (e : Ex)
  /-- `e.x`, or `e.0` -/
  | field (e : Ex) (num : Bool)
  | index (e i : Ex)
  | call (f : Ex) (a : Args)
  | method (e : Ex) (a : Args)
  | bin (k : SyntaxKind) (l r : Ex)
  /-- `e as m::T` -/
  | cast (e : Ex) (addr : Bool) (more : Nat)

/-- The arguments of a call. -/
inductive Args where
  | none
  | one (e : Ex)
  | more (e : Ex) (a : Args)
end

/-! ### Which operand an operator takes -/

/-- The levels of the operators of the language, from the loosest: assignment and implication, casts, ranges, `||`, `&&`,
comparison, `|`, `^`, `&`, shifts, `+ -`, `* / %`. -/
def levels : List (List SyntaxKind) :=
  [[.EQ, .IMPLIES, .LESS_IMPLIES, .PLUS_EQ, .MINUS_EQ, .STAR_EQ, .SLASH_EQ, .PERCENT_EQ, .AMP_EQ, .PIPE_EQ, .CARET_EQ,
      .SHL_EQ, .SHR_EQ],
    [.AS_KW, .IS_KW], [.DOT_DOT], [.PIPE_PIPE], [.AMP_AMP], [.EQ_EQ, .NOT_EQ, .L_ANGLE, .R_ANGLE, .LT_EQ, .GT_EQ],
    [.PIPE], [.CARET], [.AMP], [.SHL, .SHR], [.PLUS, .MINUS], [.STAR, .SLASH, .PERCENT]]

/-- The level of an operator, from 1; 0 if it is not one. -/
def level (k : SyntaxKind) : Nat := if levels.any (·.contains k) then levels.findIdx (·.contains k) + 1 else 0

/-- The operators between two operands. -/
def IsBin (k : SyntaxKind) : Prop := level k ≠ 0 ∧ k ≠ .AS_KW ∧ k ≠ .IS_KW

instance (k : SyntaxKind) : Decidable (IsBin k) := by unfold IsBin; infer_instance

/-- Names, literals, calls and the like: what a `.` or an argument list can follow. -/
def Ex.Primary : Ex → Prop
  | .path .. | .lit _ | .paren _ | .field .. | .index .. | .call .. | .method .. => True
  | .un .. | .bin .. | .cast .. => False

/-- Does the expression start with a minus? -/
def Ex.minus : Ex → Bool
  | .path .. | .lit _ | .paren _ => false
  | .un o _ => o == .neg
  | .field e _ | .index e _ | .call e _ | .method e _ | .bin _ e _ | .cast e .. => e.minus

/-- The lowest level of an operator that the last operand of the expression would take for itself, were it written after the
expression. -/
def Ex.last : Ex → Nat
  | .bin k _ _ => level k + 1
  | _ => 255

mutual
/-- No operand needs parentheses, and the operators that are not in parentheses are at least of level `m`: a left operand may
be of the same level as its operator, a right operand is of a higher one. A cast takes the operand on its left and its type,
and nothing to the right of the type. -/
def Ex.Fits : Ex → Nat → Prop
  | .path addr more, _ => addr = true → more ≠ 0
  | .lit k, _ => k = .INT_NUMBER ∨ k = .BYTE_STRING ∨ k = .HEX_STRING ∨ k = .TRUE_KW ∨ k = .FALSE_KW
  | .paren e, _ => e.Fits 1
  | .un _ e, _ => e.Fits 255
  | .field e _, _ => e.Primary ∧ e.Fits 255
  | .index e i, _ => e.Primary ∧ e.Fits 255 ∧ i.Fits 1
  | .call f a, _ => f.Primary ∧ f.Fits 255 ∧ a.Fits
  | .method e a, _ => e.Primary ∧ e.Fits 255 ∧ a.Fits
  | .bin k l r, m => IsBin k ∧ m ≤ level k ∧ l.Fits m ∧ level k < l.last ∧ r.Fits (level k + 1) ∧ (k = .DOT_DOT → r.minus = false)
  | .cast e addr more, m => (addr = true → more ≠ 0) ∧ m ≤ level .AS_KW ∧ e.Fits m ∧ level .AS_KW < e.last

def Args.Fits : Args → Prop
  | .none => True
  | .one e => e.Fits 1
  | .more e a => e.Fits 1 ∧ a ≠ .none ∧ a.Fits
end

/-! ### The syntax tree -/

/-- The kind of the node. -/
def Ex.kind : Ex → SyntaxKind
  | .path .. => .PATH_EXPR
  | .lit _ => .LITERAL
  | .paren _ => .PAREN_EXPR
  | .un o _ => match o with
    | .borrow | .borrowMut => .BORROW_EXPR
    | .deref => .DEREF_EXPR
    | .not => .BANG_EXPR
    | .neg => .MINUS_EXPR
    | .move | .copy => .RESOURCE_EXPR
  | .field .. => .DOT_EXPR
  | .index .. => .INDEX_EXPR
  | .call .. => .CALL_EXPR
  | .method .. => .METHOD_CALL_EXPR
  | .bin k _ _ => if k = .DOT_DOT then .RANGE_EXPR else .BIN_EXPR
  | .cast .. => .CAST_EXPR

/-- A token. -/
abbrev tk (k : SyntaxKind) : Step := .token k (parts k).length

/-- The tokens of an operator before an operand. -/
def UnOp.toks : UnOp → List SyntaxKind
  | .borrow => [.AMP]
  | .borrowMut => [.AMP, .MUT_KW]
  | .deref => [.STAR]
  | .not => [.BANG]
  | .neg => [.MINUS]
  | .move => [.MOVE_KW]
  | .copy => [.COPY_KW]

/-- The calls for the name in a path. -/
def segTree : List Step := [.start .PATH_SEGMENT, .start .NAME_REF, tk .IDENT, .finish, .finish]

/-- The calls for the first segment. -/
def firstTree (addr : Bool) : List Step :=
  if addr then [.start .PATH_SEGMENT, .start .PATH_ADDRESS, .start .VALUE_ADDRESS, tk .INT_NUMBER, .finish, .finish, .finish]
  else segTree

/-- A path as the qualifier of one more name. -/
def qualify (x : List Step) : List Step := .start .PATH :: x ++ tk .COLON_COLON :: segTree ++ [.finish]

/-- The same for several names. -/
def qualifyN : Nat → List Step → List Step
  | 0, x => x
  | n + 1, x => qualifyN n (qualify x)

/-- The calls for a path. -/
def pathTree (addr : Bool) (more : Nat) : List Step := qualifyN more (.start .PATH :: firstTree addr ++ [.finish])

mutual
/-- The calls for an expression after the start of its node. -/
def Ex.rest : Ex → List Step
  | .path addr more => pathTree addr more ++ [.finish]
  | .lit k => [tk k, .finish]
  | .paren e => tk .L_PAREN :: .start e.kind :: e.rest ++ [tk .R_PAREN, .finish]
  | .un o e => o.toks.map tk ++ .start e.kind :: e.rest ++ [.finish]
  | .field e num => .start e.kind :: e.rest ++
      [tk .DOT, .start .NAME_REF, tk (if num then .INT_NUMBER else .IDENT), .finish, .finish]
  | .index e i => .start e.kind :: e.rest ++ tk .L_BRACK :: .start i.kind :: i.rest ++ [tk .R_BRACK, .finish]
  | .call f a => .start f.kind :: f.rest ++ .start .VALUE_ARG_LIST :: tk .L_PAREN :: a.tree ++ [tk .R_PAREN, .finish, .finish]
  | .method e a => .start e.kind :: e.rest ++ [tk .DOT, .start .NAME_REF, tk .IDENT, .finish] ++
      .start .VALUE_ARG_LIST :: tk .L_PAREN :: a.tree ++ [tk .R_PAREN, .finish, .finish]
  | .bin k l r => .start l.kind :: l.rest ++ tk k :: .start r.kind :: r.rest ++ [.finish]
  | .cast e addr more => .start e.kind :: e.rest ++ tk .AS_KW :: .start .PATH_TYPE :: pathTree addr more ++ [.finish, .finish]

def Args.tree : Args → List Step
  | .none => []
  | .one e => .start .VALUE_ARG :: .start e.kind :: e.rest ++ [.finish]
  | .more e a => .start .VALUE_ARG :: .start e.kind :: e.rest ++ [.finish, tk .COMMA] ++ a.tree
end

/-- The calls for an expression. -/
def Ex.tree (e : Ex) : List Step := .start e.kind :: e.rest

/-! ### The tokens -/

/-- The token is not spelled as a contextual keyword. -/
def Input.PlainAt (I : Input) (p : Nat) : Prop := ∀ w ∈ words, I.textAt p ≠ w.toList

/-- The tokens of an operator: the longest one that is there. -/
def Input.OpAt (I : Input) (p : Nat) (k : SyntaxKind) : Prop :=
  I.atKind p k = true ∧ ∀ k', IsBin k' → I.atKind p k' = true → (parts k').length ≤ (parts k).length

/-- `:: name`, several times. -/
def Input.MoreAt (I : Input) : Nat → Nat → Nat → Prop
  | 0, p, q => q = p
  | n + 1, p, q => I.kindAt p = .COLON_COLON ∧ I.kindAt (p + 1) = .IDENT ∧ I.PlainAt (p + 1) ∧ I.MoreAt n (p + 2) q

/-- A path. -/
def Input.PathAt (I : Input) (addr : Bool) (more p q : Nat) : Prop :=
  (if addr then I.kindAt p = .INT_NUMBER else I.kindAt p = .IDENT ∧ I.PlainAt p) ∧ I.MoreAt more (p + 1) q

/-- What can follow a path in an expression, but not in type arguments: everything but a comma, `<` and `>`. -/
def afterPath : List SyntaxKind :=
  [.DOT, .L_PAREN, .L_BRACK, .R_PAREN, .R_BRACK, .R_CURLY, .SEMICOLON, .EOF, .AS_KW, .EQ, .IMPLIES, .PLUS_EQ, .MINUS_EQ, .STAR_EQ,
    .SLASH_EQ, .PERCENT_EQ, .AMP_EQ, .PIPE_EQ, .CARET_EQ, .DOT_DOT, .EQ_EQ, .NOT_EQ, .PIPE, .CARET, .AMP, .PLUS, .MINUS, .STAR,
    .SLASH, .PERCENT]

/-- What follows the `<` at `p` cannot be taken for type arguments: it is no type, or it is a path that neither a comma nor
`<` or `>` follows. -/
def Input.NoArgs (I : Input) (p : Nat) : Prop :=
  I.kindAt (p + 1) ∈ [.EQ, .IMPLIES, .L_ANGLE, .L_PAREN, .MINUS, .STAR, .BANG, .TRUE_KW, .FALSE_KW, .BYTE_STRING,
    .HEX_STRING, .MOVE_KW] ∨
  (I.kindAt (p + 1) = .INT_NUMBER ∧ I.kindAt (p + 2) ≠ .COLON_COLON) ∨
  ∃ more q, I.PathAt false more (p + 1) q ∧ I.kindAt q ∈ afterPath

/-- A name that ends at `q` is not continued by what follows. -/
def Input.NameEnds (I : Input) (q : Nat) : Prop :=
  I.kindAt q ≠ .COLON_COLON ∧ (I.kindAt q = .L_ANGLE → I.NoArgs q)

/-- The tokens of an operator before an operand, from `p` to `q`. -/
def Input.UnAt (I : Input) : UnOp → Nat → Nat → Prop
  | .borrow, p, q => I.kindAt p = .AMP ∧ q = p + 1
  | .borrowMut, p, q => I.kindAt p = .AMP ∧ I.kindAt (p + 1) = .MUT_KW ∧ q = p + 2
  | .deref, p, q => I.kindAt p = .STAR ∧ q = p + 1
  | .not, p, q => I.kindAt p = .BANG ∧ q = p + 1
  | .neg, p, q => I.kindAt p = .MINUS ∧ q = p + 1
  | .move, p, q => I.kindAt p = .MOVE_KW ∧ q = p + 1
  | .copy, p, q => I.kindAt p = .IDENT ∧ I.textAt p = "copy".toList ∧ q = p + 1

mutual
/-- The expression is written in the tokens from `p` to before `q`. -/
def Ex.At (I : Input) : Ex → Nat → Nat → Prop
  | .path addr more, p, q => I.PathAt addr more p q ∧ I.NameEnds q ∧ I.kindAt q ≠ .L_CURLY
  | .lit k, p, q => I.kindAt p = k ∧ q = p + 1 ∧ I.kindAt q ≠ .COLON_COLON
  | .paren e, p, q => I.kindAt p = .L_PAREN ∧ I.PlainAt p ∧ ∃ m, e.At I (p + 1) m ∧ I.kindAt m = .R_PAREN ∧ q = m + 1
  | .un o e, p, q => ∃ m, I.UnAt o p m ∧ e.At I m q
  | .field e num, p, q => ∃ m, e.At I p m ∧ I.kindAt m = .DOT ∧ I.kindAt (m + 1) = (if num then .INT_NUMBER else .IDENT) ∧
      q = m + 2 ∧ (num = false → I.NameEnds q ∧ I.kindAt q ≠ .L_PAREN)
  | .index e i, p, q => ∃ m n, e.At I p m ∧ I.kindAt m = .L_BRACK ∧ i.At I (m + 1) n ∧ I.kindAt n = .R_BRACK ∧ q = n + 1
  | .call f a, p, q => ∃ m n, f.At I p m ∧ I.kindAt m = .L_PAREN ∧ a.At I (m + 1) n ∧ I.kindAt n = .R_PAREN ∧ q = n + 1
  | .method e a, p, q => ∃ m n, e.At I p m ∧ I.kindAt m = .DOT ∧ I.kindAt (m + 1) = .IDENT ∧ I.kindAt (m + 2) = .L_PAREN ∧
      a.At I (m + 3) n ∧ I.kindAt n = .R_PAREN ∧ q = n + 1
  | .bin k l r, p, q => ∃ m, l.At I p m ∧ I.OpAt m k ∧ r.At I (m + (parts k).length) q
  | .cast e addr more, p, q => ∃ m, e.At I p m ∧ I.kindAt m = .AS_KW ∧ I.PathAt addr more (m + 1) q ∧
      I.kindAt q ≠ .COLON_COLON ∧ I.kindAt q ≠ .L_ANGLE

def Args.At (I : Input) : Args → Nat → Nat → Prop
  | .none, p, q => q = p
  | .one e, p, q => e.At I p q
  | .more e a, p, q => ∃ m, e.At I p m ∧ I.kindAt m = .COMMA ∧ a.At I (m + 1) q
end

/-- The token at `q` ends the expression before it. -/
def Input.Ends (I : Input) (q : Nat) : Prop :=
  I.kindAt q ∈ [.R_PAREN, .R_BRACK, .R_CURLY, .COMMA, .SEMICOLON, .EOF]

end Verif.Parser
