import Verif.Parser.PrecBodyProps

/-! The quick fixes of `ide-diagnostics` that rewrite an expression, on expressions as in `Parser/Precedence.lean`: which
expression takes the place of which. An expression here has no names and no white space, so what a fix does with them is not
in the model; the checks on types and on what a name resolves to are left out, so more is offered here than in the code. -/

namespace Verif.Ide
open Verif.Syntax (SyntaxKind)
open Verif.Parser

/-- The expressions of an argument list (`arg_exprs`, syntax/src/ast/node_ext/value_arg_list.rs 10-12); an empty argument, which is an error, is not there. -/
def args : Args → List Ex
  | .none => []
  | .one e => [e]
  | .more e a => e :: args a

/-- `SyntaxFactory::arg_list` (syntax/src/ast/syntax_factory/constructors.rs 19-24): the arguments with commas between them. -/
def argList : List Ex → Args
  | [] => .none
  | [e] => .one e
  | e :: es => .more e (argList es)

/-- The kinds before which `.` needs no parentheses (handlers/can_be_replaced_with_method_call.rs 128-130). -/
def bareReceiver : List SyntaxKind :=
  [.VECTOR_LIT_EXPR, .STRUCT_LIT, .TUPLE_EXPR, .PAREN_EXPR, .ANNOTATED_EXPR, .DOT_EXPR, .METHOD_CALL_EXPR, .INDEX_EXPR, .CALL_EXPR,
    .ASSERT_MACRO_EXPR, .PATH_EXPR, .LAMBDA_EXPR, .LITERAL, .BLOCK_EXPR]

/-- The operand of a borrow, and any other expression as it is (can_be_replaced_with_method_call.rs 99-102). -/
def unborrow : Ex → Ex
  | .un .borrow e => e
  | .un .borrowMut e => e
  | e => e

/-- The receiver, in parentheses if it needs them (126-136). -/
def receiver (e : Ex) : Ex := if bareReceiver.contains e.kind then e else .paren e

/-- `fixes` of can_be_replaced_with_method_call.rs (89-151): `f(r, a, b)` becomes `r.f(a, b)`. -/
def methodFix : Ex → Option Ex
  | .call (.path _ _) a => match args a with
    | [] => none
    | r :: rest => some (.method (receiver (unborrow r)) (argList rest))
  | _ => none

/-- The operator with `=` after it: `BinaryOp::Assignment { op }` (syntax/src/ast/operators.rs 135-141) for the arithmetic operators
(syntax/src/ast/node_ext/bin_expr.rs 33-42), as the parser reads its text. -/
def assignOp : SyntaxKind → Option SyntaxKind
  | .PLUS => some .PLUS_EQ
  | .STAR => some .STAR_EQ
  | .MINUS => some .MINUS_EQ
  | .SLASH => some .SLASH_EQ
  | .PERCENT => some .PERCENT_EQ
  | .SHL => some .SHL_EQ
  | .SHR => some .SHR_EQ
  | .CARET => some .CARET_EQ
  | .PIPE => some .PIPE_EQ
  | .AMP => some .AMP_EQ
  | _ => none

/-- `can_be_replaced_with_compound_expr` (handlers/can_be_replaced_with_compound_expr.rs 15-38): is there a report? `same` says
whether two expressions are the same text. -/
def compoundReported (same : Ex → Ex → Bool) : Ex → Bool
  | .bin .EQ l (.bin k a _) => k != .DOT_DOT && same l a
  | _ => false

/-- `fixes` of the same file (40-73): `l = l + r` becomes `l += r`. -/
def compoundFix (same : Ex → Ex → Bool) (e : Ex) : Option Ex :=
  if compoundReported same e then
    match e with
    | .bin _ l (.bin k _ r) => (assignOp k).map fun k' => .bin k' l r
    | _ => none
  else none

/-- What is indexed (handlers/can_be_replaced_with_index_expr.rs 111-119, 130-133). -/
def indexBase : Ex → Ex
  | .path addr more => .path addr more
  | .paren e => .paren e
  | .un .borrow e => e
  | .un .borrowMut e => e
  | e => .paren e

/-- `fixes` of can_be_replaced_with_index_expr.rs (87-142): `*borrow(r, i)` and `*r.borrow(i)` become `r[i]`. -/
def indexFix : Ex → Option Ex
  | .un .deref (.call (.path _ _) a) => match args a with
    | r :: i :: _ => some (.index (indexBase r) i)
    | _ => none
  | .un .deref (.method r a) => match args a with
    | i :: _ => some (.index (indexBase r) i)
    | _ => none
  | _ => none

/-- `fixes` of handlers/redundant_cast.rs (48-64): `e as T` becomes `e`. -/
def castFix : Ex → Option Ex
  | .cast e _ _ => some e
  | _ => none

/-! ### Where the expression is -/

/-- An expression with a hole as one of its operands. -/
inductive Frame where
  | paren
  | un (o : UnOp)
  | field (num : Bool)
  | indexBase (i : Ex)
  | indexArg (e : Ex)
  | callee (a : Args)
  | callArg (f : Ex) (before after : List Ex)
  | receiver (a : Args)
  | methodArg (e : Ex) (before after : List Ex)
  | left (k : SyntaxKind) (r : Ex)
  | right (k : SyntaxKind) (l : Ex)
  | cast (addr : Bool) (more : Nat)

/-- The expression with the hole filled. -/
def Frame.fill (x : Ex) : Frame → Ex
  | .paren => .paren x
  | .un o => .un o x
  | .field num => .field x num
  | .indexBase i => .index x i
  | .indexArg e => .index e x
  | .callee a => .call x a
  | .callArg f before after => .call f (argList (before ++ x :: after))
  | .receiver a => .method x a
  | .methodArg e before after => .method e (argList (before ++ x :: after))
  | .left k r => .bin k x r
  | .right k l => .bin k l x
  | .cast addr more => .cast x addr more

/-- A place in an expression, from the inside. -/
abbrev Place := List Frame

/-- The expression with `x` at the place. -/
def Place.fill : Place → Ex → Ex
  | [], x => x
  | f :: fs, x => Place.fill fs (f.fill x)

/-- The level of the operator on the right of the place, 0 if there is none. -/
def Place.right : Place → Nat
  | .left k _ :: _ => level k
  | .cast _ _ :: _ => level .AS_KW
  | _ => 0

/-- Is the place before a `.`, an index or an argument list? -/
def Place.postfix : Place → Bool
  | .field _ :: _ | .indexBase _ :: _ | .callee _ :: _ | .receiver _ :: _ => true
  | _ => false

/-- Is the parent of the place a field access or a method call on it? (`MethodOrDotExpr`, syntax/src/ast/generated/nodes.rs 2542) -/
def Place.dotted : Place → Bool
  | .field _ :: _ | .receiver _ :: _ => true
  | _ => false

/-- `fixes` of handlers/replace_with_resource_index_expr.rs (90-122), with the choice of 55-69: `borrow_global<T>(a)` becomes `T[a]`
before a `.` and in a specification, and `&T[a]` or `&mut T[a]` elsewhere. The type is a path without type arguments. -/
def resourceFix (spec isMut addr : Bool) (more : Nat) (fs : Place) : Ex → Option Ex
  | .call (.path _ _) (.one a) =>
    let y := Ex.index (.path addr more) a
    some (if fs.dotted || spec then y else .un (if isMut then .borrowMut else .borrow) y)
  | _ => none

/-! ### The factory -/

/-- The kinds of expressions (syntax/src/ast/generated/nodes.rs 6991-7035). -/
def exprKinds : List SyntaxKind :=
  [.ABORT_EXPR, .ANNOTATED_EXPR, .ASSERT_MACRO_EXPR, .BANG_EXPR, .BEHAVIOR_PREDICATE_EXPR, .BIN_EXPR, .BLOCK_EXPR, .BORROW_EXPR,
    .BREAK_EXPR, .CALL_EXPR, .CAST_EXPR, .CHOOSE_EXPR, .CONTINUE_EXPR, .DEREF_EXPR, .DOT_EXPR, .EXISTS_EXPR, .FOR_EXPR, .FORALL_EXPR,
    .IF_EXPR, .INDEX_EXPR, .IS_EXPR, .LAMBDA_EXPR, .LITERAL, .LOOP_EXPR, .MATCH_EXPR, .METHOD_CALL_EXPR, .MINUS_EXPR, .PAREN_EXPR,
    .PATH_EXPR, .RANGE_EXPR, .RESOURCE_EXPR, .RETURN_EXPR, .SPEC_BLOCK_EXPR, .STRUCT_LIT, .TUPLE_EXPR, .UNIT_EXPR, .VECTOR_LIT_EXPR,
    .WHILE_EXPR]

mutual
/-- The children of the first node of the kind, in the order of `descendants` (syntax/src/ast/syntax_factory.rs 82). -/
def firstNode (k : SyntaxKind) : Green → Option (List Green)
  | .tok _ _ => none
  | .node k' cs => if k' = k then some cs else firstNodeIn k cs
def firstNodeIn (k : SyntaxKind) : List Green → Option (List Green)
  | [] => none
  | g :: gs => (firstNode k g).orElse fun _ => firstNodeIn k gs
end

/-- `BlockExpr::tail_expr` (syntax/src/ast/generated/nodes.rs 348): the first child that is an expression. -/
def tailExpr : List Green → Option Green
  | [] => none
  | .node k cs :: gs => if exprKinds.contains k then some (.node k cs) else tailExpr gs
  | .tok _ _ :: gs => tailExpr gs

/-- The text the factory parses (syntax/src/ast/syntax_factory/exprs.rs 181-182). -/
def factoryText (text : List Char) : List Char := "module 0x1::m { fun main() { ".toList ++ text ++ " } }".toList

/-- `expr_from_text` (syntax/src/ast/syntax_factory/exprs.rs 180-184); `none` is one of the panics of `ast_from_text` and `unwrap`. -/
def exprFromText (g : List Char → Nat) (debug : Bool) (fuel : Nat) (kind : SyntaxKind) (text : List Char) : Option Green :=
  match parseText g debug fuel (factoryText text) with
  | .tree t _ =>
    match (firstNode .BLOCK_EXPR t).bind tailExpr with
    | some (.node k cs) => if k = kind then some (.node k cs) else none
    | _ => none
  | _ => none

end Verif.Ide
