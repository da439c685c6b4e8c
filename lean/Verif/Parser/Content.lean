import Verif.Parser.Api
import Verif.Parser.SinkLemmas

/-! What is directly inside the nodes: the calls of a run, with what the node of a kind must contain. -/

namespace Verif.Parser
open Verif.Syntax (SyntaxKind)

/-- A token or a node among the calls of a run, at the outermost level. -/
inductive Top where
  | tok (k : SyntaxKind)
  | node (k : SyntaxKind)
deriving DecidableEq

/-- `Expr::can_cast` (syntax/src/ast/generated/nodes.rs 6993-7035). -/
def exprKind : SyntaxKind → Bool
  | .ABORT_EXPR | .ANNOTATED_EXPR | .ASSERT_MACRO_EXPR | .BANG_EXPR | .BEHAVIOR_PREDICATE_EXPR | .BIN_EXPR | .BLOCK_EXPR
  | .BORROW_EXPR | .BREAK_EXPR | .CALL_EXPR | .CAST_EXPR | .CHOOSE_EXPR | .CONTINUE_EXPR | .DEREF_EXPR | .DOT_EXPR
  | .EXISTS_EXPR | .FOR_EXPR | .FORALL_EXPR | .IF_EXPR | .INDEX_EXPR | .IS_EXPR | .LAMBDA_EXPR | .LITERAL | .LOOP_EXPR
  | .MATCH_EXPR | .METHOD_CALL_EXPR | .MINUS_EXPR | .PAREN_EXPR | .PATH_EXPR | .RANGE_EXPR | .RESOURCE_EXPR | .RETURN_EXPR
  | .SPEC_BLOCK_EXPR | .STRUCT_LIT | .TUPLE_EXPR | .UNIT_EXPR | .VECTOR_LIT_EXPR | .WHILE_EXPR => true
  | _ => false

/-- `Type::can_cast` (syntax/src/ast/generated/nodes.rs 9385-9390). -/
def typeKind : SyntaxKind → Bool
  | .LAMBDA_TYPE | .PAREN_TYPE | .PATH_TYPE | .REF_TYPE | .TUPLE_TYPE | .UNIT_TYPE => true
  | _ => false

/-- A number is followed by `::` somewhere. -/
def Input.numbered (I : Input) : Prop := ∃ p, I.kindAt p = .INT_NUMBER ∧ I.kindAt (p + 1) = .COLON_COLON

/-- There is a word `apply` that is not followed by the beginning of a path. -/
def Input.misapplied (I : Input) : Prop :=
  ∃ p, I.isKeyword p "apply" = true ∧ I.kindAt (p + 1) ≠ .IDENT ∧ I.kindAt (p + 1) ≠ .UNDERSCORE ∧ I.kindAt (p + 1) ≠ .INT_NUMBER

/-- What the node of a kind contains. -/
def Req (I : Input) (k : SyntaxKind) (ts : List Top) : Prop :=
  match k with
  | .NAME => ts = [.tok .IDENT]
  | .NAME_REF => ts = [.tok .IDENT] ∨ ts = [.tok .INT_NUMBER]
  | .ABILITY => .tok .IDENT ∈ ts
  | .NAMED_ADDRESS => .tok .IDENT ∈ ts
  | .VALUE_ADDRESS => .tok .INT_NUMBER ∈ ts
  | .LABEL => .tok .QUOTE_IDENT ∈ ts
  | .LABEL_DECL => .tok .QUOTE_IDENT ∈ ts
  | .PATH_ADDRESS => .node .VALUE_ADDRESS ∈ ts
  | .PATH_EXPR => .node .PATH ∈ ts ∨ I.misapplied
  | .PATH_PAT => .node .PATH ∈ ts
  | .PATH_TYPE => .node .PATH ∈ ts
  | .STRUCT_LIT => .node .PATH ∈ ts ∨ I.misapplied
  | .STRUCT_PAT => .node .PATH ∈ ts
  | .TUPLE_STRUCT_PAT => .node .PATH ∈ ts
  | .CAST_EXPR => ∃ e, exprKind e = true ∧ .node e ∈ ts
  | .DOT_EXPR => ∃ e, exprKind e = true ∧ .node e ∈ ts
  | .IS_EXPR => ∃ e, exprKind e = true ∧ .node e ∈ ts
  | .METHOD_CALL_EXPR => ∃ e, exprKind e = true ∧ .node e ∈ ts
  | .LAMBDA_TYPE_PARAM => ∃ e, typeKind e = true ∧ .node e ∈ ts
  | .LITERAL_PAT => .node .LITERAL ∈ ts ∨ I.numbered
  | _ => True

/-- A kind of which nothing is required, and that is a proper kind. -/
def plain : SyntaxKind → Bool
  | .TOMBSTONE | .NAME | .NAME_REF | .ABILITY | .NAMED_ADDRESS | .VALUE_ADDRESS | .LABEL | .LABEL_DECL | .PATH_ADDRESS
  | .PATH_EXPR | .PATH_PAT | .PATH_TYPE | .STRUCT_LIT | .STRUCT_PAT | .TUPLE_STRUCT_PAT | .CAST_EXPR | .DOT_EXPR | .IS_EXPR
  | .METHOD_CALL_EXPR | .LAMBDA_TYPE_PARAM | .LITERAL_PAT => false
  | _ => true

/-- Of these kinds an expression is required, and one comes first. -/
def fromExpr (k : SyntaxKind) : Bool := plain k || k matches .CAST_EXPR | .DOT_EXPR | .IS_EXPR | .METHOD_CALL_EXPR

/-- More at the front does no harm to an expression. -/
theorem Req.prepend {I : Input} {k : SyntaxKind} {us ts : List Top} (hk : exprKind k = true) (h : Req I k ts) :
    Req I k (us ++ ts) := by
  cases k <;> first
    | trivial
    | (cases hk; done)
    | (exact List.mem_append_right _ h)
    | (exact h.imp (List.mem_append_right _) id)
    | (obtain ⟨e, h1, h2⟩ := h; exact ⟨e, h1, List.mem_append_right _ h2⟩)

theorem fromExpr.req {I : Input} {k e : SyntaxKind} {ts : List Top} (hk : fromExpr k = true) (he : exprKind e = true) :
    Req I k (.node e :: ts) := by
  cases k <;> first
    | trivial
    | (cases hk; done)
    | exact ⟨e, he, List.mem_cons_self ..⟩

theorem fromExpr.ne {k : SyntaxKind} (hk : fromExpr k = true) : k ≠ .TOMBSTONE := by
  rintro rfl; cases hk

theorem plain.req {I : Input} {k : SyntaxKind} {ts : List Top} (hk : plain k = true) : Req I k ts := by
  cases k <;> trivial

theorem plain.ne {k : SyntaxKind} (hk : plain k = true) : k ≠ .TOMBSTONE := by
  rintro rfl; cases hk

/-- The calls of a run: what they are at the outermost level, and every node contains what it must. -/
inductive Sh (I : Input) : List Top → List Step → Prop
  | nil : Sh I [] []
  | token {k n ts steps} : Sh I ts steps → Sh I (.tok k :: ts) (.token k n :: steps)
  | error {ts steps} : Sh I ts steps → Sh I ts (.error :: steps)
  | node {k xs ts inner steps} : Req I k xs → Sh I xs inner → Sh I ts steps →
      Sh I (.node k :: ts) (.start k :: (inner ++ .finish :: steps))

variable {I : Input}

theorem Sh.append {a b : List Top} {x y : List Step} (h1 : Sh I a x) (h2 : Sh I b y) : Sh I (a ++ b) (x ++ y) := by
  induction h1 with
  | nil => exact h2
  | token _ ih => exact .token ih
  | error _ ih => exact .error ih
  | node hr hx _ _ ih =>
    have := Sh.node hr hx ih
    simpa using this

theorem Sh.single {k : SyntaxKind} {xs : List Top} {inner : List Step} (hr : Req I k xs) (h : Sh I xs inner) :
    Sh I [.node k] (.start k :: (inner ++ [.finish])) := .node hr h .nil

theorem Sh.bal {ts : List Top} {steps : List Step} (h : Sh I ts steps) : Bal steps := by
  induction h with
  | nil => exact Bal.nil
  | token _ ih => exact (Bal.token _ _).append ih
  | error _ ih => exact Bal.error.append ih
  | node _ _ _ ih1 ih2 =>
    have := (ih1.node (k := ‹_›)).append ih2
    simpa using this

end Verif.Parser
