import Verif.Parser.Props
import Verif.Parser.Neat
import Verif.Syntax.Tree

/-! C72: the parts of the tree that the code above the parser takes for granted. -/

namespace Verif.Syntax
open Verif.Parser (Green Piece exprKind typeKind)

/-! ### Model -/

/-- What a generated accessor looks for: a token of a kind, or a node that can be cast. -/
inductive Part where
  | token (k : SyntaxKind)
  | child (kinds : SyntaxKind → Bool)

/-- `support::token` and `support::child` (syntax/src/ast.rs 156-169). `None` is where the accessor panics. -/
def Part.find (e : Elem) : Part → Option Elem
  | .token k => tokenChild e k
  | .child kinds => e.nodes.find? fun c => kinds c.kind

/-- The accessors with `.expect("... required by the parser")` (syntax/src/ast/generated/nodes.rs 22, 396, 487, 818, 917, 931,
995, 1079, 1165, 1235, 1259, 1378, 1389, 1400, 1424, 1870, 1909, 2005, 2182). -/
def required : List (SyntaxKind × Part) := [
  (.ABILITY, .token .IDENT),
  (.CAST_EXPR, .child exprKind),
  (.DOT_EXPR, .child exprKind),
  (.IS_EXPR, .child exprKind),
  (.LABEL, .token .QUOTE_IDENT),
  (.LABEL_DECL, .token .QUOTE_IDENT),
  (.LAMBDA_TYPE_PARAM, .child typeKind),
  (.LITERAL_PAT, .child (· == .LITERAL)),
  (.METHOD_CALL_EXPR, .child exprKind),
  (.NAME, .token .IDENT),
  (.NAMED_ADDRESS, .token .IDENT),
  (.PATH_ADDRESS, .child (· == .VALUE_ADDRESS)),
  (.PATH_EXPR, .child (· == .PATH)),
  (.PATH_PAT, .child (· == .PATH)),
  (.PATH_TYPE, .child (· == .PATH)),
  (.STRUCT_LIT, .child (· == .PATH)),
  (.STRUCT_PAT, .child (· == .PATH)),
  (.TUPLE_STRUCT_PAT, .child (· == .PATH)),
  (.VALUE_ADDRESS, .token .INT_NUMBER)]

end Verif.Syntax
