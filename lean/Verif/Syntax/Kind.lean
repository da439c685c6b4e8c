import Mathlib.Data.List.Basic

/-! The kinds of tokens and nodes, `crates/syntax/src/syntax_kind/generated.rs` 13-324, in the order of the
source (the constructor index is the number of the kind, `kind as usize`). `__LAST` is `LAST__` here. -/

namespace Verif.Syntax

/-- `SyntaxKind` (generated.rs 13-324). -/
inductive SyntaxKind where
  | TOMBSTONE | EOF | SEMICOLON | COMMA | L_PAREN | R_PAREN | L_CURLY | R_CURLY | L_BRACK | R_BRACK
  | L_ANGLE | R_ANGLE | AT | POUND | AMP | PIPE | PLUS | STAR | SLASH | CARET | PERCENT
  | UNDERSCORE | DOT | DOT_DOT | COLON | COLON_COLON | EQ | EQ_EQ | FAT_ARROW | IMPLIES
  | LESS_IMPLIES | BANG | NOT_EQ | MINUS | LT_EQ | GT_EQ | PLUS_EQ | MINUS_EQ | PIPE_EQ | AMP_EQ
  | CARET_EQ | SLASH_EQ | STAR_EQ | PERCENT_EQ | AMP_AMP | PIPE_PIPE | SHL | SHR | SHL_EQ | SHR_EQ
  | ADDRESS_KW | MODULE_KW | SCRIPT_KW | SPEC_KW | FUN_KW | STRUCT_KW | CONST_KW | FRIEND_KW
  | USE_KW | PUBLIC_KW | NATIVE_KW | IF_KW | ELSE_KW | TRUE_KW | FALSE_KW | LOOP_KW | WHILE_KW
  | CONTINUE_KW | BREAK_KW | AS_KW | RETURN_KW | MOVE_KW | LET_KW | MUT_KW | ABORT_KW
  | INVARIANT_KW | ACQUIRES_KW | INLINE_KW | ENTRY_KW | PACKAGE_KW | MATCH_KW | FOR_KW | IN_KW
  | IS_KW | PHANTOM_KW | ENUM_KW | HAS_KW | ASSERT_KW | ASSUME_KW | REQUIRES_KW | ENSURES_KW
  | ABORTS_IF_KW | POST_KW | SUCCEEDS_IF_KW | ABORTS_WITH_KW | DECREASES_KW | MODIFIES_KW | WITH_KW
  | AXIOM_KW | INCLUDE_KW | PRAGMA_KW | GLOBAL_KW | LOCAL_KW | UPDATE_KW | COPY_KW | SCHEMA_KW
  | EMITS_KW | APPLY_KW | TO_KW | EXCEPT_KW | INTERNAL_KW | FORALL_KW | EXISTS_KW | CHOOSE_KW
  | WHERE_KW | MIN_KW | PROOF_KW | LEMMA_KW | SPLIT_KW | WEIGHT_KW | INT_NUMBER | BYTE_STRING
  | HEX_STRING | BAD_CHARACTER | ERROR | IDENT | WHITESPACE | QUOTE_IDENT | COMMENT
  | WILDCARD_IDENT | SOURCE_FILE | ADDRESS_DEF | MODULE | SCRIPT | MODULE_SPEC | ITEM_SPEC
  | ITEM_SPEC_REF | ITEM_SPEC_TYPE_PARAM_LIST | ITEM_SPEC_TYPE_PARAM | ITEM_SPEC_PARAM_LIST
  | ITEM_SPEC_PARAM | STRUCT | FRIEND | ENUM | FUN | SPEC_FUN | SPEC_INLINE_FUN | USE_STMT
  | USE_SPECK | USE_GROUP | USE_ALIAS | CONST | INITIALIZER | TYPE | RET_TYPE | PAREN_TYPE
  | TUPLE_TYPE | PATH_TYPE | LAMBDA_TYPE | LAMBDA_TYPE_PARAM | LAMBDA_TYPE_ABILITY_LIST | REF_TYPE
  | UNIT_TYPE | PAREN_PAT | UNIT_PAT | PAT | IDENT_PAT | WILDCARD_PAT | REST_PAT | PATH_PAT
  | STRUCT_PAT | STRUCT_PAT_FIELD_LIST | STRUCT_PAT_FIELD | TUPLE_STRUCT_PAT | TUPLE_PAT
  | RANGE_PAT | LITERAL_PAT | TUPLE_EXPR | ANNOTATED_EXPR | PAREN_EXPR | PATH_EXPR | LAMBDA_EXPR
  | LAMBDA_PARAM_LIST | LAMBDA_PARAM | IF_EXPR | WHILE_EXPR | CONDITION | LOOP_EXPR | FOR_EXPR
  | FOR_CONDITION | ABORT_EXPR | RETURN_EXPR | CONTINUE_EXPR | BREAK_EXPR | LABEL_DECL | LABEL
  | INLINE_EXPR | BLOCK_EXPR | SPEC_BLOCK_EXPR | VECTOR_LIT_EXPR | MATCH_EXPR | MATCH_ARM_LIST
  | MATCH_ARM | MATCH_GUARD | STRUCT_LIT | STRUCT_LIT_FIELD_LIST | STRUCT_LIT_FIELD | CALL_EXPR
  | ASSERT_MACRO_EXPR | INDEX_EXPR | DOT_EXPR | METHOD_CALL_EXPR | CAST_EXPR | IS_EXPR
  | BORROW_EXPR | DEREF_EXPR | BANG_EXPR | MINUS_EXPR | RESOURCE_EXPR | RANGE_EXPR | UNIT_EXPR
  | BIN_EXPR | INVARIANT_STMT | EMITS_STMT | EMITS_CONDITION | PRAGMA_STMT | PRAGMA_ATTR_ITEM
  | AXIOM_STMT | UPDATE_STMT | ABORTS_IF_STMT | ABORTS_IF_WITH | ABORTS_WITH_STMT
  | SPEC_PREDICATE_STMT | SPEC_PREDICATE | SPEC_PREDICATE_PROPERTY_LIST | SPEC_PREDICATE_PROPERTY
  | GLOBAL_VARIABLE_DECL | BEHAVIOR_PREDICATE_EXPR | SCHEMA | SCHEMA_FIELD | INCLUDE_SCHEMA
  | SCHEMA_INCLUDE_EXPR | AND_INCLUDE_EXPR | IMPLY_INCLUDE_EXPR | IF_ELSE_INCLUDE_EXPR
  | APPLY_SCHEMA | APPLY_TO | APPLY_EXCEPT | WILDCARD_PATTERN_MODIFIER | WILDCARD_PATTERN
  | SCHEMA_LIT | SCHEMA_LIT_FIELD_LIST | SCHEMA_LIT_FIELD | FORALL_EXPR | EXISTS_EXPR | CHOOSE_EXPR
  | WHERE_EXPR | QUANT_BINDING_LIST | QUANT_BINDING | QUANT_TRIGGER_LIST | NAMED_FIELD_LIST
  | NAMED_FIELD | TUPLE_FIELD_LIST | TUPLE_FIELD | VARIANT_LIST | VARIANT | ABILITY_LIST
  | ABILITY_BOUND_LIST | ABILITY | ATTR | ATTR_ITEM_LIST | ATTR_ITEM | PATH | PATH_SEGMENT
  | PATH_ADDRESS | LITERAL | VISIBILITY_MODIFIER | NAME | FIELD_REF | NAME_REF | INDEX_REF
  | VALUE_ADDRESS | NAMED_ADDRESS | ADDRESS_REF | ADDRESS_LIT | LET_STMT | EXPR_STMT
  | TYPE_PARAM_LIST | TYPE_PARAM | TYPE_ARG_LIST | TYPE_ARG | VALUE_ARG_LIST | VALUE_ARG
  | PARAM_LIST | PARAM | ACQUIRES | PROOF | PROOF_BLOCK | LEMMA | SPEC_LEMMA | LEMMA_BLOCK
  | APPLY_LEMMA | FORALL_APPLY_LEMMA | POST_STMT | SPLIT_STMT | WEIGHT | LAST__
deriving DecidableEq, Repr

/-- `kind as usize`. -/
def SyntaxKind.toNat (k : SyntaxKind) : Nat := k.ctorIdx

namespace SyntaxKind

/-- `SyntaxKind::is_trivia` (syntax_kind.rs). -/
def isTrivia (k : SyntaxKind) : Bool := k == .WHITESPACE || k == .COMMENT

end SyntaxKind
end Verif.Syntax
