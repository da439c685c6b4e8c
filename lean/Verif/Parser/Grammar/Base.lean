import Verif.Parser.Api

/-! Model of the grammar, `crates/syntax/src/parse/grammar.rs` and below: names, paths, types, attributes.

The functions of the grammar call each other in cycles. The cycles are cut at the functions of `Rec`: a function that
calls one of these calls the field of `Rec` instead. `grammar` (in `Grammar/Top.lean`) closes the knot.

Messages of errors are left out, and so are the functions nothing calls (`const_pat`, `rest_pat`, `range_pat`,
`match_guard`, `module_name`, `name_ref_or_index`, `at_item_start`, `bump_modifier_if_possible`, `on_predicate_start`,
`struct_enum_recover_at`). `panic_context::enter` has no effect on the run. -/

namespace Verif.Parser
open Verif.Syntax (SyntaxKind)
open Verif.TokenSet (TSet)

/-- `Restrictions` (grammar/expressions.rs 368-372). -/
structure Restr where
  forbidStructs : Bool
  preferStmt : Bool

/-- `BlockLike` (grammar/expressions.rs 333-337). -/
inductive BlockLike where
  | Block | NotBlock
deriving DecidableEq

/-- `is_block` (340-342). -/
def BlockLike.isBlock (b : BlockLike) : Bool := b = .Block

/-- The functions at which the recursion of the grammar is cut: `expr_bp`, `type_or_recover`, `path_type`, `pattern`,
`stmt`, `use_speck` (its argument only selects a message), `attr_item`. -/
structure Rec where
  exprBp : Restr → Nat → P (Option (CM × BlockLike))
  typ : RSet → P Bool
  pathType : P Bool
  pattern : P Bool
  stmt : P Unit
  useSpeck : P Bool
  attrItem : P Bool

abbrev ts (ks : List SyntaxKind) : TSet := TokenSet.new ks

/-! Sets. -/

/-- `TOP_LEVEL_FIRST` (grammar.rs 180-181). -/
def TOP_LEVEL_FIRST : TSet := ts [.MODULE_KW, .SCRIPT_KW, .SPEC_KW, .ADDRESS_KW]
/-- `EXPR_STMT_FIRST` and `STMT_FIRST` (grammar/patterns.rs 269-284). -/
def PAT_STMT_FIRST : TSet := TokenSet.union (ts [.IF_KW, .WHILE_KW, .LOOP_KW]) (ts [.LET_KW, .SPEC_KW, .USE_KW])
/-- `ITEM_KEYWORDS` (grammar/items.rs 223-233). -/
def ITEM_KEYWORDS : TSet := ts [.STRUCT_KW, .FUN_KW, .CONST_KW, .SPEC_KW, .FRIEND_KW, .USE_KW]
/-- `function_modifier_kws`, `function_modifier_recovery_set` (grammar/items/fun.rs 272-284). -/
def functionModifierKws : RSet := RSet.new.withTs (ts [.PUBLIC_KW, .NATIVE_KW, .FRIEND_KW, .INLINE_KW])
/-- `item_start_kws_only` (grammar/items.rs 208-210). -/
def itemStartKwsOnly : RSet := (RSet.ofTs ITEM_KEYWORDS).join functionModifierKws
/-- `item_start_rec_set` (212-217). -/
def itemStartRecSet : RSet := ((RSet.new.withTs ITEM_KEYWORDS).withKw "enum").join functionModifierKws
/-- `at_stmt_start` (219-221). -/
def atStmtStart : RSet := .ofTs PAT_STMT_FIRST
/-- `PATH_FIRST` (grammar/paths.rs 19), `TYPE_ARG_FIRST` (grammar/type_args.rs 86). -/
def PATH_FIRST : TSet := ts [.IDENT, .INT_NUMBER, .UNDERSCORE]
/-- `TYPE_FIRST_NO_LAMBDA` and `TYPE_FIRST` (grammar/types.rs 142-145). -/
def TYPE_FIRST : TSet :=
  TokenSet.union (TokenSet.union PATH_FIRST (ts [.L_PAREN, .L_BRACK, .L_ANGLE, .BANG, .STAR, .AMP])) (ts [.PIPE])
/-- `LITERAL_FIRST` (grammar/expressions/atom.rs 51-52). -/
def LITERAL_FIRST : TSet := ts [.TRUE_KW, .FALSE_KW, .INT_NUMBER, .AT, .BYTE_STRING, .HEX_STRING]
/-- `KW_EXPR_FIRST` (54-70). -/
def KW_EXPR_FIRST : TSet := ts [.IF_KW, .LOOP_KW, .WHILE_KW, .FOR_KW, .RETURN_KW, .CONTINUE_KW, .BREAK_KW, .MOVE_KW,
  .COPY_KW, .ABORT_KW, .QUOTE_IDENT]
/-- `ATOM_EXPR_FIRST` (72-75). -/
def ATOM_EXPR_FIRST : TSet :=
  TokenSet.union (TokenSet.union (TokenSet.union LITERAL_FIRST PATH_FIRST) KW_EXPR_FIRST)
    (ts [.L_PAREN, .L_CURLY, .L_BRACK, .PIPE, .QUOTE_IDENT])
/-- `EXPR_FIRST` (grammar/expressions.rs 374-375). -/
def EXPR_FIRST : TSet := TokenSet.union ATOM_EXPR_FIRST (ts [.AMP, .STAR, .BANG])
/-- `STMT_FIRST` (grammar/expressions.rs 377). -/
def STMT_FIRST : TSet := TokenSet.union EXPR_FIRST (ts [.LET_KW])
/-- `ITEM_BRACE_START` (grammar/items/fun.rs 259). -/
def ITEM_BRACE_START : TSet := ts [.L_ANGLE, .L_PAREN, .L_CURLY]
/-- `INCLUDE_SCHEMA_RECOVERY_SET` (grammar/specs/schemas.rs 94). -/
def INCLUDE_SCHEMA_RECOVERY_SET : RSet := .ofTs (ts [.SEMICOLON, .R_CURLY])

/-! `grammar.rs`: names and addresses. -/

/-- `value_address` (169-174). -/
def valueAddress : P Unit := do
  assert (← at' .INT_NUMBER) .INT_NUMBER
  drop (node .VALUE_ADDRESS (bump .INT_NUMBER))

/-- `any_address` (156-167). -/
def anyAddress : P Unit := do
  let i ← at' .INT_NUMBER
  let d ← at' .IDENT
  if i then valueAddress
  else if d then drop (node .NAMED_ADDRESS (bump .IDENT))
  else error

/-- `name_or_recover` (231-247). -/
def nameOrRecover (extra : RSet) : P Bool := do
  let i ← at' .IDENT
  if !i then do
    errorAndRecover extra
    pure false
  else do
    let o ← outerRec
    let c ← containsCurrent (o.join extra)
    if c then do
      error
      pure false
    else do
      drop (node .NAME (bump .IDENT))
      pure true

/-- `name` (183-185). -/
def name : P Bool := nameOrRecover .new

/-- `name_ref_or_recover` (187-203). -/
def nameRefOrRecover : P Bool := do
  let i ← at' .IDENT
  if !i then do
    errorAndRecover .new
    pure false
  else do
    let o ← outerRec
    let c ← containsCurrent o
    if c then do
      error
      pure false
    else do
      drop (node .NAME_REF (bump .IDENT))
      pure true

/-- `name_ref` (205-215). -/
def nameRef : P Bool := do
  let i ← at' .IDENT
  if i then do
    drop (node .NAME_REF (bump .IDENT))
    pure true
  else do
    errorAndBump
    pure false

/-- `ability` (257-265). -/
def ability : P Bool := do
  let i ← at' .IDENT
  if !i then pure false
  else do
    drop (node .ABILITY (bump .IDENT))
    pure true

/-- `abilities_list` (249-255). -/
def abilitiesList : P Unit := do
  assert (← atKwIdent "has") .HAS_KW
  drop (node .ABILITY_LIST do
    bumpRemap .HAS_KW
    delimited ability .COMMA none)

/-! `paths.rs`, `type_args.rs`. -/

/-- `is_path_start` (paths.rs 21-30). -/
def isPathStart : P Bool := do
  let k ← current
  let c ← nthAt 1 .COLON_COLON
  pure ((k == .INT_NUMBER && c) || k == .IDENT || k == .UNDERSCORE)

/-- `PathMode` (32-36). -/
inductive PathMode where
  | Type | Expr

/-- `type_arg` (type_args.rs 89-116). -/
def typeArg (R : Rec) (isType : Bool) : P Bool := block do
  let k ← current
  let f ← atTs TYPE_FIRST
  if k = .IDENT then do
    drop R.pathType
    pure (.complete .TYPE_ARG, true)
  else if f then do
    let set := if isType then TokenSet.setOrKind (ts [.COMMA]) .R_ANGLE else ts [.COMMA]
    let valid ← withRecTs set (R.typ .new)
    if !isType && !valid then pure (.abandon, false)
    else pure (.complete .TYPE_ARG, true)
  else pure (.abandon, false)

/-- `opt_type_arg_list_for_type` (23-41). -/
def optTypeArgListForType (R : Rec) : P Unit := do
  let l ← at' .L_ANGLE
  iff l (drop (node .TYPE_ARG_LIST do
    bump .L_ANGLE
    withRecTok .R_ANGLE (delimited (typeArg R true) .COMMA (some .R_ANGLE))
    drop (expect .R_ANGLE)))

/-- The part of `opt_type_arg_list_for_expr` after the optional `::` (60-83). -/
def typeArgListForExpr (R : Rec) : P (Outcome × Bool) := do
  bump .L_ANGLE
  let hasError ← iterate (ts [.R_ANGLE, .L_PAREN, .L_CURLY]) (fun hasError => do
    let a ← typeArg R false
    if !a then pure (false, true)
    else do
      let c ← eat .COMMA
      if !c then do
        let f ← atTs PATH_FIRST
        if f then do
          error
          pure (true, true)
        else pure (false, hasError)
      else pure (true, hasError)) false
  if hasError then pure (.rollback, false)
  else do
    let r ← eat .R_ANGLE
    if !r then pure (.rollback, false)
    else pure (.complete .TYPE_ARG_LIST, true)

/-- `opt_type_arg_list_for_expr` (43-84). -/
def optTypeArgListForExpr (R : Rec) (colonColonRequired : Bool) : P Bool := do
  let c ← at' .COLON_COLON
  let l1 ← nthAt 1 .L_ANGLE
  let l ← at' .L_ANGLE
  let w ← prevWs
  if c && l1 then block do
    bump .COLON_COLON
    typeArgListForExpr R
  else if !l then pure true
  else if !colonColonRequired || w == 0 then block (typeArgListForExpr R)
  else pure true

/-- `opt_path_type_arg_list` (14-21). -/
def optPathTypeArgList (R : Rec) (mode : PathMode) : P Unit :=
  match mode with
  | .Type => optTypeArgListForType R
  | .Expr => drop (optTypeArgListForExpr R false)

/-- `path_segment` (paths.rs 63-99): whether there is a segment. -/
def pathSegment (R : Rec) (mode : Option PathMode) (isFirst : Bool) : P Bool := block do
  let k ← current
  if k = .IDENT then do
    drop nameRef
    match mode with
    | some m => do
      optPathTypeArgList R m
      pure (.complete .PATH_SEGMENT, true)
    | none => pure (.complete .PATH_SEGMENT, true)
  else if k = .UNDERSCORE then do
    drop (node .NAME_REF (bumpRemap .IDENT))
    pure (.complete .PATH_SEGMENT, true)
  else if k = .INT_NUMBER ∧ isFirst = true then do
    drop (node .PATH_ADDRESS valueAddress)
    pure (.complete .PATH_SEGMENT, true)
  else do
    errorAndRecover (itemStartRecSet.join (.ofTs PAT_STMT_FIRST))
    pure (.abandon, false)

/-- The loop of `path` (paths.rs 46-60). -/
def pathLoop (R : Rec) (mode : Option PathMode) (cm : CM) : P (Bool × CM) := do
  let c ← at' .COLON_COLON
  let g ← nthAt 1 .L_CURLY
  if !c || g then pure (false, cm)
  else do
    let r ← preceded cm do
      bump .COLON_COLON
      drop (pathSegment R mode false)
      pure (SyntaxKind.PATH, ())
    pure (true, r.1)

/-- `path` (paths.rs 38-61). -/
def path (R : Rec) (mode : Option PathMode) : P Bool := do
  let r ← marked do
    let seg ← pathSegment R mode true
    pure (if seg then Outcome.complete .PATH else .abandon, ())
  match r.1 with
  | none => pure false
  | some cm => do
    drop (loop (pathLoop R mode) cm)
    pure true

/-! `types.rs`, `type_params.rs`. -/

/-- `path_type` (types.rs 17-30). -/
def pathType (R : Rec) : P Bool := do
  let p ← isPathStart
  if !p then pure false
  else block do
    let isPath ← path R (some .Type)
    if !isPath then pure (.abandon, false)
    else pure (.complete .PATH_TYPE, true)

/-- `type_` (38-40). -/
def type_ (R : Rec) : P Bool := R.typ .new

/-- `type_annotation` (32-36). -/
def typeAnnotation (R : Rec) : P Unit := do
  assert (← at' .COLON) .COLON
  bump .COLON
  drop (type_ R)

/-- `ref_type` (58-65). -/
def refType (R : Rec) : P Unit := do
  assert (← at' .AMP) .AMP
  drop (node .REF_TYPE do
    bump .AMP
    drop (eat .MUT_KW)
    drop (type_ R))

/-- The loop of `ability_bound_list` (type_params.rs 71-75). -/
def abilityBoundLoop (_ : Unit) : P (Bool × Unit) := do
  let a ← ability
  if !a then pure (false, ())
  else do
    let e ← eat .PLUS
    pure (e, ())

/-- `ability_bound_list` (type_params.rs 69-77). -/
def abilityBoundList : P Unit :=
  drop (node .ABILITY_BOUND_LIST (loop abilityBoundLoop ()))

/-- The element of the list in `lambda_type` (types.rs 76-86). -/
def lambdaTypeParam (R : Rec) : P Bool := do
  drop (nodeOf do
    let isType ← R.typ (.ofTs (ts [.COMMA, .PIPE]))
    pure (if isType then SyntaxKind.LAMBDA_TYPE_PARAM else .ERROR))
  pure true

/-- `lambda_type` (types.rs 67-106). -/
def lambdaType (R : Rec) : P Unit := do
  assert (← at' .PIPE) .PIPE
  block do
    bump .PIPE
    let c ← at' .COMMA
    if c then pure (.rollback, ())
    else do
      delimited (lambdaTypeParam R) .COMMA (some .PIPE)
      let e ← eat .PIPE
      if !e then pure (.rollback, ())
      else do
        let h ← atKwIdent "has"
        let f ← atTs TYPE_FIRST
        iff (!h && f) (drop (type_ R))
        let h ← atKwIdent "has"
        iff h (drop (node .LAMBDA_TYPE_ABILITY_LIST do
          bumpRemap .HAS_KW
          abilityBoundList))
        pure (.complete .LAMBDA_TYPE, ())

/-- `paren_or_tuple_or_unit_type` (types.rs 108-140). -/
def parenOrTupleOrUnitType (R : Rec) : P Unit := do
  assert (← at' .L_PAREN) .L_PAREN
  drop (nodeOf do
    bump .L_PAREN
    let v ← iterate (ts [.R_PAREN]) (fun (v : Nat × Bool) => do
      drop (type_ R)
      let c ← eat .COMMA
      pure (c, (v.1 + 1, c))) (0, false)
    drop (expect .R_PAREN)
    pure (if v.1 = 1 ∧ v.2 = false then SyntaxKind.PAREN_TYPE else if v.1 = 0 then .UNIT_TYPE else .TUPLE_TYPE))

/-- `type_or_recover` (types.rs 42-56). -/
def typeOrRecover (R : Rec) (extra : RSet) : P Bool := do
  let k ← current
  let s ← isPathStart
  if k = .L_PAREN then do
    parenOrTupleOrUnitType R
    pure true
  else if k = .AMP then do
    refType R
    pure true
  else if k = .PIPE then do
    lambdaType R
    pure true
  else if s then pathType R
  else do
    errorAndRecover extra
    pure false

/-- `colon_ability_bound_list` (type_params.rs 61-67). -/
def colonAbilityBoundList : P Unit := do
  assert (← at' .COLON) .COLON
  drop (node .ABILITY_BOUND_LIST do
    bump .COLON
    delimited ability .PLUS none)

/-- `type_param` (type_params.rs 34-59). -/
def typeParam : P Bool := block do
  let hasPhantom ← atKwIdent "phantom"
  iff hasPhantom (bumpRemap .PHANTOM_KW)
  let hasName ← name
  if !hasName && hasPhantom then pure (.complete .TYPE_PARAM, false)
  else do
    let c ← at' .COLON
    iff (hasName && c) colonAbilityBoundList
    if hasName || hasPhantom then pure (.complete .TYPE_PARAM, true)
    else pure (.abandon, false)

/-- `type_param_list` (type_params.rs 22-32). -/
def typeParamList : P Unit := drop (node .TYPE_PARAM_LIST do
  bump .L_ANGLE
  withRecTok .R_ANGLE (delimited typeParam .COMMA (some .R_ANGLE))
  drop (expect .R_ANGLE))

/-- `opt_type_param_list` (type_params.rs 16-20). -/
def optTypeParamList : P Unit := do
  let l ← at' .L_ANGLE
  iff l typeParamList

/-! `expressions.rs` (the part types and attributes need), `attributes.rs`. -/

/-- `expr` (expressions.rs 25-32). -/
def expr (R : Rec) : P Bool := do
  let r ← R.exprBp ⟨false, false⟩ 1
  pure r.isSome

/-- `top_level_expr_in_stmt` (expressions.rs 360-366). -/
def topLevelExprInStmt (R : Rec) : P (Option (CM × BlockLike)) := R.exprBp ⟨false, true⟩ 1

/-- `opt_initializer_expr` (expressions.rs 352-358). -/
def optInitializerExpr (R : Rec) : P Unit := do
  let e ← eat .EQ
  if e then do
    let b ← expr R
    iff (!b) error
  else pure ()

/-- `expect_expr` (specs/predicates.rs 223-227). -/
def expectExpr (R : Rec) : P Unit := do
  let b ← expr R
  iff (!b) error

/-- `initializer_expr` (items.rs 167-178). -/
def initializerExpr (R : Rec) : P Unit := block do
  let e ← expect .EQ
  if !e then pure (.abandon, ())
  else do
    let b ← expr R
    iff (!b) error
    pure (.complete .INITIALIZER, ())

/-- `attr_item_list` (attributes.rs 68-72). -/
def attrItemList (R : Rec) (lparen rparen : SyntaxKind) : P Unit := do
  bump lparen
  delimited R.attrItem .COMMA (some rparen)
  drop (expect rparen)

/-- `attr_item` (attributes.rs 39-66). -/
def attrItem (R : Rec) : P Bool := do
  drop (node .ATTR_ITEM do
    drop (path R none)
    let e ← at' .EQ
    let l ← at' .L_PAREN
    if e then initializerExpr R
    else if l then drop (node .ATTR_ITEM_LIST (attrItemList R .L_PAREN .R_PAREN))
    else pure ())
  pure true

/-- `attr` (attributes.rs 24-37). -/
def attr (R : Rec) : P CM := do
  assert (← at' .POUND) .POUND
  node .ATTR do
    bump .POUND
    let l ← at' .L_BRACK
    if l then attrItemList R .L_BRACK .R_BRACK else error

/-- The loop of `attrs` (attributes.rs 18-20). -/
def attrsLoop (R : Rec) (last : Option CM) : P (Bool × Option CM) := do
  let h ← at' .POUND
  if h then do
    let cm ← attr R
    pure (true, some cm)
  else pure (false, last)

/-- `attrs` (attributes.rs 16-22). Of the markers only the last one is used. -/
def attrs (R : Rec) : P (Option CM) := loop (attrsLoop R) none

end Verif.Parser
