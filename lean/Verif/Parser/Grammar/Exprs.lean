import Verif.Parser.Grammar.Base

/-! Model of the grammar: patterns, quantifiers, blocks and expressions. -/

namespace Verif.Parser
open Verif.Syntax (SyntaxKind)
open Verif.TokenSet (TSet)

/-! `expressions/atom.rs`: literals. -/

/-- The part of `literal` (expressions/atom.rs 17-45) up to the end of its marker; the value is whether the token is a
bad character. -/
def literalBlock : P (Outcome × Bool) := do
  let k ← current
  let c ← nthAt 1 .COLON_COLON
  if k = .INT_NUMBER ∧ c = true then pure (.abandon, false)
  else if k = .AT then do
    drop (node .ADDRESS_LIT do
      bump .AT
      anyAddress)
    pure (.complete .LITERAL, false)
  else if k = .INT_NUMBER ∨ k = .BYTE_STRING ∨ k = .HEX_STRING ∨ k = .TRUE_KW ∨ k = .FALSE_KW then do
    bumpAny
    pure (.complete .LITERAL, false)
  else pure (.abandon, k == .BAD_CHARACTER)

/-- `literal` (expressions/atom.rs 17-45). -/
def literal : P (Option CM) := do
  let r ← marked literalBlock
  iff r.2 errorAndBump
  pure r.1

/-- `is_literal_pat_start` (expressions/atom.rs 47-49). -/
def isLiteralPatStart : P Bool := do
  let m ← at' .MINUS
  let k ← nth 1
  let l ← atTs LITERAL_FIRST
  pure ((m && k == .INT_NUMBER) || l)

/-! `patterns.rs`, `params.rs`, `lambdas.rs`. -/

/-- `wildcard_pat` (patterns.rs 193-198). -/
def wildcardPat : P CM := do
  assert (← at' .UNDERSCORE) .UNDERSCORE
  node .WILDCARD_PAT (bump .UNDERSCORE)

/-- `ident_pat` (patterns.rs 254-258). -/
def identPat : P CM := node .IDENT_PAT (drop name)

/-- `ident_pat_or_recover` (patterns.rs 82-92). -/
def identPatOrRecover : P Bool := do
  let k ← current
  if k = .IDENT then do
    drop identPat
    pure true
  else if k = .UNDERSCORE then do
    drop wildcardPat
    pure true
  else do
    errorAndRecover .new
    pure false

/-- `literal_pat` (patterns.rs 59-64). -/
def literalPat : P CM := node .LITERAL_PAT do
  drop (eat .MINUS)
  drop literal

/-- `tuple_pat_fields` (patterns.rs 118-125). -/
def tuplePatFields (R : Rec) : P Unit := do
  assert (← at' .L_PAREN) .L_PAREN
  bump .L_PAREN
  delimited R.pattern .COMMA (some .R_PAREN)
  drop (expect .R_PAREN)

/-- `struct_pat_field` (patterns.rs 127-152). -/
def structPatField (R : Rec) : P Bool := do
  let k ← current
  let k1 ← nth 1
  if k = .IDENT ∧ k1 = .COLON then do
    drop nameRef
    bump .COLON
    drop R.pattern
    pure true
  else if k = .IDENT then do
    drop identPat
    pure true
  else if k = .UNDERSCORE then do
    drop wildcardPat
    pure true
  else if k = .DOT_DOT then do
    drop (node .REST_PAT (bump .DOT_DOT))
    pure true
  else do
    errorAndRecover .new
    pure false

/-- The element of the list in `struct_pat_field_list` (patterns.rs 162-182). -/
def structPatElement (R : Rec) : P Bool := block do
  let k ← current
  if k = .R_CURLY then pure (.abandon, true)
  else do
    let b ← structPatField R
    pure (.complete .STRUCT_PAT_FIELD, b)

/-- `struct_pat_field_list` (patterns.rs 154-191). -/
def structPatFieldList (R : Rec) : P Unit := do
  assert (← at' .L_CURLY) .L_CURLY
  drop (node .STRUCT_PAT_FIELD_LIST do
    bump .L_CURLY
    withRecTok .R_CURLY (delimited (structPatElement R) .COMMA (some .R_CURLY))
    drop (expect .R_CURLY))

/-- `path_pat` (patterns.rs 66-80). -/
def pathPat (R : Rec) : P Unit := drop (nodeOf do
  drop (path R (some .Type))
  let k ← current
  if k = .L_PAREN then do
    tuplePatFields R
    pure SyntaxKind.TUPLE_STRUCT_PAT
  else if k = .L_CURLY then do
    structPatFieldList R
    pure .STRUCT_PAT
  else pure .PATH_PAT)

/-- `tuple_or_unit_or_paren_pat` (patterns.rs 214-252). -/
def tupleOrUnitOrParenPat (R : Rec) : P Unit := do
  assert (← at' .L_PAREN) .L_PAREN
  drop (nodeOf do
    bump .L_PAREN
    let outer ← outerRec
    -- whether there is a pattern, whether there is a comma
    let v ← iterate (ts [.R_PAREN]) (fun (v : Bool × Bool) => do
      let found ← withRecTs (ts [.COMMA, .R_PAREN]) R.pattern
      let c ← containsCurrent outer
      if c then pure (false, (v.1 || found, v.2))
      else do
        let r ← at' .R_PAREN
        if r then pure (true, (v.1 || found, v.2))
        else do
          let e ← expect .COMMA
          pure (true, (v.1 || found, v.2 || e))) (false, false)
    drop (expect .R_PAREN)
    pure (if !v.1 && !v.2 then SyntaxKind.UNIT_PAT else if v.1 && !v.2 then .PAREN_PAT else .TUPLE_PAT))

/-- `pattern` (patterns.rs 17-57). -/
def pattern (R : Rec) : P Bool := do
  let k ← current
  let c ← nthAt 1 .COLON_COLON
  let k1 ← nth 1
  let l ← isLiteralPatStart
  if k = .INT_NUMBER ∧ c = true then do
    pathPat R
    pure true
  else if k = .IDENT then do
    (if k1 = .COLON_COLON ∨ k1 = .L_PAREN ∨ k1 = .L_CURLY ∨ k1 = .L_ANGLE then pathPat R else drop identPat)
    pure true
  else if l then do
    let cm ← literalPat
    let d ← at' .DOT_DOT
    iff d (drop (preceded cm do
      bump .DOT_DOT
      let l ← isLiteralPatStart
      iff l (drop literalPat)
      pure (SyntaxKind.RANGE_PAT, ())))
    pure true
  else if k = .DOT_DOT then do
    drop (nodeOf do
      bump .DOT_DOT
      let l ← isLiteralPatStart
      if l then do
        drop literalPat
        pure SyntaxKind.RANGE_PAT
      else pure .REST_PAT)
    pure true
  else if k = .UNDERSCORE then do
    drop wildcardPat
    pure true
  else if k = .L_PAREN then do
    tupleOrUnitOrParenPat R
    pure true
  else do
    errorAndRecover .new
    pure false

/-- `param` (params.rs 21-31). -/
def param (R : Rec) : P Bool := do
  drop (node .PARAM do
    let i ← identPatOrRecover
    if i then do
      let e ← expect .COLON
      if e then drop (withRecTok .COMMA (type_ R)) else pure ()
    else pure ())
  pure true

/-- `fun_param_list` (params.rs 11-19). -/
def funParamList (R : Rec) : P Unit := drop (node .PARAM_LIST do
  bump .L_PAREN
  withRecTok .R_PAREN (delimited (param R) .COMMA (some .R_PAREN))
  drop (expect .R_PAREN))

/-- `lambda_param` (lambdas.rs 33-43). -/
def lambdaParam (R : Rec) : P Bool := do
  drop (node .LAMBDA_PARAM do
    let i ← identPatOrRecover
    let c ← at' .COLON
    iff (i && c) (typeAnnotation R))
  pure true

/-- `lambda_param_list` (lambdas.rs 14-31). -/
def lambdaParamList (R : Rec) : P Bool := block do
  bump .PIPE
  let c ← at' .COMMA
  if c then pure (.abandon, false)
  else do
    delimited (lambdaParam R) .COMMA (some .PIPE)
    let e ← eat .PIPE
    if !e then pure (.rollback, false)
    else pure (.complete .LAMBDA_PARAM_LIST, true)

/-! Blocks (`expressions/blocks.rs`, `specs.rs`). -/

/-- `stmt_list` (blocks.rs 64-73). -/
def stmtList (R : Rec) : P Unit := iterate (ts [.R_CURLY]) (fun _ => do
  let s ← at' .SEMICOLON
  if s then do
    bump .SEMICOLON
    pure (true, ())
  else do
    withRecTs (ts [.R_CURLY]) R.stmt
    pure (true, ())) ()

/-- `block_expr` (blocks.rs 40-52). -/
def blockExpr (R : Rec) : P CM := do
  assert (← at' .L_CURLY) .L_CURLY
  resetRecovery (node .BLOCK_EXPR do
    bump .L_CURLY
    stmtList R
    drop (expect .R_CURLY))

/-- `inline_expr` (expressions/atom.rs 397-402). -/
def inlineExpr (R : Rec) : P Unit := do
  let c ← at' .L_CURLY
  assert (!c) .INLINE_EXPR
  drop (node .INLINE_EXPR (drop (expr R)))

/-- `block_or_inline_expr` (blocks.rs 32-38). -/
def blockOrInlineExpr (R : Rec) : P Unit := do
  let c ← at' .L_CURLY
  if c then drop (blockExpr R) else inlineExpr R

/-- `unexpected_block` (blocks.rs 54-62). -/
def unexpectedBlock (R : Rec) : P Unit := do
  assert (← at' .L_CURLY) .L_CURLY
  drop (node .ERROR do
    error
    bump .L_CURLY
    stmtList R
    drop (eat .R_CURLY))

/-- `block_expr` under a statement kind, or an error (specs.rs 29-33 and the like). -/
def blockOrError (R : Rec) (k : StmtKind) : P Unit := do
  let c ← at' .L_CURLY
  if c then drop (withStmt k (blockExpr R)) else error

/-- `spec_block_expr` (specs.rs 25-35). -/
def specBlockExpr (R : Rec) : P CM := do
  assert (← at' .SPEC_KW) .SPEC_KW
  node .SPEC_BLOCK_EXPR do
    bump .SPEC_KW
    blockOrError R .Spec

/-- `opt_spec_block_expr` (specs.rs 19-23). -/
def optSpecBlockExpr (R : Rec) : P Unit := do
  let s ← at' .SPEC_KW
  iff s (drop (specBlockExpr R))

/-! `expressions.rs`: argument lists and literals of structs. -/

/-- The element of the list in `value_arg_list` (expressions.rs 309-324). -/
def valueArg (R : Rec) : P Bool := block do
  let b ← expr R
  if b then pure (.complete .VALUE_ARG, true)
  else do
    let c ← at' .COMMA
    pure (if c then Outcome.complete .VALUE_ARG else .abandon, false)

/-- `value_arg_list` (expressions.rs 303-331). -/
def valueArgList (R : Rec) : P Unit := do
  assert (← at' .L_PAREN) .L_PAREN
  drop (node .VALUE_ARG_LIST do
    bump .L_PAREN
    delimited (valueArg R) .COMMA (some .R_PAREN)
    drop (expect .R_PAREN))

/-- The marked part of the block in `struct_lit_field_list` (expressions.rs 119-137). -/
def structLitField (R : Rec) : P Unit := block do
  let k ← current
  let c ← nthAt 1 .COLON
  if k = .IDENT ∧ c = true then do
    drop nameRef
    bump .COLON
    expectExpr R
    pure (.complete .STRUCT_LIT_FIELD, ())
  else if k = .IDENT then do
    drop (expr R)
    pure (.complete .STRUCT_LIT_FIELD, ())
  else do
    errorAndBump
    pure (.abandon, ())

/-- `if !p.at(T!['}']) { p.expect(T![,]); }`, the end of the blocks of several loops. -/
def commaUnless (k : SyntaxKind) : P Unit := do
  let r ← at' k
  iff (!r) (drop (expect .COMMA))

/-- `struct_lit_field_list` (expressions.rs 114-145). -/
def structLitFieldList (R : Rec) : P Unit := do
  assert (← at' .L_CURLY) .L_CURLY
  drop (node .STRUCT_LIT_FIELD_LIST do
    bump .L_CURLY
    iterate (ts [.R_CURLY]) (fun _ => do
      structLitField R
      commaUnless .R_CURLY
      pure (true, ())) ()
    drop (expect .R_CURLY))

/-! `specs/quants.rs`, `specs/behavior.rs`. -/

/-- `opt_where_expr` (quants.rs 132-140). -/
def optWhereExpr (R : Rec) : P Unit := do
  let w ← atKwIdent "where"
  iff w (drop (node .WHERE_EXPR do
    bumpRemap .WHERE_KW
    expectExpr R))

/-- `weight` (quants.rs 142-164). -/
def weight (R : Rec) : P Unit := do
  assert (← at' .L_BRACK) .L_BRACK
  block do
    bump .L_BRACK
    withRecTok .R_BRACK do
      let w ← atKwIdent "weight"
      if !w then do
        error
        pure (.abandon, ())
      else do
        bumpRemap .WEIGHT_KW
        drop (expect .EQ)
        let e ← expr R
        if !e then do
          error
          pure (.abandon, ())
        else do
          drop (expect .R_BRACK)
          pure (.complete .WEIGHT, ())

/-- `quant_trigger_list` (quants.rs 120-130). -/
def quantTriggerList (R : Rec) : P Unit := do
  assert (← at' .L_CURLY) .L_CURLY
  drop (node .QUANT_TRIGGER_LIST do
    bump .L_CURLY
    resetRecovery (delimited (expr R) .COMMA (some .R_CURLY))
    drop (expect .R_CURLY))

/-- `quant_binding` (quants.rs 97-118). -/
def quantBinding (R : Rec) : P Bool := do
  let w ← atKwIdent "where"
  if w then pure false
  else block do
    drop identPatOrRecover
    let k ← current
    let i ← atKw "in"
    if k = .COLON then do
      typeAnnotation R
      pure (.complete .QUANT_BINDING, true)
    else if k = .IDENT ∧ i = true then do
      bumpRemap .IN_KW
      expectExpr R
      pure (.complete .QUANT_BINDING, true)
    else pure (.rollback, false)

/-- `quant_binding_list` (quants.rs 83-95). -/
def quantBindingList (R : Rec) (extraStop : RSet) : P Unit := drop (node .QUANT_BINDING_LIST
  (withRecovery (((RSet.new.withTs (ts [.SEMICOLON, .L_CURLY, .COLON])).withKw "where").join extraStop)
    (delimited (quantBinding R) .COMMA none)))

/-- The part of `forall_expr` and `exists_expr` after the keyword (quants.rs 34-44, 54-64). -/
def quantTail (R : Rec) : P Unit := do
  quantBindingList R (.ofTs (ts [.L_BRACK]))
  let c ← at' .L_CURLY
  iff c (quantTriggerList R)
  let b ← at' .L_BRACK
  iff b (weight R)
  optWhereExpr R
  let e ← expect .COLON
  if e then expectExpr R else pure ()

/-- `forall_expr`, `exists_expr`, `choose_expr` (quants.rs 28-81) one after the other, then `unreachable!`
(expressions.rs 168-177). -/
def quantExpr (R : Rec) : P CM := do
  let f ← atKwIdent "forall"
  let x ← atKwIdent "exists"
  let c ← atKwIdent "choose"
  if f then node .FORALL_EXPR do
    bumpRemap .FORALL_KW
    quantTail R
  else if x then node .EXISTS_EXPR do
    bumpRemap .EXISTS_KW
    quantTail R
  else if c then node .CHOOSE_EXPR do
    bumpRemap .CHOOSE_KW
    let m ← atKwIdent "min"
    iff m (bumpRemap .MIN_KW)
    drop (quantBinding R)
    optWhereExpr R
  else crash .unreachable

/-- `is_at_quant_kw` (quants.rs 19-26). -/
def isAtQuantKw : P Bool := do
  let f ← atKw "forall"
  let x ← atKw "exists"
  let c ← atKw "choose"
  let n ← nthAt 1 .COLON
  let i ← nthAt 1 .IDENT
  pure ((f || x || c) && (n || i))

/-- `behavior_predicate` (behavior.rs 9-24): the condition. -/
def atBehaviorPredicate : P Bool := do
  let a ← atKwIdent "requires_of"
  let b ← atKwIdent "aborts_of"
  let c ← atKwIdent "ensures_of"
  let d ← atKwIdent "result_of"
  let l ← nthAt 1 .L_ANGLE
  pure ((a || b || c || d) && l)

/-- `behavior_predicate` (behavior.rs 16-20). -/
def behaviorPredicate (R : Rec) : P CM := node .BEHAVIOR_PREDICATE_EXPR do
  bump .IDENT
  drop (optTypeArgListForExpr R false)
  valueArgList R

/-! `expressions/atom.rs`. -/

/-- `path_expr` (atom.rs 150-161). -/
def pathExpr (R : Rec) : P CM := nodeOf do
  drop (path R (some .Expr))
  let k ← current
  if k = .L_CURLY then do
    structLitFieldList R
    pure SyntaxKind.STRUCT_LIT
  else pure .PATH_EXPR

/-- `vector_lit_expr` (atom.rs 163-176). -/
def vectorLitExpr (R : Rec) : P CM := node .VECTOR_LIT_EXPR do
  bump .IDENT
  optPathTypeArgList R .Type
  let b ← at' .L_BRACK
  if b then do
    bump .L_BRACK
    delimited (expr R) .COMMA (some .R_BRACK)
    drop (expect .R_BRACK)
  else errorAndRecover (.ofTs STMT_FIRST)

/-- `match_arm` (atom.rs 360-387), called with an empty recovery set. -/
def matchArm (R : Rec) : P Unit := block do
  drop (withRecTs (ts [.FAT_ARROW, .R_CURLY]) R.pattern)
  let i ← at' .IF_KW
  iff i (drop (node .MATCH_GUARD do
    bump .IF_KW
    drop (expr R)))
  let a ← at' .FAT_ARROW
  if !a then do
    errorAndRecover .new
    pure (.abandon, ())
  else do
    bump .FAT_ARROW
    let r ← topLevelExprInStmt R
    let isBlock := match r with
      | some (_, b) => b.isBlock
      | none => false
    let c ← eat .COMMA
    let e ← at' .R_CURLY
    iff (!c && !isBlock && !e) error
    pure (.complete .MATCH_ARM, ())

/-- `match_arm_list` (atom.rs 345-358). -/
def matchArmList (R : Rec) : P Unit := do
  assert (← at' .L_CURLY) .L_CURLY
  drop (node .MATCH_ARM_LIST do
    drop (eat .L_CURLY)
    resetRecovery (iterate (ts [.R_CURLY]) (fun _ => do
      matchArm R
      pure (true, ())) ())
    drop (expect .R_CURLY))

/-- `match_expr` (atom.rs 178-194). -/
def matchExpr (R : Rec) : P (Option CM) := do
  let r ← marked do
    bumpRemap .MATCH_KW
    bump .L_PAREN
    drop (expr R)
    drop (expect .R_PAREN)
    let c ← at' .L_CURLY
    if !c then pure (.rollback, ())
    else do
      matchArmList R
      pure (.complete .MATCH_EXPR, ())
  pure r.1

/-- `assert_macro_expr` (atom.rs 196-208). -/
def assertMacroExpr (R : Rec) : P CM := do
  assert (← at' .IDENT) .IDENT
  node .ASSERT_MACRO_EXPR do
    bump .IDENT
    bump .BANG
    let l ← at' .L_PAREN
    if l then valueArgList R else error

/-- `paren_or_tuple_or_annotated_expr` (atom.rs 217-264). The variables are `outer`, `saw_comma`, `saw_expr`,
`saw_type_annotation`. -/
def parenOrTupleOrAnnotatedExpr (R : Rec) : P CM := do
  assert (← at' .L_PAREN) .L_PAREN
  nodeOf do
    bump .L_PAREN
    let r ← at' .R_PAREN
    if r then do
      bump .R_PAREN
      pure .UNIT_EXPR
    else do
      let v ← iterate (ts [.R_PAREN]) (fun (v : Bool × Bool × Bool × Bool) => do
        let b ← expr R
        if !b then pure (false, (v.1, v.2.1, true, v.2.2.2))
        else do
          let c ← at' .COLON
          if v.1 && c then do
            typeAnnotation R
            pure (false, (v.1, v.2.1, true, true))
          else do
            let r ← at' .R_PAREN
            if r then pure (true, (false, v.2.1, true, v.2.2.2))
            else do
              drop (expect .COMMA)
              pure (true, (false, true, true, v.2.2.2))) (true, false, false, false)
      drop (expect .R_PAREN)
      pure (if v.2.2.2 then SyntaxKind.ANNOTATED_EXPR
        else if v.2.2.1 && !v.2.1 then .PAREN_EXPR else .TUPLE_EXPR)

/-- `condition` (atom.rs 331-343). -/
def condition (R : Rec) : P Unit := drop (node .CONDITION do
  drop (expect .L_PAREN)
  drop (R.exprBp ⟨true, false⟩ 1)
  drop (expect .R_PAREN))

/-- `if_expr` (atom.rs 266-278). -/
def ifExpr (R : Rec) : P CM := do
  assert (← at' .IF_KW) .IF_KW
  node .IF_EXPR do
    bump .IF_KW
    condition R
    blockOrInlineExpr R
    let e ← at' .ELSE_KW
    iff e do
      bump .ELSE_KW
      blockOrInlineExpr R

/-- `loop_expr` (atom.rs 288-294) without its marker. -/
def loopBody (R : Rec) : P Unit := do
  assert (← at' .LOOP_KW) .LOOP_KW
  bump .LOOP_KW
  blockOrInlineExpr R

/-- `for_condition` (atom.rs 305-319). -/
def forCondition (R : Rec) : P Unit := drop (node .FOR_CONDITION do
  drop (expect .L_PAREN)
  drop identPatOrRecover
  let d ← at' .IDENT
  let i ← atKw "in"
  (if d && i then do
    bumpRemap .IN_KW
    drop (expr R)
  else errorAndRecover (.ofTs (TokenSet.setOrKind EXPR_FIRST .R_PAREN)))
  optSpecBlockExpr R
  drop (expect .R_PAREN))

/-- `for_expr` (atom.rs 296-303) without its marker. -/
def forBody (R : Rec) : P Unit := do
  let d ← at' .IDENT
  let f ← atKw "for"
  assert (d && f) .FOR_KW
  bumpRemap .FOR_KW
  forCondition R
  blockOrInlineExpr R

/-- `while_expr` (atom.rs 321-329) without its marker. -/
def whileBody (R : Rec) : P Unit := do
  assert (← at' .WHILE_KW) .WHILE_KW
  bump .WHILE_KW
  condition R
  blockOrInlineExpr R
  optSpecBlockExpr R

/-- `label_decl` (atom.rs 280-286). -/
def labelDecl : P Unit := do
  let q ← at' .QUOTE_IDENT
  let k ← nth 1
  assert (q && k == .COLON) .QUOTE_IDENT
  drop (node .LABEL_DECL do
    bump .QUOTE_IDENT
    bump .COLON)

/-- `opt_label` (atom.rs 448-454). -/
def optLabel : P Unit := do
  let q ← at' .QUOTE_IDENT
  iff q (drop (node .LABEL (drop (eat .QUOTE_IDENT))))

/-- The optional operand of `return`, `abort` and `break` (atom.rs 408-410, 418-420, 442-444). -/
def optOperand (R : Rec) : P Unit := do
  let f ← atTs EXPR_FIRST
  iff f (drop (expr R))

/-- `return_expr` (atom.rs 404-412). -/
def returnExpr (R : Rec) : P CM := do
  assert (← at' .RETURN_KW) .RETURN_KW
  node .RETURN_EXPR do
    bump .RETURN_KW
    optOperand R

/-- `abort_expr` (atom.rs 414-422). -/
def abortExpr (R : Rec) : P CM := do
  assert (← at' .ABORT_KW) .ABORT_KW
  node .ABORT_EXPR do
    bump .ABORT_KW
    optOperand R

/-- `continue_expr` (atom.rs 424-430). -/
def continueExpr : P CM := do
  assert (← at' .CONTINUE_KW) .CONTINUE_KW
  node .CONTINUE_EXPR do
    bump .CONTINUE_KW
    optLabel

/-- `break_expr` (atom.rs 432-446). -/
def breakExpr (R : Rec) : P CM := do
  assert (← at' .BREAK_KW) .BREAK_KW
  node .BREAK_EXPR do
    bump .BREAK_KW
    optLabel
    optOperand R

/-- The labelled loops of `atom_expr` (atom.rs 110-123). -/
def labelledLoop (R : Rec) : P (Option CM) := do
  let r ← marked do
    labelDecl
    let k ← current
    let f ← atKw "for"
    if k = .LOOP_KW then do
      loopBody R
      pure (.complete .LOOP_EXPR, true)
    else if k = .IDENT ∧ f = true then do
      forBody R
      pure (.complete .FOR_EXPR, true)
    else if k = .WHILE_KW then do
      whileBody R
      pure (.complete .WHILE_EXPR, true)
    else do
      error
      pure (.complete .ERROR, false)
  pure (if r.2 then r.1 else none)

/-- `is_blocklike` (expressions.rs 344-349). -/
def isBlocklike (k : SyntaxKind) : BlockLike :=
  if k = .BLOCK_EXPR ∨ k = .IF_EXPR ∨ k = .WHILE_EXPR ∨ k = .FOR_EXPR ∨ k = .LOOP_EXPR ∨ k = .MATCH_EXPR then .Block
  else .NotBlock

/-- `is_assert_ident` (atom.rs 141-148). -/
def isAssertIdent : P Bool := do
  let a ← atKwIdent "assert"
  let b ← atKwIdent "assert_eq"
  let c ← atKwIdent "assert_ne"
  let d ← atKwIdent "debug_assert"
  let e ← atKwIdent "debug_assert_eq"
  let f ← atKwIdent "debug_assert_ne"
  pure (a || b || c || d || e || f)

/-- The last part of `atom_expr` (atom.rs 104-138). -/
def keywordAtom (R : Rec) : P (Option (CM × BlockLike)) := do
  let k ← current
  let k1 ← nth 1
  let done ← (
    if k = .L_PAREN then do let c ← parenOrTupleOrAnnotatedExpr R; pure (some c)
    else if k = .SPEC_KW then do let c ← specBlockExpr R; pure (some c)
    else if k = .IF_KW then do let c ← ifExpr R; pure (some c)
    else if k = .LOOP_KW then do let c ← node .LOOP_EXPR (loopBody R); pure (some c)
    else if k = .WHILE_KW then do let c ← node .WHILE_EXPR (whileBody R); pure (some c)
    else if k = .QUOTE_IDENT ∧ k1 = .COLON then labelledLoop R
    else if k = .L_CURLY then do let c ← blockExpr R; pure (some c)
    else if k = .RETURN_KW then do let c ← returnExpr R; pure (some c)
    else if k = .ABORT_KW then do let c ← abortExpr R; pure (some c)
    else if k = .CONTINUE_KW then do let c ← continueExpr; pure (some c)
    else if k = .BREAK_KW then do let c ← breakExpr R; pure (some c)
    else pure none : P (Option CM))
  pure (done.map fun c => (c, isBlocklike c.kind))

/-- The part of `atom_expr` after the `match` (atom.rs 92-138). -/
def atomAfterMatch (R : Rec) : P (Option (CM × BlockLike)) := do
  let a ← isAssertIdent
  let b ← nthAt 1 .BANG
  let f ← atKw "for"
  let l ← nthAt 1 .L_PAREN
  let s ← isPathStart
  if a && b then do
    let c ← assertMacroExpr R
    pure (some (c, .NotBlock))
  else if f && l then do
    let c ← node .FOR_EXPR (forBody R)
    pure (some (c, .Block))
  else if s then do
    let c ← pathExpr R
    pure (some (c, .NotBlock))
  else keywordAtom R

/-- `atom_expr` (atom.rs 77-139). -/
def atomExpr (R : Rec) : P (Option (CM × BlockLike)) := do
  let lit ← literal
  match lit with
  | some cm => pure (some (cm, .NotBlock))
  | none => do
    let v ← atKwIdent "vector"
    let a ← nthAtTs 1 (ts [.L_BRACK, .L_ANGLE])
    let m ← atKw "match"
    let l ← nthAt 1 .L_PAREN
    if v && a then do
      let c ← vectorLitExpr R
      pure (some (c, .NotBlock))
    else if m && l then do
      let r ← matchExpr R
      match r with
      | some cm => pure (some (cm, .Block))
      | none => atomAfterMatch R
    else atomAfterMatch R

/-! `expressions.rs`. -/

/-- `call_expr` (atom.rs 210-215). -/
def callExpr (R : Rec) (lhs : CM) : P CM := do
  assert (← at' .L_PAREN) .L_PAREN
  let r ← preceded lhs do
    valueArgList R
    pure (SyntaxKind.CALL_EXPR, ())
  pure r.1

/-- `index_expr` (expressions.rs 294-301). -/
def indexExpr (R : Rec) (lhs : CM) : P CM := do
  assert (← at' .L_BRACK) .L_BRACK
  let r ← preceded lhs do
    bump .L_BRACK
    drop (expr R)
    drop (expect .R_BRACK)
    pure (SyntaxKind.INDEX_EXPR, ())
  pure r.1

/-- `postfix_dot_expr` (expressions.rs 256-292). -/
def postfixDotExpr (R : Rec) (lhs : CM) : P CM := do
  assert (← at' .DOT) .DOT
  let r ← preceded lhs do
    bump .DOT
    let k ← current
    if k = .IDENT then do
      drop nameRef
      let c ← atTs (ts [.L_PAREN, .COLON_COLON])
      let l ← at' .L_ANGLE
      let w ← prevWs
      if c || (l && w == 0) then do
        let ok ← optTypeArgListForExpr R true
        let p ← at' .L_PAREN
        if ok && p then do
          valueArgList R
          pure (SyntaxKind.METHOD_CALL_EXPR, ())
        else pure (.DOT_EXPR, ())
      else pure (.DOT_EXPR, ())
    else if k = .INT_NUMBER then do
      drop (node .NAME_REF bumpAny)
      pure (.DOT_EXPR, ())
    else do
      error
      pure (.DOT_EXPR, ())
  pure r.1

/-- The loop of `postfix_expr` (expressions.rs 243-252). -/
def postfixLoop (R : Rec) (v : CM × BlockLike × Bool) : P (Bool × CM × BlockLike × Bool) := do
  let k ← current
  if k = .L_PAREN ∧ v.2.2 = true then do
    let c ← callExpr R v.1
    pure (true, c, .NotBlock, true)
  else if k = .L_BRACK ∧ v.2.2 = true then do
    let c ← indexExpr R v.1
    pure (true, c, .NotBlock, true)
  else if k = .DOT then do
    let c ← postfixDotExpr R v.1
    pure (true, c, .NotBlock, true)
  else pure (false, v)

/-- `postfix_expr` (expressions.rs 234-254). -/
def postfixExpr (R : Rec) (lhs : CM) (b : BlockLike) (allowCalls : Bool) : P (CM × BlockLike) := do
  let v ← loop (postfixLoop R) (lhs, b, allowCalls)
  pure (v.1, v.2.1)

/-- The unary expressions of `lhs` (expressions.rs 161-203, 228-231). -/
def unary (R : Rec) (r : Restr) (k : SyntaxKind) (op : P Unit) : P (Option (CM × BlockLike)) := do
  let c ← node k do
    op
    drop (R.exprBp r 255)
  pure (some (c, .NotBlock))

/-- `lhs` (expressions.rs 147-232). -/
def lhs (R : Rec) (r : Restr) : P (Option (CM × BlockLike)) := do
  let k ← current
  let q ← isAtQuantKw
  let cp ← atKw "copy"
  if k = .PIPE then do
    let m ← marked do
      let ok ← lambdaParamList R
      if !ok then pure (Outcome.abandon, ())
      else do
        drop (R.exprBp r 1)
        optSpecBlockExpr R
        pure (Outcome.complete .LAMBDA_EXPR, ())
    pure (m.1.map fun c => (c, .NotBlock))
  else if k = .AMP then unary R r .BORROW_EXPR do
    bump .AMP
    drop (eat .MUT_KW)
  else if k = .IDENT ∧ q = true then do
    let c ← quantExpr R
    pure (some (c, .NotBlock))
  else if k = .IDENT ∧ cp = true then unary R r .RESOURCE_EXPR (bumpRemap .COPY_KW)
  else if k = .MOVE_KW then unary R r .RESOURCE_EXPR (bump .MOVE_KW)
  else if k = .STAR then unary R r .DEREF_EXPR (bump .STAR)
  else if k = .BANG then unary R r .BANG_EXPR (bump .BANG)
  else if k = .MINUS then unary R r .MINUS_EXPR (bump .MINUS)
  else if k = .DOT_DOT then do
    let c ← node .RANGE_EXPR do
      bump .DOT_DOT
      let f ← atTs EXPR_FIRST
      let b ← at' .L_CURLY
      iff (f && !(r.forbidStructs && b)) (drop (R.exprBp r 2))
    pure (some (c, .NotBlock))
  else do
    let sk ← stmtKind
    let bp ← atBehaviorPredicate
    if sk = .Spec ∧ bp = true then do
      let c ← behaviorPredicate R
      pure (some (c, .NotBlock))
    else do
      let a ← atomExpr R
      match a with
      | none => pure none
      | some (cm, b) => do
        let v ← postfixExpr R cm b (!(r.preferStmt && b.isBlock))
        pure (some v)

/-- `current_op` (expressions.rs 383-436). -/
def currentOp : P (Nat × SyntaxKind) := do
  let k ← current
  let isKw ← atKw "is"
  let shrEq ← at' .SHR_EQ
  let lessImplies ← at' .LESS_IMPLIES
  let shlEq ← at' .SHL_EQ
  let pipes ← at' .PIPE_PIPE
  let amps ← at' .AMP_AMP
  let ge ← at' .GT_EQ
  let shr ← at' .SHR
  let le ← at' .LT_EQ
  let shl ← at' .SHL
  pure (
    if k = .EQ then (1, .EQ)
    else if k = .R_ANGLE ∧ shrEq = true then (1, .SHR_EQ)
    else if k = .L_ANGLE ∧ lessImplies = true then (1, .LESS_IMPLIES)
    else if k = .L_ANGLE ∧ shlEq = true then (1, .SHL_EQ)
    else if k = .IMPLIES ∨ k = .PLUS_EQ ∨ k = .MINUS_EQ ∨ k = .STAR_EQ ∨ k = .SLASH_EQ ∨ k = .PIPE_EQ ∨ k = .CARET_EQ
      ∨ k = .AMP_EQ ∨ k = .PERCENT_EQ then (1, k)
    else if k = .AS_KW then (2, .AS_KW)
    else if k = .IDENT ∧ isKw = true then (2, .IS_KW)
    else if k = .DOT_DOT then (3, .DOT_DOT)
    else if k = .PIPE ∧ pipes = true then (4, .PIPE_PIPE)
    else if k = .AMP ∧ amps = true then (5, .AMP_AMP)
    else if k = .R_ANGLE ∧ ge = true then (6, .GT_EQ)
    else if k = .R_ANGLE ∧ shr = true then (10, .SHR)
    else if k = .R_ANGLE then (6, .R_ANGLE)
    else if k = .L_ANGLE ∧ le = true then (6, .LT_EQ)
    else if k = .L_ANGLE ∧ shl = true then (10, .SHL)
    else if k = .L_ANGLE then (6, .L_ANGLE)
    else if k = .NOT_EQ ∨ k = .EQ_EQ then (6, k)
    else if k = .PIPE then (7, .PIPE)
    else if k = .CARET then (8, .CARET)
    else if k = .AMP then (9, .AMP)
    else if k = .PLUS ∨ k = .MINUS then (11, k)
    else if k = .PERCENT ∨ k = .SLASH ∨ k = .STAR then (12, k)
    else (0, .AT))

/-- `cast_expr` (expressions.rs 106-112). -/
def castExpr (R : Rec) (lhs : CM) : P CM := do
  assert (← at' .AS_KW) .AS_KW
  let r ← preceded lhs do
    bump .AS_KW
    drop (type_ R)
    pure (SyntaxKind.CAST_EXPR, ())
  pure r.1

/-- The loop of `is_expr` (expressions.rs 100-102). -/
def isLoop (R : Rec) (_ : Unit) : P (Bool × Unit) := do
  let e ← eat .PIPE
  if e then do
    drop (type_ R)
    pure (true, ())
  else pure (false, ())

/-- `is_expr` (expressions.rs 96-104). -/
def isExpr (R : Rec) (lhs : CM) : P CM := do
  let r ← preceded lhs do
    bumpRemap .IS_KW
    drop (type_ R)
    loop (isLoop R) ()
    pure (SyntaxKind.IS_EXPR, ())
  pure r.1

/-- The operator of the loop of `expr_bp` (expressions.rs 73-91): whether to go on. -/
def binExpr (R : Rec) (lhs : CM) (r : Restr) (isRange : Bool) (opBp : Nat) (op : SyntaxKind) : P (CM × Bool) :=
  preceded lhs do
    bump op
    let f ← atTs EXPR_FIRST
    let b ← at' .L_CURLY
    if isRange && !(f && !(r.forbidStructs && b)) then pure (SyntaxKind.RANGE_EXPR, false)
    else do
      let cm ← R.exprBp { r with preferStmt := false } (opBp + 1)
      iff cm.isNone error
      pure (if isRange then SyntaxKind.RANGE_EXPR else .BIN_EXPR, true)

/-- The loop of `expr_bp` (expressions.rs 59-92). -/
def exprLoop (R : Rec) (bp : Nat) (v : CM × Restr) : P (Bool × CM × Restr) := do
  let isRange ← at' .DOT_DOT
  let op ← currentOp
  let as' ← at' .AS_KW
  let is' ← atKwIdent "is"
  if op.1 < bp then pure (false, v)
  else if as' then do
    let c ← castExpr R v.1
    pure (true, c, v.2)
  else if is' then do
    let c ← isExpr R v.1
    pure (true, c, v.2)
  else do
    let c ← binExpr R v.1 v.2 isRange op.1 op.2
    pure (c.2, c.1, { v.2 with preferStmt := false })

/-- `expr_bp` (expressions.rs 35-94). -/
def exprBp (R : Rec) (r : Restr) (bp : Nat) : P (Option (CM × BlockLike)) := do
  let l ← extended (lhs R r)
  match l with
  | none => pure none
  | some (cm, b) => do
    let op ← currentOp
    if r.preferStmt && b.isBlock && decide (op.1 < bp) then pure (some (cm, .Block))
    else do
      let v ← loop (exprLoop R bp) (cm, r)
      pure (some (v.1, .NotBlock))

end Verif.Parser
