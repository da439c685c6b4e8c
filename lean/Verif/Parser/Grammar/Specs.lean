import Verif.Parser.Grammar.Exprs

/-! Model of the grammar: predicates, schemas, proofs, functions in specs, statements. -/

namespace Verif.Parser
open Verif.Syntax (SyntaxKind)
open Verif.TokenSet (TSet)

/-! `specs/predicates.rs`. -/

/-- The element of the list in `opt_predicate_property_list` (predicates.rs 204-213). -/
def predicateProperty : P Bool := block do
  let found ← eat .IDENT
  let e ← at' .EQ
  iff e do
    bump .EQ
    drop literal
  pure (.complete .SPEC_PREDICATE_PROPERTY, found)

/-- `opt_predicate_property_list` (predicates.rs 196-221). -/
def optPredicatePropertyList : P Unit := do
  let l ← at' .L_BRACK
  iff l (drop (node .SPEC_PREDICATE_PROPERTY_LIST do
    bump .L_BRACK
    delimited predicateProperty .COMMA (some .R_BRACK)
    drop (expect .R_BRACK)))

/-- `condition_predicate` (predicates.rs 36-42), after the keyword is known. -/
def conditionStmt (R : Rec) (kw : SyntaxKind) : P Bool := do
  drop (node .SPEC_PREDICATE_STMT do
    bumpRemap kw
    optPredicatePropertyList
    expectExpr R
    drop (eat .SEMICOLON))
  pure true

/-- `condition_predicate` (predicates.rs 24-43). -/
def conditionPredicate (R : Rec) : P Bool := do
  let assume ← atKwIdent "assume"
  let assert' ← atKwIdent "assert"
  let requires ← atKwIdent "requires"
  let ensures ← atKwIdent "ensures"
  let decreases ← atKwIdent "decreases"
  let modifies ← atKwIdent "modifies"
  if assume then conditionStmt R .ASSUME_KW
  else if assert' then conditionStmt R .ASSERT_KW
  else if requires then conditionStmt R .REQUIRES_KW
  else if ensures then conditionStmt R .ENSURES_KW
  else if decreases then conditionStmt R .DECREASES_KW
  else if modifies then conditionStmt R .MODIFIES_KW
  else pure false

/-- `if !p.at_contextual_kw_ident(kw) { return false; } let m = p.start(); p.bump_remap(k); ...; m.complete(p, n); true`,
the form of several statements. -/
def kwStmt (kw : String) (k n : SyntaxKind) (body : P Unit) : P Bool := do
  let b ← atKwIdent kw
  if !b then pure false
  else do
    drop (node n do
      bumpRemap k
      body)
    pure true

/-- `aborts_if_predicate` (predicates.rs 45-62). -/
def abortsIfPredicate (R : Rec) : P Bool := kwStmt "aborts_if" .ABORTS_IF_KW .ABORTS_IF_STMT do
  optPredicatePropertyList
  expectExpr R
  let w ← atKwIdent "with"
  iff w (drop (node .ABORTS_IF_WITH do
    bumpRemap .WITH_KW
    expectExpr R))
  drop (eat .SEMICOLON)

/-- `opt_emits_condition` (predicates.rs 86-94). -/
def optEmitsCondition (R : Rec) : P Unit := do
  let i ← at' .IF_KW
  iff i (drop (node .EMITS_CONDITION do
    bump .IF_KW
    drop (expr R)))

/-- `emits_predicate` (predicates.rs 64-84). -/
def emitsPredicate (R : Rec) : P Bool := kwStmt "emits" .EMITS_KW .EMITS_STMT do
  optPredicatePropertyList
  drop (expr R)
  let t ← atKwIdent "to"
  if t then do
    bumpRemap .TO_KW
    drop (expr R)
    optEmitsCondition R
    drop (eat .SEMICOLON)
  else error

/-- `invariant_predicate` (predicates.rs 96-111). -/
def invariantPredicate (R : Rec) : P Bool := do
  let i ← at' .INVARIANT_KW
  if !i then pure false
  else do
    drop (node .INVARIANT_STMT do
      bump .INVARIANT_KW
      optTypeParamList
      let u ← atKwIdent "update"
      iff u (bumpRemap .UPDATE_KW)
      optPredicatePropertyList
      expectExpr R
      drop (eat .SEMICOLON))
    pure true

/-- `aborts_with_predicate` (predicates.rs 113-124). -/
def abortsWithPredicate (R : Rec) : P Bool := kwStmt "aborts_with" .ABORTS_WITH_KW .ABORTS_WITH_STMT do
  optPredicatePropertyList
  delimited (expr R) .COMMA none
  drop (eat .SEMICOLON)

/-- `axiom_predicate` (predicates.rs 126-138). -/
def axiomPredicate (R : Rec) : P Bool := kwStmt "axiom" .AXIOM_KW .AXIOM_STMT do
  optTypeParamList
  optPredicatePropertyList
  expectExpr R
  drop (eat .SEMICOLON)

/-- `a || b` on two pieces of the parser. -/
def orElse' (a b : P Bool) : P Bool := do
  let x ← a
  if x then pure true else b

/-- `spec_predicate` (predicates.rs 15-22). -/
def specPredicate (R : Rec) : P Bool :=
  orElse' (conditionPredicate R) (orElse' (abortsIfPredicate R) (orElse' (abortsWithPredicate R)
    (orElse' (invariantPredicate R) (orElse' (axiomPredicate R) (emitsPredicate R)))))

/-- `update_stmt` (predicates.rs 140-160). -/
def updateStmt (R : Rec) : P Bool := do
  let u ← atKwIdent "update"
  if !u then pure false
  else do
    block do
      bumpRemap .UPDATE_KW
      let l ← lhs R ⟨false, false⟩
      if l.isSome then do
        let e ← eat .EQ
        (if e then expectExpr R else error)
        drop (eat .SEMICOLON)
        pure (Outcome.complete .UPDATE_STMT, ())
      else pure (.abandon, ())
    pure true

/-- The element of the list in `pragma_stmt` (predicates.rs 170-186). -/
def pragmaItem (R : Rec) : P Bool := block do
  let k ← current
  if k = .FRIEND_KW then do
    bumpRemap .IDENT
    optInitializerExpr R
    pure (.complete .PRAGMA_ATTR_ITEM, true)
  else if k = .IDENT then do
    bump .IDENT
    optInitializerExpr R
    pure (.complete .PRAGMA_ATTR_ITEM, true)
  else pure (.abandon, false)

/-- `pragma_stmt` (predicates.rs 162-194). -/
def pragmaStmt (R : Rec) : P Bool := kwStmt "pragma" .PRAGMA_KW .PRAGMA_STMT do
  delimited (pragmaItem R) .COMMA none
  drop (expect .SEMICOLON)

/-! `specs/schemas.rs`. -/

/-- `schema_field` (schemas.rs 41-56). -/
def schemaField (R : Rec) : P Bool := block do
  let l ← atKwIdent "local"
  iff l (bumpRemap .LOCAL_KW)
  drop identPatOrRecover
  let c ← at' .COLON
  if c then do
    typeAnnotation R
    drop (expect .SEMICOLON)
    pure (.complete .SCHEMA_FIELD, true)
  else pure (.rollback, false)

/-- `global_variable` (schemas.rs 58-79). -/
def globalVariable (R : Rec) : P Bool := block do
  let g ← atKwIdent "global"
  if !g then pure (.abandon, false)
  else do
    bumpRemap .GLOBAL_KW
    drop name
    optTypeParamList
    let c ← at' .COLON
    if c then do
      typeAnnotation R
      optInitializerExpr R
      drop (expect .SEMICOLON)
      pure (.complete .GLOBAL_VARIABLE_DECL, true)
    else pure (.rollback, false)

/-- The element of the list in `schema_lit` (schemas.rs 259-271). -/
def schemaLitField (R : Rec) : P Bool := do
  let i ← at' .IDENT
  if !i then pure false
  else do
    drop (node .SCHEMA_LIT_FIELD do
      let c ← nthAt 1 .COLON
      iff c do
        drop nameRef
        drop (expect .COLON)
      drop (expr R))
    pure true

/-- `schema_lit` (schemas.rs 249-280). -/
def schemaLit (R : Rec) : P Unit := drop (node .SCHEMA_LIT do
  drop (path R (some .Type))
  let c ← at' .L_CURLY
  iff c (drop (node .SCHEMA_LIT_FIELD_LIST do
    bump .L_CURLY
    delimited (schemaLitField R) .COMMA (some .R_CURLY)
    drop (expect .R_CURLY))))

/-- `inner_expr` (schemas.rs 141-147). -/
def innerExpr (R : Rec) (bp : Nat) : P (Option CM) := do
  let r ← R.exprBp ⟨false, false⟩ bp
  iff r.isNone (errorAndRecover INCLUDE_SCHEMA_RECOVERY_SET)
  pure (r.map (·.1))

/-- `include_if_else_expr` (schemas.rs 149-158). -/
def includeIfElseExpr (R : Rec) : P Unit := drop (node .IF_ELSE_INCLUDE_EXPR do
  bump .IF_KW
  condition R
  schemaLit R
  let e ← expect .ELSE_KW
  if e then schemaLit R else pure ())

/-- The last part of `include_schema_expr` (schemas.rs 121-138). The early return of line 126 drops the marker. -/
def includeLit (R : Rec) (atAmp : Bool) : P Unit :=
  if atAmp then drop (node .AND_INCLUDE_EXPR do
    schemaLit R
    let a ← at' .AMP_AMP
    if !a then do
      errorAndRecover INCLUDE_SCHEMA_RECOVERY_SET
      crash .bomb
    else do
      bump .AMP_AMP
      schemaLit R)
  else drop (node .SCHEMA_INCLUDE_EXPR (schemaLit R))

/-- `include_schema_expr` (schemas.rs 96-139). -/
def includeSchemaExpr (R : Rec) : P Unit := do
  let i ← at' .IF_KW
  if i then includeIfElseExpr R
  else do
    let parent ← eventPos
    let l ← innerExpr R 2
    match l with
    | none => pure ()
    | some cm => do
      let im ← at' .IMPLIES
      if im then drop (preceded cm do
        bump .IMPLIES
        schemaLit R
        pure (SyntaxKind.IMPLY_INCLUDE_EXPR, ()))
      else do
        rollbackTo parent
        let parent ← eventPos
        let l ← innerExpr R 6
        match l with
        | none => pure ()
        | some _ => do
          let a ← at' .AMP_AMP
          rollbackTo parent
          includeLit R a

/-- `include_schema` (schemas.rs 81-92). -/
def includeSchema (R : Rec) : P Bool := kwStmt "include" .INCLUDE_KW .INCLUDE_SCHEMA do
  optPredicatePropertyList
  includeSchemaExpr R
  drop (expect .SEMICOLON)

/-- The loop of `wildcard_ident` (schemas.rs 229-242): the number of tokens, looking at `fuel` tokens. -/
def wildcardCount (I : Input) : Nat → Nat → Nat
  | 0, _ => 0
  | fuel + 1, p =>
    if I.kindAt p = .IDENT ∨ I.kindAt p = .STAR then
      1 + (if I.jointAt p then wildcardCount I fuel (p + 1) else 0)
    else 0

def countWildcard : P Nat := fun I _ s => .ok (wildcardCount I (I.toks.length - s.pos) s.pos) s

/-- `wildcard_ident` (schemas.rs 228-247). The counter is a `u8`: beyond 255 it overflows, which panics with overflow
checks and wraps without. -/
def wildcardIdent : P Bool := do
  let n ← countWildcard
  let d ← debugBuild
  if d && decide (255 < n) then crash .overflow
  else do
    iff (decide (0 < n % 256)) (bumpRemapMany .WILDCARD_IDENT (n % 256))
    pure (decide (n % 256 ≠ 0))

/-- `opt_wildcard_pattern_modifier` (schemas.rs 211-226). -/
def optWildcardPatternModifier : P Unit := block do
  let k ← current
  let i ← atKwIdent "internal"
  if k = .PUBLIC_KW then do
    bump .PUBLIC_KW
    pure (Outcome.complete .WILDCARD_PATTERN_MODIFIER, ())
  else if k = .IDENT ∧ i = true then do
    bumpRemap .INTERNAL_KW
    pure (.complete .WILDCARD_PATTERN_MODIFIER, ())
  else pure (.abandon, ())

/-- `wildcard_pattern` (schemas.rs 199-209). -/
def wildcardPattern : P Bool := block do
  optWildcardPatternModifier
  let w ← wildcardIdent
  if !w then pure (.rollback, false)
  else do
    optTypeParamList
    pure (.complete .WILDCARD_PATTERN, true)

/-- `wildcard_pattern_list` (schemas.rs 195-197). -/
def wildcardPatternList : P Unit := delimited wildcardPattern .COMMA none

/-- `apply_schema` with `apply_to` and `apply_except` (schemas.rs 160-193). -/
def applySchema (R : Rec) : P Bool := kwStmt "apply" .APPLY_KW .APPLY_SCHEMA do
  schemaLit R
  let t ← atKwIdent "to"
  (if t then drop (node .APPLY_TO do
    bumpRemap .TO_KW
    withRecKw "except" wildcardPatternList)
  else error)
  let e ← atKwIdent "except"
  iff e (drop (node .APPLY_EXCEPT do
    bumpRemap .EXCEPT_KW
    wildcardPatternList))
  drop (expect .SEMICOLON)

/-- `schema` (schemas.rs 23-39) without its marker. -/
def schemaBody (R : Rec) : P Unit := do
  assert (← atKwIdent "schema") .SCHEMA_KW
  bumpRemap .SCHEMA_KW
  withRecovery itemStartRecSet do
    drop (nameOrRecover itemStartRecSet)
    optTypeParamList
  blockOrError R .Spec

/-! `specs/proofs_and_lemmas.rs`. -/

/-- `proof` (proofs_and_lemmas.rs 14-24). -/
def proof (R : Rec) : P Unit := do
  assert (← atKwIdent "proof") .PROOF_KW
  drop (node .PROOF do
    bumpRemap .PROOF_KW
    blockOrError R .Proof)

/-- `if p.at_contextual_kw_ident("proof") { proof(p); }` (43-45, items/item_spec.rs 31-33). -/
def optProof (R : Rec) : P Unit := do
  let b ← atKwIdent "proof"
  iff b (proof R)

/-- `lemma` (proofs_and_lemmas.rs 26-48). -/
def lemmaItem (R : Rec) : P Unit := do
  assert (← atKwIdent "lemma") .LEMMA_KW
  drop (node .LEMMA do
    bumpRemap .LEMMA_KW
    drop name
    optTypeParamList
    let l ← at' .L_PAREN
    (if l then funParamList R else errorAndRecover .new)
    blockOrError R .Spec
    optProof R)

/-- `apply_lemma` (proofs_and_lemmas.rs 50-63). -/
def applyLemma (R : Rec) : P Bool := kwStmt "apply" .APPLY_KW .APPLY_LEMMA do
  drop (pathExpr R)
  valueArgList R
  drop (expect .SEMICOLON)

/-- `forall_apply_lemma` (proofs_and_lemmas.rs 65-89). -/
def forallApplyLemma (R : Rec) : P Bool := kwStmt "forall" .FORALL_KW .FORALL_APPLY_LEMMA do
  quantBindingList R ((RSet.new.withKw "apply").withTok .L_BRACK)
  let c ← at' .L_CURLY
  iff c (quantTriggerList R)
  let b ← at' .L_BRACK
  iff b (weight R)
  let l ← applyLemma R
  iff (!l) error

/-- `post_stmt` (proofs_and_lemmas.rs 91-100). -/
def postStmt (R : Rec) : P Bool := kwStmt "post" .POST_KW .POST_STMT R.stmt

/-- `split_stmt` (proofs_and_lemmas.rs 102-112). -/
def splitStmt (R : Rec) : P Bool := kwStmt "split" .SPLIT_KW .SPLIT_STMT do
  drop (expr R)
  drop (eat .SEMICOLON)

/-! `items/fun.rs`. -/

/-- `acquires` (fun.rs 150-155). -/
def acquires (R : Rec) : P Unit := drop (node .ACQUIRES do
  bump .ACQUIRES_KW
  delimited R.pathType .COMMA none)

/-- `opt_ret_type` (fun.rs 220-228). -/
def optRetType (R : Rec) : P Unit := do
  let c ← at' .COLON
  iff c (drop (node .RET_TYPE do
    bump .COLON
    drop (type_ R)))

/-- `fun_signature` (fun.rs 157-205). -/
def funSignature (R : Rec) (specFun : Bool) : P Bool := do
  bump .FUN_KW
  let hasName ← withRecovery itemStartRecSet do
    let n ← nameOrRecover (.ofTs (ts [.L_ANGLE, .L_PAREN]))
    if !n then pure false
    else do
      optTypeParamList
      pure true
  if !hasName then pure false
  else do
    withRecovery (itemStartRecSet.withTs (ts [.SEMICOLON, .L_CURLY])) do
      let l ← at' .L_PAREN
      if l then funParamList R else errorAndRecover .new
    withRecovery (itemStartRecSet.withTs (ts [.L_CURLY, .SEMICOLON])) do
      withRecTok .ACQUIRES_KW do
        optRetType R
        let b ← at' .L_BRACK
        iff b (if specFun then weight R else error)
      let a ← at' .ACQUIRES_KW
      iff a (if !specFun then acquires R else error)
    pure true

/-- `fun_body` (fun.rs 207-218). -/
def funBody (R : Rec) : P Unit := do
  let c ← at' .L_CURLY
  let s ← at' .SEMICOLON
  if c then drop (blockExpr R)
  else if s then bump .SEMICOLON
  else error

/-- The end of `spec_function` and `spec_inline_function` (fun.rs 26-34, 40-48). -/
def specFunTail (R : Rec) (k : SyntaxKind) : P (Outcome × Unit) := do
  let f ← at' .FUN_KW
  if !f then pure (.abandon, ())
  else do
    let n ← funSignature R true
    iff n (withStmt .Spec (funBody R))
    pure (.complete k, ())

/-- `spec_inline_function` (fun.rs 37-49). -/
def specInlineFunction (R : Rec) : P Unit := block do
  drop (eat .NATIVE_KW)
  specFunTail R .SPEC_INLINE_FUN

/-! `items/use_item.rs`. -/

/-- `use_alias` (use_item.rs 63-69). -/
def useAlias : P Unit := do
  assert (← at' .AS_KW) .AS_KW
  drop (node .USE_ALIAS do
    bump .AS_KW
    drop name)

/-- `use_group` (use_item.rs 46-61). -/
def useGroup (R : Rec) : P Unit := do
  assert (← at' .L_CURLY) .L_CURLY
  drop (node .USE_GROUP do
    bump .L_CURLY
    resetRecovery (delimited R.useSpeck .COMMA (some .R_CURLY))
    drop (expect .R_CURLY))

/-- `use_speck` (use_item.rs 18-44). -/
def useSpeck (R : Rec) : P Bool := do
  let s ← isPathStart
  if !s then do
    errorAndRecover .new
    pure true
  else do
    drop (node .USE_SPECK do
      drop (path R none)
      let k ← current
      if k = .AS_KW then useAlias
      else if k = .COLON_COLON then do
        bump .COLON_COLON
        let k ← current
        if k = .L_CURLY then useGroup R else error
      else pure ())
    pure true

/-- `use_stmt` (blocks.rs 195-201) without its marker. -/
def useStmtBody (R : Rec) : P Unit := do
  assert (← at' .USE_KW) .USE_KW
  bump .USE_KW
  drop (withRecovery (.ofTs (ts [.SEMICOLON])) R.useSpeck)
  drop (expect .SEMICOLON)

/-! `expressions/blocks.rs`: statements. -/

/-- `let_stmt` (blocks.rs 175-193). -/
def letStmt (R : Rec) (allowPost : Bool) : P Unit := drop (node .LET_STMT do
  bump .LET_KW
  let p ← atKwIdent "post"
  iff (allowPost && p) (bumpRemap .POST_KW)
  drop (withRecovery (atStmtStart.withTs (ts [.EQ, .SEMICOLON])) R.pattern)
  let c ← at' .COLON
  iff c (withRecovery (atStmtStart.withTs (ts [.EQ, .SEMICOLON])) (typeAnnotation R))
  optInitializerExpr R
  drop (expect .SEMICOLON))

/-- The end of `stmt` (blocks.rs 152-172). -/
def exprStmt (R : Rec) : P Unit := do
  let r ← withRecTok .SEMICOLON (topLevelExprInStmt R)
  match r with
  | some (cm, b) => do
    let e ← at' .R_CURLY
    iff (!e) (drop (preceded cm do
      drop (if b.isBlock then eat .SEMICOLON else expect .SEMICOLON)
      pure (SyntaxKind.EXPR_STMT, ())))
  | none => errorAndBump

/-- The inline use statement of `stmt` (blocks.rs 94-98, 102-106). -/
def inlineUse (R : Rec) : P Unit := drop (node .USE_STMT (withRecovery atStmtStart (useStmtBody R)))

/-- The statements in specs (blocks.rs 118-133). -/
def specStmt (R : Rec) : P Bool := withRecTok .SEMICOLON
  (orElse' (schemaField R) (orElse' (globalVariable R) (orElse' (pragmaStmt R) (orElse' (updateStmt R)
    (orElse' (includeSchema R) (orElse' (applySchema R) (specPredicate R)))))))

/-- The statements in proofs (blocks.rs 139-146). -/
def proofStmt (R : Rec) : P Bool :=
  orElse' (applyLemma R) (orElse' (forallApplyLemma R) (orElse' (specPredicate R) (orElse' (postStmt R) (splitStmt R))))

/-- The part of `stmt` after the attributes (blocks.rs 85-172). -/
def stmtBody (R : Rec) : P Unit := do
  let l ← at' .LET_KW
  let k ← stmtKind
  let u ← at' .USE_KW
  let n ← at' .NATIVE_KW
  let n1 ← nthAt 1 .FUN_KW
  let f ← at' .FUN_KW
  let lm ← atKwIdent "lemma"
  if l then letStmt R (k == .Spec)
  else match k with
  | .Move => if u then inlineUse R else exprStmt R
  | .Spec =>
    if u then inlineUse R
    else if n && n1 || f then specInlineFunction R
    else if lm then lemmaItem R
    else do
      let b ← specStmt R
      if b then pure () else exprStmt R
  | .Proof => do
    let b ← proofStmt R
    if b then pure () else exprStmt R

/-- `stmt` (blocks.rs 75-173). -/
def stmt (R : Rec) : P Unit := do
  let last ← attrs R
  match last with
  | some cm => do
    wrapWithError cm
    let e ← at' .R_CURLY
    if e then pure () else stmtBody R
  | none => stmtBody R

end Verif.Parser
