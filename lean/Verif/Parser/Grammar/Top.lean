import Verif.Parser.Grammar.Specs

/-! Model of the grammar: items, source files, and the whole parser. -/

namespace Verif.Parser
open Verif.Syntax (SyntaxKind)
open Verif.TokenSet (TSet)

/-! `items/fun.rs`. -/

/-- `opt_inner_public_modifier` (fun.rs 129-148). -/
def optInnerPublicModifier : P Unit := do
  let l ← eat .L_PAREN
  if l then do
    let k ← current
    let pk ← atKw "package"
    (if k = .IDENT ∧ pk = true then bumpRemap .PACKAGE_KW
    else if k = .FRIEND_KW then bump .FRIEND_KW
    else if k = .SCRIPT_KW then bump .SCRIPT_KW
    else errorAndRecover (.ofTs (ts [.R_PAREN])))
    drop (expect .R_PAREN)
  else pure ()

/-- `visibility_modifier` (fun.rs 85-108). -/
def visibilityModifier : P Bool := do
  let k ← current
  let pk ← atKw "package"
  if k = .PUBLIC_KW then do
    drop (node .VISIBILITY_MODIFIER do
      bump .PUBLIC_KW
      optInnerPublicModifier)
    pure true
  else if k = .FRIEND_KW then do
    drop (node .VISIBILITY_MODIFIER (bumpRemap .FRIEND_KW))
    pure true
  else if k = .IDENT ∧ pk = true then do
    drop (node .VISIBILITY_MODIFIER (bumpRemap .PACKAGE_KW))
    pure true
  else pure false

/-- `opt_fun_modifiers` (fun.rs 66-83). -/
def optFunModifiers : P Unit := iterate TokenSet.empty (fun _ => do
  let v ← visibilityModifier
  if v then pure (true, ())
  else do
    let k ← current
    let e ← atKw "entry"
    if k = .NATIVE_KW then do
      bump .NATIVE_KW
      pure (true, ())
    else if k = .INLINE_KW then do
      bump .INLINE_KW
      pure (true, ())
    else if k = .IDENT ∧ e = true then do
      bumpRemap .ENTRY_KW
      pure (true, ())
    else pure (false, ())) ()

/-- `spec_function` (fun.rs 24-35) without its marker. -/
def specFunction (R : Rec) : P (Outcome × Unit) := do
  optFunModifiers
  specFunTail R .SPEC_FUN

/-- `function` (fun.rs 51-64) without its marker. -/
def function (R : Rec) : P Unit := do
  optFunModifiers
  let f ← at' .FUN_KW
  if f then do
    let n ← funSignature R false
    iff n (funBody R)
  else errorAndRecover itemStartRecSet

/-- `on_function_modifiers_start` (fun.rs 234-247). -/
def onFunctionModifiersStart : P Bool := do
  let k ← current
  let e ← atKw "entry"
  let b ← nthAtTs 1 ITEM_BRACE_START
  pure (k == .NATIVE_KW || k == .INLINE_KW || (k == .IDENT && e && !b))

/-- `on_visibility_modifier_start` (fun.rs 249-257). -/
def onVisibilityModifierStart : P Bool := do
  let k ← current
  let e ← atKw "package"
  let b ← nthAtTs 1 ITEM_BRACE_START
  pure (k == .PUBLIC_KW || k == .FRIEND_KW || (k == .IDENT && e && !b))

/-! `items/adt.rs`. -/

/-- `adt_name_recovery` (adt.rs 162-167). -/
def adtNameRecovery : RSet := (itemStartRecSet.withTs (ts [.L_ANGLE, .L_CURLY])).withKw "has"

/-- `opt_abilities_list` (adt.rs 112-118). -/
def optAbilitiesList : P Bool := do
  let h ← atKwIdent "has"
  if h then do
    withRecovery itemStartRecSet abilitiesList
    pure true
  else pure false

/-- `opt_abilities_list_with_semicolon` (adt.rs 105-110). -/
def optAbilitiesListWithSemicolon : P Unit := do
  let h ← withRecTs (ts [.SEMICOLON]) optAbilitiesList
  iff h (drop (expect .SEMICOLON))

/-- The part of `named_field` (adt.rs 135-160) up to the end of its marker: whether there is no field here. -/
def namedFieldBlock (R : Rec) : P (Outcome × Bool) := do
  let i ← at' .IDENT
  if i then do
    let n ← nameOrRecover .new
    if !n then pure (.abandon, false)
    else do
      let c ← eat .COLON
      (if c then drop (withRecTok .COMMA (type_ R))
      else errorAndRecover (.ofTs (ts [.COMMA, .IDENT])))
      pure (.complete .NAMED_FIELD, false)
  else pure (.abandon, true)

/-- `named_field` (adt.rs 135-160). -/
def namedField (R : Rec) : P Unit := do
  let bad ← block (namedFieldBlock R)
  iff bad errorAndBump

/-- `named_field_list` (adt.rs 120-133). -/
def namedFieldList (R : Rec) : P Unit := do
  assert (← at' .L_CURLY) .L_CURLY
  drop (node .NAMED_FIELD_LIST do
    bump .L_CURLY
    iterate (ts [.R_CURLY]) (fun _ => do
      namedField R
      commaUnless .R_CURLY
      pure (true, ())) ()
    drop (expect .R_CURLY))

/-- The element of the list in `tuple_field_list` (adt.rs 188-198). -/
def tupleField (R : Rec) : P Bool := block do
  let f ← atTs TYPE_FIRST
  if !f then do
    error
    pure (.abandon, false)
  else do
    drop (type_ R)
    pure (.complete .TUPLE_FIELD, true)

/-- `tuple_field_list` (adt.rs 182-205). -/
def tupleFieldList (R : Rec) : P Unit := do
  assert (← at' .L_PAREN) .L_PAREN
  drop (node .TUPLE_FIELD_LIST do
    bump .L_PAREN
    delimited (tupleField R) .COMMA (some .R_PAREN)
    drop (expect .R_PAREN))

/-- `struct_` (adt.rs 19-40) without its marker. -/
def structBody (R : Rec) : P Unit := do
  bump .STRUCT_KW
  drop (nameOrRecover adtNameRecovery)
  optTypeParamList
  drop (withRecTs (ts [.L_CURLY, .L_PAREN]) optAbilitiesList)
  let k ← current
  if k = .L_CURLY then do
    withRecTok .R_CURLY (namedFieldList R)
    optAbilitiesListWithSemicolon
  else if k = .SEMICOLON then bump .SEMICOLON
  else if k = .L_PAREN then do
    tupleFieldList R
    drop (withRecTs (ts [.SEMICOLON]) optAbilitiesList)
    drop (expect .SEMICOLON)
  else error

/-- The part of `enum_variant` (adt.rs 82-103) up to the end of its marker: whether there is no variant here, and
whether it has curly braces. -/
def enumVariantBlock (R : Rec) : P (Outcome × Bool × Bool) := do
  drop (attrs R)
  let i ← at' .IDENT
  if i then do
    drop (nameOrRecover .new)
    let k ← current
    if k = .L_CURLY then do
      namedFieldList R
      pure (.complete .VARIANT, false, true)
    else if k = .L_PAREN then do
      tupleFieldList R
      pure (.complete .VARIANT, false, false)
    else pure (.complete .VARIANT, false, false)
  else pure (.abandon, true, false)

/-- `enum_variant` (adt.rs 82-103). -/
def enumVariant (R : Rec) : P Bool := do
  let r ← block (enumVariantBlock R)
  iff r.1 errorAndBump
  pure r.2

/-- `enum_variant_list` (adt.rs 61-80). -/
def enumVariantList (R : Rec) : P Unit := do
  assert (← at' .L_CURLY) .L_CURLY
  drop (node .VARIANT_LIST do
    bump .L_CURLY
    iterate (ts [.R_CURLY]) (fun _ => do
      let curly ← enumVariant R
      let e ← at' .R_CURLY
      iff (!e) (drop (if curly then eat .COMMA else expect .COMMA))
      pure (true, ())) ()
    drop (expect .R_CURLY))

/-- `enum_` (adt.rs 42-59) without its marker. -/
def enumBody (R : Rec) : P Unit := do
  bumpRemap .ENUM_KW
  let n ← nameOrRecover adtNameRecovery
  if !n then pure ()
  else do
    optTypeParamList
    drop (withRecTs (ts [.L_CURLY]) optAbilitiesList)
    let c ← at' .L_CURLY
    (if c then enumVariantList R else error)
    optAbilitiesListWithSemicolon

/-! `items/item_spec.rs`. -/

/-- The part of `item_spec_type_param` (item_spec.rs 70-92) up to the end of its marker. -/
def itemSpecTypeParamBlock : P (Outcome × Bool) := do
  let p ← atKwIdent "phantom"
  iff p (bumpRemap .PHANTOM_KW)
  let k ← current
  if k = .IDENT then do
    drop nameRef
    let c ← at' .COLON
    iff c do
      bump .COLON
      abilityBoundList
    pure (.complete .ITEM_SPEC_TYPE_PARAM, true)
  else pure (.abandon, false)

/-- `item_spec_type_param` (item_spec.rs 70-92). -/
def itemSpecTypeParam : P Bool := do
  let b ← block itemSpecTypeParamBlock
  iff (!b) errorAndBump
  pure b

/-- `item_spec_type_param_list` (item_spec.rs 55-68). -/
def itemSpecTypeParamList : P Unit := do
  assert (← at' .L_ANGLE) .L_ANGLE
  drop (node .ITEM_SPEC_TYPE_PARAM_LIST do
    bump .L_ANGLE
    delimited itemSpecTypeParam .COMMA (some .R_ANGLE)
    drop (expect .R_ANGLE))

/-- `item_spec_param` (item_spec.rs 108-120). -/
def itemSpecParam (R : Rec) : P Bool := do
  drop (node .ITEM_SPEC_PARAM do
    let i ← identPatOrRecover
    let c ← at' .COLON
    if i then (if c then typeAnnotation R else errorAndRecover .new) else pure ())
  pure true

/-- `item_spec_param_list` (item_spec.rs 94-106). -/
def itemSpecParamList (R : Rec) : P Unit := drop (node .ITEM_SPEC_PARAM_LIST do
  bump .L_PAREN
  delimited (itemSpecParam R) .COMMA (some .R_PAREN)
  drop (expect .R_PAREN))

/-- `item_spec_signature` (item_spec.rs 38-53). -/
def itemSpecSignature (R : Rec) : P Unit := do
  block do
    let b ← nameRefOrRecover
    pure (if b then Outcome.complete .ITEM_SPEC_REF else .abandon, ())
  let l ← at' .L_ANGLE
  iff l itemSpecTypeParamList
  let p ← at' .L_PAREN
  iff p do
    itemSpecParamList R
    withRecTok .L_CURLY (optRetType R)

/-- `item_spec` (item_spec.rs 19-36) without its marker. -/
def itemSpecBody (R : Rec) : P Unit := do
  let m ← at' .MODULE_KW
  (if m then bump .MODULE_KW
  else withRecovery (itemStartRecSet.withTs (ts [.L_CURLY])) (itemSpecSignature R))
  blockOrError R .Spec
  optProof R

/-! `items.rs`. -/

/-- `const_` (items.rs 144-165) without its marker. -/
def constBody (R : Rec) : P Unit := do
  bump .CONST_KW
  let n ← nameOrRecover (itemStartRecSet.withTs (ts [.SEMICOLON]))
  if !n then pure ()
  else do
    withRecovery (itemStartRecSet.withTs (ts [.SEMICOLON])) do
      withRecTok .EQ do
        let c ← at' .COLON
        if c then typeAnnotation R else error
      initializerExpr R
    drop (expect .SEMICOLON)

/-- `friend_decl` (items.rs 180-185) without its marker. -/
def friendBody (R : Rec) : P Unit := do
  bump .FRIEND_KW
  drop (path R none)
  drop (expect .SEMICOLON)

/-- `vis_modifier_item_start` (items.rs 74-78). -/
def visModifierItemStart : RSet := (RSet.new.withTs (ts [.FUN_KW, .STRUCT_KW, .CONST_KW])).withKw "enum"

/-- The branch of `opt_item` on visibility modifiers (items.rs 107-120). -/
def visibilityItem (R : Rec) : P (Outcome × Bool) := do
  iterate TokenSet.empty (fun _ => do
    let v ← visibilityModifier
    pure (v, ())) ()
  let k ← current
  let e ← atKw "enum"
  if k = .STRUCT_KW then do
    structBody R
    pure (.complete .STRUCT, true)
  else if k = .CONST_KW then do
    constBody R
    pure (.complete .CONST, true)
  else if k = .IDENT ∧ e = true then do
    enumBody R
    pure (.complete .ENUM, true)
  else do
    function R
    pure (.complete .FUN, true)

/-- The branch of `opt_item` on specs (items.rs 122-138). -/
def specItem (R : Rec) : P (Outcome × Bool) := do
  bump .SPEC_KW
  let s ← atKwIdent "schema"
  let l ← atKwIdent "lemma"
  let k ← current
  let f ← onFunctionModifiersStart
  if s then do
    schemaBody R
    pure (.complete .SCHEMA, true)
  else if l then do
    lemmaItem R
    pure (.complete .SPEC_LEMMA, true)
  else if k = .FUN_KW ∨ f = true then do
    let o ← specFunction R
    pure (o.1, true)
  else do
    itemSpecBody R
    pure (.complete .ITEM_SPEC, true)

/-- `opt_item` (items.rs 81-142): what becomes of the marker, and whether there is an item. -/
def optItem (R : Rec) : P (Outcome × Bool) := do
  let k ← current
  let v ← nthAtRSet 1 ((visModifierItemStart.withTs (ts [.INLINE_KW, .NATIVE_KW])).withKw "entry")
  let e ← atKw "enum"
  let f ← onFunctionModifiersStart
  let vm ← onVisibilityModifierStart
  if k = .USE_KW then do
    withRecovery itemStartKwsOnly (useStmtBody R)
    pure (.complete .USE_STMT, true)
  else if k = .CONST_KW then do
    constBody R
    pure (.complete .CONST, true)
  else if k = .FRIEND_KW ∧ v = false then do
    friendBody R
    pure (.complete .FRIEND, true)
  else if k = .STRUCT_KW then do
    structBody R
    pure (.complete .STRUCT, true)
  else if k = .IDENT ∧ e = true then do
    enumBody R
    pure (.complete .ENUM, true)
  else if k = .FUN_KW ∨ f = true then do
    function R
    pure (.complete .FUN, true)
  else if vm then visibilityItem R
  else if k = .SPEC_KW then specItem R
  else pure (.abandon, false)

/-- `item` (items.rs 41-72). -/
def item (R : Rec) : P Unit := do
  let b ← block do
    drop (attrs R)
    optItem R
  if b then do
    let s ← at' .SEMICOLON
    iff s errorAndBump
  else do
    let k ← current
    if k = .L_CURLY then unexpectedBlock R
    else if k = .R_CURLY then error
    else if k = .EOF then error
    else errorAndBump

/-- `item_list` (items.rs 29-39). -/
def itemList (R : Rec) : P Unit := do
  assert (← at' .L_CURLY) .L_CURLY
  bump .L_CURLY
  iterate (ts [.R_CURLY]) (fun _ => do
    withRecTok .R_CURLY (item R)
    pure (true, ())) ()
  drop (expect .R_CURLY)

/-! `grammar.rs`. -/

/-- The items, or an error (grammar.rs 93-97, 128-132, 139-143). -/
def itemListOrRecover (R : Rec) : P Unit := do
  let c ← at' .L_CURLY
  if c then itemList R else errorAndRecover (.ofTs TOP_LEVEL_FIRST)

/-- `module` (grammar.rs 84-99) without its marker. -/
def moduleBody (R : Rec) : P Unit := do
  bump .MODULE_KW
  let c ← nthAt 1 .COLON_COLON
  iff c do
    anyAddress
    bump .COLON_COLON
  drop (nameOrRecover (.ofTs TOP_LEVEL_FIRST))
  itemListOrRecover R

/-- `module_spec` (grammar.rs 124-135) without its marker. -/
def moduleSpecBody (R : Rec) : P Unit := do
  bump .SPEC_KW
  drop (withRecovery ((RSet.ofTs TOP_LEVEL_FIRST).withTs (ts [.L_CURLY])) (path R none))
  itemListOrRecover R

/-- `script` (grammar.rs 137-145) without its marker. -/
def scriptBody (R : Rec) : P Unit := do
  bump .SCRIPT_KW
  itemListOrRecover R

/-- The block of the loop of `address_def` (grammar.rs 107-114). -/
def addressItem (R : Rec) : P Unit := do
  let b ← block do
    drop (attrs R)
    let m ← at' .MODULE_KW
    if m then do
      moduleBody R
      pure (.complete .MODULE, true)
    else pure (.abandon, false)
  iff (!b) (errorAndRecover (.ofTs (ts [.MODULE_KW, .R_CURLY])))

/-- `address_def` (grammar.rs 101-122) without its marker. -/
def addressBody (R : Rec) : P Unit := do
  bumpRemap .ADDRESS_KW
  anyAddress
  let c ← at' .L_CURLY
  if c then do
    bump .L_CURLY
    iterate (ts [.R_CURLY]) (fun _ => do
      addressItem R
      pure (true, ())) ()
    drop (expect .R_CURLY)
  else errorAndRecover (.ofTs TOP_LEVEL_FIRST)

/-- The block of the loop of `source_file` (grammar.rs 66-77). -/
def topItem (R : Rec) : P Unit := do
  let b ← block do
    drop (attrs R)
    let k ← current
    let a ← atKw "address"
    if k = .MODULE_KW then do
      moduleBody R
      pure (.complete .MODULE, true)
    else if k = .SPEC_KW then do
      moduleSpecBody R
      pure (.complete .MODULE_SPEC, true)
    else if k = .SCRIPT_KW then do
      scriptBody R
      pure (.complete .SCRIPT, true)
    else if k = .IDENT ∧ a = true then do
      addressBody R
      pure (.complete .ADDRESS_DEF, true)
    else pure (.abandon, false)
  iff (!b) errorAndBump

/-- `source_file` (grammar.rs 63-81). -/
def sourceFile (R : Rec) : P Unit := drop (node .SOURCE_FILE
  (iterate TokenSet.empty (fun _ => do
    topItem R
    pure (true, ())) ()))

/-- The functions of the grammar with a bound on the depth of the recursion. -/
def grammar : Nat → Rec
  | 0 => {
    exprBp := fun _ _ _ _ _ => .stop
    typ := fun _ _ _ _ => .stop
    pathType := fun _ _ _ => .stop
    pattern := fun _ _ _ => .stop
    stmt := fun _ _ _ => .stop
    useSpeck := fun _ _ _ => .stop
    attrItem := fun _ _ _ => .stop }
  | n + 1 => {
    exprBp := exprBp (grammar n)
    typ := typeOrRecover (grammar n)
    pathType := pathType (grammar n)
    pattern := pattern (grammar n)
    stmt := stmt (grammar n)
    useSpeck := useSpeck (grammar n)
    attrItem := attrItem (grammar n) }

/-- The run of the parser on some tokens: `Parser::new` and `source_file` (parse.rs, `parse_text`). -/
def parse (I : Input) (fuel : Nat) : Res Unit := sourceFile (grammar fuel) I ⟨RSet.new, .Move⟩ ⟨0, []⟩

end Verif.Parser
