import Verif.Parser.Proofs.Specs
import Verif.Parser.Grammar.Top

/-! The functions of `Grammar/Top.lean` meet the judgement. -/

namespace Verif.Parser
open Verif.Syntax (SyntaxKind)
open Verif.TokenSet (TSet)

set_option linter.unusedSectionVars false
set_option linter.style.nameCheck false

variable {I : Input} [I.Valid] {R : Rec} {b p : Nat} {h : Handle}

theorem optInnerPublicModifier_ok : T I p h optInnerPublicModifier Ok := by
  unfold optInnerPublicModifier; tgo

theorem visibilityModifier_ok : T I p h visibilityModifier Ok := by
  unfold visibilityModifier; tgo

theorem optFunModifiers_ok : T I p h optFunModifiers Ok := by
  unfold optFunModifiers; tgo

theorem specFunction_ok (hR : R.Good I b) (hb : b ≤ p + 1) : T I p h (specFunction R) Ok := by
  unfold specFunction; tgo

theorem function_ok (hR : R.Good I b) (hb : b ≤ p + 1) : T I p h (function R) Ok := by
  unfold function; tgo

theorem onFunctionModifiersStart_spec : T I p h onFunctionModifiersStart fun _ q h' => p = q ∧ h = h' := by
  unfold onFunctionModifiersStart
  repeat (first | refine T.pure ⟨rfl, rfl⟩ | (refine T.bind ?_; tstep; intro _ _) | tstep)

theorem onVisibilityModifierStart_spec : T I p h onVisibilityModifierStart fun _ q h' => p = q ∧ h = h' := by
  unfold onVisibilityModifierStart
  repeat (first | refine T.pure ⟨rfl, rfl⟩ | (refine T.bind ?_; tstep; intro _ _) | tstep)

theorem optAbilitiesList_ok : T I p h optAbilitiesList Ok := by
  unfold optAbilitiesList; tgo

theorem optAbilitiesListWithSemicolon_ok : T I p h optAbilitiesListWithSemicolon Ok := by
  unfold optAbilitiesListWithSemicolon; tgo

theorem namedFieldBlock_ok (hR : R.Good I b) (hb : b ≤ p + 1) : T I p h (namedFieldBlock R) Ok := by
  unfold namedFieldBlock; tgo

theorem namedField_ok (hR : R.Good I b) (hb : b ≤ p + 1) : T I p h (namedField R) Ok := by
  unfold namedField; tgo

theorem namedFieldList_ok (hR : R.Good I b) (hb : b ≤ p + 1) (h0 : I.kindAt p = .L_CURLY) : T I p h (namedFieldList R) Ok := by
  unfold namedFieldList; tgo

theorem tupleField_ok (hR : R.Good I b) (hb : b ≤ p) : T I p h (tupleField R) Ok := by
  unfold tupleField; tgo

theorem tupleFieldList_ok (hR : R.Good I b) (hb : b ≤ p + 1) (h0 : I.kindAt p = .L_PAREN) : T I p h (tupleFieldList R) Ok := by
  unfold tupleFieldList; tgo

theorem structBody_ok (hR : R.Good I b) (hb : b ≤ p + 1) (h0 : I.kindAt p = .STRUCT_KW) : T I p h (structBody R) Ok := by
  unfold structBody; tgo

theorem enumVariantBlock_ok (hR : R.Good I b) (hb : b ≤ p + 1) : T I p h (enumVariantBlock R) Ok := by
  unfold enumVariantBlock; tgo

theorem enumVariant_ok (hR : R.Good I b) (hb : b ≤ p + 1) : T I p h (enumVariant R) Ok := by
  unfold enumVariant; tgo

theorem enumVariantList_ok (hR : R.Good I b) (hb : b ≤ p + 1) (h0 : I.kindAt p = .L_CURLY) : T I p h (enumVariantList R) Ok := by
  unfold enumVariantList; tgo

theorem enumBody_ok (hR : R.Good I b) (hb : b ≤ p + 1) (h0 : I.isKeyword p "enum" = true) : T I p h (enumBody R) Ok := by
  unfold enumBody; tgo

theorem itemSpecTypeParamBlock_ok : T I p h itemSpecTypeParamBlock Ok := by
  unfold itemSpecTypeParamBlock; tgo

theorem itemSpecTypeParam_ok : T I p h itemSpecTypeParam Ok := by
  unfold itemSpecTypeParam; tgo

theorem itemSpecTypeParamList_ok (h0 : I.kindAt p = .L_ANGLE) : T I p h itemSpecTypeParamList Ok := by
  unfold itemSpecTypeParamList; tgo

theorem itemSpecParam_ok (hR : R.Good I b) (hb : b ≤ p + 1) : T I p h (itemSpecParam R) Ok := by
  unfold itemSpecParam; tgo

theorem itemSpecParamList_ok (hR : R.Good I b) (hb : b ≤ p + 1) (h0 : I.kindAt p = .L_PAREN) : T I p h (itemSpecParamList R) Ok := by
  unfold itemSpecParamList; tgo

theorem itemSpecSignature_ok (hR : R.Good I b) (hb : b ≤ p + 1) : T I p h (itemSpecSignature R) Ok := by
  unfold itemSpecSignature; tgo

theorem itemSpecBody_ok (hR : R.Good I b) (hb : b ≤ p + 1) : T I p h (itemSpecBody R) Ok := by
  unfold itemSpecBody; tgo

theorem constBody_ok (hR : R.Good I b) (hb : b ≤ p + 1) (h0 : I.kindAt p = .CONST_KW) : T I p h (constBody R) Ok := by
  unfold constBody; tgo

theorem friendBody_ok (hR : R.Good I b) (hb : b ≤ p + 1) (h0 : I.kindAt p = .FRIEND_KW) : T I p h (friendBody R) Ok := by
  unfold friendBody; tgo

theorem visibilityItem_ok (hR : R.Good I b) (hb : b ≤ p + 1) : T I p h (visibilityItem R) Ok := by
  unfold visibilityItem; tgo

theorem specItem_ok (hR : R.Good I b) (hb : b ≤ p + 1) (h0 : I.kindAt p = .SPEC_KW) : T I p h (specItem R) Ok := by
  unfold specItem
  refine T.bind (T.bump1 rfl (by decide) h0 fun _ _ _ => ?_)
  refine T.bind (T.atKwIdent fun _ _ => T.bind (T.atKwIdent fun _ _ => T.bind (T.current fun _ _ => ?_)))
  refine T.bind (onFunctionModifiersStart_spec.mono ?_)
  rintro f q h' _ _ ⟨rfl, rfl⟩ _ _
  tgo

theorem optItem_ok (hR : R.Good I b) (hb : b ≤ p + 1) : T I p h (optItem R) Ok := by
  unfold optItem
  refine T.bind (T.current fun _ _ => T.bind (T.nthAtRSet fun _ _ => T.bind (T.atKw fun _ _ => ?_)))
  refine T.bind (onFunctionModifiersStart_spec.mono ?_)
  rintro f q h' _ _ ⟨rfl, rfl⟩ _ _
  refine T.bind (onVisibilityModifierStart_spec.mono ?_)
  rintro vm q h' _ _ ⟨rfl, rfl⟩ _ _
  tgo

theorem item_ok (hR : R.Good I b) (hb : b ≤ p + 1) : T I p h (item R) Ok := by
  unfold item; tgo

theorem itemList_ok (hR : R.Good I b) (hb : b ≤ p + 1) (h0 : I.kindAt p = .L_CURLY) : T I p h (itemList R) Ok := by
  unfold itemList; tgo

theorem itemListOrRecover_ok (hR : R.Good I b) (hb : b ≤ p + 1) : T I p h (itemListOrRecover R) Ok := by
  unfold itemListOrRecover; tgo

theorem anyAddress_at (h0 : I.kindAt p = .INT_NUMBER ∨ I.kindAt p = .IDENT) : T I p h anyAddress fun _ q _ => q = p + 1 := by
  unfold anyAddress
  refine T.bind (T.at' fun _ _ => T.bind (T.at' fun _ _ => ?_))
  refine T.ite (fun hc => ?_) (fun hc => T.ite (fun hc' => ?_) (fun hc' => ?_))
  · unfold valueAddress
    refine T.bind (T.at' fun _ _ => T.bind (T.assert hc fun _ _ => ?_))
    exact T.drop (T.nodeV (by decide) (TV.bump1 rfl (by decide) (by tside) ⟨List.mem_cons_self .., fun _ _ => rfl⟩))
  · exact T.drop (T.nodeV (by decide) (TV.bump1 rfl (by decide) (by tside) ⟨List.mem_cons_self .., fun _ _ => rfl⟩))
  · simp only [Input.atKind, parts, Input.atParts] at hc hc'
    simp at hc hc'
    tauto

theorem anyAddress_none (h0 : I.kindAt p ≠ .INT_NUMBER) (h1 : I.kindAt p ≠ .IDENT) : T I p h anyAddress fun _ q _ => q = p := by
  unfold anyAddress
  refine T.bind (T.at' fun _ _ => T.bind (T.at' fun _ _ => ?_))
  refine T.ite (fun hc => ?_) (fun hc => T.ite (fun hc' => ?_) (fun hc' => T.error rfl))
  · simp [Input.atKind, parts, Input.atParts, h0] at hc
  · simp [Input.atKind, parts, Input.atParts, h1] at hc'

theorem moduleBody_ok (hR : R.Good I b) (hb : b ≤ p + 1) (h0 : I.kindAt p = .MODULE_KW) : T I p h (moduleBody R) Ok := by
  unfold moduleBody
  refine T.bind (T.bump1 rfl (by decide) h0 fun _ _ _ => ?_)
  refine T.bind (T.nthAt fun _ _ => ?_)
  refine T.call (T.iff (fun hc => ?_) (fun _ => trivial)) fun _ _ _ _ _ _ => by tgo
  have hcc : I.kindAt (p + 2) = .COLON_COLON := by tside
  by_cases ha : I.kindAt (p + 1) = .INT_NUMBER ∨ I.kindAt (p + 1) = .IDENT
  · refine T.bind ((anyAddress_at ha).mono ?_)
    rintro _ q h' _ _ rfl _ _
    exact T.bump1 rfl (by decide) hcc fun _ => trivial
  · rw [not_or] at ha
    refine T.bind ((anyAddress_none ha.1 ha.2).mono ?_)
    rintro _ q h' _ _ rfl _ _
    unfold bump
    refine T.bind (T.eat1 rfl (by decide) (fun _ _ _ _ => T.pure trivial) (fun hn _ _ => ?_))
    rw [if_neg (by simp)]
    exact T.crash ⟨p, h0, ha.1, ha.2, hn, hcc⟩

theorem moduleSpecBody_ok (hR : R.Good I b) (hb : b ≤ p + 1) (h0 : I.kindAt p = .SPEC_KW) : T I p h (moduleSpecBody R) Ok := by
  unfold moduleSpecBody; tgo

theorem scriptBody_ok (hR : R.Good I b) (hb : b ≤ p + 1) (h0 : I.kindAt p = .SCRIPT_KW) : T I p h (scriptBody R) Ok := by
  unfold scriptBody; tgo

theorem addressItem_ok (hR : R.Good I b) (hb : b ≤ p + 1) : T I p h (addressItem R) Ok := by
  unfold addressItem; tgo

theorem addressBody_ok (hR : R.Good I b) (hb : b ≤ p + 1) (h0 : I.isKeyword p "address" = true) : T I p h (addressBody R) Ok := by
  unfold addressBody; tgo

end Verif.Parser
