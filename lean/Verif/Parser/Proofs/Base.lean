import Verif.Parser.Auto
import Verif.Parser.Grammar.Base

/-! The functions of `Grammar/Base.lean` meet the judgement. -/

namespace Verif.Parser
open Verif.Syntax (SyntaxKind)
open Verif.TokenSet (TSet)

set_option linter.unusedSectionVars false
set_option linter.style.nameCheck false

/-- What is known after a type at `p`: if there is one and it does not begin with `|`, its node is there. -/
def TypOk (I : Input) (p : Nat) (a : Bool) (_ : Nat) (h : Handle) : Prop :=
  a = true → I.kindAt p ≠ .PIPE → ∃ cm, h = some cm ∧ typeKind cm.kind = true

/-- The functions of the grammar from which the recursion goes on are well-behaved from a position on. -/
structure Rec.Good (R : Rec) (I : Input) (b : Nat) : Prop where
  exprBp : ∀ {p h r bp}, b ≤ p → 1 ≤ bp → T I p h (R.exprBp r bp) Ok
  typ : ∀ {p h rs}, b ≤ p → T I p h (R.typ rs) (TypOk I p)
  pathType : ∀ {p h}, b ≤ p → T I p h R.pathType Ok
  pattern : ∀ {p h}, b ≤ p → T I p h R.pattern Ok
  stmt : ∀ {p h}, b ≤ p → T I p h R.stmt Ok
  useSpeck : ∀ {p h}, b ≤ p → T I p h R.useSpeck Ok
  attrItem : ∀ {p h}, b ≤ p → T I p h R.attrItem Ok

variable {I : Input} [I.Valid] {R : Rec} {b p : Nat} {h : Handle}

theorem Rec.exprBp_ok {r bp} (hR : R.Good I b) (hb : b ≤ p) (h1 : 1 ≤ bp) : T I p h (R.exprBp r bp) Ok := hR.exprBp hb h1
theorem Rec.typ_ok {rs} (hR : R.Good I b) (hb : b ≤ p) : T I p h (R.typ rs) Ok := (hR.typ hb).of_any
theorem Rec.pathType_ok (hR : R.Good I b) (hb : b ≤ p) : T I p h R.pathType Ok := hR.pathType hb
theorem Rec.pattern_ok (hR : R.Good I b) (hb : b ≤ p) : T I p h R.pattern Ok := hR.pattern hb
theorem Rec.stmt_ok (hR : R.Good I b) (hb : b ≤ p) : T I p h R.stmt Ok := hR.stmt hb
theorem Rec.useSpeck_ok (hR : R.Good I b) (hb : b ≤ p) : T I p h R.useSpeck Ok := hR.useSpeck hb
theorem Rec.attrItem_ok (hR : R.Good I b) (hb : b ≤ p) : T I p h R.attrItem Ok := hR.attrItem hb

theorem valueAddress_ok (h0 : I.kindAt p = .INT_NUMBER) : T I p h valueAddress Ok := by
  unfold valueAddress; tgo

theorem valueAddress_spec (h0 : I.kindAt p = .INT_NUMBER) :
    T I p h valueAddress fun _ _ h' => ∃ cm, h' = some cm ∧ cm.kind = .VALUE_ADDRESS := by
  unfold valueAddress
  refine T.bind (T.at' fun _ _ => T.bind (T.assert (by tside) fun _ _ => ?_))
  exact T.drop (T.nodeV (by decide) (TV.bump1 rfl (by decide) h0 ⟨by simp [Req], fun cm hk => ⟨cm, rfl, hk⟩⟩))

theorem anyAddress_ok : T I p h anyAddress Ok := by
  unfold anyAddress; tgo

theorem nameOrRecover_ok {extra : RSet} : T I p h (nameOrRecover extra) Ok := by
  unfold nameOrRecover; tgo

theorem name_ok : T I p h name Ok := by
  unfold name; tgo

theorem nameRefOrRecover_ok : T I p h nameRefOrRecover Ok := by
  unfold nameRefOrRecover; tgo

theorem nameRef_ok : T I p h nameRef Ok := by
  unfold nameRef; tgo

theorem ability_ok : T I p h ability Ok := by
  unfold ability; tgo

theorem abilitiesList_ok (h0 : I.kindAt p = .IDENT) (h1 : I.isKeyword p "has" = true) : T I p h abilitiesList Ok := by
  unfold abilitiesList; tgo

theorem typeArg_ok {isType : Bool} (hR : R.Good I b) (hb : b ≤ p) : T I p h (typeArg R isType) Ok := by
  unfold typeArg; tgo

theorem optTypeArgListForType_ok (hR : R.Good I b) (hb : b ≤ p + 1) : T I p h (optTypeArgListForType R) Ok := by
  unfold optTypeArgListForType; tgo

theorem typeArgListForExpr_ok (hR : R.Good I b) (hb : b ≤ p + 1) (h0 : I.kindAt p = .L_ANGLE) :
    T I p h (typeArgListForExpr R) Ok := by
  unfold typeArgListForExpr; tgo

theorem optTypeArgListForExpr_ok {c : Bool} (hR : R.Good I b) (hb : b ≤ p + 1) : T I p h (optTypeArgListForExpr R c) Ok := by
  unfold optTypeArgListForExpr; tgo

theorem optPathTypeArgList_ok {m : PathMode} (hR : R.Good I b) (hb : b ≤ p + 1) : T I p h (optPathTypeArgList R m) Ok := by
  unfold optPathTypeArgList; tgo

/-- A path can begin here. -/
def PathAt (I : Input) (p : Nat) : Prop := I.kindAt p = .IDENT ∨ I.kindAt p = .UNDERSCORE ∨ I.kindAt p = .INT_NUMBER

theorem pathAddress_ok (h0 : I.kindAt p = .INT_NUMBER) : T I p h (drop (node .PATH_ADDRESS valueAddress)) Ok := by
  refine T.drop (T.nodeV (by decide) ((valueAddress_spec h0).tv.mono ?_))
  rintro _ q h' ts _ _ ⟨⟨cm, rfl, hk⟩, hm⟩
  exact ⟨(hk ▸ hm cm rfl : Top.node .VALUE_ADDRESS ∈ ts), fun _ _ => trivial⟩

theorem pathSegment_spec {m : Option PathMode} {f : Bool} (hR : R.Good I b) (hb : b ≤ p + 1) :
    T I p h (pathSegment R m f) fun a _ _ => f = true → PathAt I p → a = true := by
  unfold pathSegment
  refine T.block ?_
  have fin : ∀ {q h'}, T I q h' (pure (Outcome.complete .PATH_SEGMENT, true)) fun r q _ =>
      Ended (fun x _ _ => f = true → PathAt I p → x.2 = true) p r q := fun {q h'} => T.pure ⟨rfl, fun _ _ _ _ => rfl⟩
  refine T.bind (T.current fun _ _ => ?_)
  refine T.ite (fun hc => ?_) (fun hn1 => T.ite (fun hc => ?_) (fun hn2 => T.ite (fun hc => ?_) (fun hn3 => ?_)))
  · refine T.call (by tgo) fun _ _ _ _ _ _ => ?_
    split
    · exact T.call (optPathTypeArgList_ok hR (by omega)) fun _ _ _ _ _ _ => fin
    · exact fin
  · exact T.call (by tgo) fun _ _ _ _ _ _ => fin
  · exact T.call (pathAddress_ok hc.1) fun _ _ _ _ _ _ => fin
  · refine T.call (by tgo) fun _ _ _ _ _ _ => T.pure ?_
    intro hf hp
    rcases hp with h1 | h1 | h1
    · exact absurd h1 hn1
    · exact absurd h1 hn2
    · exact absurd ⟨h1, hf⟩ hn3

theorem pathSegment_ok {m : Option PathMode} {f : Bool} (hR : R.Good I b) (hb : b ≤ p + 1) : T I p h (pathSegment R m f) Ok :=
  (pathSegment_spec hR hb).of_any

theorem pathLoop_spec {m : Option PathMode} {cm : CM} (hR : R.Good I b) (hb : b ≤ p + 1) (hh : h = some cm ∧ cm.kind = .PATH) :
    T I p h (pathLoop R m cm) fun r q h' => (h' = some r.2 ∧ r.2.kind = .PATH) ∧ (r.1 = true → p < q) := by
  unfold pathLoop
  refine T.bind (T.at' fun _ _ => ?_)
  refine T.bind (T.nthAt fun _ _ => ?_)
  refine T.ite (fun _ => T.pure ⟨hh, by simp⟩) (fun _ => ?_)
  refine T.bind (T.preceded hh.1 ?_)
  refine T.bind (T.bump1 rfl (by decide) (by tside) fun _ _ _ => ?_)
  refine T.call (T.drop_ok (pathSegment_ok hR (by omega))) fun _ _ _ _ _ _ => ?_
  exact T.pure ⟨rfl, fun cm' hk _ _ => T.pure ⟨⟨rfl, hk⟩, fun _ => by omega⟩⟩

/-- If there is a path its node is there, and there is one if it can begin here. -/
theorem path_spec {m : Option PathMode} (hR : R.Good I b) (hb : b ≤ p + 1) :
    T I p h (path R m) fun a _ h' => (a = true → ∃ cm, h' = some cm ∧ cm.kind = .PATH) ∧ (PathAt I p → a = true) := by
  unfold path
  refine T.bind (T.marked (T.bind ((pathSegment_spec hR hb).mono ?_)))
  intro a q _ h1 h2 ha _ _
  refine T.pure ?_
  cases a with
  | false => exact fun _ _ => T.pure ⟨fun h => (Bool.noConfusion h), fun hp => ha rfl hp⟩
  | true =>
    refine ⟨rfl, fun cm hk _ _ => ?_⟩
    refine T.bind (T.drop (T.loop (fun cm _ h' => h' = some cm ∧ cm.kind = .PATH) ⟨rfl, hk⟩
        (fun cm q h' h3 h4 h5 => pathLoop_spec hR (by omega) h5) fun cm q h' _ _ hc _ _ => ?_))
    exact T.pure ⟨fun _ => ⟨cm, hc⟩, fun _ => rfl⟩

theorem path_ok {m : Option PathMode} (hR : R.Good I b) (hb : b ≤ p + 1) : T I p h (path R m) Ok := (path_spec hR hb).of_any

theorem isPathStart_spec : T I p h isPathStart fun a q h' => p = q ∧ h = h' ∧ (a = true → PathAt I p) := by
  unfold isPathStart
  repeat (first | refine T.pure ⟨rfl, rfl, ?_⟩ | (refine T.bind ?_; tstep; intro _ _) | tstep)
  intro hc
  simp at hc
  unfold PathAt
  tauto

theorem pathType_spec (hR : R.Good I b) (hb : b ≤ p + 1) :
    T I p h (pathType R) fun a _ h' => a = true → ∃ cm, h' = some cm ∧ cm.kind = .PATH_TYPE := by
  unfold pathType
  refine T.bind (isPathStart_spec.mono ?_)
  rintro a _ _ _ _ ⟨rfl, rfl, ha⟩ _ _
  refine T.ite (fun _ => T.pure fun h => (Bool.noConfusion h)) (fun _ => T.blockV (TV.bind ((path_spec hR hb).tv.mono ?_)))
  rintro a q h' ts _ _ ⟨⟨h1, -⟩, hm⟩ _ _
  cases a with
  | false => exact TV.pure fun h => (Bool.noConfusion h)
  | true =>
    obtain ⟨cm, rfl, hk⟩ := h1 rfl
    exact TV.pure ⟨by decide, List.mem_append_left _ (hk ▸ hm cm rfl : Top.node .PATH ∈ ts), fun cm hk _ => ⟨cm, rfl, hk⟩⟩

theorem pathType_ok (hR : R.Good I b) (hb : b ≤ p + 1) : T I p h (pathType R) Ok := (pathType_spec hR hb).of_any

theorem type__ok (hR : R.Good I b) (hb : b ≤ p) : T I p h (type_ R) Ok := by
  unfold type_; tgo

theorem typeAnnotation_ok (hR : R.Good I b) (hb : b ≤ p + 1) (h0 : I.kindAt p = .COLON) : T I p h (typeAnnotation R) Ok := by
  unfold typeAnnotation; tgo

theorem abilityBoundLoop_spec : T I p h (abilityBoundLoop ()) fun r q _ => r.1 = true → p < q := by
  unfold abilityBoundLoop
  refine T.call ability_ok fun a _ _ _ _ _ => ?_
  refine T.ite (fun _ => T.pure (by simp)) (fun _ => ?_)
  refine T.bind (T.eat1 rfl (by decide) (fun _ _ _ _ => T.pure fun _ => by omega) (fun _ _ _ => T.pure (by simp)))

theorem abilityBoundList_ok : T I p h abilityBoundList Ok := by
  unfold abilityBoundList
  refine T.drop_node rfl ?_
  exact T.loop (fun _ _ _ => True) trivial
    (fun _ _ _ _ _ _ => abilityBoundLoop_spec.mono fun _ _ _ _ _ h => ⟨trivial, h⟩) (fun _ _ _ _ _ _ => trivial)

theorem lambdaTypeParam_ok (hR : R.Good I b) (hb : b ≤ p) (h0 : I.kindAt p ≠ .PIPE) : T I p h (lambdaTypeParam R) Ok := by
  unfold lambdaTypeParam
  refine T.call (T.drop (Q := Ok) (T.nodeOfV (TV.bind ((hR.typ hb).tv.mono ?_)))) fun _ _ _ _ _ _ => T.pure trivial
  rintro a q h' ts _ _ ⟨h1, hm⟩ _ _
  cases a with
  | false => exact TV.pure ⟨by decide, trivial, fun _ _ => trivial⟩
  | true =>
    obtain ⟨cm, rfl, hk⟩ := h1 rfl h0
    exact TV.pure ⟨by decide, ⟨_, hk, by simpa using hm cm rfl⟩, fun _ _ => trivial⟩

theorem lambdaType_ok (hR : R.Good I b) (hb : b ≤ p + 1) (h0 : I.kindAt p = .PIPE) : T I p h (lambdaType R) Ok := by
  unfold lambdaType; tgo

theorem parenOrTupleOrUnitType_spec (hR : R.Good I b) (hb : b ≤ p + 1) (h0 : I.kindAt p = .L_PAREN) :
    T I p h (parenOrTupleOrUnitType R) fun _ _ h' => ∃ cm, h' = some cm ∧ typeKind cm.kind = true := by
  unfold parenOrTupleOrUnitType
  refine T.bind (T.at' fun _ _ => T.bind (T.assert (by tside) fun _ _ => ?_))
  have body : T I p none (do
      bump .L_PAREN
      let v ← iterate (ts [.R_PAREN]) (fun (v : Nat × Bool) => do
        drop (type_ R)
        let c ← eat .COMMA
        pure (c, (v.1 + 1, c))) (0, false)
      drop (expect .R_PAREN)
      pure (if v.1 = 1 ∧ v.2 = false then SyntaxKind.PAREN_TYPE else if v.1 = 0 then .UNIT_TYPE else .TUPLE_TYPE))
      fun k _ _ => plain k = true ∧ typeKind k = true := by tgo
  exact T.drop (T.nodeOf (body.mono fun _ _ _ _ _ hk => ⟨hk.1, fun cm hc => ⟨cm, rfl, hc ▸ hk.2⟩⟩))

theorem refType_spec (hR : R.Good I b) (hb : b ≤ p + 1) (h0 : I.kindAt p = .AMP) :
    T I p h (refType R) fun _ _ h' => ∃ cm, h' = some cm ∧ typeKind cm.kind = true := by
  unfold refType
  refine T.bind (T.at' fun _ _ => T.bind (T.assert (by tside) fun _ _ => ?_))
  have body : T I p none (do
      bump .AMP
      drop (eat .MUT_KW)
      drop (type_ R)) Ok := by tgo
  exact T.drop (T.node rfl (body.mono fun _ _ _ _ _ _ cm hc => ⟨cm, rfl, by rw [hc]; rfl⟩))

theorem typeOrRecover_ok {rs : RSet} (hR : R.Good I b) (hb : b ≤ p + 1) : T I p h (typeOrRecover R rs) (TypOk I p) := by
  unfold typeOrRecover
  refine T.bind (T.current fun _ _ => ?_)
  refine T.bind (isPathStart_spec.mono ?_)
  rintro a _ _ _ _ ⟨rfl, rfl, ha⟩ _ _
  refine T.ite (fun hc => ?_) (fun _ => T.ite (fun hc => ?_) (fun _ => T.ite (fun hc => ?_) (fun _ => T.ite (fun _ => ?_) (fun _ => ?_))))
  · exact T.bind ((parenOrTupleOrUnitType_spec hR hb hc).mono fun _ _ _ _ _ hh _ _ => T.pure fun _ _ => hh)
  · exact T.bind ((refType_spec hR hb hc).mono fun _ _ _ _ _ hh _ _ => T.pure fun _ _ => hh)
  · exact T.call (lambdaType_ok hR hb hc) fun _ _ _ _ _ _ => T.pure fun _ hp => absurd hc hp
  · refine (pathType_spec hR hb).mono fun a q h' _ _ hh h1 _ => ?_
    obtain ⟨cm, h2, h3⟩ := hh h1
    exact ⟨cm, h2, by rw [h3]; rfl⟩
  · exact T.call errorAndRecover_ok' fun _ _ _ _ _ _ => T.pure fun h => (Bool.noConfusion h)

theorem colonAbilityBoundList_ok (h0 : I.kindAt p = .COLON) : T I p h colonAbilityBoundList Ok := by
  unfold colonAbilityBoundList; tgo

theorem typeParam_ok : T I p h typeParam Ok := by
  unfold typeParam; tgo

theorem typeParamList_ok (h0 : I.kindAt p = .L_ANGLE) : T I p h typeParamList Ok := by
  unfold typeParamList; tgo

theorem optTypeParamList_ok : T I p h optTypeParamList Ok := by
  unfold optTypeParamList; tgo

theorem expr_ok (hR : R.Good I b) (hb : b ≤ p) : T I p h (expr R) Ok := by
  unfold expr; tgo

theorem topLevelExprInStmt_ok (hR : R.Good I b) (hb : b ≤ p) : T I p h (topLevelExprInStmt R) Ok := by
  unfold topLevelExprInStmt; tgo

theorem optInitializerExpr_ok (hR : R.Good I b) (hb : b ≤ p + 1) : T I p h (optInitializerExpr R) Ok := by
  unfold optInitializerExpr; tgo

theorem expectExpr_ok (hR : R.Good I b) (hb : b ≤ p) : T I p h (expectExpr R) Ok := by
  unfold expectExpr; tgo

theorem initializerExpr_ok (hR : R.Good I b) (hb : b ≤ p + 1) : T I p h (initializerExpr R) Ok := by
  unfold initializerExpr; tgo

theorem attrItemList_ok {l r : SyntaxKind} (hR : R.Good I b) (hb : b ≤ p + 1) (hl : parts l = [l]) (hl' : l ≠ .EOF)
    (hr : parts r = [r]) (hr' : r ≠ .EOF) (h0 : I.kindAt p = l) : T I p h (attrItemList R l r) Ok := by
  unfold attrItemList
  refine T.bind (T.bump1 hl hl' h0 fun _ _ _ => ?_)
  refine T.call (T.delimited_ok rfl (by decide) fun q h hq hs _ => hR.attrItem (by omega)) fun _ _ _ _ _ _ => ?_
  exact T.drop (T.expect1 hr hr' (fun _ _ => trivial) (fun _ => trivial))

theorem attrItem_ok (hR : R.Good I b) (hb : b ≤ p + 1) : T I p h (attrItem R) Ok := by
  unfold attrItem; tgo

theorem attr_spec (hR : R.Good I b) (hb : b ≤ p + 1) (h0 : I.kindAt p = .POUND) :
    T I p h (attr R) fun cm q h' => h' = some cm ∧ p < q := by
  unfold attr
  refine T.bind (T.at' fun _ _ => ?_)
  refine T.bind (T.assert (by tside) fun _ _ => ?_)
  refine T.node rfl ?_
  refine T.bind (T.bump1 rfl (by decide) h0 fun _ _ _ => ?_)
  have : T I (p + 1) none (do
      let l ← at' .L_BRACK
      if l then attrItemList R .L_BRACK .R_BRACK else error) Ok := by tgo
  exact this.mono fun _ _ _ _ _ _ _ _ => ⟨rfl, by omega⟩

/-- The last of the attributes may be given a parent. -/
theorem attrs_any (hR : R.Good I b) (hb : b ≤ p + 1) : T I p h (attrs R) fun a _ h => ∀ c, a = some c → h = some c := by
  unfold attrs
  refine T.loop (fun a _ h => ∀ c, a = some c → h = some c) (by simp) (fun a q h' h1 h2 h3 => ?_) (fun _ _ _ _ _ h => h)
  unfold attrsLoop
  refine T.bind (T.at' fun _ _ => ?_)
  refine T.ite (fun _ => ?_) (fun _ => T.pure ⟨h3, by simp⟩)
  refine T.bind ((attr_spec hR (by omega) (by tside)).mono ?_)
  rintro cm q' h'' h4 h5 ⟨h6, h7⟩ _ _
  exact T.pure ⟨by simpa using h6, fun _ => h7⟩

end Verif.Parser
