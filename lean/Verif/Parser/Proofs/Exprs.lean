import Verif.Parser.Proofs.Base
import Verif.Parser.Grammar.Exprs

/-! The functions of `Grammar/Exprs.lean` meet the judgement. -/

namespace Verif.Parser
open Verif.Syntax (SyntaxKind)
open Verif.TokenSet (TSet)

set_option linter.unusedSectionVars false
set_option linter.style.nameCheck false

variable {I : Input} [I.Valid] {R : Rec} {b p : Nat} {h : Handle}

/-- What is known of a literal at `p`. -/
def LitOk (I : Input) (p : Nat) (a : Option CM) (h : Handle) : Prop :=
  (∀ c, a = some c → h = some c ∧ c.kind = .LITERAL) ∧
    (TokenSet.contains LITERAL_FIRST (I.kindAt p) = true → a = none → I.numbered)

theorem literalBlock_spec : T I p none literalBlock fun r q _ =>
    Ended (fun r _ h => LitOk I p r.1 h ∧ (r.2 = true → r.1 = none)) p r q := by
  unfold literalBlock
  refine T.bind (T.current fun _ _ => ?_)
  refine T.bind (T.nthAt fun _ _ => ?_)
  have fin : ∀ {q h'}, T I q h' (pure (Outcome.complete .LITERAL, false)) fun r q _ =>
      Ended (fun r _ h => LitOk I p r.1 h ∧ (r.2 = true → r.1 = none)) p r q := fun {q h'} =>
    T.pure ⟨rfl, fun cm hk => ⟨⟨fun c hc => by cases hc; exact ⟨rfl, hk⟩, fun _ hn => by cases hn⟩, fun hf => by cases hf⟩⟩
  refine T.ite (fun hc => T.pure ⟨⟨fun c hc => by (cases hc), fun _ _ => ⟨p, hc.1, ?_⟩⟩, fun hf => by cases hf⟩) (fun _ => ?_)
  · have := hc.2
    tside
  refine T.ite (fun hk => ?_) (fun hn1 => ?_)
  · exact T.call (T.drop_node rfl (by tgo)) (fun _ _ _ _ _ _ => fin)
  refine T.ite (fun hk => ?_) (fun hn2 => T.pure ⟨⟨fun c hc => by (cases hc), fun hl _ => ?_⟩, fun _ => rfl⟩)
  · exact T.bind (T.bumpAny (fun _ _ _ _ => fin) (fun _ _ _ => fin))
  · exfalso
    have hs := Input.Valid.small (I := I) p
    revert hl hn1 hn2 hs
    generalize I.kindAt p = k
    intro hn1 hn2 hl hs
    cases k <;> first
      | (revert hl; decide)
      | (revert hs; decide)
      | (revert hn1; decide)
      | (revert hn2; decide)

theorem literal_spec : T I p h literal fun a _ h' => LitOk I p a h' := by
  unfold literal
  refine T.bind (T.marked (literalBlock_spec.mono ?_))
  intro r q _ hq hs hE
  have key : ∀ (x : Option CM × Bool) (h' : Handle) q, LitOk I p x.1 h' ∧ (x.2 = true → x.1 = none) →
      T I q h' (do iff x.2 errorAndBump; pure x.1) fun a _ h' => LitOk I p a h' := by
    rintro x h' q ⟨h1, h2⟩
    cases hx : x.2 with
    | true =>
      rw [hx] at h2
      refine T.call (T.iff (fun _ => errorAndBump_ok') (fun _ => trivial)) fun _ _ _ _ _ _ => T.pure ⟨?_, h1.2⟩
      rw [h2 rfl]
      intro c hc; cases hc
    | false => exact T.bind (T.iff (fun hc => by cases hc) fun _ _ _ => T.pure h1)
  unfold Ended at hE ⊢
  cases hr : r.1 with
  | complete k => rw [hr] at hE; exact ⟨hE.1, fun cm hk _ _ => key _ _ _ (hE.2 cm hk)⟩
  | abandon => rw [hr] at hE; exact fun _ _ => key _ _ _ hE
  | rollback => rw [hr] at hE; exact fun _ _ => key _ _ _ hE

theorem literal_ok : T I p h literal Ok :=
  literal_spec.mono fun _ _ _ _ _ hl c hc => ⟨(hl.1 c hc).1, by rw [(hl.1 c hc).2]; rfl⟩

theorem nameRef_at (h0 : I.kindAt p = .IDENT) : T I p h nameRef fun _ q _ => q = p + 1 := by
  unfold nameRef
  refine T.bind (T.at' fun _ _ => ?_)
  refine T.ite (fun _ => ?_) (fun hc => by simp [Input.atKind, parts, Input.atParts, h0] at hc)
  exact T.bind (T.drop (T.nodeV (by decide) (TV.bump1 rfl (by decide) h0 ⟨Or.inl rfl, fun _ _ _ _ => T.pure rfl⟩)))

/-- A name and then a token that was seen after it. -/
theorem T.nameRef_then {β : Type} {f : Unit → P β} {Q : β → Nat → Handle → Prop} (h0 : I.kindAt p = .IDENT)
    (h1 : ∀ h', p + 1 ≤ I.size → T I (p + 1) h' (f ()) Q) : T I p h (Verif.Parser.drop nameRef >>= f) Q := by
  refine T.bind (T.drop ((nameRef_at h0).mono ?_))
  rintro _ q h' _ hs rfl _ _
  exact h1 h' hs

theorem wildcardPat_any (h0 : I.kindAt p = .UNDERSCORE) : T I p h wildcardPat Any := by
  unfold wildcardPat
  refine T.bind (T.at' fun _ _ => T.bind (T.assert (by tside) fun _ _ => ?_))
  exact T.node rfl (T.bump1 rfl (by decide) h0 fun _ _ _ => trivial)

theorem identPat_any : T I p h identPat Any := by
  unfold identPat
  exact T.node rfl ((T.drop_ok name_ok).mono fun _ _ _ _ _ _ _ _ => trivial)

theorem identPatOrRecover_ok : T I p h identPatOrRecover Ok := by
  unfold identPatOrRecover; tgo

/-- A literal begins here, perhaps with a sign. -/
def LitAt (I : Input) (p : Nat) : Prop :=
  (I.kindAt p = .MINUS ∧ I.kindAt (p + 1) = .INT_NUMBER) ∨ TokenSet.contains LITERAL_FIRST (I.kindAt p) = true

theorem isLiteralPatStart_spec : T I p h isLiteralPatStart fun a q h' => p = q ∧ h = h' ∧ (a = true → LitAt I p) := by
  unfold isLiteralPatStart
  repeat (first | refine T.pure ⟨rfl, rfl, ?_⟩ | (refine T.bind ?_; tstep; intro _ _) | tstep)
  intro hc
  simp only [Bool.or_eq_true, Bool.and_eq_true, beq_iff_eq] at hc
  refine hc.imp (fun h => ⟨?_, h.2⟩) id
  have := h.1
  tside

theorem literalPat_any (h0 : LitAt I p) : T I p h literalPat fun cm _ h' => h' = some cm := by
  unfold literalPat
  refine T.nodeV (by decide) (TV.bind ?_)
  have lit : ∀ {q}, TokenSet.contains LITERAL_FIRST (I.kindAt q) = true → ∀ us,
      TV I q (drop literal) fun _ _ _ ts => Req I .LITERAL_PAT (us ++ ts) ∧ ∀ cm : CM, cm.kind = SyntaxKind.LITERAL_PAT → some cm = some cm := by
    intro q hq us
    refine (T.drop (Q := fun _ _ h' => (∃ c, h' = some c ∧ c.kind = .LITERAL) ∨ I.numbered) (literal_spec.mono ?_)).tv.mono ?_
    · intro a _ h' _ _ hl
      cases a with
      | none => exact Or.inr (hl.2 hq rfl)
      | some c => exact Or.inl ⟨c, hl.1 c rfl⟩
    · rintro _ _ h' ts _ _ ⟨hl, hm⟩
      refine ⟨?_, fun _ _ => rfl⟩
      rcases hl with ⟨c, rfl, hk⟩ | hl
      · exact Or.inl (List.mem_append_right _ (hk ▸ hm c rfl))
      · exact Or.inr hl
  rcases h0 with ⟨h1, h2⟩ | h1
  · refine TV.bind (TV.eat1 rfl (by decide) h1 fun _ _ => TV.pure fun _ _ => ?_)
    exact lit (by rw [h2]; rfl) _
  · have hm : I.kindAt p ≠ .MINUS := by
      intro hc
      rw [hc] at h1
      revert h1
      decide
    exact TV.bind (TV.eat0 rfl hm fun _ _ => TV.pure fun _ _ => lit h1 _)

theorem tuplePatFields_ok (hR : R.Good I b) (hb : b ≤ p + 1) (h0 : I.kindAt p = .L_PAREN) : T I p h (tuplePatFields R) Ok := by
  unfold tuplePatFields; tgo

theorem structPatField_ok (hR : R.Good I b) (hb : b ≤ p + 1) : T I p h (structPatField R) Ok := by
  unfold structPatField
  refine T.bind (T.current fun _ _ => ?_)
  refine T.bind (T.nth fun _ _ => ?_)
  refine T.ite (fun hc => T.nameRef_then hc.1 fun _ _ => ?_) (fun _ => ?_)
  · have := hc.2
    tgo
  · tgo

theorem structPatElement_ok (hR : R.Good I b) (hb : b ≤ p + 1) : T I p h (structPatElement R) Ok := by
  unfold structPatElement; tgo

theorem structPatFieldList_ok (hR : R.Good I b) (hb : b ≤ p + 1) (h0 : I.kindAt p = .L_CURLY) : T I p h (structPatFieldList R) Ok := by
  unfold structPatFieldList; tgo

/-- A path where one can begin. -/
theorem path_at {m : Option PathMode} (hR : R.Good I b) (hb : b ≤ p + 1) (h0 : PathAt I p) :
    T I p h (drop (path R m)) fun _ _ h' => ∃ cm, h' = some cm ∧ cm.kind = .PATH :=
  T.drop ((path_spec hR hb).mono fun _ _ _ _ _ hp => hp.1 (hp.2 h0))

theorem pathPat_ok (hR : R.Good I b) (hb : b ≤ p + 1) (h0 : PathAt I p) : T I p h (pathPat R) Ok := by
  unfold pathPat
  refine T.drop (T.nodeOfV (TV.seq (path_at hR hb h0).tv (QB := fun k _ _ => k = .TUPLE_STRUCT_PAT ∨ k = .STRUCT_PAT ∨ k = .PATH_PAT)
    (fun _ q h' ts _ _ _ => ?_) ?_))
  · refine T.bind (T.current fun _ _ => ?_)
    refine T.ite (fun hc => T.call (tuplePatFields_ok hR (by omega) hc) fun _ _ _ _ _ _ => T.pure (Or.inl rfl)) (fun _ => ?_)
    exact T.ite (fun hc => T.call (structPatFieldList_ok hR (by omega) hc) fun _ _ _ _ _ _ => T.pure (Or.inr (Or.inl rfl)))
      (fun _ => T.pure (Or.inr (Or.inr rfl)))
  · rintro _ q _ ts k q' h'' us ⟨⟨cm, rfl, hk⟩, hm⟩ hkk
    have : Top.node .PATH ∈ ts ++ us := List.mem_append_left _ (hk ▸ hm cm rfl)
    rcases hkk with rfl | rfl | rfl <;> exact ⟨by decide, this, fun _ _ => trivial⟩

theorem tupleOrUnitOrParenPat_ok (hR : R.Good I b) (hb : b ≤ p + 1) (h0 : I.kindAt p = .L_PAREN) : T I p h (tupleOrUnitOrParenPat R) Ok := by
  unfold tupleOrUnitOrParenPat; tgo

theorem pattern_ok (hR : R.Good I b) (hb : b ≤ p + 1) : T I p h (pattern R) Ok := by
  unfold pattern
  refine T.bind (T.current fun _ _ => T.bind (T.nthAt fun _ _ => T.bind (T.nth fun _ _ => ?_)))
  refine T.bind (isLiteralPatStart_spec.mono ?_)
  rintro l _ _ _ _ ⟨rfl, rfl, hl⟩ _ _
  refine T.ite (fun hc => ?_) (fun _ => T.ite (fun hc => ?_) (fun _ => T.ite (fun hc => ?_) (fun _ => T.ite (fun hc => ?_) (fun _ => ?_))))
  · exact T.call (pathPat_ok hR hb (Or.inr (Or.inr hc.1))) fun _ _ _ _ _ _ => T.pure trivial
  · refine T.call (T.ite (fun _ => pathPat_ok hR hb (Or.inl hc)) (fun _ => ?_)) fun _ _ _ _ _ _ => T.pure trivial
    tgo
  · refine T.bind ((literalPat_any (hl hc)).mono ?_)
    rintro cm q h' _ _ rfl _ _
    refine T.bind (T.at' fun _ _ => T.call (T.iff (fun hd => T.drop_preceded rfl ?_) (fun _ => trivial)) fun _ _ _ _ _ _ => T.pure trivial)
    refine T.bind (T.bump1 rfl (by decide) (by tside) fun _ _ _ => ?_)
    refine T.bind (isLiteralPatStart_spec.mono ?_)
    rintro l _ _ _ _ ⟨rfl, rfl, hl⟩ _ _
    exact T.call (T.iff (fun hc => T.drop_any (literalPat_any (hl hc))) (fun _ => trivial)) fun _ _ _ _ _ _ => T.pure rfl
  · refine T.call (T.drop_nodeOf ?_) fun _ _ _ _ _ _ => T.pure trivial
    refine T.bind (T.bump1 rfl (by decide) hc fun _ _ _ => ?_)
    refine T.bind (isLiteralPatStart_spec.mono ?_)
    rintro l _ _ _ _ ⟨rfl, rfl, hl⟩ _ _
    exact T.ite (fun hc => T.call (T.drop_any (literalPat_any (hl hc))) fun _ _ _ _ _ _ => T.pure rfl) (fun _ => T.pure rfl)
  · tgo

theorem param_ok (hR : R.Good I b) (hb : b ≤ p + 1) : T I p h (param R) Ok := by
  unfold param; tgo

theorem funParamList_ok (hR : R.Good I b) (hb : b ≤ p + 1) (h0 : I.kindAt p = .L_PAREN) : T I p h (funParamList R) Ok := by
  unfold funParamList; tgo

theorem lambdaParam_ok (hR : R.Good I b) (hb : b ≤ p + 1) : T I p h (lambdaParam R) Ok := by
  unfold lambdaParam; tgo

/-- If there is a list of parameters, it is not empty. -/
theorem lambdaParamList_spec (hR : R.Good I b) (hb : b ≤ p + 1) (h0 : I.kindAt p = .PIPE) :
    T I p h (lambdaParamList R) fun a q _ => a = true → p < q := by
  unfold lambdaParamList
  refine T.block ?_
  refine T.bind (T.bump1 rfl (by decide) h0 fun _ _ _ => ?_)
  refine T.bind (T.at' fun _ _ => ?_)
  refine T.ite (fun _ => T.pure (by simp [Ended])) (fun _ => ?_)
  refine T.call (T.delimited_ok rfl (by decide) fun q h hq hs _ => lambdaParam_ok hR (by omega)) fun _ _ _ _ _ _ => ?_
  refine T.bind (T.eat1 rfl (by decide) (fun _ _ _ _ => ?_) (fun _ _ _ => ?_))
  · exact T.ite (fun hc => by simp at hc) (fun _ => T.pure ⟨rfl, fun _ _ _ => by omega⟩)
  · exact T.ite (fun hc => T.pure (by simp [Ended])) (fun hc => by simp at hc)

theorem stmtList_ok (hR : R.Good I b) (hb : b ≤ p) : T I p h (stmtList R) Ok := by
  unfold stmtList; tgo

theorem blockExpr_ok (hR : R.Good I b) (hb : b ≤ p + 1) (h0 : I.kindAt p = .L_CURLY) : T I p h (blockExpr R) Ok := by
  unfold blockExpr; tgo

theorem inlineExpr_ok (hR : R.Good I b) (hb : b ≤ p) (h0 : I.kindAt p ≠ .L_CURLY) : T I p h (inlineExpr R) Ok := by
  unfold inlineExpr; tgo

theorem blockOrInlineExpr_ok (hR : R.Good I b) (hb : b ≤ p) : T I p h (blockOrInlineExpr R) Ok := by
  unfold blockOrInlineExpr; tgo

theorem unexpectedBlock_ok (hR : R.Good I b) (hb : b ≤ p + 1) (h0 : I.kindAt p = .L_CURLY) : T I p h (unexpectedBlock R) Ok := by
  unfold unexpectedBlock; tgo

theorem blockOrError_ok {k : StmtKind} (hR : R.Good I b) (hb : b ≤ p + 1) : T I p h (blockOrError R k) Ok := by
  unfold blockOrError; tgo

theorem specBlockExpr_ok (hR : R.Good I b) (hb : b ≤ p + 1) (h0 : I.kindAt p = .SPEC_KW) : T I p h (specBlockExpr R) Ok := by
  unfold specBlockExpr; tgo

theorem optSpecBlockExpr_ok (hR : R.Good I b) (hb : b ≤ p + 1) : T I p h (optSpecBlockExpr R) Ok := by
  unfold optSpecBlockExpr; tgo

theorem valueArg_ok (hR : R.Good I b) (hb : b ≤ p) : T I p h (valueArg R) Ok := by
  unfold valueArg; tgo

theorem valueArgList_ok (hR : R.Good I b) (hb : b ≤ p + 1) (h0 : I.kindAt p = .L_PAREN ∨ Allowed I (.expected .L_PAREN)) :
    T I p h (valueArgList R) Ok := by
  unfold valueArgList
  refine T.bind (T.at' fun _ _ => ?_)
  by_cases hk : I.kindAt p = .L_PAREN
  · tgo
  · refine T.bind ?_
    unfold Verif.Parser.assert
    rw [if_neg (by simp [Input.atKind, parts, Input.atParts, hk])]
    exact T.crash (h0.resolve_left hk)

theorem structLitField_ok (hR : R.Good I b) (hb : b ≤ p) : T I p h (structLitField R) Ok := by
  unfold structLitField
  refine T.block_ok ?_
  refine T.bind (T.current fun _ _ => ?_)
  refine T.bind (T.nthAt fun _ _ => ?_)
  refine T.ite (fun hc => T.nameRef_then hc.1 fun _ _ => ?_) (fun _ => ?_)
  · have := hc.2
    tgo
  · tgo

theorem commaUnless_ok {k : SyntaxKind} : T I p h (commaUnless k) Ok := by
  unfold commaUnless; tgo

theorem structLitFieldList_ok (hR : R.Good I b) (hb : b ≤ p + 1) (h0 : I.kindAt p = .L_CURLY) : T I p h (structLitFieldList R) Ok := by
  unfold structLitFieldList; tgo

theorem optWhereExpr_ok (hR : R.Good I b) (hb : b ≤ p + 1) : T I p h (optWhereExpr R) Ok := by
  unfold optWhereExpr; tgo

theorem weight_ok (hR : R.Good I b) (hb : b ≤ p + 1) (h0 : I.kindAt p = .L_BRACK) : T I p h (weight R) Ok := by
  unfold weight; tgo

theorem quantTriggerList_ok (hR : R.Good I b) (hb : b ≤ p + 1) (h0 : I.kindAt p = .L_CURLY) : T I p h (quantTriggerList R) Ok := by
  unfold quantTriggerList; tgo

theorem quantBinding_ok (hR : R.Good I b) (hb : b ≤ p + 1) : T I p h (quantBinding R) Ok := by
  unfold quantBinding; tgo

theorem quantBindingList_ok {rs : RSet} (hR : R.Good I b) (hb : b ≤ p + 1) : T I p h (quantBindingList R rs) Ok := by
  unfold quantBindingList; tgo

theorem quantTail_ok (hR : R.Good I b) (hb : b ≤ p + 1) : T I p h (quantTail R) Ok := by
  unfold quantTail; tgo

theorem quantExpr_ok (hR : R.Good I b) (hb : b ≤ p + 1) (h0 : I.kindAt p = .IDENT) (h1 : I.isKeyword p "forall" = true ∨ I.isKeyword p "exists" = true ∨ I.isKeyword p "choose" = true) : T I p h (quantExpr R) Ok := by
  unfold quantExpr; tgo

theorem behaviorPredicate_ok (hR : R.Good I b) (hb : b ≤ p + 1) (h0 : I.kindAt p = .IDENT) (hA : Allowed I (.expected .L_PAREN)) : T I p h (behaviorPredicate R) Ok := by
  unfold behaviorPredicate; tgo

theorem pathExpr_ok (hR : R.Good I b) (hb : b ≤ p + 1) (h0 : PathAt I p ∨ I.misapplied) : T I p h (pathExpr R) Ok := by
  unfold pathExpr
  have hpath : T I p none (drop (path R (some .Expr))) fun _ _ h' => (∃ cm, h' = some cm ∧ cm.kind = .PATH) ∨ I.misapplied := by
    rcases h0 with h0 | h0
    · exact (path_at hR hb h0).mono fun _ _ _ _ _ hk => Or.inl hk
    · exact T.drop ((path_spec hR hb).mono fun _ _ _ _ _ _ => Or.inr h0)
  refine T.nodeOfV (TV.seq hpath.tv (QB := fun k _ _ => k = .STRUCT_LIT ∨ k = .PATH_EXPR) (fun _ q h' ts _ _ _ => ?_) ?_)
  · refine T.bind (T.current fun _ _ => ?_)
    exact T.ite (fun hc => T.call (structLitFieldList_ok hR (by omega) hc) fun _ _ _ _ _ _ => T.pure (Or.inl rfl))
      (fun _ => T.pure (Or.inr rfl))
  · rintro _ q _ ts k q' h'' us ⟨hp, hm⟩ hkk
    have : Top.node .PATH ∈ ts ++ us ∨ I.misapplied := by
      rcases hp with ⟨cm, rfl, hk⟩ | hp
      · exact Or.inl (List.mem_append_left _ (hk ▸ hm cm rfl))
      · exact Or.inr hp
    rcases hkk with rfl | rfl <;> exact ⟨by decide, this, fun cm hc => ⟨rfl, by rw [hc]; rfl⟩⟩

theorem vectorLitExpr_ok (hR : R.Good I b) (hb : b ≤ p + 1) (h0 : I.kindAt p = .IDENT) : T I p h (vectorLitExpr R) Ok := by
  unfold vectorLitExpr; tgo

theorem matchArm_ok (hR : R.Good I b) (hb : b ≤ p) : T I p h (matchArm R) Ok := by
  unfold matchArm; tgo

theorem matchArmList_ok (hR : R.Good I b) (hb : b ≤ p + 1) (h0 : I.kindAt p = .L_CURLY) : T I p h (matchArmList R) Ok := by
  unfold matchArmList
  refine T.bind (T.at' fun _ _ => T.bind (T.assert (by tside) fun _ _ => T.drop_node rfl ?_))
  refine T.bind (T.drop (T.eat1 rfl (by decide) (fun _ _ _ _ => ?_) (fun hn => absurd h0 hn)))
  tgo

theorem matchExpr_ok (hR : R.Good I b) (hb : b ≤ p + 1) (h0 : I.isKeyword p "match" = true) (h1 : I.kindAt (p + 1) = .L_PAREN) : T I p h (matchExpr R) Ok := by
  unfold matchExpr; tgo

theorem assertMacroExpr_ok (hR : R.Good I b) (hb : b ≤ p + 1) (h0 : I.kindAt p = .IDENT) (h1 : I.kindAt (p + 1) = .BANG) : T I p h (assertMacroExpr R) Ok := by
  unfold assertMacroExpr; tgo

theorem parenOrTupleOrAnnotatedExpr_ok (hR : R.Good I b) (hb : b ≤ p + 1) (h0 : I.kindAt p = .L_PAREN) : T I p h (parenOrTupleOrAnnotatedExpr R) Ok := by
  unfold parenOrTupleOrAnnotatedExpr; tgo

theorem condition_ok (hR : R.Good I b) (hb : b ≤ p) : T I p h (condition R) Ok := by
  unfold condition; tgo

theorem ifExpr_ok (hR : R.Good I b) (hb : b ≤ p + 1) (h0 : I.kindAt p = .IF_KW) : T I p h (ifExpr R) Ok := by
  unfold ifExpr; tgo

theorem loopBody_ok (hR : R.Good I b) (hb : b ≤ p + 1) (h0 : I.kindAt p = .LOOP_KW) : T I p h (loopBody R) Ok := by
  unfold loopBody; tgo

theorem forCondition_ok (hR : R.Good I b) (hb : b ≤ p) : T I p h (forCondition R) Ok := by
  unfold forCondition; tgo

theorem forBody_ok (hR : R.Good I b) (hb : b ≤ p + 1) (h0 : I.kindAt p = .IDENT) (h1 : I.isKeyword p "for" = true) : T I p h (forBody R) Ok := by
  unfold forBody; tgo

theorem whileBody_ok (hR : R.Good I b) (hb : b ≤ p + 1) (h0 : I.kindAt p = .WHILE_KW) : T I p h (whileBody R) Ok := by
  unfold whileBody; tgo

theorem labelDecl_ok (h0 : I.kindAt p = .QUOTE_IDENT) (h1 : I.kindAt (p + 1) = .COLON) : T I p h labelDecl Ok := by
  unfold labelDecl
  refine T.bind (T.at' fun _ _ => T.bind (T.nth fun _ _ => T.bind (T.assert (by tside) fun _ _ => ?_)))
  refine T.drop (T.nodeV (by decide) (TV.bind (TV.bump1 rfl (by decide) h0 fun _ _ => ?_)))
  exact TV.bump1 rfl (by decide) h1 ⟨List.mem_append_left _ (List.mem_cons_self ..), fun _ _ => trivial⟩

theorem optLabel_ok : T I p h optLabel Ok := by
  unfold optLabel
  refine T.bind (T.at' fun _ _ => T.iff (fun hc => ?_) (fun _ => trivial))
  refine T.drop (T.nodeV (by decide) (TV.bind (TV.eat1 rfl (by decide) (by tside) fun _ _ => TV.pure ?_)))
  exact ⟨List.mem_append_left _ (List.mem_cons_self ..), fun _ _ => trivial⟩

theorem optOperand_ok (hR : R.Good I b) (hb : b ≤ p) : T I p h (optOperand R) Ok := by
  unfold optOperand; tgo

theorem returnExpr_ok (hR : R.Good I b) (hb : b ≤ p + 1) (h0 : I.kindAt p = .RETURN_KW) : T I p h (returnExpr R) Ok := by
  unfold returnExpr; tgo

theorem abortExpr_ok (hR : R.Good I b) (hb : b ≤ p + 1) (h0 : I.kindAt p = .ABORT_KW) : T I p h (abortExpr R) Ok := by
  unfold abortExpr; tgo

theorem continueExpr_ok (h0 : I.kindAt p = .CONTINUE_KW) : T I p h continueExpr Ok := by
  unfold continueExpr; tgo

theorem breakExpr_ok (hR : R.Good I b) (hb : b ≤ p + 1) (h0 : I.kindAt p = .BREAK_KW) : T I p h (breakExpr R) Ok := by
  unfold breakExpr; tgo

theorem labelledLoop_ok (hR : R.Good I b) (hb : b ≤ p + 1) (h0 : I.kindAt p = .QUOTE_IDENT) (h1 : I.kindAt (p + 1) = .COLON) : T I p h (labelledLoop R) Ok := by
  unfold labelledLoop
  refine T.bind (T.marked ?_)
  have fin : ∀ {q h'} {k : SyntaxKind}, plain k = true → exprKind k = true → T I q h' (pure (Outcome.complete k, true)) fun r q _ =>
      Ended (fun r q h => p ≤ q → q ≤ I.size → T I q h (pure (if r.2 then r.1 else none)) Ok) p r q := fun {q h' k} hp hx =>
    T.pure ⟨hp, fun cm hk _ _ => T.pure fun c hc => by cases hc; exact ⟨rfl, hk ▸ hx⟩⟩
  refine T.call (labelDecl_ok h0 h1) fun _ q h' _ _ _ => ?_
  refine T.bind (T.current fun _ _ => T.bind (T.atKw fun _ _ => ?_))
  refine T.ite (fun hc => ?_) (fun _ => T.ite (fun hc => ?_) (fun _ => T.ite (fun hc => ?_) (fun _ => ?_)))
  · exact T.call (loopBody_ok hR (by omega) hc) fun _ _ _ _ _ _ => fin rfl rfl
  · exact T.call (forBody_ok hR (by omega) hc.1 hc.2) fun _ _ _ _ _ _ => fin rfl rfl
  · exact T.call (whileBody_ok hR (by omega) hc) fun _ _ _ _ _ _ => fin rfl rfl
  · exact T.bind (T.error fun _ _ => T.pure ⟨rfl, fun cm _ _ _ => T.pure fun c hc => by cases hc⟩)

theorem isAssertIdent_spec : T I p h isAssertIdent fun a q h' => p = q ∧ h = h' ∧ (a = true → I.kindAt p = .IDENT) := by
  unfold isAssertIdent
  refine T.bind (T.atKwIdent fun _ _ => T.bind (T.atKwIdent fun _ _ => T.bind (T.atKwIdent fun _ _ => T.bind (T.atKwIdent fun _ _ =>
    T.bind (T.atKwIdent fun _ _ => T.bind (T.atKwIdent fun _ _ => T.pure ⟨rfl, rfl, ?_⟩))))))
  intro hc
  by_contra hn
  simp [hn] at hc

theorem keywordAtom_ok (hR : R.Good I b) (hb : b ≤ p + 1) : T I p h (keywordAtom R) Ok := by
  unfold keywordAtom; tgo

theorem atomAfterMatch_ok (hR : R.Good I b) (hb : b ≤ p + 1) : T I p h (atomAfterMatch R) Ok := by
  unfold atomAfterMatch
  refine T.bind ((isAssertIdent_spec (p := p) (h := h)).mono ?_)
  rintro a _ _ _ _ ⟨rfl, rfl, ha⟩ _ _
  refine T.bind (T.nthAt fun _ _ => T.bind (T.atKw fun _ _ => T.bind (T.nthAt fun _ _ => ?_)))
  refine T.bind ((isPathStart_spec (p := p) (h := h)).mono ?_)
  rintro s _ _ _ _ ⟨rfl, rfl, hps⟩ _ _
  refine T.ite (fun hc => ?_) (fun _ => T.ite (fun hc => ?_) (fun _ => T.ite (fun hc => ?_) (fun _ => ?_)))
  · have h0 := ha (by simp_all)
    have h1 : I.kindAt (p + 1) = .BANG := by tside
    tgo
  · have h1 : I.isKeyword p "for" = true := by simp_all
    have h0 := Input.Valid.for_ident p h1
    tgo
  · refine T.call (pathExpr_ok hR hb (Or.inl (hps hc))) fun _ _ _ _ _ _ => ?_
    tgo
  · tgo

theorem atomExpr_ok (hR : R.Good I b) (hb : b ≤ p + 1) : T I p h (atomExpr R) Ok := by
  unfold atomExpr
  refine T.call literal_ok fun _ _ _ _ _ _ => ?_
  split
  · tgo
  refine T.bind (T.atKwIdent fun _ _ => T.bind (T.nthAtTs fun _ _ => T.bind (T.atKw fun _ _ => T.bind (T.nthAt fun _ _ => ?_))))
  refine T.ite (fun hc => ?_) (fun _ => T.ite (fun hc => ?_) (fun _ => ?_))
  · tgo
  · rw [Bool.and_eq_true] at hc
    have := kw_ne_eof hc.1
    tgo
  · tgo

/-- At a later position than `p`. -/
def OkLt [Post α] (p : Nat) : α → Nat → Handle → Prop := fun a q h => p < q ∧ Post.post a h

theorem T.lt [Post α] {prog : P α} (h1 : T I (p + 1) h prog Ok) : T I (p + 1) h prog (OkLt p) :=
  h1.mono fun _ _ _ h2 _ h3 => ⟨h2, h3⟩

theorem T.lt' [Post α] {prog : P α} {q : Nat} (hq : p < q) (h1 : T I q h prog Ok) : T I q h prog (OkLt p) :=
  h1.mono fun _ _ _ h2 _ h3 => ⟨by omega, h3⟩

theorem T.node_lt {k : SyntaxKind} {body : P Unit} (hk : plain k = true) (hb : T I p none body (OkLt p)) :
    T I p h (Verif.Parser.node k body) fun _ q _ => p < q := T.node hk (hb.mono fun _ _ _ _ _ h1 _ _ => h1.1)

/-- After an expression: at a later position than `p`, and a kind of expressions. -/
def XLt (p : Nat) {α : Type} : SyntaxKind × α → Nat → Handle → Prop := fun r q _ => p < q ∧ fromExpr r.1 = true ∧ exprKind r.1 = true

theorem T.ltx {α : Type} {prog : P (SyntaxKind × α)} {q : Nat} (hq : p < q)
    (h1 : T I q h prog fun r _ _ => fromExpr r.1 = true ∧ exprKind r.1 = true) : T I q h prog (XLt p) :=
  h1.mono fun _ _ _ h2 _ h3 => ⟨by omega, h3⟩

theorem T.preceded_lt {α : Type} {cm : CM} {body : P (SyntaxKind × α)} (hh : h = some cm ∧ exprKind cm.kind = true)
    (hb : T I p none body (XLt p)) : T I p h (Verif.Parser.preceded cm body) (OkLt p) :=
  T.precededV hh.1 (hb.tv.mono fun _ _ _ _ _ _ hk => ⟨fromExpr.ne hk.1.2.1, fun _ => fromExpr.req hk.1.2.1 hh.2,
    fun _ hc => ⟨hk.1.1, rfl, hc ▸ hk.1.2.2⟩⟩)

/-- One more step after a piece that made progress. -/
theorem T.call_lt {α β : Type} [Post α] [Post β] {prog : P α} {f : α → P β} (h1 : T I p h prog (OkLt p))
    (h2 : ∀ a q h', p < q → q ≤ I.size → Post.post a h' → T I q h' (f a) Ok) : T I p h (prog >>= f) (OkLt p) :=
  T.bind (h1.mono fun a q h' _ _ hp => fun _ h4 => T.lt' hp.1 (h2 a q h' hp.1 h4 hp.2))

theorem T.ok {α : Type} [Post α] {prog : P α} {q : Nat} (h1 : T I p h prog (OkLt q)) : T I p h prog Ok :=
  h1.mono fun _ _ _ _ _ h3 => h3.2

theorem valueArgList_lt (hR : R.Good I b) (hb : b ≤ p + 1) (h0 : I.kindAt p = .L_PAREN) :
    T I p h (valueArgList R) (OkLt p) := by
  unfold valueArgList
  refine T.bind (T.at' fun _ _ => T.bind (T.assert (by tside) fun _ _ => ?_))
  refine T.drop ((T.node_lt rfl ?_).mono fun _ _ _ _ _ hk => ⟨hk, trivial⟩)
  refine T.bind (T.bump1 rfl (by decide) h0 fun _ _ _ => T.lt ?_)
  tgo

theorem callExpr_lt {lhs : CM} (hR : R.Good I b) (hb : b ≤ p + 1) (h0 : I.kindAt p = .L_PAREN) (hh : h = some lhs ∧ exprKind lhs.kind = true) :
    T I p h (callExpr R lhs) (OkLt p) := by
  unfold callExpr
  refine T.bind (T.at' fun _ _ => T.bind (T.assert (by tside) fun _ _ => ?_))
  refine T.call_lt (T.preceded_lt hh ?_) fun _ _ _ _ _ _ => T.pure ‹_›
  exact T.bind ((valueArgList_lt hR hb h0).mono fun _ _ _ _ _ hk _ _ => T.pure ⟨hk.1, rfl, rfl⟩)

theorem indexExpr_lt {lhs : CM} (hR : R.Good I b) (hb : b ≤ p + 1) (h0 : I.kindAt p = .L_BRACK) (hh : h = some lhs ∧ exprKind lhs.kind = true) :
    T I p h (indexExpr R lhs) (OkLt p) := by
  unfold indexExpr
  refine T.bind (T.at' fun _ _ => T.bind (T.assert (by tside) fun _ _ => ?_))
  refine T.call_lt (T.preceded_lt hh ?_) fun _ _ _ _ _ _ => T.pure ‹_›
  exact T.bind (T.bump1 rfl (by decide) h0 fun _ _ _ => T.ltx (by omega) (by tgo))

theorem postfixDotExpr_lt {lhs : CM} (hR : R.Good I b) (hb : b ≤ p + 1) (h0 : I.kindAt p = .DOT) (hh : h = some lhs ∧ exprKind lhs.kind = true) :
    T I p h (postfixDotExpr R lhs) (OkLt p) := by
  unfold postfixDotExpr
  refine T.bind (T.at' fun _ _ => T.bind (T.assert (by tside) fun _ _ => ?_))
  refine T.call_lt (T.preceded_lt hh ?_) fun _ _ _ _ _ _ => T.pure ‹_›
  refine T.bind (T.bump1 rfl (by decide) h0 fun _ _ _ => T.ltx (by omega) ?_)
  refine T.bind (T.current fun _ _ => ?_)
  refine T.ite (fun _ => by tgo) (fun _ => T.ite (fun hc => ?_) (fun _ => by tgo))
  refine T.bind (T.drop (T.nodeV (by decide) (TV.bumpAny (by rw [hc]; decide) ⟨?_, fun _ _ _ _ => T.pure ⟨rfl, rfl⟩⟩)))
  rw [hc]
  exact Or.inr rfl

theorem postfixExpr_ok {lhs : CM} {bl : BlockLike} {c : Bool} (hR : R.Good I b) (hb : b ≤ p + 1) (hh : h = some lhs ∧ exprKind lhs.kind = true) :
    T I p h (postfixExpr R lhs bl c) Ok := by
  unfold postfixExpr
  refine T.bind (T.loop (fun v _ h => h = some v.1 ∧ exprKind v.1.kind = true) hh (fun v q h h1 h2 hv => ?_) fun v q h _ _ hv _ _ => T.pure hv)
  have key : ∀ {prog : P CM}, T I q h prog (OkLt q) → T I q h (do let c ← prog; pure (true, c, BlockLike.NotBlock, true))
      fun r q' h' => (h' = some r.2.1 ∧ exprKind r.2.1.kind = true) ∧ (r.1 = true → q < q') := fun hp =>
    T.bind (hp.mono fun _ _ _ _ _ hk _ _ => T.pure ⟨hk.2, fun _ => hk.1⟩)
  unfold postfixLoop
  refine T.bind (T.current fun _ _ => ?_)
  refine T.ite (fun hc => key (callExpr_lt hR (by omega) hc.1 hv)) (fun _ => ?_)
  refine T.ite (fun hc => key (indexExpr_lt hR (by omega) hc.1 hv)) (fun _ => ?_)
  refine T.ite (fun hc => key (postfixDotExpr_lt hR (by omega) hc hv)) (fun _ => ?_)
  exact T.pure ⟨hv, by simp⟩

theorem isAtQuantKw_spec : T I p h isAtQuantKw fun a q h' => p = q ∧ h = h' ∧ (a = true →
    I.isKeyword p "forall" = true ∨ I.isKeyword p "exists" = true ∨ I.isKeyword p "choose" = true) := by
  unfold isAtQuantKw
  repeat (first | refine T.pure ⟨rfl, rfl, ?_⟩ | (refine T.bind ?_; tstep; intro _ _) | tstep)
  intro hc
  simp at hc
  tauto

theorem atBehaviorPredicate_spec : T I p h atBehaviorPredicate fun a q h' => p = q ∧ h = h' ∧ (a = true →
    I.kindAt p = .IDENT ∧ Allowed I (.expected .L_PAREN)) := by
  unfold atBehaviorPredicate
  repeat (first | refine T.pure ⟨rfl, rfl, ?_⟩ | (refine T.bind ?_; tstep; intro _ _) | tstep)
  generalize h1 : I.isKeyword p "requires_of" = k1
  generalize h2 : I.isKeyword p "aborts_of" = k2
  generalize h3 : I.isKeyword p "ensures_of" = k3
  generalize h4 : I.isKeyword p "result_of" = k4
  intro hc
  simp [Input.atKind, parts, Input.atParts] at hc
  refine ⟨by tauto, p, Or.inl ⟨?_, hc.2⟩⟩
  rw [h1, h2, h3, h4]
  tauto

theorem lhs_ok {r : Restr} (hR : R.Good I b) (hb : b ≤ p + 1) : T I p h (lhs R r) Ok := by
  unfold lhs
  refine T.bind (T.current fun _ _ => ?_)
  refine T.bind ((isAtQuantKw_spec (p := p) (h := h)).mono ?_)
  rintro q _ _ _ _ ⟨rfl, rfl, hq⟩ _ _
  refine T.bind (T.atKw fun _ _ => ?_)
  refine T.ite (fun hc => ?_) (fun _ => ?_)
  · refine T.call (T.marked_ok ?_) (by tgo)
    refine T.bind ((lambdaParamList_spec hR hb hc).mono ?_)
    rintro ok q h' _ _ hok _ _
    cases ok with
    | false => tgo
    | true =>
      have := hok rfl
      tgo
  refine T.ite (fun hc => ?_) (fun _ => ?_)
  · unfold unary
    refine T.call (T.node_ok rfl rfl (T.bind (T.bind (T.bump1 rfl (by decide) hc fun _ _ _ => ?_)))) (by tgo)
    refine T.drop (T.eat1 rfl (by decide) (fun _ _ _ _ => ?_) fun _ _ _ => ?_) <;> tgo
  refine T.ite (fun hc => ?_) (fun _ => ?_)
  · have := hq hc.2
    have := hc.1
    tgo
  refine T.ite (fun hc => by tgo) (fun _ => ?_)
  refine T.ite (fun hc => by tgo) (fun _ => ?_)
  refine T.ite (fun hc => by tgo) (fun _ => ?_)
  refine T.ite (fun hc => by tgo) (fun _ => ?_)
  refine T.ite (fun hc => by tgo) (fun _ => ?_)
  refine T.ite (fun hc => by tgo) (fun _ => ?_)
  refine T.bind (T.stmtKind fun _ _ _ => ?_)
  refine T.bind ((atBehaviorPredicate_spec (p := p) (h := h)).mono ?_)
  rintro bp _ _ _ _ ⟨rfl, rfl, hbp⟩ _ _
  refine T.ite (fun hc => ?_) (fun _ => ?_)
  · have := hbp hc.2
    have h0 := this.1
    have h1 := this.2
    tgo
  · refine T.call (atomExpr_ok hR hb) fun a q h' _ _ hk => ?_
    rcases a with _ | ⟨cm, bl⟩
    · exact T.pure fun c b hc => by cases hc
    · refine T.call (postfixExpr_ok hR (by omega) (hk cm bl rfl)) fun v _ _ _ _ hv => T.pure ?_
      rintro c b ⟨⟩
      exact hv

/-- The operator that binds is there. -/
def OpAt (I : Input) (p : Nat) (op : Nat × SyntaxKind) : Prop :=
  1 ≤ op.1 → (I.atKind p op.2 = true ∧ op.2 ≠ .EOF) ∨ (op.2 = .IS_KW ∧ I.kindAt p = .IDENT ∧ I.isKeyword p "is" = true)

theorem OpAt.ite {c : Prop} [Decidable c] {x y : Nat × SyntaxKind} (hx : c → OpAt I p x) (hy : ¬ c → OpAt I p y) :
    OpAt I p (if c then x else y) := by
  split
  · exact hx ‹_›
  · exact hy ‹_›

theorem currentOp_spec : T I p h currentOp fun op q h' => p = q ∧ h = h' ∧ OpAt I p op := by
  unfold currentOp
  repeat (first | refine T.pure ⟨rfl, rfl, ?_⟩ | (refine T.bind ?_; tstep; intro _ _) | tstep)
  generalize hkw : I.isKeyword p "is" = kw
  have single : ∀ k : SyntaxKind, I.kindAt p = k → parts k = [k] → I.atKind p k = true := by
    intro k hk hp
    simp [Input.atKind, hp, Input.atParts, hk]
  have one : ∀ n k, I.kindAt p = k → parts k = [k] → k ≠ .EOF → OpAt I p (n, k) := fun n k hk hp he _ =>
    Or.inl ⟨single k hk hp, he⟩
  repeat' (refine OpAt.ite (fun hk => ?_) (fun _ => ?_))
  all_goals first
    | exact one _ _ hk rfl (by decide)
    | exact fun _ => Or.inl ⟨hk.2, by decide⟩
    | (rcases hk with hk | hk | hk | hk | hk | hk | hk | hk | hk <;> (rw [hk]; exact one _ _ hk rfl (by decide)))
    | (rcases hk with hk | hk | hk <;> (rw [hk]; exact one _ _ hk rfl (by decide)))
    | (rcases hk with hk | hk <;> (rw [hk]; exact one _ _ hk rfl (by decide)))
    | exact fun _ => Or.inr ⟨rfl, hk.1, hkw.trans hk.2⟩
    | (intro h1; simp at h1)

theorem castExpr_lt {lhs : CM} (hR : R.Good I b) (hb : b ≤ p + 1) (h0 : I.kindAt p = .AS_KW) (hh : h = some lhs ∧ exprKind lhs.kind = true) :
    T I p h (castExpr R lhs) (OkLt p) := by
  unfold castExpr
  refine T.bind (T.at' fun _ _ => T.bind (T.assert (by tside) fun _ _ => ?_))
  refine T.call_lt (T.preceded_lt hh ?_) fun _ _ _ _ _ _ => T.pure ‹_›
  exact T.bind (T.bump1 rfl (by decide) h0 fun _ _ _ => T.ltx (by omega) (by tgo))

theorem isLoop_ok (hR : R.Good I b) (hb : b ≤ p + 1) : T I p h (loop (isLoop R) ()) Ok := by
  refine T.loop (fun _ _ _ => True) trivial (fun v q h h1 h2 hv => ?_) fun v q h _ _ hv => trivial
  unfold isLoop
  refine T.bind (T.eat1 rfl (by decide) (fun _ _ _ _ => ?_) (fun _ _ _ => ?_))
  · refine T.ite (fun _ => ?_) (fun hc => by simp at hc)
    exact (T.lt (by tgo)).mono fun _ _ _ _ _ hk => ⟨trivial, fun _ => hk.1⟩
  · exact T.ite (fun hc => by simp at hc) (fun _ => T.pure ⟨trivial, by simp⟩)

theorem isExpr_lt {lhs : CM} (hR : R.Good I b) (hb : b ≤ p + 1) (h0 : I.isKeyword p "is" = true) (hh : h = some lhs ∧ exprKind lhs.kind = true) :
    T I p h (isExpr R lhs) (OkLt p) := by
  unfold isExpr
  refine T.call_lt (T.preceded_lt hh ?_) fun _ _ _ _ _ _ => T.pure ‹_›
  refine T.bind (T.bumpRemap rfl (by tside) fun _ _ _ => T.ltx (by omega) ?_)
  refine T.call (by tgo) fun _ _ _ _ _ _ => T.call (isLoop_ok hR (by omega)) fun _ _ _ _ _ _ => by tgo

theorem binExpr_lt {lhs : CM} {r : Restr} {isRange : Bool} {opBp : Nat} {op : SyntaxKind} (hR : R.Good I b) (hb : b ≤ p + 1)
    (h0 : I.atKind p op = true) (h1 : op ≠ .EOF) (hh : h = some lhs ∧ exprKind lhs.kind = true) :
    T I p h (binExpr R lhs r isRange opBp op) (OkLt p) := by
  unfold binExpr
  refine T.preceded_lt hh (T.bind (T.bump h1 h0 fun _ _ _ => T.ltx ?_ ?_))
  · have := List.length_pos_iff.2 (parts_ne op)
    omega
  · have := List.length_pos_iff.2 (parts_ne op)
    tgo

theorem exprLoop_ok {bp : Nat} {v : CM × Restr} (hR : R.Good I b) (hb : b ≤ p + 1) (hp : 1 ≤ bp) (hh : h = some v.1 ∧ exprKind v.1.kind = true) :
    T I p h (exprLoop R bp v) fun r q' h' => (h' = some r.2.1 ∧ exprKind r.2.1.kind = true) ∧ (r.1 = true → p < q') := by
  unfold exprLoop
  refine T.bind (T.at' fun _ _ => ?_)
  refine T.bind ((currentOp_spec (p := p) (h := h)).mono ?_)
  rintro op _ _ _ _ ⟨rfl, rfl, hop⟩ _ _
  refine T.bind (T.at' fun _ _ => T.bind (T.atKwIdent fun _ _ => ?_))
  refine T.ite (fun _ => T.pure ⟨hh, by simp⟩) (fun hlt => ?_)
  refine T.ite (fun hc => ?_) (fun _ => T.ite (fun hc => ?_) (fun hn => ?_))
  · exact T.bind ((castExpr_lt hR hb (by tside) hh).mono fun _ _ _ _ _ hk _ _ => T.pure ⟨hk.2, fun _ => hk.1⟩)
  · exact T.bind ((isExpr_lt hR hb (by tside) hh).mono fun _ _ _ _ _ hk _ _ => T.pure ⟨hk.2, fun _ => hk.1⟩)
  · rcases hop (by omega) with ⟨h1, h2⟩ | ⟨h1, h2, h3⟩
    · exact T.bind ((binExpr_lt hR hb h1 h2 hh).mono fun _ _ _ _ _ hk _ _ => T.pure ⟨hk.2, fun _ => hk.1⟩)
    · exact absurd (by simp [h2, h3]) hn

theorem exprBp_ok {r : Restr} {bp : Nat} (hR : R.Good I b) (hb : b ≤ p + 1) (hp : 1 ≤ bp) : T I p h (exprBp R r bp) Ok := by
  unfold exprBp
  refine T.call (T.extended_ok (lhs_ok hR hb)) fun l q h' _ _ hl => ?_
  split
  · tgo
  rename_i cm bl
  have hh : h' = some cm ∧ exprKind cm.kind = true := hl cm bl rfl
  refine T.bind ((currentOp_spec (p := q) (h := h')).mono ?_)
  rintro op _ _ _ _ ⟨rfl, rfl, hop⟩ _ _
  refine T.ite (fun _ => T.pure ?_) (fun _ => ?_)
  · intro c b hc
    cases hc; exact hh
  · refine T.bind (T.loop (fun v _ h => h = some v.1 ∧ exprKind v.1.kind = true) hh (fun v q h h1 h2 hv => exprLoop_ok hR (by omega) hp hv) ?_)
    intro v q h _ _ hv _ _
    refine T.pure ?_
    intro c b hc
    cases hc; exact hv

end Verif.Parser
