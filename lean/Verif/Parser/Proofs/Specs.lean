import Verif.Parser.Proofs.Exprs
import Verif.Parser.Grammar.Specs

/-! The functions of `Grammar/Specs.lean` meet the judgement. -/

namespace Verif.Parser
open Verif.Syntax (SyntaxKind)
open Verif.TokenSet (TSet)

set_option linter.unusedSectionVars false
set_option linter.style.nameCheck false

variable {I : Input} [I.Valid] {R : Rec} {b p : Nat} {h : Handle}

theorem predicateProperty_ok : T I p h predicateProperty Ok := by
  unfold predicateProperty; tgo

theorem optPredicatePropertyList_ok : T I p h optPredicatePropertyList Ok := by
  unfold optPredicatePropertyList; tgo

theorem conditionStmt_ok {kw : SyntaxKind} {w : String} (hw : spelling kw = some w) (hR : R.Good I b) (hb : b ≤ p + 1)
    (h0 : I.isKeyword p w = true) : T I p h (conditionStmt R kw) Ok := by
  unfold conditionStmt
  refine T.call (T.drop_node rfl ?_) fun _ _ _ _ _ _ => by tgo
  refine T.bind (T.bumpRemap hw h0 fun _ _ _ => ?_)
  tgo

theorem conditionPredicate_ok (hR : R.Good I b) (hb : b ≤ p + 1) : T I p h (conditionPredicate R) Ok := by
  unfold conditionPredicate
  iterate 6 refine T.bind (T.atKwIdent fun _ _ => ?_)
  repeat' refine T.ite (fun hc => conditionStmt_ok rfl hR hb (Bool.and_eq_true_iff.1 hc).2) (fun _ => ?_)
  tgo

theorem kwStmt_ok {kw : String} {k n : SyntaxKind} {body : P Unit} (hn : plain n = true) (hw : spelling k = some kw)
    (hb : I.isKeyword p kw = true → p + 1 ≤ I.size → T I (p + 1) none body Ok) : T I p h (kwStmt kw k n body) Ok := by
  unfold kwStmt
  refine T.bind (T.atKwIdent fun _ _ => ?_)
  refine T.ite (fun _ => T.pure trivial) (fun hc => ?_)
  simp only [Bool.not_eq_true, Bool.not_eq_false', Bool.and_eq_true] at hc
  refine T.call (T.drop_node hn ?_) fun _ _ _ _ _ _ => T.pure trivial
  exact T.bind (T.bumpRemap hw hc.2 fun hs _ _ => hb hc.2 hs)

theorem orElse'_ok {x y : P Bool} (hx : T I p h x Ok) (hy : ∀ q h', p ≤ q → q ≤ I.size → T I q h' y Ok) :
    T I p h (orElse' x y) Ok := by
  unfold orElse'
  refine T.call hx fun _ q h' h1 h2 _ => T.ite (fun _ => T.pure trivial) (fun _ => hy q h' h1 h2)

theorem abortsIfPredicate_ok (hR : R.Good I b) (hb : b ≤ p + 1) : T I p h (abortsIfPredicate R) Ok := by
  unfold abortsIfPredicate; tgo

theorem optEmitsCondition_ok (hR : R.Good I b) (hb : b ≤ p + 1) : T I p h (optEmitsCondition R) Ok := by
  unfold optEmitsCondition; tgo

theorem emitsPredicate_ok (hR : R.Good I b) (hb : b ≤ p + 1) : T I p h (emitsPredicate R) Ok := by
  unfold emitsPredicate; tgo

theorem invariantPredicate_ok (hR : R.Good I b) (hb : b ≤ p + 1) : T I p h (invariantPredicate R) Ok := by
  unfold invariantPredicate; tgo

theorem abortsWithPredicate_ok (hR : R.Good I b) (hb : b ≤ p + 1) : T I p h (abortsWithPredicate R) Ok := by
  unfold abortsWithPredicate; tgo

theorem axiomPredicate_ok (hR : R.Good I b) (hb : b ≤ p + 1) : T I p h (axiomPredicate R) Ok := by
  unfold axiomPredicate; tgo

theorem specPredicate_ok (hR : R.Good I b) (hb : b ≤ p + 1) : T I p h (specPredicate R) Ok := by
  unfold specPredicate; tgo

theorem updateStmt_ok (hR : R.Good I b) (hb : b ≤ p + 1) : T I p h (updateStmt R) Ok := by
  unfold updateStmt; tgo

theorem pragmaItem_ok (hR : R.Good I b) (hb : b ≤ p + 1) : T I p h (pragmaItem R) Ok := by
  unfold pragmaItem; tgo

theorem pragmaStmt_ok (hR : R.Good I b) (hb : b ≤ p + 1) : T I p h (pragmaStmt R) Ok := by
  unfold pragmaStmt; tgo

theorem schemaField_ok (hR : R.Good I b) (hb : b ≤ p + 1) : T I p h (schemaField R) Ok := by
  unfold schemaField; tgo

theorem globalVariable_ok (hR : R.Good I b) (hb : b ≤ p + 1) : T I p h (globalVariable R) Ok := by
  unfold globalVariable; tgo

theorem schemaLitField_ok (hR : R.Good I b) (hb : b ≤ p) : T I p h (schemaLitField R) Ok := by
  unfold schemaLitField; tgo

theorem schemaLit_ok (hR : R.Good I b) (hb : b ≤ p + 1) : T I p h (schemaLit R) Ok := by
  unfold schemaLit; tgo

theorem innerExpr_ok {bp : Nat} (hR : R.Good I b) (hb : b ≤ p) (h1 : 1 ≤ bp) : T I p h (innerExpr R bp) Ok := by
  unfold innerExpr
  refine T.call (hR.exprBp hb h1) fun r q h' _ _ hr => ?_
  cases r with
  | none => tgo
  | some r =>
    obtain ⟨c, bl⟩ := r
    refine T.bind (T.iff (fun hc => by simp at hc) fun _ _ _ => T.pure ?_)
    intro c' hc
    simp at hc
    exact hr c' bl (by rw [hc])

theorem includeIfElseExpr_ok (hR : R.Good I b) (hb : b ≤ p + 1) (h0 : I.kindAt p = .IF_KW) : T I p h (includeIfElseExpr R) Ok := by
  unfold includeIfElseExpr; tgo

theorem includeLit_ok {a : Bool} (hR : R.Good I b) (hb : b ≤ p + 1) (hA : Allowed I .bomb) : T I p h (includeLit R a) Ok := by
  unfold includeLit
  refine T.ite (fun _ => ?_) (fun _ => by tgo)
  refine T.drop_node rfl ?_
  refine T.call (schemaLit_ok hR hb) fun _ _ _ _ _ _ => ?_
  refine T.bind (T.at' fun _ _ => ?_)
  refine T.ite (fun _ => ?_) (fun hc => ?_)
  · exact T.call errorAndRecover_ok' fun _ _ _ _ _ _ => T.crash hA
  · refine T.bind (T.bump (by decide) (by simpa using hc) fun _ _ _ => ?_)
    tgo

/-- The events since `event_pos` are taken back: the state is the one of that time. -/
theorem rollbackTo_eq {s s' : St} (e : Ext I s s') (hne : s.events ≠ []) (E : Env) :
    rollbackTo (s.events.length - 1) I E s' = .ok () s := by
  obtain ⟨ts, seg, steps, he, _⟩ := id e
  have h1 : s.events.length ≤ s'.events.length := by rw [he]; simp
  have h2 : s.events.length - 1 + 1 = s.events.length := by
    have := List.length_pos_iff.2 hne
    omega
  unfold rollbackTo
  rw [h2, if_pos h1]
  obtain ⟨h3, h4⟩ := e.undo
  unfold popTo
  rw [if_pos h3, h4]

/-- A piece that is tried, after which the parser either goes on or goes back to where it was. -/
theorem T.attempt {α β : Type} {prog : P α} {f : Nat → α → P β} {QA : α → Nat → Handle → Prop} {Q : β → Nat → Handle → Prop}
    (h1 : T I p none prog QA)
    (h2 : ∀ n a q h', p ≤ q → q ≤ I.size → QA a q h' →
      (T I q h' (f n a) Q ∨ ∃ g : P β, (∀ E s', s'.pos = q → f n a I E s' = (rollbackTo n >>= fun _ => g) I E s') ∧ T I p none g Q)) :
    T I p h (Verif.Parser.eventPos >>= fun n => prog >>= f n) Q := by
  intro E s0 s he hh hp hn hne
  have hn' := he.ne hne
  have hr := h1 E s s (Ext.refl I s) (HandleOk.none _ _) hp hn hn'
  show Good I s0 p Q (P.bind' Verif.Parser.eventPos (fun n => prog >>= f n) I E s)
  unfold P.bind' Verif.Parser.eventPos
  rw [if_neg hn']
  show Good I s0 p Q (P.bind' prog (f (s.events.length - 1)) I E s)
  unfold P.bind'
  revert hr
  cases prog I E s with
  | panic w => exact id
  | stop => exact id
  | ok a s' =>
    rintro ⟨h3, h4, h', e', hh', hQ⟩
    rcases h2 (s.events.length - 1) a s'.pos h' h3 h4 hQ with hl | ⟨g, hg, hgT⟩
    · have := hl E s0 s' (he.trans e') (fun cm hc => he.andR (hh' cm hc)) rfl h4 hne
      show Good I s0 p Q (f (s.events.length - 1) a I E s')
      revert this
      cases f (s.events.length - 1) a I E s' with
      | ok b s'' => rintro ⟨h5, h6, h''⟩; exact ⟨Nat.le_trans h3 h5, h6, h''⟩
      | panic w => exact id
      | stop => exact id
    · show Good I s0 p Q (f (s.events.length - 1) a I E s')
      rw [hg E s' rfl]
      show Good I s0 p Q (P.bind' (rollbackTo (s.events.length - 1)) (fun _ => g) I E s')
      unfold P.bind'
      rw [rollbackTo_eq e' hn' E]
      exact hgT E s0 s he (HandleOk.none _ _) hp hn hne

theorem includeSchemaExpr_ok (hR : R.Good I b) (hb : b ≤ p) (hA : Allowed I .bomb) : T I p h (includeSchemaExpr R) Ok := by
  unfold includeSchemaExpr
  refine T.bind (T.at' fun _ _ => ?_)
  refine T.ite (fun _ => by tgo) (fun _ => ?_)
  refine T.attempt (innerExpr_ok hR hb (by decide)) fun n l q h' h1 h2 hl => ?_
  cases l with
  | none => exact Or.inl (T.pure trivial)
  | some cm =>
    by_cases him : I.atKind q .IMPLIES = true
    · left
      refine T.bind (T.at' fun _ _ => ?_)
      refine T.ite (fun _ => ?_) (fun hc => absurd him hc)
      have hc := hl cm rfl
      tgo
    · right
      refine ⟨(do
        let parent ← eventPos
        let l ← innerExpr R 6
        match l with
        | none => pure ()
        | some _ => do
          let a ← at' .AMP_AMP
          rollbackTo parent
          includeLit R a), fun E s' hs' => ?_, ?_⟩
      · show (if I.atKind s'.pos .IMPLIES = true then _ else _ : P Unit) I E s' = _
        rw [hs', if_neg him]
        rfl
      refine T.attempt (innerExpr_ok hR hb (by decide)) fun n l q h' h1 h2 hl => ?_
      cases l with
      | none => exact Or.inl (T.pure trivial)
      | some cm => exact Or.inr ⟨includeLit R (I.atKind q .AMP_AMP), fun E s' hs' => by rw [← hs']; rfl, includeLit_ok hR (by omega) hA⟩

theorem includeSchema_ok (hR : R.Good I b) (hb : b ≤ p + 1) : T I p h (includeSchema R) Ok := by
  unfold includeSchema
  refine kwStmt_ok rfl rfl fun hk hs => ?_
  have hA : Allowed I .bomb := ⟨p, hk⟩
  tgo

theorem wildcardCount_spec {fuel : Nat} : p ≤ I.size → p + wildcardCount I fuel p ≤ I.size ∧
    (∀ j, p ≤ j → j + 1 < p + wildcardCount I fuel p → I.jointAt j = true) ∧
    ∀ j, p ≤ j → j < p + wildcardCount I fuel p → I.kindAt j = .IDENT ∨ I.kindAt j = .STAR := by
  induction fuel generalizing p with
  | zero => intro hp; exact ⟨by simpa [wildcardCount] using hp, fun j h1 h2 => by simp [wildcardCount] at h2; omega,
      fun j h1 h2 => by simp [wildcardCount] at h2; omega⟩
  | succ n ih =>
    intro hp
    unfold wildcardCount
    split
    · rename_i hk
      have hlt : p < I.size := kindAt_lt (by rcases hk with hk | hk <;> rw [hk] <;> decide)
      split
      · rename_i hj
        obtain ⟨h1, h2, h2'⟩ := ih (p := p + 1) hlt
        refine ⟨by omega, fun j h3 h4 => ?_, fun j h3 h4 => ?_⟩
        · by_cases hjp : j = p
          · rw [hjp]; exact hj
          · exact h2 j (by omega) (by omega)
        · by_cases hjp : j = p
          · rw [hjp]; exact hk
          · exact h2' j (by omega) (by omega)
      · refine ⟨by omega, fun j h1 h2 => by omega, fun j h1 h2 => ?_⟩
        rw [show j = p by omega]; exact hk
    · exact ⟨by omega, fun j h1 h2 => by omega, fun j h1 h2 => by omega⟩

theorem wildcardIdent_ok : T I p h wildcardIdent Ok := by
  unfold wildcardIdent
  refine T.bind (T.question (a := fun p => wildcardCount I (I.toks.length - p) p) (fun _ _ => rfl) fun _ hp => ?_)
  refine T.bind (T.debugBuild fun _ _ => ?_)
  refine T.ite (fun hc => T.crash (by simp at hc; exact hc.1)) (fun hc => ?_)
  obtain ⟨h1, h2, h2'⟩ := wildcardCount_spec (fuel := I.toks.length - p) hp
  have hm := Nat.mod_le (wildcardCount I (I.toks.length - p) p) 256
  refine T.call (T.iff (fun hc => ?_) (fun _ => trivial)) fun _ _ _ _ _ _ => T.pure trivial
  exact T.bumpRemapMany (by simp at hc; omega) (by omega) (fun j h3 h4 => h2 j h3 (by omega)) (fun j h3 h4 => h2' j h3 (by omega)) trivial

theorem optWildcardPatternModifier_ok : T I p h optWildcardPatternModifier Ok := by
  unfold optWildcardPatternModifier; tgo

theorem wildcardPattern_ok : T I p h wildcardPattern Ok := by
  unfold wildcardPattern; tgo

theorem wildcardPatternList_ok : T I p h wildcardPatternList Ok := by
  unfold wildcardPatternList; tgo

theorem applySchema_ok (hR : R.Good I b) (hb : b ≤ p + 1) : T I p h (applySchema R) Ok := by
  unfold applySchema; tgo

theorem schemaBody_ok (hR : R.Good I b) (hb : b ≤ p + 1) (h0 : I.kindAt p = .IDENT) (h1 : I.isKeyword p "schema" = true) : T I p h (schemaBody R) Ok := by
  unfold schemaBody; tgo

theorem proof_ok (hR : R.Good I b) (hb : b ≤ p + 1) (h0 : I.kindAt p = .IDENT) (h1 : I.isKeyword p "proof" = true) : T I p h (proof R) Ok := by
  unfold proof; tgo

theorem optProof_ok (hR : R.Good I b) (hb : b ≤ p + 1) : T I p h (optProof R) Ok := by
  unfold optProof; tgo

theorem lemmaItem_ok (hR : R.Good I b) (hb : b ≤ p + 1) (h0 : I.kindAt p = .IDENT) (h1 : I.isKeyword p "lemma" = true) : T I p h (lemmaItem R) Ok := by
  unfold lemmaItem; tgo

theorem applyLemma_ok (hR : R.Good I b) (hb : b ≤ p + 1) : T I p h (applyLemma R) Ok := by
  unfold applyLemma
  refine kwStmt_ok rfl rfl fun hk hs => ?_
  have hA : Allowed I (.expected .L_PAREN) := ⟨p, Or.inr hk⟩
  have h0 : PathAt I (p + 1) ∨ I.misapplied := by
    by_cases h1 : PathAt I (p + 1)
    · exact Or.inl h1
    · unfold PathAt at h1
      push Not at h1
      exact Or.inr ⟨p, hk, h1⟩
  tgo

theorem forallApplyLemma_ok (hR : R.Good I b) (hb : b ≤ p + 1) : T I p h (forallApplyLemma R) Ok := by
  unfold forallApplyLemma; tgo

theorem postStmt_ok (hR : R.Good I b) (hb : b ≤ p + 1) : T I p h (postStmt R) Ok := by
  unfold postStmt; tgo

theorem splitStmt_ok (hR : R.Good I b) (hb : b ≤ p + 1) : T I p h (splitStmt R) Ok := by
  unfold splitStmt; tgo

theorem acquires_ok (hR : R.Good I b) (hb : b ≤ p + 1) (h0 : I.kindAt p = .ACQUIRES_KW) : T I p h (acquires R) Ok := by
  unfold acquires; tgo

theorem optRetType_ok (hR : R.Good I b) (hb : b ≤ p + 1) : T I p h (optRetType R) Ok := by
  unfold optRetType; tgo

theorem funSignature_ok {sf : Bool} (hR : R.Good I b) (hb : b ≤ p + 1) (h0 : I.kindAt p = .FUN_KW) : T I p h (funSignature R sf) Ok := by
  unfold funSignature; tgo

theorem funBody_ok (hR : R.Good I b) (hb : b ≤ p + 1) : T I p h (funBody R) Ok := by
  unfold funBody; tgo

theorem specFunTail_ok {k : SyntaxKind} (hR : R.Good I b) (hb : b ≤ p + 1) (hk : plain k = true) : T I p h (specFunTail R k) Ok := by
  unfold specFunTail; tgo

theorem specInlineFunction_ok (hR : R.Good I b) (hb : b ≤ p + 1) : T I p h (specInlineFunction R) Ok := by
  unfold specInlineFunction; tgo

theorem useAlias_ok (h0 : I.kindAt p = .AS_KW) : T I p h useAlias Ok := by
  unfold useAlias; tgo

theorem useGroup_ok (hR : R.Good I b) (hb : b ≤ p + 1) (h0 : I.kindAt p = .L_CURLY) : T I p h (useGroup R) Ok := by
  unfold useGroup; tgo

theorem useSpeck_ok (hR : R.Good I b) (hb : b ≤ p + 1) : T I p h (useSpeck R) Ok := by
  unfold useSpeck; tgo

theorem useStmtBody_ok (hR : R.Good I b) (hb : b ≤ p + 1) (h0 : I.kindAt p = .USE_KW) : T I p h (useStmtBody R) Ok := by
  unfold useStmtBody; tgo

theorem letStmt_ok {c : Bool} (hR : R.Good I b) (hb : b ≤ p + 1) (h0 : I.kindAt p = .LET_KW) : T I p h (letStmt R c) Ok := by
  unfold letStmt; tgo

/-- The functions for expressions are well-behaved from a position on. -/
def ExprGood (R : Rec) (I : Input) (p : Nat) : Prop := ∀ {q h r bp}, p ≤ q → 1 ≤ bp → T I q h (R.exprBp r bp) Ok

theorem exprStmt_ok {p0 : Nat} (hE : ExprGood R I p0) (hb : p0 ≤ p) : T I p h (exprStmt R) Ok := by
  unfold exprStmt topLevelExprInStmt
  refine T.call (T.withRecTok (hE hb (by decide))) fun r q h' _ _ hr => ?_
  split
  · rename_i cm bl
    have := hr cm bl rfl
    tgo
  · tgo

theorem inlineUse_ok (hR : R.Good I b) (hb : b ≤ p + 1) (h0 : I.kindAt p = .USE_KW) : T I p h (inlineUse R) Ok := by
  unfold inlineUse; tgo

theorem specStmt_ok (hR : R.Good I b) (hb : b ≤ p + 1) : T I p h (specStmt R) Ok := by
  unfold specStmt; tgo

theorem proofStmt_ok (hR : R.Good I b) (hb : b ≤ p + 1) : T I p h (proofStmt R) Ok := by
  unfold proofStmt; tgo

theorem stmtBody_ok {p0 : Nat} (hR : R.Good I b) (hb : b ≤ p + 1) (hE : ExprGood R I p0) (hb0 : p0 ≤ p) :
    T I p h (stmtBody R) Ok := by
  unfold stmtBody
  tgo

theorem stmt_ok {p0 : Nat} (hR : R.Good I b) (hb : b ≤ p + 1) (hE : ExprGood R I p0) (hb0 : p0 ≤ p) :
    T I p h (stmt R) Ok := by
  unfold stmt
  refine T.bind ((attrs_any hR hb).mono ?_)
  intro last q h' h1 h2 hl _ _
  cases last with
  | none => exact stmtBody_ok hR (by omega) hE (by omega)
  | some cm =>
    have := hl cm rfl
    tgo

end Verif.Parser
