import Verif.Parser.Grammar.Top
import Lean.Elab.Tactic
import Mathlib.Data.List.Forall2

/-! The parser looks at the text of a token only to see whether it is one of a few words. Two inputs that differ in other texts
are parsed in the same way. -/

namespace Verif.Parser
open Verif.Syntax (SyntaxKind)
open Verif.TokenSet (TSet)

set_option linter.style.nameCheck false
set_option linter.unusedSectionVars false

/-- The words the grammar looks for (`at_contextual_kw`, `at_contextual_kw_ident`, `with_kw` and `with_recovery_token` in the files of
`grammar/`). -/
def words : List String :=
  ["aborts_if", "aborts_of", "aborts_with", "address", "apply", "assert", "assert_eq", "assert_ne", "assume",
    "axiom", "choose", "copy", "debug_assert", "debug_assert_eq", "debug_assert_ne", "decreases", "emits",
    "ensures", "ensures_of", "entry", "enum", "except", "exists", "for", "forall", "global", "has", "in",
    "include", "internal", "is", "lemma", "local", "match", "min", "modifies", "package", "phantom", "post",
    "pragma", "proof", "requires", "requires_of", "result_of", "schema", "split", "to", "update", "vector",
    "weight", "where", "with"]

/-- Two tokens that the grammar cannot tell apart. -/
structure PTok.Like (t u : PTok) : Prop where
  kind : t.kind = u.kind
  joint : t.joint = u.joint
  gap : t.gap = u.gap
  word : ∀ w ∈ words, t.text = w.toList ↔ u.text = w.toList

/-- Two inputs that the grammar cannot tell apart. -/
structure Alike (I J : Input) : Prop where
  debug : I.debug = J.debug
  toks : List.Forall₂ PTok.Like I.toks J.toks

section
variable {I J : Input} {α β : Type}

theorem Alike.size (h : Alike I J) : I.toks.length = J.toks.length := h.toks.length_eq

theorem forall₂_getElem? {R : α → β → Prop} : ∀ {xs : List α} {ys : List β} (_ : List.Forall₂ R xs ys) (p : Nat),
    (xs[p]? = none ∧ ys[p]? = none) ∨ ∃ x y, xs[p]? = some x ∧ ys[p]? = some y ∧ R x y
  | _, _, .nil, _ => .inl ⟨by simp, by simp⟩
  | _, _, .cons (a := a) (b := b) h _, 0 => .inr ⟨a, b, by simp, by simp, h⟩
  | _, _, .cons _ hs, p + 1 => by simpa using forall₂_getElem? hs p

theorem Alike.at (h : Alike I J) (p : Nat) :
    (I.toks[p]? = none ∧ J.toks[p]? = none) ∨ ∃ t u, I.toks[p]? = some t ∧ J.toks[p]? = some u ∧ t.Like u :=
  forall₂_getElem? h.toks p

theorem Alike.kindAt (h : Alike I J) (p : Nat) : I.kindAt p = J.kindAt p := by
  unfold Input.kindAt
  rcases h.at p with ⟨e1, e2⟩ | ⟨t, u, e1, e2, hl⟩ <;> rw [e1, e2]
  exact hl.kind

theorem Alike.jointAt (h : Alike I J) (p : Nat) : I.jointAt p = J.jointAt p := by
  unfold Input.jointAt
  rcases h.at p with ⟨e1, e2⟩ | ⟨t, u, e1, e2, hl⟩ <;> rw [e1, e2]
  exact hl.joint

theorem Alike.prevWs (h : Alike I J) (p : Nat) : I.prevWs p = J.prevWs p := by
  unfold Input.prevWs
  rcases h.at p with ⟨e1, e2⟩ | ⟨t, u, e1, e2, hl⟩ <;> rw [e1, e2]
  exact hl.gap

theorem Alike.isKeyword (h : Alike I J) (p : Nat) {w : String} (hw : w ∈ words) : I.isKeyword p w = J.isKeyword p w := by
  unfold Input.isKeyword
  rcases h.at p with ⟨e1, e2⟩ | ⟨t, u, e1, e2, hl⟩ <;> rw [e1, e2]
  have := hl.word w hw
  simp only
  rw [Bool.eq_iff_iff]
  simpa using this

/-- The words of a recovery set are words of the grammar. -/
def Kw (rs : RSet) : Prop := ∀ w ∈ rs.kws, ∃ kw ∈ words, w = kw.toList

theorem Alike.textAt (h : Alike I J) (p : Nat) {w : String} (hw : w ∈ words) :
    I.textAt p = w.toList ↔ J.textAt p = w.toList := by
  unfold Input.textAt
  rcases h.at p with ⟨e1, e2⟩ | ⟨t, u, e1, e2, hl⟩ <;> rw [e1, e2]
  exact hl.word w hw

theorem Alike.atRSet (h : Alike I J) (p : Nat) {rs : RSet} (hk : Kw rs) : I.atRSet p rs = J.atRSet p rs := by
  unfold Input.atRSet
  rw [h.kindAt]
  have : rs.kws.contains (I.textAt p) = rs.kws.contains (J.textAt p) := by
    rw [Bool.eq_iff_iff, List.contains_iff_mem, List.contains_iff_mem]
    constructor
    · intro hm
      obtain ⟨kw, hw, e⟩ := hk _ hm
      rw [(h.textAt p hw).1 e, ← e]; exact hm
    · intro hm
      obtain ⟨kw, hw, e⟩ := hk _ hm
      rw [(h.textAt p hw).2 e, ← e]; exact hm
  rw [this]

theorem Alike.atParts (h : Alike I J) : ∀ (ks : List SyntaxKind) (p : Nat), I.atParts p ks = J.atParts p ks
  | [], _ => rfl
  | [k], p => by simp only [Input.atParts, h.kindAt]
  | k :: k' :: ks, p => by
    simp only [Input.atParts]
    rw [h.kindAt, h.jointAt, h.atParts (k' :: ks)]

theorem Alike.atKind (h : Alike I J) (p : Nat) (k : SyntaxKind) : I.atKind p k = J.atKind p k := h.atParts _ p

theorem Kw.new : Kw RSet.new := fun _ h => by cases h
theorem Kw.ofTs {s : TSet} : Kw (RSet.ofTs s) := fun _ h => by cases h
theorem Kw.join {a b : RSet} (ha : Kw a) (hb : Kw b) : Kw (a.join b) := fun w h =>
  (List.mem_append.1 h).elim (ha w) (hb w)
theorem Kw.withTs {a : RSet} {s : TSet} (ha : Kw a) : Kw (a.withTs s) := ha
theorem Kw.withTok {a : RSet} {k : SyntaxKind} (ha : Kw a) : Kw (a.withTok k) := ha
theorem Kw.withoutTok {a : RSet} {k : SyntaxKind} (ha : Kw a) : Kw (a.withoutTok k) := ha
theorem Kw.withKw {a : RSet} {w : String} (ha : Kw a) (hw : w ∈ words) : Kw (a.withKw w) := fun v h =>
  (List.mem_append.1 h).elim (ha v) fun h => ⟨w, hw, by simpa using h⟩

/-- The piece of the parser does the same for both inputs, with any environment whose outer set has only words of the grammar. -/
def S (I J : Input) (p : P α) : Prop := ∀ E s, Kw E.outer → p I E s = p J E s

theorem S.pure {a : α} : S I J (Pure.pure a : P α) := fun _ _ _ => rfl

theorem S.bind {p : P α} {f : α → P β} (h1 : S I J p) (h2 : ∀ a, S I J (f a)) : S I J (p >>= f) := by
  intro E s hE
  change P.bind' p f I E s = P.bind' p f J E s
  unfold P.bind'
  rw [h1 E s hE]
  split
  · exact h2 _ E _ hE
  · rfl
  · rfl

theorem S.outer {f : RSet → P β} (h : ∀ o, Kw o → S I J (f o)) : S I J (outerRec >>= f) := fun E s hE => h E.outer hE E s hE

theorem S.ite {c : Prop} [Decidable c] {p q : P α} (h1 : S I J p) (h2 : S I J q) : S I J (if c then p else q) := by
  split
  · exact h1
  · exact h2

theorem crash_same {w : Why} : S I J (crash w : P α) := fun _ _ _ => rfl
theorem stop_same : S I J (fun _ _ _ => Res.stop : P α) := fun _ _ _ => rfl
theorem iff_same {c : Bool} {p : P Unit} (h : S I J p) : S I J (iff c p) := S.ite h S.pure
theorem drop_same {p : P α} (h : S I J p) : S I J (drop p) := S.bind h fun _ => S.pure
theorem assert_same {c : Bool} {k : SyntaxKind} : S I J (assert c k) := S.ite S.pure crash_same
theorem getPos_same : S I J getPos := fun _ _ _ => rfl
theorem stmtKind_same : S I J stmtKind := fun _ _ _ => rfl
theorem pushEvent_same {e : Event} : S I J (pushEvent e) := fun _ _ _ => rfl
theorem error_same : S I J error := pushEvent_same
theorem start_same : S I J start := fun _ _ _ => rfl
theorem complete_same {m : Nat} {k : SyntaxKind} : S I J (complete m k) := fun _ _ _ => rfl
theorem abandon_same {m : Nat} : S I J (abandon m) := fun _ _ _ => rfl
theorem popTo_same {n : Nat} : S I J (popTo n) := fun _ _ _ => rfl
theorem rollback_same {m : Nat} : S I J (rollback m) := fun _ _ _ => rfl
theorem eventPos_same : S I J eventPos := fun _ _ _ => rfl
theorem rollbackTo_same {n : Nat} : S I J (rollbackTo n) := fun _ _ _ => rfl
theorem precede_same {cm : CM} : S I J (precede cm) := fun _ _ _ => rfl
theorem extendTo_same {cm : CM} {m : Nat} : S I J (extendTo cm m) := fun _ _ _ => rfl

theorem withRec_same {f : RSet → RSet} {p : P α} (hf : ∀ o, Kw o → Kw (f o)) (h : S I J p) : S I J (withRec f p) :=
  fun E s hE => h { E with outer := f E.outer } s (hf _ hE)
theorem withRecovery_same {rs : RSet} {p : P α} (hk : Kw rs) (h : S I J p) : S I J (withRecovery rs p) :=
  withRec_same (fun _ ho => ho.join hk) h
theorem resetRecovery_same {p : P α} (h : S I J p) : S I J (resetRecovery p) := withRec_same (fun _ _ => Kw.new) h
theorem withRecTs_same {s : TSet} {p : P α} (h : S I J p) : S I J (withRecTs s p) := withRec_same (fun _ ho => ho.withTs) h
theorem withRecTok_same {k : SyntaxKind} {p : P α} (h : S I J p) : S I J (withRecTok k p) := withRec_same (fun _ ho => ho.withTok) h
theorem withRecKw_same {w : String} {p : P α} (hw : w ∈ words) (h : S I J p) : S I J (withRecKw w p) :=
  withRec_same (fun _ ho => ho.withKw hw) h
theorem withStmt_same {k : StmtKind} {p : P α} (h : S I J p) : S I J (withStmt k p) :=
  fun E s hE => h { E with stmt := k } s hE

/-- The functions at which the recursion is cut do the same for both inputs. -/
structure Rec.Same (R : Rec) (I J : Input) : Prop where
  exprBp : ∀ r bp, S I J (R.exprBp r bp)
  typ : ∀ rs, Kw rs → S I J (R.typ rs)
  pathType : S I J R.pathType
  pattern : S I J R.pattern
  stmt : S I J R.stmt
  useSpeck : S I J R.useSpeck
  attrItem : S I J R.attrItem

end

/-- Two inputs the grammar cannot tell apart, for the automation. -/
class Fact (p : Prop) : Prop where
  out : p

section
variable {I J : Input} [hA : Fact (Alike I J)] {α β : Type}

theorem current_same : S I J current := fun _ s _ => by simp only [current, hA.out.kindAt]
theorem nth_same {n : Nat} : S I J (nth n) := fun _ s _ => by simp only [nth, hA.out.kindAt]
theorem at'_same {k : SyntaxKind} : S I J (at' k) := fun _ s _ => by simp only [at', hA.out.atKind]
theorem nthAt_same {n : Nat} {k : SyntaxKind} : S I J (nthAt n k) := fun _ s _ => by simp only [nthAt, hA.out.atKind]
theorem atTs_same {s : TSet} : S I J (atTs s) := fun _ s _ => by simp only [atTs, hA.out.kindAt]
theorem nthAtTs_same {n : Nat} {s : TSet} : S I J (nthAtTs n s) := fun _ s _ => by simp only [nthAtTs, hA.out.kindAt]
theorem atKw_same {w : String} (hw : w ∈ words) : S I J (atKw w) := fun _ s _ => by simp only [atKw, hA.out.isKeyword _ hw]
theorem atKwIdent_same {w : String} (hw : w ∈ words) : S I J (atKwIdent w) := fun _ s _ => by
  simp only [atKwIdent, hA.out.kindAt, hA.out.isKeyword _ hw]
theorem nthAtRSet_same {n : Nat} {rs : RSet} (hk : Kw rs) : S I J (nthAtRSet n rs) := fun _ s _ => by
  simp only [nthAtRSet, hA.out.atRSet _ hk]
theorem containsCurrent_same {rs : RSet} (hk : Kw rs) : S I J (containsCurrent rs) := fun _ s _ => by
  simp only [containsCurrent, hA.out.atRSet _ hk]
theorem prevWs_same : S I J prevWs := fun _ s _ => by simp only [prevWs, hA.out.prevWs]
theorem debugBuild_same : S I J debugBuild := fun _ s _ => by simp only [debugBuild, hA.out.debug]
theorem remaining_same : S I J remaining := fun _ s _ => by simp only [remaining, hA.out.size]

theorem advance_same : ∀ (n p : Nat), advance I p n = advance J p n
  | 0, _ => rfl
  | n + 1, p => by simp only [advance, hA.out.kindAt]; exact advance_same n _

theorem doBump_same {k : SyntaxKind} {n : Nat} : S I J (doBump k n) := fun _ s _ => by
  simp only [doBump, advance_same (I := I) (J := J)]

theorem wildcardCount_same : ∀ (fuel p : Nat), wildcardCount I fuel p = wildcardCount J fuel p
  | 0, _ => rfl
  | fuel + 1, p => by
    simp only [wildcardCount, hA.out.kindAt, hA.out.jointAt]
    rw [wildcardCount_same fuel]

theorem countWildcard_same : S I J countWildcard := fun _ s _ => by
  simp only [countWildcard, hA.out.size, wildcardCount_same (I := I) (J := J)]

omit hA in
theorem Rec.exprBp_same {R : Rec} {r bp} (hR : R.Same I J) : S I J (R.exprBp r bp) := hR.exprBp r bp
omit hA in
theorem Rec.typ_same {R : Rec} {rs} (hR : R.Same I J) (hk : Kw rs) : S I J (R.typ rs) := hR.typ rs hk
omit hA in
theorem Rec.pathType_same {R : Rec} (hR : R.Same I J) : S I J R.pathType := hR.pathType
omit hA in
theorem Rec.pattern_same {R : Rec} (hR : R.Same I J) : S I J R.pattern := hR.pattern
omit hA in
theorem Rec.stmt_same {R : Rec} (hR : R.Same I J) : S I J R.stmt := hR.stmt
omit hA in
theorem Rec.useSpeck_same {R : Rec} (hR : R.Same I J) : S I J R.useSpeck := hR.useSpeck
omit hA in
theorem Rec.attrItem_same {R : Rec} (hR : R.Same I J) : S I J R.attrItem := hR.attrItem

end

open Lean Elab Tactic Meta in
/-- Applies the rule for the head of the piece in the goal, or the rule for a recovery set. -/
elab "sstep" : tactic => withMainContext do
  let g ← instantiateMVars (← getMainTarget)
  let g := g.consumeMData
  let run (s : TacticM Syntax) : TacticM Unit := do evalTactic (← s)
  let byName (c : Name) (suffix : String) : TacticM Bool := do
    let lem := c.appendAfter suffix
    if (← getEnv).contains lem then
      let id := mkIdent lem
      run `(tactic| apply $id)
      return true
    else return false
  if g.isAppOf ``Kw then
    let some c := (g.getAppArgs[0]!).getAppFn.constName? | throwError "no head"
    if c == ``RSet.new then run `(tactic| exact Kw.new)
    else if c == ``RSet.ofTs then run `(tactic| exact Kw.ofTs)
    else if c == ``RSet.join then run `(tactic| apply Kw.join)
    else if c == ``RSet.withTs then run `(tactic| apply Kw.withTs)
    else if c == ``RSet.withTok then run `(tactic| apply Kw.withTok)
    else if c == ``RSet.withoutTok then run `(tactic| apply Kw.withoutTok)
    else if c == ``RSet.withKw then run `(tactic| apply Kw.withKw)
    else unless ← byName c "_kw" do throwError "no rule for {c}"
    return
  unless g.isAppOf ``S do throwError "not a judgement"
  let args := g.getAppArgs
  let prog := args[3]!.headBeta
  let some c := prog.getAppFn.constName? | throwError "no head: {prog}"
  if c == ``Bind.bind then
    let x := prog.getAppArgs[4]!.headBeta
    if x.isAppOf ``outerRec then run `(tactic| refine S.outer (fun _ _ => ?_))
    else run `(tactic| refine S.bind ?_ (fun _ => ?_))
  else if c == ``ite then run `(tactic| refine S.ite ?_ ?_)
  else if c == ``Pure.pure then run `(tactic| exact S.pure)
  else if ← isMatcher c then run `(tactic| split)
  else if ← byName c "_same" then return
  else
    let some prog' ← unfoldDefinition? prog | throwError "cannot unfold {prog}"
    let g' := mkAppN g.getAppFn (args.set! 3 prog'.headBeta)
    let mv ← getMainGoal
    let mv' ← mv.replaceTargetDefEq g'
    replaceMainGoal [mv']

/-- As many steps as possible. -/
macro "sgo" : tactic => `(tactic| repeat' (first | assumption | (intros; (try dsimp only); sstep) | assumption | decide))
macro "kwside" : tactic => `(tactic| repeat' (first | assumption | sstep | decide))

section
variable {I J : Input} [hA : Fact (Alike I J)] {α β : Type}

theorem eat_same {k : SyntaxKind} : S I J (eat k) := by unfold eat; sgo
theorem bump_same {k : SyntaxKind} : S I J (bump k) := by unfold bump; sgo
theorem bumpAny_same : S I J bumpAny := by unfold bumpAny; sgo
theorem bumpRemapMany_same {k : SyntaxKind} {n : Nat} : S I J (bumpRemapMany k n) := by unfold bumpRemapMany; sgo
theorem bumpRemap_same {k : SyntaxKind} : S I J (bumpRemap k) := by unfold bumpRemap; sgo
theorem expect_same {k : SyntaxKind} : S I J (expect k) := by unfold expect; sgo
theorem marked_same {body : P (Outcome × α)} (h : S I J body) : S I J (marked body) := by unfold marked; sgo
theorem node_same {k : SyntaxKind} {body : P Unit} (h : S I J body) : S I J (node k body) := by unfold node; sgo
theorem nodeOf_same {body : P SyntaxKind} (h : S I J body) : S I J (nodeOf body) := by unfold nodeOf; sgo
theorem block_same {body : P (Outcome × α)} (h : S I J body) : S I J (block body) := by unfold block; sgo
theorem preceded_same {cm : CM} {body : P (SyntaxKind × α)} (h : S I J body) : S I J (preceded cm body) := by unfold preceded; sgo
theorem extended_same {body : P (Option (CM × α))} (h : S I J body) : S I J (extended body) := by unfold extended; sgo
theorem errorAndBump_same : S I J errorAndBump := by unfold errorAndBump; sgo
theorem bumpUntil_same {rs : RSet} (hk : Kw rs) : ∀ n, S I J (bumpUntil rs n)
  | 0 => stop_same
  | n + 1 => by
    have := bumpUntil_same hk n
    unfold bumpUntil; sgo
theorem errorAndRecover_same {rs : RSet} (hk : Kw rs) : S I J (errorAndRecover rs) := by
  unfold errorAndRecover; sgo
theorem wrapWithError_same {cm : CM} : S I J (wrapWithError cm) := by unfold wrapWithError; sgo
theorem iterN_same {stop : TSet} {body : β → P (Bool × β)} (h : ∀ b, S I J (body b)) : ∀ n b, S I J (iterN stop body n b)
  | 0, _ => stop_same
  | n + 1, b => by
    have := iterN_same (stop := stop) h n
    unfold iterN; sgo
    · exact h b
    · exact this _
theorem iterate_same {stop : TSet} {body : β → P (Bool × β)} {b : β} (h : ∀ b, S I J (body b)) : S I J (iterate stop body b) := by
  unfold iterate
  exact S.bind remaining_same fun _ => iterN_same h _ _
theorem loopN_same {body : β → P (Bool × β)} (h : ∀ b, S I J (body b)) : ∀ n b, S I J (loopN body n b)
  | 0, _ => stop_same
  | n + 1, b => by
    unfold loopN
    exact S.bind (h b) fun _ => S.ite (loopN_same h n _) S.pure
theorem loop_same {body : β → P (Bool × β)} {b : β} (h : ∀ b, S I J (body b)) : S I J (loop body b) := by
  unfold loop
  exact S.bind remaining_same fun _ => loopN_same h _ _
theorem delimitedN_same {element : P Bool} {d : SyntaxKind} {e : Option SyntaxKind} (h : S I J element) :
    ∀ n b, S I J (delimitedN element d e n b)
  | 0, _ => stop_same
  | n + 1, b => by
    have := delimitedN_same (d := d) (e := e) h n
    unfold delimitedN; sgo
    all_goals exact this _
theorem delimited_same {element : P Bool} {d : SyntaxKind} {e : Option SyntaxKind} (h : S I J element) :
    S I J (delimited element d e) := by
  unfold delimited
  exact S.bind remaining_same fun _ => delimitedN_same h _ _

theorem functionModifierKws_kw : Kw functionModifierKws := by unfold functionModifierKws; kwside

theorem itemStartKwsOnly_kw : Kw itemStartKwsOnly := by unfold itemStartKwsOnly; kwside

theorem itemStartRecSet_kw : Kw itemStartRecSet := by unfold itemStartRecSet; kwside

theorem atStmtStart_kw : Kw atStmtStart := by unfold atStmtStart; kwside

theorem INCLUDE_SCHEMA_RECOVERY_SET_kw : Kw INCLUDE_SCHEMA_RECOVERY_SET := by unfold INCLUDE_SCHEMA_RECOVERY_SET; kwside

theorem valueAddress_same : S I J valueAddress := by
  unfold valueAddress; sgo

theorem anyAddress_same : S I J anyAddress := by
  unfold anyAddress; sgo

theorem nameOrRecover_same {extra : RSet} (hk_extra : Kw extra) : S I J (nameOrRecover extra) := by
  unfold nameOrRecover; sgo

theorem name_same : S I J name := by
  unfold name; sgo

theorem nameRefOrRecover_same : S I J nameRefOrRecover := by
  unfold nameRefOrRecover; sgo

theorem nameRef_same : S I J nameRef := by
  unfold nameRef; sgo

theorem ability_same : S I J ability := by
  unfold ability; sgo

theorem abilitiesList_same : S I J abilitiesList := by
  unfold abilitiesList; sgo

theorem isPathStart_same : S I J isPathStart := by
  unfold isPathStart; sgo

theorem typeArg_same {R : Rec} {isType : Bool} (hR : R.Same I J) : S I J (typeArg R isType) := by
  unfold typeArg; sgo

theorem optTypeArgListForType_same {R : Rec} (hR : R.Same I J) : S I J (optTypeArgListForType R) := by
  unfold optTypeArgListForType; sgo

theorem typeArgListForExpr_same {R : Rec} (hR : R.Same I J) : S I J (typeArgListForExpr R) := by
  unfold typeArgListForExpr; sgo

theorem optTypeArgListForExpr_same {R : Rec} {colonColonRequired : Bool} (hR : R.Same I J) : S I J (optTypeArgListForExpr R colonColonRequired) := by
  unfold optTypeArgListForExpr; sgo

theorem optPathTypeArgList_same {R : Rec} {mode : PathMode} (hR : R.Same I J) : S I J (optPathTypeArgList R mode) := by
  unfold optPathTypeArgList; sgo

theorem pathSegment_same {R : Rec} {mode : Option PathMode} {isFirst : Bool} (hR : R.Same I J) : S I J (pathSegment R mode isFirst) := by
  unfold pathSegment; sgo

theorem pathLoop_same {R : Rec} {mode : Option PathMode} {cm : CM} (hR : R.Same I J) : S I J (pathLoop R mode cm) := by
  unfold pathLoop; sgo

theorem path_same {R : Rec} {mode : Option PathMode} (hR : R.Same I J) : S I J (path R mode) := by
  unfold path; sgo

theorem pathType_same {R : Rec} (hR : R.Same I J) : S I J (pathType R) := by
  unfold pathType; sgo

theorem type__same {R : Rec} (hR : R.Same I J) : S I J (type_ R) := by
  unfold type_; sgo

theorem typeAnnotation_same {R : Rec} (hR : R.Same I J) : S I J (typeAnnotation R) := by
  unfold typeAnnotation; sgo

theorem refType_same {R : Rec} (hR : R.Same I J) : S I J (refType R) := by
  unfold refType; sgo

theorem abilityBoundLoop_same : S I J (abilityBoundLoop ()) := by
  unfold abilityBoundLoop; sgo

theorem abilityBoundList_same : S I J abilityBoundList := by
  unfold abilityBoundList; sgo

theorem lambdaTypeParam_same {R : Rec} (hR : R.Same I J) : S I J (lambdaTypeParam R) := by
  unfold lambdaTypeParam; sgo

theorem lambdaType_same {R : Rec} (hR : R.Same I J) : S I J (lambdaType R) := by
  unfold lambdaType; sgo

theorem parenOrTupleOrUnitType_same {R : Rec} (hR : R.Same I J) : S I J (parenOrTupleOrUnitType R) := by
  unfold parenOrTupleOrUnitType; sgo

theorem typeOrRecover_same {R : Rec} {extra : RSet} (hR : R.Same I J) (hk_extra : Kw extra) : S I J (typeOrRecover R extra) := by
  unfold typeOrRecover; sgo

theorem colonAbilityBoundList_same : S I J colonAbilityBoundList := by
  unfold colonAbilityBoundList; sgo

theorem typeParam_same : S I J typeParam := by
  unfold typeParam; sgo

theorem typeParamList_same : S I J typeParamList := by
  unfold typeParamList; sgo

theorem optTypeParamList_same : S I J optTypeParamList := by
  unfold optTypeParamList; sgo

theorem expr_same {R : Rec} (hR : R.Same I J) : S I J (expr R) := by
  unfold expr; sgo

theorem topLevelExprInStmt_same {R : Rec} (hR : R.Same I J) : S I J (topLevelExprInStmt R) := by
  unfold topLevelExprInStmt; sgo

theorem optInitializerExpr_same {R : Rec} (hR : R.Same I J) : S I J (optInitializerExpr R) := by
  unfold optInitializerExpr; sgo

theorem expectExpr_same {R : Rec} (hR : R.Same I J) : S I J (expectExpr R) := by
  unfold expectExpr; sgo

theorem initializerExpr_same {R : Rec} (hR : R.Same I J) : S I J (initializerExpr R) := by
  unfold initializerExpr; sgo

theorem attrItemList_same {R : Rec} {lparen rparen : SyntaxKind} (hR : R.Same I J) : S I J (attrItemList R lparen rparen) := by
  unfold attrItemList; sgo

theorem attrItem_same {R : Rec} (hR : R.Same I J) : S I J (attrItem R) := by
  unfold attrItem; sgo

theorem attr_same {R : Rec} (hR : R.Same I J) : S I J (attr R) := by
  unfold attr; sgo

theorem attrsLoop_same {R : Rec} {last : Option CM} (hR : R.Same I J) : S I J (attrsLoop R last) := by
  unfold attrsLoop; sgo

theorem attrs_same {R : Rec} (hR : R.Same I J) : S I J (attrs R) := by
  unfold attrs; sgo

theorem literalBlock_same : S I J literalBlock := by
  unfold literalBlock; sgo

theorem literal_same : S I J literal := by
  unfold literal; sgo

theorem isLiteralPatStart_same : S I J isLiteralPatStart := by
  unfold isLiteralPatStart; sgo

theorem wildcardPat_same : S I J wildcardPat := by
  unfold wildcardPat; sgo

theorem identPat_same : S I J identPat := by
  unfold identPat; sgo

theorem identPatOrRecover_same : S I J identPatOrRecover := by
  unfold identPatOrRecover; sgo

theorem literalPat_same : S I J literalPat := by
  unfold literalPat; sgo

theorem tuplePatFields_same {R : Rec} (hR : R.Same I J) : S I J (tuplePatFields R) := by
  unfold tuplePatFields; sgo

theorem structPatField_same {R : Rec} (hR : R.Same I J) : S I J (structPatField R) := by
  unfold structPatField; sgo

theorem structPatElement_same {R : Rec} (hR : R.Same I J) : S I J (structPatElement R) := by
  unfold structPatElement; sgo

theorem structPatFieldList_same {R : Rec} (hR : R.Same I J) : S I J (structPatFieldList R) := by
  unfold structPatFieldList; sgo

theorem pathPat_same {R : Rec} (hR : R.Same I J) : S I J (pathPat R) := by
  unfold pathPat; sgo

theorem tupleOrUnitOrParenPat_same {R : Rec} (hR : R.Same I J) : S I J (tupleOrUnitOrParenPat R) := by
  unfold tupleOrUnitOrParenPat; sgo

theorem pattern_same {R : Rec} (hR : R.Same I J) : S I J (pattern R) := by
  unfold pattern; sgo

theorem param_same {R : Rec} (hR : R.Same I J) : S I J (param R) := by
  unfold param; sgo

theorem funParamList_same {R : Rec} (hR : R.Same I J) : S I J (funParamList R) := by
  unfold funParamList; sgo

theorem lambdaParam_same {R : Rec} (hR : R.Same I J) : S I J (lambdaParam R) := by
  unfold lambdaParam; sgo

theorem lambdaParamList_same {R : Rec} (hR : R.Same I J) : S I J (lambdaParamList R) := by
  unfold lambdaParamList; sgo

theorem stmtList_same {R : Rec} (hR : R.Same I J) : S I J (stmtList R) := by
  unfold stmtList; sgo

theorem blockExpr_same {R : Rec} (hR : R.Same I J) : S I J (blockExpr R) := by
  unfold blockExpr; sgo

theorem inlineExpr_same {R : Rec} (hR : R.Same I J) : S I J (inlineExpr R) := by
  unfold inlineExpr; sgo

theorem blockOrInlineExpr_same {R : Rec} (hR : R.Same I J) : S I J (blockOrInlineExpr R) := by
  unfold blockOrInlineExpr; sgo

theorem unexpectedBlock_same {R : Rec} (hR : R.Same I J) : S I J (unexpectedBlock R) := by
  unfold unexpectedBlock; sgo

theorem blockOrError_same {R : Rec} {k : StmtKind} (hR : R.Same I J) : S I J (blockOrError R k) := by
  unfold blockOrError; sgo

theorem specBlockExpr_same {R : Rec} (hR : R.Same I J) : S I J (specBlockExpr R) := by
  unfold specBlockExpr; sgo

theorem optSpecBlockExpr_same {R : Rec} (hR : R.Same I J) : S I J (optSpecBlockExpr R) := by
  unfold optSpecBlockExpr; sgo

theorem valueArg_same {R : Rec} (hR : R.Same I J) : S I J (valueArg R) := by
  unfold valueArg; sgo

theorem valueArgList_same {R : Rec} (hR : R.Same I J) : S I J (valueArgList R) := by
  unfold valueArgList; sgo

theorem structLitField_same {R : Rec} (hR : R.Same I J) : S I J (structLitField R) := by
  unfold structLitField; sgo

theorem commaUnless_same {k : SyntaxKind} : S I J (commaUnless k) := by
  unfold commaUnless; sgo

theorem structLitFieldList_same {R : Rec} (hR : R.Same I J) : S I J (structLitFieldList R) := by
  unfold structLitFieldList; sgo

theorem optWhereExpr_same {R : Rec} (hR : R.Same I J) : S I J (optWhereExpr R) := by
  unfold optWhereExpr; sgo

theorem weight_same {R : Rec} (hR : R.Same I J) : S I J (weight R) := by
  unfold weight; sgo

theorem quantTriggerList_same {R : Rec} (hR : R.Same I J) : S I J (quantTriggerList R) := by
  unfold quantTriggerList; sgo

theorem quantBinding_same {R : Rec} (hR : R.Same I J) : S I J (quantBinding R) := by
  unfold quantBinding; sgo

theorem quantBindingList_same {R : Rec} {extraStop : RSet} (hR : R.Same I J) (hk_extraStop : Kw extraStop) : S I J (quantBindingList R extraStop) := by
  unfold quantBindingList; sgo

theorem quantTail_same {R : Rec} (hR : R.Same I J) : S I J (quantTail R) := by
  unfold quantTail; sgo

theorem quantExpr_same {R : Rec} (hR : R.Same I J) : S I J (quantExpr R) := by
  unfold quantExpr; sgo

theorem isAtQuantKw_same : S I J isAtQuantKw := by
  unfold isAtQuantKw; sgo

theorem atBehaviorPredicate_same : S I J atBehaviorPredicate := by
  unfold atBehaviorPredicate; sgo

theorem behaviorPredicate_same {R : Rec} (hR : R.Same I J) : S I J (behaviorPredicate R) := by
  unfold behaviorPredicate; sgo

theorem pathExpr_same {R : Rec} (hR : R.Same I J) : S I J (pathExpr R) := by
  unfold pathExpr; sgo

theorem vectorLitExpr_same {R : Rec} (hR : R.Same I J) : S I J (vectorLitExpr R) := by
  unfold vectorLitExpr; sgo

theorem matchArm_same {R : Rec} (hR : R.Same I J) : S I J (matchArm R) := by
  unfold matchArm; sgo

theorem matchArmList_same {R : Rec} (hR : R.Same I J) : S I J (matchArmList R) := by
  unfold matchArmList; sgo

theorem matchExpr_same {R : Rec} (hR : R.Same I J) : S I J (matchExpr R) := by
  unfold matchExpr; sgo

theorem assertMacroExpr_same {R : Rec} (hR : R.Same I J) : S I J (assertMacroExpr R) := by
  unfold assertMacroExpr; sgo

theorem parenOrTupleOrAnnotatedExpr_same {R : Rec} (hR : R.Same I J) : S I J (parenOrTupleOrAnnotatedExpr R) := by
  unfold parenOrTupleOrAnnotatedExpr; sgo

theorem condition_same {R : Rec} (hR : R.Same I J) : S I J (condition R) := by
  unfold condition; sgo

theorem ifExpr_same {R : Rec} (hR : R.Same I J) : S I J (ifExpr R) := by
  unfold ifExpr; sgo

theorem loopBody_same {R : Rec} (hR : R.Same I J) : S I J (loopBody R) := by
  unfold loopBody; sgo

theorem forCondition_same {R : Rec} (hR : R.Same I J) : S I J (forCondition R) := by
  unfold forCondition; sgo

theorem forBody_same {R : Rec} (hR : R.Same I J) : S I J (forBody R) := by
  unfold forBody; sgo

theorem whileBody_same {R : Rec} (hR : R.Same I J) : S I J (whileBody R) := by
  unfold whileBody; sgo

theorem labelDecl_same : S I J labelDecl := by
  unfold labelDecl; sgo

theorem optLabel_same : S I J optLabel := by
  unfold optLabel; sgo

theorem optOperand_same {R : Rec} (hR : R.Same I J) : S I J (optOperand R) := by
  unfold optOperand; sgo

theorem returnExpr_same {R : Rec} (hR : R.Same I J) : S I J (returnExpr R) := by
  unfold returnExpr; sgo

theorem abortExpr_same {R : Rec} (hR : R.Same I J) : S I J (abortExpr R) := by
  unfold abortExpr; sgo

theorem continueExpr_same : S I J continueExpr := by
  unfold continueExpr; sgo

theorem breakExpr_same {R : Rec} (hR : R.Same I J) : S I J (breakExpr R) := by
  unfold breakExpr; sgo

theorem labelledLoop_same {R : Rec} (hR : R.Same I J) : S I J (labelledLoop R) := by
  unfold labelledLoop; sgo

theorem isAssertIdent_same : S I J isAssertIdent := by
  unfold isAssertIdent; sgo

theorem keywordAtom_same {R : Rec} (hR : R.Same I J) : S I J (keywordAtom R) := by
  unfold keywordAtom; sgo

theorem atomAfterMatch_same {R : Rec} (hR : R.Same I J) : S I J (atomAfterMatch R) := by
  unfold atomAfterMatch; sgo

theorem atomExpr_same {R : Rec} (hR : R.Same I J) : S I J (atomExpr R) := by
  unfold atomExpr; sgo

theorem callExpr_same {R : Rec} {lhs : CM} (hR : R.Same I J) : S I J (callExpr R lhs) := by
  unfold callExpr; sgo

theorem indexExpr_same {R : Rec} {lhs : CM} (hR : R.Same I J) : S I J (indexExpr R lhs) := by
  unfold indexExpr; sgo

theorem postfixDotExpr_same {R : Rec} {lhs : CM} (hR : R.Same I J) : S I J (postfixDotExpr R lhs) := by
  unfold postfixDotExpr; sgo

theorem postfixLoop_same {R : Rec} {v : CM × BlockLike × Bool} (hR : R.Same I J) : S I J (postfixLoop R v) := by
  unfold postfixLoop; sgo

theorem postfixExpr_same {R : Rec} {lhs : CM} {b : BlockLike} {allowCalls : Bool} (hR : R.Same I J) : S I J (postfixExpr R lhs b allowCalls) := by
  unfold postfixExpr; sgo

theorem unary_same {R : Rec} {r : Restr} {k : SyntaxKind} {op : P Unit} (hR : R.Same I J) (hp_op : S I J op) : S I J (unary R r k op) := by
  unfold unary; sgo

theorem lhs_same {R : Rec} {r : Restr} (hR : R.Same I J) : S I J (lhs R r) := by
  unfold lhs; sgo

theorem currentOp_same : S I J currentOp := by
  unfold currentOp; sgo

theorem castExpr_same {R : Rec} {lhs : CM} (hR : R.Same I J) : S I J (castExpr R lhs) := by
  unfold castExpr; sgo

theorem isLoop_same {R : Rec} (hR : R.Same I J) : S I J (isLoop R ()) := by
  unfold isLoop; sgo

theorem isExpr_same {R : Rec} {lhs : CM} (hR : R.Same I J) : S I J (isExpr R lhs) := by
  unfold isExpr; sgo

theorem binExpr_same {R : Rec} {lhs : CM} {r : Restr} {isRange : Bool} {opBp : Nat} {op : SyntaxKind} (hR : R.Same I J) : S I J (binExpr R lhs r isRange opBp op) := by
  unfold binExpr; sgo

theorem exprLoop_same {R : Rec} {bp : Nat} {v : CM × Restr} (hR : R.Same I J) : S I J (exprLoop R bp v) := by
  unfold exprLoop; sgo

theorem exprBp_same {R : Rec} {r : Restr} {bp : Nat} (hR : R.Same I J) : S I J (exprBp R r bp) := by
  unfold exprBp; sgo

theorem predicateProperty_same : S I J predicateProperty := by
  unfold predicateProperty; sgo

theorem optPredicatePropertyList_same : S I J optPredicatePropertyList := by
  unfold optPredicatePropertyList; sgo

theorem conditionStmt_same {R : Rec} {kw : SyntaxKind} (hR : R.Same I J) : S I J (conditionStmt R kw) := by
  unfold conditionStmt; sgo

theorem conditionPredicate_same {R : Rec} (hR : R.Same I J) : S I J (conditionPredicate R) := by
  unfold conditionPredicate; sgo

theorem kwStmt_same {kw : String} {k n : SyntaxKind} {body : P Unit} (hw_kw : kw ∈ words) (hp_body : S I J body) : S I J (kwStmt kw k n body) := by
  unfold kwStmt; sgo

theorem abortsIfPredicate_same {R : Rec} (hR : R.Same I J) : S I J (abortsIfPredicate R) := by
  unfold abortsIfPredicate; sgo

theorem optEmitsCondition_same {R : Rec} (hR : R.Same I J) : S I J (optEmitsCondition R) := by
  unfold optEmitsCondition; sgo

theorem emitsPredicate_same {R : Rec} (hR : R.Same I J) : S I J (emitsPredicate R) := by
  unfold emitsPredicate; sgo

theorem invariantPredicate_same {R : Rec} (hR : R.Same I J) : S I J (invariantPredicate R) := by
  unfold invariantPredicate; sgo

theorem abortsWithPredicate_same {R : Rec} (hR : R.Same I J) : S I J (abortsWithPredicate R) := by
  unfold abortsWithPredicate; sgo

theorem axiomPredicate_same {R : Rec} (hR : R.Same I J) : S I J (axiomPredicate R) := by
  unfold axiomPredicate; sgo

theorem orElse'_same {a b : P Bool} (ha : S I J a) (hb : S I J b) : S I J (orElse' a b) := by
  unfold orElse'; sgo

theorem specPredicate_same {R : Rec} (hR : R.Same I J) : S I J (specPredicate R) := by
  unfold specPredicate; sgo

theorem updateStmt_same {R : Rec} (hR : R.Same I J) : S I J (updateStmt R) := by
  unfold updateStmt; sgo

theorem pragmaItem_same {R : Rec} (hR : R.Same I J) : S I J (pragmaItem R) := by
  unfold pragmaItem; sgo

theorem pragmaStmt_same {R : Rec} (hR : R.Same I J) : S I J (pragmaStmt R) := by
  unfold pragmaStmt; sgo

theorem schemaField_same {R : Rec} (hR : R.Same I J) : S I J (schemaField R) := by
  unfold schemaField; sgo

theorem globalVariable_same {R : Rec} (hR : R.Same I J) : S I J (globalVariable R) := by
  unfold globalVariable; sgo

theorem schemaLitField_same {R : Rec} (hR : R.Same I J) : S I J (schemaLitField R) := by
  unfold schemaLitField; sgo

theorem schemaLit_same {R : Rec} (hR : R.Same I J) : S I J (schemaLit R) := by
  unfold schemaLit; sgo

theorem innerExpr_same {R : Rec} {bp : Nat} (hR : R.Same I J) : S I J (innerExpr R bp) := by
  unfold innerExpr; sgo

theorem includeIfElseExpr_same {R : Rec} (hR : R.Same I J) : S I J (includeIfElseExpr R) := by
  unfold includeIfElseExpr; sgo

theorem includeLit_same {R : Rec} {atAmp : Bool} (hR : R.Same I J) : S I J (includeLit R atAmp) := by
  unfold includeLit; sgo

theorem includeSchemaExpr_same {R : Rec} (hR : R.Same I J) : S I J (includeSchemaExpr R) := by
  unfold includeSchemaExpr; sgo

theorem includeSchema_same {R : Rec} (hR : R.Same I J) : S I J (includeSchema R) := by
  unfold includeSchema; sgo

theorem wildcardIdent_same : S I J wildcardIdent := by
  unfold wildcardIdent; sgo

theorem optWildcardPatternModifier_same : S I J optWildcardPatternModifier := by
  unfold optWildcardPatternModifier; sgo

theorem wildcardPattern_same : S I J wildcardPattern := by
  unfold wildcardPattern; sgo

theorem wildcardPatternList_same : S I J wildcardPatternList := by
  unfold wildcardPatternList; sgo

theorem applySchema_same {R : Rec} (hR : R.Same I J) : S I J (applySchema R) := by
  unfold applySchema; sgo

theorem schemaBody_same {R : Rec} (hR : R.Same I J) : S I J (schemaBody R) := by
  unfold schemaBody; sgo

theorem proof_same {R : Rec} (hR : R.Same I J) : S I J (proof R) := by
  unfold proof; sgo

theorem optProof_same {R : Rec} (hR : R.Same I J) : S I J (optProof R) := by
  unfold optProof; sgo

theorem lemmaItem_same {R : Rec} (hR : R.Same I J) : S I J (lemmaItem R) := by
  unfold lemmaItem; sgo

theorem applyLemma_same {R : Rec} (hR : R.Same I J) : S I J (applyLemma R) := by
  unfold applyLemma; sgo

theorem forallApplyLemma_same {R : Rec} (hR : R.Same I J) : S I J (forallApplyLemma R) := by
  unfold forallApplyLemma; sgo

theorem postStmt_same {R : Rec} (hR : R.Same I J) : S I J (postStmt R) := by
  unfold postStmt; sgo

theorem splitStmt_same {R : Rec} (hR : R.Same I J) : S I J (splitStmt R) := by
  unfold splitStmt; sgo

theorem acquires_same {R : Rec} (hR : R.Same I J) : S I J (acquires R) := by
  unfold acquires; sgo

theorem optRetType_same {R : Rec} (hR : R.Same I J) : S I J (optRetType R) := by
  unfold optRetType; sgo

theorem funSignature_same {R : Rec} {specFun : Bool} (hR : R.Same I J) : S I J (funSignature R specFun) := by
  unfold funSignature; sgo

theorem funBody_same {R : Rec} (hR : R.Same I J) : S I J (funBody R) := by
  unfold funBody; sgo

theorem specFunTail_same {R : Rec} {k : SyntaxKind} (hR : R.Same I J) : S I J (specFunTail R k) := by
  unfold specFunTail; sgo

theorem specInlineFunction_same {R : Rec} (hR : R.Same I J) : S I J (specInlineFunction R) := by
  unfold specInlineFunction; sgo

theorem useAlias_same : S I J useAlias := by
  unfold useAlias; sgo

theorem useGroup_same {R : Rec} (hR : R.Same I J) : S I J (useGroup R) := by
  unfold useGroup; sgo

theorem useSpeck_same {R : Rec} (hR : R.Same I J) : S I J (useSpeck R) := by
  unfold useSpeck; sgo

theorem useStmtBody_same {R : Rec} (hR : R.Same I J) : S I J (useStmtBody R) := by
  unfold useStmtBody; sgo

theorem letStmt_same {R : Rec} {allowPost : Bool} (hR : R.Same I J) : S I J (letStmt R allowPost) := by
  unfold letStmt; sgo

theorem exprStmt_same {R : Rec} (hR : R.Same I J) : S I J (exprStmt R) := by
  unfold exprStmt; sgo

theorem inlineUse_same {R : Rec} (hR : R.Same I J) : S I J (inlineUse R) := by
  unfold inlineUse; sgo

theorem specStmt_same {R : Rec} (hR : R.Same I J) : S I J (specStmt R) := by
  unfold specStmt; sgo

theorem proofStmt_same {R : Rec} (hR : R.Same I J) : S I J (proofStmt R) := by
  unfold proofStmt; sgo

theorem stmtBody_same {R : Rec} (hR : R.Same I J) : S I J (stmtBody R) := by
  unfold stmtBody; sgo

theorem stmt_same {R : Rec} (hR : R.Same I J) : S I J (stmt R) := by
  unfold stmt; sgo

theorem optInnerPublicModifier_same : S I J optInnerPublicModifier := by
  unfold optInnerPublicModifier; sgo

theorem visibilityModifier_same : S I J visibilityModifier := by
  unfold visibilityModifier; sgo

theorem optFunModifiers_same : S I J optFunModifiers := by
  unfold optFunModifiers; sgo

theorem specFunction_same {R : Rec} (hR : R.Same I J) : S I J (specFunction R) := by
  unfold specFunction; sgo

theorem function_same {R : Rec} (hR : R.Same I J) : S I J (function R) := by
  unfold function; sgo

theorem onFunctionModifiersStart_same : S I J onFunctionModifiersStart := by
  unfold onFunctionModifiersStart; sgo

theorem onVisibilityModifierStart_same : S I J onVisibilityModifierStart := by
  unfold onVisibilityModifierStart; sgo

theorem adtNameRecovery_kw : Kw adtNameRecovery := by unfold adtNameRecovery; kwside

theorem optAbilitiesList_same : S I J optAbilitiesList := by
  unfold optAbilitiesList; sgo

theorem optAbilitiesListWithSemicolon_same : S I J optAbilitiesListWithSemicolon := by
  unfold optAbilitiesListWithSemicolon; sgo

theorem namedFieldBlock_same {R : Rec} (hR : R.Same I J) : S I J (namedFieldBlock R) := by
  unfold namedFieldBlock; sgo

theorem namedField_same {R : Rec} (hR : R.Same I J) : S I J (namedField R) := by
  unfold namedField; sgo

theorem namedFieldList_same {R : Rec} (hR : R.Same I J) : S I J (namedFieldList R) := by
  unfold namedFieldList; sgo

theorem tupleField_same {R : Rec} (hR : R.Same I J) : S I J (tupleField R) := by
  unfold tupleField; sgo

theorem tupleFieldList_same {R : Rec} (hR : R.Same I J) : S I J (tupleFieldList R) := by
  unfold tupleFieldList; sgo

theorem structBody_same {R : Rec} (hR : R.Same I J) : S I J (structBody R) := by
  unfold structBody; sgo

theorem enumVariantBlock_same {R : Rec} (hR : R.Same I J) : S I J (enumVariantBlock R) := by
  unfold enumVariantBlock; sgo

theorem enumVariant_same {R : Rec} (hR : R.Same I J) : S I J (enumVariant R) := by
  unfold enumVariant; sgo

theorem enumVariantList_same {R : Rec} (hR : R.Same I J) : S I J (enumVariantList R) := by
  unfold enumVariantList; sgo

theorem enumBody_same {R : Rec} (hR : R.Same I J) : S I J (enumBody R) := by
  unfold enumBody; sgo

theorem itemSpecTypeParamBlock_same : S I J itemSpecTypeParamBlock := by
  unfold itemSpecTypeParamBlock; sgo

theorem itemSpecTypeParam_same : S I J itemSpecTypeParam := by
  unfold itemSpecTypeParam; sgo

theorem itemSpecTypeParamList_same : S I J itemSpecTypeParamList := by
  unfold itemSpecTypeParamList; sgo

theorem itemSpecParam_same {R : Rec} (hR : R.Same I J) : S I J (itemSpecParam R) := by
  unfold itemSpecParam; sgo

theorem itemSpecParamList_same {R : Rec} (hR : R.Same I J) : S I J (itemSpecParamList R) := by
  unfold itemSpecParamList; sgo

theorem itemSpecSignature_same {R : Rec} (hR : R.Same I J) : S I J (itemSpecSignature R) := by
  unfold itemSpecSignature; sgo

theorem itemSpecBody_same {R : Rec} (hR : R.Same I J) : S I J (itemSpecBody R) := by
  unfold itemSpecBody; sgo

theorem constBody_same {R : Rec} (hR : R.Same I J) : S I J (constBody R) := by
  unfold constBody; sgo

theorem friendBody_same {R : Rec} (hR : R.Same I J) : S I J (friendBody R) := by
  unfold friendBody; sgo

theorem visModifierItemStart_kw : Kw visModifierItemStart := by unfold visModifierItemStart; kwside

theorem visibilityItem_same {R : Rec} (hR : R.Same I J) : S I J (visibilityItem R) := by
  unfold visibilityItem; sgo

theorem specItem_same {R : Rec} (hR : R.Same I J) : S I J (specItem R) := by
  unfold specItem; sgo

theorem optItem_same {R : Rec} (hR : R.Same I J) : S I J (optItem R) := by
  unfold optItem; sgo

theorem item_same {R : Rec} (hR : R.Same I J) : S I J (item R) := by
  unfold item; sgo

theorem itemList_same {R : Rec} (hR : R.Same I J) : S I J (itemList R) := by
  unfold itemList; sgo

theorem itemListOrRecover_same {R : Rec} (hR : R.Same I J) : S I J (itemListOrRecover R) := by
  unfold itemListOrRecover; sgo

theorem moduleBody_same {R : Rec} (hR : R.Same I J) : S I J (moduleBody R) := by
  unfold moduleBody; sgo

theorem moduleSpecBody_same {R : Rec} (hR : R.Same I J) : S I J (moduleSpecBody R) := by
  unfold moduleSpecBody; sgo

theorem scriptBody_same {R : Rec} (hR : R.Same I J) : S I J (scriptBody R) := by
  unfold scriptBody; sgo

theorem addressItem_same {R : Rec} (hR : R.Same I J) : S I J (addressItem R) := by
  unfold addressItem; sgo

theorem addressBody_same {R : Rec} (hR : R.Same I J) : S I J (addressBody R) := by
  unfold addressBody; sgo

theorem topItem_same {R : Rec} (hR : R.Same I J) : S I J (topItem R) := by
  unfold topItem; sgo

theorem sourceFile_same {R : Rec} (hR : R.Same I J) : S I J (sourceFile R) := by
  unfold sourceFile; sgo

omit hA in
theorem grammar_zero_same : (grammar 0).Same I J :=
  ⟨fun _ _ => stop_same, fun _ _ => stop_same, stop_same, stop_same, stop_same, stop_same, stop_same⟩

theorem grammar_same : ∀ n, (grammar n).Same I J
  | 0 => grammar_zero_same
  | n + 1 => by
    have h := grammar_same n
    exact ⟨fun _ _ => exprBp_same h, fun _ hk => typeOrRecover_same h hk, pathType_same h, pattern_same h, stmt_same h, useSpeck_same h, attrItem_same h⟩

end

/-- Inputs that the grammar cannot tell apart are parsed in the same way: the same events, the same panics. -/
theorem parse_alike {I J : Input} (h : Alike I J) (fuel : Nat) : parse I fuel = parse J fuel := by
  have : Fact (Alike I J) := ⟨h⟩
  exact sourceFile_same (grammar_same fuel) _ _ Kw.new

end Verif.Parser
