import Verif.Parser.Proofs.Top

/-! The whole grammar meets the judgement: it ends for enough fuel, panics only in the ways `Allowed`, and otherwise
uses up all the tokens. -/

namespace Verif.Parser
open Verif.Syntax (SyntaxKind)
open Verif.TokenSet (TSet)

set_option linter.unusedSectionVars false
set_option linter.style.nameCheck false

variable {I : Input} [I.Valid] {R : Rec} {b p : Nat} {h : Handle}

/-- Nothing is said of a position after the end. -/
theorem T.beyond {α : Type} {prog : P α} {Q : α → Nat → Handle → Prop} (hp : I.size < p) : T I p h prog Q := by
  intro E s0 s he hh hpos hn hne
  omega

/-- Enough fuel for a position. -/
def Enough (I : Input) (n : Nat) : Prop :=
  (∀ p, 2 * (I.size - p) + 1 ≤ n → ∀ {h}, (∀ {r bp}, 1 ≤ bp → T I p h ((grammar n).exprBp r bp) Ok) ∧
    (∀ {rs}, T I p h ((grammar n).typ rs) (TypOk I p)) ∧ T I p h (grammar n).pathType Ok ∧ T I p h (grammar n).pattern Ok ∧
    T I p h (grammar n).useSpeck Ok ∧ T I p h (grammar n).attrItem Ok) ∧
  (∀ p, 2 * (I.size - p) + 2 ≤ n → ∀ {h}, T I p h (grammar n).stmt Ok)

/-- With enough fuel for the positions from `b` on. -/
theorem Enough.good {n b : Nat} (he : Enough I n) (hn : 2 * (I.size - b) + 2 ≤ n) : (grammar n).Good I b where
  exprBp hp h1 := ((he.1 _ (by omega)).1) h1
  typ hp := ((he.1 _ (by omega)).2.1)
  pathType hp := (he.1 _ (by omega)).2.2.1
  pattern hp := (he.1 _ (by omega)).2.2.2.1
  stmt hp := he.2 _ (by omega)
  useSpeck hp := (he.1 _ (by omega)).2.2.2.2.1
  attrItem hp := (he.1 _ (by omega)).2.2.2.2.2

/-- The functions called after a token has been used up. -/
theorem Enough.next {n p : Nat} (he : Enough I n) (hp : 2 * (I.size - p) ≤ n) : (grammar n).Good I (p + 1) := by
  by_cases hs : p < I.size
  · exact he.good (by omega)
  · exact ⟨fun _ _ => T.beyond (by omega), fun _ => T.beyond (by omega), fun _ => T.beyond (by omega),
      fun _ => T.beyond (by omega), fun _ => T.beyond (by omega), fun _ => T.beyond (by omega), fun _ => T.beyond (by omega)⟩

theorem enough (n : Nat) : Enough I n := by
  induction n with
  | zero => exact ⟨fun p hp => by omega, fun p hp => by omega⟩
  | succ n ih =>
    refine ⟨fun p hp h => ?_, fun p hp h => ?_⟩
    · have hR := ih.next (p := p) (by omega)
      exact ⟨fun h1 => exprBp_ok hR (Nat.le_refl _) h1, typeOrRecover_ok hR (Nat.le_refl _), pathType_ok hR (Nat.le_refl _),
        pattern_ok hR (Nat.le_refl _), useSpeck_ok hR (Nat.le_refl _), attrItem_ok hR (Nat.le_refl _)⟩
    · have hR := ih.next (p := p) (by omega)
      exact stmt_ok hR (Nat.le_refl _) (fun {q h r bp} hq h1 => (ih.1 q (by omega)).1 h1) (Nat.le_refl p)

/-! The items of a file. -/

theorem moduleBody_lt (hR : R.Good I b) (hb : b ≤ p + 1) (h0 : I.kindAt p = .MODULE_KW) : T I p h (moduleBody R) (OkLt p) := by
  have hall := moduleBody_ok (h := h) hR hb h0
  unfold moduleBody at hall ⊢
  refine T.bind (T.bump1 rfl (by decide) h0 fun _ _ _ => T.lt ?_)
  refine T.bind (T.nthAt fun _ _ => ?_)
  refine T.call (T.iff (fun hc => ?_) (fun _ => trivial)) fun _ _ _ _ _ _ => by tgo
  have hcc : I.kindAt (p + 2) = .COLON_COLON := by tside
  by_cases ha : I.kindAt (p + 1) = .INT_NUMBER ∨ I.kindAt (p + 1) = .IDENT
  · refine T.bind ((anyAddress_at ha).mono ?_)
    rintro _ q h' _ _ rfl _ _
    exact T.bump1 rfl (by decide) hcc fun _ => trivial
  · rw [not_or] at ha
    refine T.bind ((anyAddress_none ha.1 ha.2).mono ?_)
    rintro _ q h' _ _ rfl _ _
    unfold bump
    refine T.bind (T.eat1 rfl (by decide) (fun _ _ _ _ => T.pure trivial) (fun hn _ _ => ?_))
    rw [if_neg (by simp)]
    exact T.crash ⟨p, h0, ha.1, ha.2, hn, hcc⟩

theorem moduleSpecBody_lt (hR : R.Good I b) (hb : b ≤ p + 1) (h0 : I.kindAt p = .SPEC_KW) :
    T I p h (moduleSpecBody R) (OkLt p) := by
  unfold moduleSpecBody
  exact T.bind (T.bump1 rfl (by decide) h0 fun _ _ _ => T.lt (by tgo))

theorem scriptBody_lt (hR : R.Good I b) (hb : b ≤ p + 1) (h0 : I.kindAt p = .SCRIPT_KW) : T I p h (scriptBody R) (OkLt p) := by
  unfold scriptBody
  exact T.bind (T.bump1 rfl (by decide) h0 fun _ _ _ => T.lt (by tgo))

theorem addressBody_lt (hR : R.Good I b) (hb : b ≤ p + 1) (h0 : I.isKeyword p "address" = true) : T I p h (addressBody R) (OkLt p) := by
  unfold addressBody
  exact T.bind (T.bumpRemap rfl (by tside) fun _ _ _ => T.lt (by tgo))

/-- The block of the loop over the items of a file uses up a token. -/
theorem topItem_spec (hR : R.Good I b) (hb : b ≤ p + 1) (hk : I.kindAt p ≠ .EOF) : T I p h (topItem R) fun _ q _ => p < q := by
  unfold topItem
  refine T.bind (T.block ?_)
  refine T.call (T.drop_any (attrs_any hR hb)) fun _ q h' hq hs _ => ?_
  refine T.bind (T.current fun _ _ => T.bind (T.atKw fun _ _ => ?_))
  have fin : ∀ {prog : P Unit} {k : SyntaxKind}, plain k = true → T I q h' prog (OkLt q) →
      T I q h' (do prog; pure (Outcome.complete k, true)) fun r q' _ =>
        Ended (fun a q h' => p ≤ q → q ≤ I.size → T I q h' (iff (!a.2) errorAndBump) fun _ q _ => p < q) p r q' := by
    intro prog k hk0 hp
    refine T.bind (hp.mono fun _ q' _ _ _ h3 _ _ => T.pure ⟨hk0, fun _ _ _ _ => ?_⟩)
    exact T.iff (fun hc => by simp at hc) (fun _ => Nat.lt_of_le_of_lt hq h3.1)
  refine T.ite (fun hc => fin rfl (moduleBody_lt hR (by omega) hc)) (fun _ => ?_)
  refine T.ite (fun hc => fin rfl (moduleSpecBody_lt hR (by omega) hc)) (fun _ => ?_)
  refine T.ite (fun hc => fin rfl (scriptBody_lt hR (by omega) hc)) (fun _ => ?_)
  refine T.ite (fun hc => fin rfl (addressBody_lt hR (by omega) hc.2)) (fun _ => ?_)
  refine T.pure ?_
  intro _ _
  refine T.iff (fun _ => errorAndBump_spec.mono fun _ q' _ h1 _ h2 => ?_) (fun hc => by simp at hc)
  by_cases he : I.kindAt q = .EOF
  · have : q ≠ p := fun e => hk (e ▸ he)
    omega
  · have := h2 he
    omega

/-- The recovery set of the loop over the items of a file. -/
theorem hasTok_new (k : SyntaxKind) : RSet.new.hasTok k = false := by
  cases k <;> rfl

theorem bind_cases {α β : Type} {C : Res β → Prop} {x : P α} {f : α → P β} {E : Env} {s : St} {D : Res α → Prop} (hx : D (x I E s))
    (h1 : ∀ a s', D (.ok a s') → C (f a I E s')) (h2 : ∀ w, D (.panic w) → C (.panic w)) (h3 : D .stop → C .stop) :
    C ((x >>= f) I E s) := by
  show C (P.bind' x f I E s)
  unfold P.bind'
  revert hx
  cases x I E s with
  | ok a s' => exact h1 a s'
  | panic w => exact h2 w
  | stop => exact h3

/-- What is known of the result of a run that reaches the end. -/
def Reaches (I : Input) (s0 : St) : Res Unit → Prop
  | .ok _ s' => Ext I s0 s' ∧ s'.pos = I.size
  | .panic w => Allowed I w
  | .stop => False

/-- The loop over the items of a file reaches the end. -/
theorem sourceLoop_spec (hR : R.Good I b) (hb : b ≤ 1) {n : Nat} {E : Env} (hE : E.outer = RSet.new) {s0 s : St}
    (he : Ext I s0 s) (hs : s.pos ≤ I.size) (hne : s0.events ≠ []) (hn : I.size < s.pos + n) :
    Reaches I s0 (iterN TokenSet.empty (fun _ => do topItem R; pure (true, ())) n () I E s) := by
  induction n generalizing s with
  | zero => omega
  | succ n ih =>
    show Reaches I s0 ((if I.atKind s.pos .EOF || TokenSet.contains TokenSet.empty (I.kindAt s.pos) then pure () else _ : P Unit) I E s)
    have hempty : TokenSet.contains TokenSet.empty (I.kindAt s.pos) = false := hasTok_new _
    rw [hempty, Bool.or_false]
    by_cases hk : I.kindAt s.pos = .EOF
    · rw [if_pos (by simp [Input.atKind, parts, Input.atParts, hk])]
      refine ⟨he, ?_⟩
      by_contra hlt
      exact Input.Valid.eof s.pos (by omega) hk
    · rw [if_neg (by simp [Input.atKind, parts, Input.atParts, hk])]
      have ht := topItem_spec (h := none) hR (b := b) (p := s.pos) (by omega) hk { E with outer := E.outer.join (.ofTs TokenSet.empty) } s0 s he
        (HandleOk.none _ _) rfl hs hne
      refine bind_cases (x := getPos) (D := fun r => r = .ok s.pos s) rfl ?_ (fun w hw => by cases hw) (fun hw => by cases hw)
      rintro _ _ ⟨⟩
      refine bind_cases (x := withRec _ _) (D := Good I s0 s.pos fun a q _ => a = (true, ()) ∧ s.pos < q) ?_ ?_ (fun w hw => hw) (fun hw => hw)
      · exact bind_cases (x := topItem R) (C := Good I s0 s.pos fun a q _ => a = (true, ()) ∧ s.pos < q) (f := fun _ => pure (true, ())) ht
          (fun _ _ ⟨h1, h2, h', h3, h4, h5⟩ => ⟨h1, h2, h', h3, h4, rfl, h5⟩) (fun w hw => hw) (fun hw => hw)
      · rintro _ s' ⟨h1, h2, h', e', -, rfl, hlt⟩
        show Reaches I s0 ((if (!true) = true then pure () else _ : P Unit) I E s')
        rw [if_neg (by decide)]
        show Reaches I s0 ((if E.outer.hasTok (I.kindAt s'.pos) = true then pure () else _ : P Unit) I E s')
        rw [hE, hasTok_new, if_neg (by decide)]
        show Reaches I s0 ((if s'.pos = s.pos then _ else _ : P Unit) I E s')
        rw [if_neg (by omega)]
        exact ih e' h2 (by omega)

/-- The result of the parser: the events are a node of the file around events that use up all the tokens. -/
def Parses' (I : Input) : Res α → Prop
  | .ok _ s => ∃ ts seg inner, s.events = Event.start .SOURCE_FILE none :: seg ++ [Event.finish] ∧ Denotes seg inner ∧ Sh I ts inner ∧
      Glued I 0 (eventTokens seg) I.size
  | .panic w => Allowed I w
  | .stop => False

abbrev Parses (I : Input) (r : Res Unit) : Prop := Parses' I r

theorem parse_spec {fuel : Nat} (hf : 2 * I.size + 2 ≤ fuel) : Parses I (parse I fuel) := by
  have hR : (grammar fuel).Good I 0 := (enough fuel).good (by omega)
  have hl := sourceLoop_spec hR (by omega) (n := I.toks.length - 0 + 1) (E := ⟨RSet.new, .Move⟩) rfl (s0 := ⟨0, [Event.tombstone]⟩)
    (Ext.refl I _) (Nat.zero_le _) (by simp) (by show I.toks.length < _; omega)
  unfold parse sourceFile
  refine bind_cases (x := node .SOURCE_FILE _) (D := Parses' I) (C := Parses I) ?_ (fun _ _ h => h) (fun w hw => hw) (fun hw => hw)
  refine bind_cases (x := start) (D := fun r => r = .ok 0 ⟨0, [Event.tombstone]⟩) rfl ?_ (fun w hw => by cases hw) (fun hw => by cases hw)
  rintro _ _ ⟨⟩
  refine bind_cases (C := Parses' I) (x := iterate _ _ _) (D := Reaches I ⟨0, [Event.tombstone]⟩) hl ?_ (fun w hw => hw) (fun hw => hw)
  · rintro a s'
    rintro ⟨⟨ts, seg, steps, h1, h2, h3, h4⟩, h5⟩
    obtain ⟨pos, events⟩ := s'
    simp only at h1 h4 h5
    subst h1 h5
    exact ⟨ts, seg, steps, rfl, h2, h3, h4⟩

end Verif.Parser
