import Verif.Parser.PrecLemmas

/-! The parser reads an expression as it is written: the induction. -/

namespace Verif.Parser
open Verif.Syntax (SyntaxKind)
open Verif.TokenSet (TSet)

variable {I : Input} {E : Env} {p q n : Nat}

mutual
/-- How often the functions of the grammar call themselves for an expression. -/
def Ex.depth : Ex → Nat
  | .path .. | .lit _ => 1
  | .paren e | .un _ e => e.depth + 1
  | .field e _ | .cast e .. => e.depth
  | .index e i => max e.depth (i.depth + 1)
  | .call e a | .method e a => max e.depth (a.depth + 1)
  | .bin _ l r => max l.depth (r.depth + 1)

def Args.depth : Args → Nat
  | .none => 0
  | .one e => e.depth
  | .more e a => max e.depth a.depth
end

theorem Ex.depth_pos : ∀ e : Ex, 0 < e.depth
  | .path .. | .lit _ => by simp [Ex.depth]
  | .paren e | .un _ e => by simp [Ex.depth]
  | .field e _ | .cast e .. => by simpa [Ex.depth] using e.depth_pos
  | .index e i => by have := e.depth_pos; simp only [Ex.depth]; omega
  | .call e a | .method e a => by have := e.depth_pos; simp only [Ex.depth]; omega
  | .bin _ l r => by have := l.depth_pos; simp only [Ex.depth]; omega

/-! ### The first token -/

/-- What the first token of an expression is. -/
structure First (I : Input) (e : Ex) (p : Nat) : Prop where
  kind : I.kindAt p ∈ startKinds
  ident : I.kindAt p = .IDENT → I.PlainAt p ∨ I.textAt p = "copy".toList
  minus : e.minus = false → I.kindAt p ≠ .MINUS
  primary : e.Primary → (I.kindAt p ∉ [.AMP, .STAR, .BANG, .MINUS, .MOVE_KW]) ∧ (I.kindAt p = .IDENT → I.PlainAt p)

theorem lt_of_kind {k : SyntaxKind} (h : I.kindAt p = k) (hk : k ≠ .EOF) : p < I.size := kindAt_lt (by rw [h]; exact hk)

theorem lt_of_start (h : I.kindAt p ∈ startKinds) : p < I.size :=
  kindAt_lt (fun hc => by rw [hc] at h; exact absurd h (by decide))

theorem un_first {o : UnOp} {m : Nat} (h : I.UnAt o p m) :
    p < m ∧ m ≤ I.size ∧ I.kindAt p ∈ startKinds ∧ (I.kindAt p = .IDENT → I.textAt p = "copy".toList) ∧
      (o ≠ .neg → I.kindAt p ≠ .MINUS) := by
  cases o <;> simp only [Input.UnAt] at h
  case borrowMut =>
    have h2 := lt_of_kind h.2.1 (by decide)
    refine ⟨by omega, by omega, by rw [h.1]; decide, ?_, ?_⟩ <;> rw [h.1] <;> intro hc <;> first | exact absurd hc (by decide) | decide
  case copy =>
    have h2 := lt_of_kind h.1 (by decide)
    exact ⟨by omega, by omega, by rw [h.1]; decide, fun _ => h.2.1, fun _ => by rw [h.1]; decide⟩
  all_goals
    have h2 := lt_of_kind h.1 (by decide)
    refine ⟨by omega, by omega, by rw [h.1]; decide, ?_, ?_⟩ <;> rw [h.1] <;> intro hc <;>
      first | exact absurd hc (by decide) | decide

mutual
theorem Ex.first [I.Valid] : ∀ (e : Ex) {m p q : Nat}, e.Fits m → e.At I p q → p < q ∧ q ≤ I.size ∧ First I e p
  | .path addr more, m, p, q, hf, h => by
    obtain ⟨h1, -⟩ := h
    have := moreAt_le h1.2
    refine ⟨by omega, pathAt_size h1, ?_⟩
    have h2 := h1.1
    cases addr with
    | false =>
      simp at h2
      exact ⟨by rw [h2.1]; decide, fun _ => .inl h2.2, fun _ => by rw [h2.1]; decide, fun _ => ⟨by rw [h2.1]; decide, fun _ => h2.2⟩⟩
    | true =>
      simp at h2
      refine ⟨by rw [h2]; decide, ?_, fun _ => by rw [h2]; decide, fun _ => ⟨by rw [h2]; decide, ?_⟩⟩ <;>
        (intro hc; rw [h2] at hc; exact absurd hc (by decide))
  | .lit k, m, p, q, hf, h => by
    obtain ⟨h1, rfl, -⟩ := h
    have hk : k ∈ [SyntaxKind.INT_NUMBER, .BYTE_STRING, .HEX_STRING, .TRUE_KW, .FALSE_KW] := by simpa [Ex.Fits] using hf
    have key : ∀ k ∈ [SyntaxKind.INT_NUMBER, .BYTE_STRING, .HEX_STRING, .TRUE_KW, .FALSE_KW],
      k ≠ .EOF ∧ k ∈ startKinds ∧ k ≠ .IDENT ∧ k ≠ .MINUS ∧ (k ∉ [.AMP, .STAR, .BANG, .MINUS, SyntaxKind.MOVE_KW]) := by decide
    obtain ⟨k1, k2, k3, k4, k5⟩ := key k hk
    have := lt_of_kind h1 k1
    exact ⟨by omega, by omega, by rw [h1]; exact k2, fun hc => absurd (h1 ▸ hc) k3, fun _ => by rw [h1]; exact k4,
      fun _ => ⟨by rw [h1]; exact k5, fun hc => absurd (h1 ▸ hc) k3⟩⟩
  | .paren e, m, p, q, hf, h => by
    obtain ⟨h1, -, m', h3, h4, rfl⟩ := h
    have := lt_of_kind h4 (by decide)
    have h5 := e.first hf h3
    refine ⟨by omega, by omega, by rw [h1]; decide, ?_, fun _ => by rw [h1]; decide, fun _ => ⟨by rw [h1]; decide, ?_⟩⟩ <;>
      (intro hc; rw [h1] at hc; exact absurd hc (by decide))
  | .un o e, m, p, q, hf, h => by
    obtain ⟨m', h1, h2⟩ := h
    obtain ⟨u1, u2, u3, u4, u5⟩ := un_first h1
    have h5 := e.first hf h2
    refine ⟨by omega, h5.2.1, u3, fun hc => .inr (u4 hc), fun hc => u5 ?_, fun hc => hc.elim⟩
    intro ho; subst ho; simp [Ex.minus] at hc
  | .field e num, m, p, q, hf, h => by
    obtain ⟨m', h1, h2, h3, rfl, -⟩ := h
    have h5 := e.first hf.2 h1
    have := kindAt_lt (I := I) (p := m' + 1) (by rw [h3]; cases num <;> decide)
    exact ⟨by omega, by omega, h5.2.2.kind, h5.2.2.ident, fun hc => h5.2.2.minus hc, fun _ => h5.2.2.primary hf.1⟩
  | .index e i, m, p, q, hf, h => by
    obtain ⟨m', n, h1, h2, h3, h4, rfl⟩ := h
    have h5 := e.first hf.2.1 h1
    have h6 := i.first hf.2.2 h3
    have := lt_of_kind h4 (by decide)
    exact ⟨by omega, by omega, h5.2.2.kind, h5.2.2.ident, fun hc => h5.2.2.minus hc, fun _ => h5.2.2.primary hf.1⟩
  | .call e a, m, p, q, hf, h => by
    obtain ⟨m', n, h1, h2, h3, h4, rfl⟩ := h
    have h5 := e.first hf.2.1 h1
    have h6 := a.first hf.2.2 h3
    have := lt_of_kind h4 (by decide)
    exact ⟨by omega, by omega, h5.2.2.kind, h5.2.2.ident, fun hc => h5.2.2.minus hc, fun _ => h5.2.2.primary hf.1⟩
  | .method e a, m, p, q, hf, h => by
    obtain ⟨m', n, h1, h2, h2', h2'', h3, h4, rfl⟩ := h
    have h5 := e.first hf.2.1 h1
    have h6 := a.first hf.2.2 h3
    have := lt_of_kind h4 (by decide)
    exact ⟨by omega, by omega, h5.2.2.kind, h5.2.2.ident, fun hc => h5.2.2.minus hc, fun _ => h5.2.2.primary hf.1⟩
  | .bin k l r, m, p, q, hf, h => by
    obtain ⟨m', h1, h2, h3⟩ := h
    obtain ⟨f1, f2, f3, f4, f5, f6⟩ := hf
    have h5 := l.first f3 h1
    have h6 := r.first f5 h3
    exact ⟨by omega, h6.2.1, h5.2.2.kind, h5.2.2.ident, fun hc => h5.2.2.minus hc, fun hc => hc.elim⟩
  | .cast e addr more, m, p, q, hf, h => by
    obtain ⟨m', h1, h2, h3, -⟩ := h
    have h5 := e.first hf.2.2.1 h1
    have := moreAt_le h3.2
    exact ⟨by omega, pathAt_size h3, h5.2.2.kind, h5.2.2.ident, fun hc => h5.2.2.minus hc, fun hc => hc.elim⟩

theorem Args.first [I.Valid] : ∀ (a : Args) {p q : Nat}, a.Fits → a.At I p q → p ≤ q ∧
    (a ≠ .none → p < q ∧ I.kindAt p ∈ startKinds ∧ (I.kindAt p = .IDENT → I.PlainAt p ∨ I.textAt p = "copy".toList))
  | .none, p, q, _, h => ⟨by have : q = p := h; omega, fun hc => absurd rfl hc⟩
  | .one e, p, q, hf, h => by
    have h1 := e.first hf h
    exact ⟨by omega, fun _ => ⟨h1.1, h1.2.2.kind, h1.2.2.ident⟩⟩
  | .more e a, p, q, hf, h => by
    obtain ⟨m, h1, h2, h3⟩ := h
    have h4 := e.first hf.1 h1
    have h5 := a.first hf.2.2 h3
    exact ⟨by omega, fun _ => ⟨by omega, h4.2.2.kind, h4.2.2.ident⟩⟩
end

/-! ### Atoms -/

theorem literal_none (h : (I.kindAt p = .IDENT ∨ I.kindAt p = .L_PAREN) ∨ I.kindAt p = .INT_NUMBER ∧ I.kindAt (p + 1) = .COLON_COLON) :
    Emits I E p literal none p [] := by
  have hb : Emits I E p literalBlock (.abandon, false) p [] := by
    unfold literalBlock
    refine Emits.current (Emits.nthAt ?_)
    rcases h with (h | h) | h
    · rw [h]
      refine Emits.ite_neg (by simp) (Emits.ite_neg (by simp) (Emits.ite_neg (by simp) Emits.pure))
    · rw [h]
      refine Emits.ite_neg (by simp) (Emits.ite_neg (by simp) (Emits.ite_neg (by simp) Emits.pure))
    · exact Emits.ite_pos ⟨h.1, atKind_of rfl h.2⟩ Emits.pure
  unfold literal
  refine (Emits.bind hb.abandoned (b := none) (y := []) ?_).steps rfl
  exact Emits.iff_false rfl Emits.pure

theorem lit_run {k : SyntaxKind} (hk : k = .INT_NUMBER ∨ k = .BYTE_STRING ∨ k = .HEX_STRING ∨ k = .TRUE_KW ∨ k = .FALSE_KW)
    (h : I.kindAt p = k) (h2 : I.kindAt (p + 1) ≠ .COLON_COLON) {R : Rec} :
    Builds I E p (atomExpr R) (fun c => some (c, .NotBlock)) .LITERAL (p + 1) [tk k, .finish] := by
  have hne : k ≠ .EOF ∧ k ≠ .AT ∧ parts k = [k] := by rcases hk with h | h | h | h | h <;> subst h <;> decide
  have hb : Emits I E p literalBlock (.complete .LITERAL, false) (p + 1) [tk k] := by
    unfold literalBlock
    refine Emits.current (Emits.nthAt ?_)
    refine Emits.ite_neg (by rw [atKind_not rfl h2]; simp) (Emits.ite_neg (by rw [h]; exact hne.2.1) (Emits.ite_pos (by rw [h]; exact hk) ?_))
    exact (Emits.bind (Emits.bumpAny hne.1 h) (b := (Outcome.complete .LITERAL, false)) (y := []) Emits.pure).steps
      (by simp [tk, hne.2.2])
  intro s hs
  obtain ⟨pos, s1, e1, hq, ha⟩ := Emits.marked (k := .LITERAL) (by decide) hb s hs
  refine ⟨pos, s1, ?_, hq, ha⟩
  unfold atomExpr literal
  rw [bind_assoc', bind_ok e1, bind_assoc', bind_iff_false rfl]
  rfl

theorem optArgs_mid {R : Rec} {mode : PathMode} (h1 : I.kindAt p = .COLON_COLON) (h2 : I.kindAt (p + 1) = .IDENT) :
    Emits I E p (optPathTypeArgList R mode) () p [] := by
  match mode with
  | .Type => exact optArgs_type (by rw [h1]; decide)
  | .Expr =>
    unfold optPathTypeArgList optTypeArgListForExpr
    refine Emits.drop (a := true) (Emits.at' (Emits.nthAt (Emits.at' (Emits.prevWs ?_))))
    rw [atKind_not (k := .L_ANGLE) (p := p + 1) rfl (by rw [h2]; decide), atKind_not (k := .L_ANGLE) (p := p) rfl (by rw [h1]; decide)]
    exact Emits.ite_neg (by simp) (Emits.ite_pos rfl Emits.pure)

theorem optArgs_end [I.Valid] {ccr : Bool} (h : I.NameEnds p) :
    ∃ b, Emits I E p (optTypeArgListForExpr (grammar (n + 1)) ccr) b p [] := by
  have hc : (I.atKind p .COLON_COLON && I.atKind (p + 1) .L_ANGLE) = false := by rw [atKind_not rfl h.1]; rfl
  by_cases hl : I.kindAt p = .L_ANGLE
  · by_cases hw : (!ccr || I.prevWs p == 0) = true
    · refine ⟨false, ?_⟩
      unfold optTypeArgListForExpr
      refine Emits.at' (Emits.nthAt (Emits.at' (Emits.prevWs ?_)))
      refine Emits.ite_neg (by rw [hc]; simp) (Emits.ite_neg (by rw [atKind_of rfl hl]; simp) (Emits.ite_pos hw ?_))
      exact noArgs_run hl (h.2 hl)
    · refine ⟨true, ?_⟩
      unfold optTypeArgListForExpr
      refine Emits.at' (Emits.nthAt (Emits.at' (Emits.prevWs ?_)))
      exact Emits.ite_neg (by rw [hc]; simp) (Emits.ite_neg (by rw [atKind_of rfl hl]; simp) (Emits.ite_neg hw Emits.pure))
  · refine ⟨true, ?_⟩
    unfold optTypeArgListForExpr
    refine Emits.at' (Emits.nthAt (Emits.at' (Emits.prevWs ?_)))
    exact Emits.ite_neg (by rw [hc]; simp) (Emits.ite_pos (by rw [atKind_not rfl hl]; rfl) Emits.pure)

theorem pathExpr_run [I.Valid] {addr : Bool} {more : Nat} (h : I.PathAt addr more p q) (haddr : addr = true → more ≠ 0)
    (he : I.NameEnds q) (hc : I.kindAt q ≠ .L_CURLY) :
    Builds I E p (pathExpr (grammar (n + 1))) (fun c => c) .PATH_EXPR q (pathTree addr more ++ [.finish]) := by
  unfold pathExpr
  refine Emits.nodeOf (by decide) ?_
  obtain ⟨b, hb⟩ := optArgs_end (E := E) (n := n) (ccr := false) he
  refine (Emits.bind (path_run (mode := .Expr) (R := grammar (n + 1)) h haddr (fun _ => optArgs_mid) hb.drop he.1 (pathAt_size h)).drop
    (b := SyntaxKind.PATH_EXPR) (y := []) ?_).steps (by simp)
  exact Emits.current (Emits.ite_neg hc Emits.pure)

theorem path_atom [I.Valid] {addr : Bool} {more : Nat} (h : I.PathAt addr more p q) (haddr : addr = true → more ≠ 0)
    (he : I.NameEnds q) (hc : I.kindAt q ≠ .L_CURLY) :
    Builds I E p (atomExpr (grammar (n + 1))) (fun c => some (c, .NotBlock)) .PATH_EXPR q (pathTree addr more ++ [.finish]) := by
  have hcase : (I.kindAt p = .IDENT ∧ I.PlainAt p) ∨ (I.kindAt p = .INT_NUMBER ∧ I.kindAt (p + 1) = .COLON_COLON) := by
    obtain ⟨h1, h2⟩ := h
    cases addr with
    | false => simp at h1; exact .inl h1
    | true =>
      simp at h1
      cases more with
      | zero => exact absurd rfl (haddr rfl)
      | succ m => exact .inr ⟨h1, h2.1⟩
  unfold atomExpr
  refine Builds.after (literal_none (by rcases hcase with hp | hp; exact .inl (.inl hp.1); exact .inr hp)) ?_
  have key : ∀ w ∈ words, (I.kindAt p == .IDENT && I.isKeyword p w) = false := by
    intro w hw
    rcases hcase with hp | hp
    · rw [PlainAt.kw hp.2 hw]; simp
    · rw [hp.1]; rfl
  have key2 : ∀ w ∈ words, (I.isKeyword p w && I.atKind (p + 1) .L_PAREN) = false := by
    intro w hw
    rcases hcase with hp | hp
    · rw [PlainAt.kw hp.2 hw]; rfl
    · rw [atKind_not (k := .L_PAREN) rfl (by rw [hp.2]; decide)]; simp
  have hs : ((I.kindAt p == .INT_NUMBER && I.atKind (p + 1) .COLON_COLON) || I.kindAt p == .IDENT ||
      I.kindAt p == .UNDERSCORE) = true := by
    rcases hcase with hp | hp
    · rw [hp.1]; simp
    · rw [hp.1, atKind_of rfl hp.2]; rfl
  refine Builds.of_eq (v := atomAfterMatch (grammar (n + 1))) (fun s hs' => ?_) ?_
  · subst hs'
    dsimp only
    rw [bind_atKwIdent, bind_nthAtTs, bind_atKw, bind_nthAt, key "vector" (by decide), key2 "match" (by decide)]
    rfl
  · refine Builds.of_eq (v := do let c ← pathExpr (grammar (n + 1)); pure (some (c, .NotBlock))) (fun s hs' => ?_) ?_
    · subst hs'
      unfold atomAfterMatch isAssertIdent isPathStart
      simp only [bind_assoc', bind_atKwIdent, bind_pure, bind_nthAt, bind_atKw, bind_current]
      rw [key "assert" (by decide), key "assert_eq" (by decide), key "assert_ne" (by decide), key "debug_assert" (by decide),
        key "debug_assert_eq" (by decide), key "debug_assert_ne" (by decide), key2 "for" (by decide), hs]
      rfl
    · exact Builds.map (pathExpr_run h haddr he hc)

/-- Everything but a name: the tests for keywords fail. -/
theorem paren_atom {R : Rec} {k : SyntaxKind} {z : List Step} (h : I.kindAt p = .L_PAREN) (hp : I.PlainAt p) (hk : isBlocklike k = .NotBlock)
    (hb : Builds I E p (parenOrTupleOrAnnotatedExpr R) (fun c => c) k q z) :
    Builds I E p (atomExpr R) (fun c => some (c, .NotBlock)) k q z := by
  unfold atomExpr
  refine Builds.after (literal_none (.inl (.inr h))) ?_
  have key : ∀ w ∈ words, (I.kindAt p == .IDENT && I.isKeyword p w) = false := by
    intro w hw
    rw [PlainAt.kw hp hw]; simp
  have hs : ((I.kindAt p == .INT_NUMBER && I.atKind (p + 1) .COLON_COLON) || I.kindAt p == .IDENT ||
      I.kindAt p == .UNDERSCORE) = false := by rw [h]; rfl
  refine Builds.of_eq (v := do let c ← parenOrTupleOrAnnotatedExpr R; pure (some (c, isBlocklike c.kind))) (fun s hs' => ?_) ?_
  · subst hs'
    dsimp only
    rw [bind_atKwIdent, bind_nthAtTs, bind_atKw, bind_nthAt, key "vector" (by decide), PlainAt.kw hp (w := "match") (by decide)]
    show atomAfterMatch R I E s = _
    unfold atomAfterMatch isAssertIdent isPathStart
    simp only [bind_assoc', bind_atKwIdent, bind_pure, bind_nthAt, bind_atKw, bind_current]
    rw [key "assert" (by decide), key "assert_eq" (by decide), key "assert_ne" (by decide), key "debug_assert" (by decide),
      key "debug_assert_eq" (by decide), key "debug_assert_ne" (by decide), PlainAt.kw hp (w := "for") (by decide), hs]
    show keywordAtom R I E s = _
    unfold keywordAtom
    rw [bind_current, bind_nth, h]
    simp only [if_true, bind_assoc']
    rfl
  · have := Builds.map (g := fun c => some (c, isBlocklike c.kind)) hb
    intro s hs'
    obtain ⟨pos, s', e1, r⟩ := this s hs'
    exact ⟨pos, s', by rw [e1]; dsimp only; rw [hk], r⟩

/-! ### Calls, fields and indices -/

/-- The state of the loop of `postfix_expr`. -/
abbrev PostV (b : CM × BlockLike × Bool) (c : CM) : Prop := b = (c, .NotBlock, true)

/-- A primary expression. -/
abbrev Postfixed (I : Input) (E : Env) (R : Rec) (p q : Nat) (e : Ex) : Prop :=
  Loops I E p q e (atomExpr R) (postfixLoop R) (fun c => (c, .NotBlock, true)) PostV

theorem Postfixed.step {R : Rec} {m : Nat} {e e' : Ex} {x : List Step} {prog : CM → P CM} (h : Postfixed I E R p m e')
    (hx : e.rest = .start e'.kind :: e'.rest ++ x) (hm : m < q)
    (hp : ∀ cm s, s.pos = m → postfixLoop R (cm, .NotBlock, true) I E s =
      (do let c ← prog cm; pure (true, c, .NotBlock, true) : P (Bool × CM × BlockLike × Bool)) I E s)
    (hw : Wraps I E m prog (fun c => c) e.kind q x) : Postfixed I E R p q e := by
  refine Loops.step h hx hm fun s0 s cm z b hs _ ha hb => ?_
  obtain ⟨pos, s', e1, hq, ha'⟩ := hw s0 cm z s hs ha
  refine ⟨pos, s', _, ?_, hq, rfl, ha'⟩
  rw [hb, hp cm s hs, bind_ok e1]
  rfl

theorem call_wraps {R : Rec} {x : List Step} (h : I.kindAt p = .L_PAREN) (ha : Emits I E p (valueArgList R) () q x) :
    Wraps I E p (callExpr R) (fun c => c) .CALL_EXPR q (x ++ [.finish]) := by
  refine Wraps.of_eq (v := fun lhs => do
    let r ← preceded lhs do
      valueArgList R
      pure (SyntaxKind.CALL_EXPR, ())
    pure r.1) (fun cm s hs => ?_) ?_
  · subst hs
    unfold callExpr
    rw [bind_at, bind_assert (atKind_of rfl h)]
  · have hb : Emits I E p (do valueArgList R; pure (SyntaxKind.CALL_EXPR, ())) (SyntaxKind.CALL_EXPR, ()) q x :=
      (Emits.bind ha (b := (SyntaxKind.CALL_EXPR, ())) (y := []) Emits.pure).steps (by simp)
    exact Wraps.map (g := fun r => r.1) (Emits.preceded (by decide) hb)

theorem index_wraps [I.Valid] {R : Rec} {m : Nat} {k : SyntaxKind} {x : List Step} (h : I.kindAt p = .L_BRACK)
    (ha : Builds I E (p + 1) (R.exprBp ⟨false, false⟩ 1) (fun c => some (c, .NotBlock)) k m x) (h2 : I.kindAt m = .R_BRACK) :
    Wraps I E p (indexExpr R) (fun c => c) .INDEX_EXPR (m + 1) (tk .L_BRACK :: .start k :: x ++ [tk .R_BRACK, .finish]) := by
  refine Wraps.of_eq (v := fun lhs => do
    let r ← preceded lhs do
      bump .L_BRACK
      drop (expr R)
      drop (expect .R_BRACK)
      pure (SyntaxKind.INDEX_EXPR, ())
    pure r.1) (fun cm s hs => ?_) ?_
  · subst hs
    unfold indexExpr
    rw [bind_at, bind_assert (atKind_of rfl h)]
  · have he : Emits I E (p + 1) (drop (expr R)) () m (.start k :: x) := by
      unfold expr
      exact (Builds.bind ha (b := true) (y := []) (fun c => Emits.pure)).drop.steps (by simp)
    have hb : Emits I E p (do bump .L_BRACK; drop (expr R); drop (expect .R_BRACK); pure (SyntaxKind.INDEX_EXPR, ()))
        (SyntaxKind.INDEX_EXPR, ()) (m + 1) ([tk .L_BRACK] ++ ((.start k :: x) ++ ([tk .R_BRACK] ++ []))) :=
      Emits.bind (Emits.bump (by decide) (atKind_of rfl h)) (Emits.bind he
        (Emits.bind (Emits.expect (by decide) (atKind_of rfl h2)).drop Emits.pure))
    have := Wraps.map (g := fun r => r.1) (Emits.preceded (k := .INDEX_EXPR) (by decide) hb)
    simpa using this

theorem dot_wraps {R : Rec} {k : SyntaxKind} {x : List Step} (h : I.kindAt p = .DOT)
    (hb : Emits I E p (do
      bump .DOT
      let k ← current
      if k = .IDENT then do
        drop nameRef
        let c ← atTs (ts [.L_PAREN, .COLON_COLON])
        let l ← at' .L_ANGLE
        let w ← prevWs
        if c || (l && w == 0) then do
          let ok ← optTypeArgListForExpr R true
          let p ← at' .L_PAREN
          if ok && p then do
            valueArgList R
            pure (SyntaxKind.METHOD_CALL_EXPR, ())
          else pure (.DOT_EXPR, ())
        else pure (.DOT_EXPR, ())
      else if k = .INT_NUMBER then do
        drop (node .NAME_REF bumpAny)
        pure (.DOT_EXPR, ())
      else do
        error
        pure (.DOT_EXPR, ())) (k, ()) q x) (hk : k ≠ .TOMBSTONE) :
    Wraps I E p (postfixDotExpr R) (fun c => c) k q (x ++ [.finish]) := by
  have hw := Wraps.map (g := fun r => r.1) (Emits.preceded hk hb)
  refine Wraps.of_eq (fun cm s hs => ?_) hw
  subst hs
  unfold postfixDotExpr
  rw [bind_at, bind_assert (atKind_of rfl h)]

theorem num_wraps [I.Valid] {R : Rec} (h : I.kindAt p = .DOT) (h2 : I.kindAt (p + 1) = .INT_NUMBER) :
    Wraps I E p (postfixDotExpr R) (fun c => c) .DOT_EXPR (p + 2) [tk .DOT, .start .NAME_REF, tk .INT_NUMBER, .finish, .finish] := by
  refine dot_wraps (x := [tk .DOT, .start .NAME_REF, tk .INT_NUMBER, .finish]) h ?_ (by decide)
  refine (Emits.bind (Emits.bump (by decide) (atKind_of rfl h)) (b := (SyntaxKind.DOT_EXPR, ()))
    (y := [.start .NAME_REF, tk .INT_NUMBER, .finish]) (Emits.current ?_)).steps rfl
  refine Emits.ite_neg (show ¬ I.kindAt (p + 1) = .IDENT by rw [h2]; decide) (Emits.ite_pos h2 ?_)
  exact (Emits.bind (Builds.drop (Emits.node (k := .NAME_REF) (by decide) (Emits.bumpAny (by decide) h2)))
    (b := (SyntaxKind.DOT_EXPR, ())) (y := []) Emits.pure).steps rfl

theorem field_wraps [I.Valid] (h : I.kindAt p = .DOT) (h2 : I.kindAt (p + 1) = .IDENT) (he : I.NameEnds (p + 2))
    (hl : I.kindAt (p + 2) ≠ .L_PAREN) :
    Wraps I E p (postfixDotExpr (grammar (n + 1))) (fun c => c) .DOT_EXPR (p + 2)
      [tk .DOT, .start .NAME_REF, tk .IDENT, .finish, .finish] := by
  refine dot_wraps (x := [tk .DOT, .start .NAME_REF, tk .IDENT, .finish]) h ?_ (by decide)
  refine (Emits.bind (Emits.bump (by decide) (atKind_of rfl h)) (b := (SyntaxKind.DOT_EXPR, ()))
    (y := [.start .NAME_REF, tk .IDENT, .finish]) (Emits.current ?_)).steps rfl
  refine Emits.ite_pos h2 ?_
  refine (Emits.bind (nameRef_run h2).drop (b := (SyntaxKind.DOT_EXPR, ())) (y := []) (Emits.atTs (Emits.at' (Emits.prevWs ?_)))).steps rfl
  obtain ⟨b, hb⟩ := optArgs_end (E := E) (n := n) (ccr := true) he
  split
  · refine (Emits.bind hb (b := (SyntaxKind.DOT_EXPR, ())) (y := []) (Emits.at' ?_)).steps rfl
    exact Emits.ite_neg (by rw [atKind_not rfl hl]; simp) Emits.pure
  · exact Emits.pure

theorem method_wraps [I.Valid] {R : Rec} {x : List Step} (h : I.kindAt p = .DOT) (h2 : I.kindAt (p + 1) = .IDENT)
    (hl : I.kindAt (p + 2) = .L_PAREN) (ha : Emits I E (p + 2) (valueArgList R) () q x) :
    Wraps I E p (postfixDotExpr R) (fun c => c) .METHOD_CALL_EXPR q
      ([tk .DOT, .start .NAME_REF, tk .IDENT, .finish] ++ x ++ [.finish]) := by
  refine dot_wraps (x := [tk .DOT, .start .NAME_REF, tk .IDENT, .finish] ++ x) h ?_ (by decide)
  refine (Emits.bind (Emits.bump (by decide) (atKind_of rfl h)) (b := (SyntaxKind.METHOD_CALL_EXPR, ()))
    (y := [.start .NAME_REF, tk .IDENT, .finish] ++ x) (Emits.current ?_)).steps rfl
  refine Emits.ite_pos h2 ?_
  refine (Emits.bind (nameRef_run h2).drop (b := (SyntaxKind.METHOD_CALL_EXPR, ())) (y := x) (Emits.atTs (Emits.at' (Emits.prevWs ?_)))).steps rfl
  refine Emits.ite_pos (by show (TokenSet.contains _ (I.kindAt (p + 2)) || _) = true; rw [hl]; rfl) ?_
  have ho : Emits I E (p + 2) (optTypeArgListForExpr R true) true (p + 2) [] := by
    unfold optTypeArgListForExpr
    refine Emits.at' (Emits.nthAt (Emits.at' (Emits.prevWs ?_)))
    exact Emits.ite_neg (by rw [atKind_not (k := .COLON_COLON) rfl (by rw [hl]; decide)]; simp)
      (Emits.ite_pos (by rw [atKind_not (k := .L_ANGLE) rfl (by rw [hl]; decide)]; rfl) Emits.pure)
  refine (Emits.bind ho (b := (SyntaxKind.METHOD_CALL_EXPR, ())) (y := x) (Emits.at' ?_)).steps rfl
  refine Emits.ite_pos (by rw [atKind_of rfl hl]; rfl) ?_
  exact (Emits.bind ha (b := (SyntaxKind.METHOD_CALL_EXPR, ())) (y := []) Emits.pure).steps (by simp)

/-! ### Operands -/

theorem extended_run {α : Type} {body : P (Option (CM × α))} {a : α} {k : SyntaxKind} {z : List Step}
    (h : Builds I E p body (fun c => some (c, a)) k q z) : Builds I E p (extended body) (fun c => some (c, a)) k q z := by
  intro s hs
  obtain ⟨pos, s1, e1, hq, ha⟩ := h ⟨s.pos, s.events ++ [Event.tombstone]⟩ hs
  obtain ⟨s', e2, hq', ha'⟩ := run_extended e1 ha
  exact ⟨pos, s', e2, by omega, ha'⟩

/-- The tests of `lhs` fail for a primary expression. -/
theorem lhs_atom {R : Rec} {r : Restr} {e : Ex} (hf : First I e p) (hp : e.Primary) (s : St) (hs : s.pos = p) :
    lhs R r I E s = (do
      let a ← atomExpr R
      match a with
      | none => pure none
      | some (cm, b) => do
        let v ← postfixExpr R cm b (!(r.preferStmt && b.isBlock))
        pure (some v) : P (Option (CM × BlockLike))) I E s := by
  subst hs
  obtain ⟨h1, h2⟩ := hf.primary hp
  have h3 := hf.kind
  have key : ∀ w ∈ words, (I.kindAt s.pos == .IDENT && I.isKeyword s.pos w) = false := by
    intro w hw
    by_cases hc : I.kindAt s.pos = .IDENT
    · rw [PlainAt.kw (h2 hc) hw]; simp
    · have : (I.kindAt s.pos == SyntaxKind.IDENT) = false := by simpa using hc
      rw [this]; rfl
  have hk : I.kindAt s.pos ≠ .PIPE ∧ I.kindAt s.pos ≠ .AMP ∧ I.kindAt s.pos ≠ .MOVE_KW ∧ I.kindAt s.pos ≠ .STAR ∧
      I.kindAt s.pos ≠ .BANG ∧ I.kindAt s.pos ≠ .MINUS ∧ I.kindAt s.pos ≠ .DOT_DOT := by
    refine ⟨?_, ?_, ?_, ?_, ?_, ?_, ?_⟩ <;> intro hc <;> rw [hc] at h1 h3 <;> first | exact absurd h3 (by decide) | exact absurd h1 (by decide)
  have hq : ¬ (I.kindAt s.pos = .IDENT ∧ ((I.isKeyword s.pos "forall" || I.isKeyword s.pos "exists" || I.isKeyword s.pos "choose") &&
      (I.atKind (s.pos + 1) .COLON || I.atKind (s.pos + 1) .IDENT)) = true) := by
    rintro ⟨hi, hc⟩
    rw [PlainAt.kw (h2 hi) (w := "forall") (by decide), PlainAt.kw (h2 hi) (w := "exists") (by decide),
      PlainAt.kw (h2 hi) (w := "choose") (by decide)] at hc
    simp at hc
  have hcp : ¬ (I.kindAt s.pos = .IDENT ∧ I.isKeyword s.pos "copy" = true) := by
    rintro ⟨hi, hc⟩
    rw [PlainAt.kw (h2 hi) (w := "copy") (by decide)] at hc
    exact absurd hc (by decide)
  unfold lhs isAtQuantKw
  simp only [bind_assoc', bind_current, bind_atKw, bind_nthAt, bind_pure]
  rw [if_neg hk.1, if_neg hk.2.1, if_neg hq, if_neg hcp, if_neg hk.2.2.1, if_neg hk.2.2.2.1, if_neg hk.2.2.2.2.1,
    if_neg hk.2.2.2.2.2.1, if_neg hk.2.2.2.2.2.2]
  unfold atBehaviorPredicate
  simp only [bind_assoc', bind_stmtKind, bind_atKwIdent, bind_nthAt, bind_pure]
  rw [key "requires_of" (by decide), key "aborts_of" (by decide), key "ensures_of" (by decide), key "result_of" (by decide),
    if_neg (by simp)]
  rfl

theorem lhs_postfix {R : Rec} {r : Restr} {e : Ex} (hf : First I e p) (hp : e.Primary) (h : Postfixed I E R p q e)
    (hq : I.Free q) (hs : q ≤ I.size) : Builds I E p (lhs R r) (fun c => some (c, .NotBlock)) e.kind q e.rest := by
  refine Builds.of_eq (lhs_atom hf hp) ?_
  intro s hs'
  obtain ⟨cm0, s0, k, cm, b, s', e1, hk, hq', hc, ha, hb, hl⟩ := h s hs'
  refine ⟨cm.pos, s', ?_, hq', ?_⟩
  · rw [bind_ok e1]
    dsimp only
    unfold postfixExpr loop
    rw [bind_assoc', bind_assoc', bind_remaining]
    have hnb : (!(r.preferStmt && BlockLike.NotBlock.isBlock)) = true := by simp [BlockLike.isBlock]
    rw [hnb]
    unfold Input.size at hs
    rw [bind_ok (a := (cm, BlockLike.NotBlock, true)) (s' := s')]
    · rw [← hc]; rfl
    · rw [show I.toks.length - s0.pos + 1 = (I.toks.length - s0.pos - k + 1) + k by omega, hl, hb]
      show (postfixLoop R (cm, .NotBlock, true) >>= _) I E s' = _
      unfold postfixLoop
      rw [bind_assoc', bind_current, hq', if_neg (by simp [hq.1]), if_neg (by simp [hq.2.1]), if_neg hq.2.2]
      rfl
  · rw [← hc]; exact ha

/-- An expression in the loop of `expr_bp`. -/
abbrev Looped (I : Input) (E : Env) (R : Rec) (r : Restr) (bp p q : Nat) (e : Ex) : Prop :=
  Loops I E p q e (extended (lhs R r)) (exprLoop R bp) (fun c => (c, r)) (fun b c => b.1 = c)

theorem exprBp_run {R : Rec} {r : Restr} {bp : Nat} {e : Ex} (h : Looped I E R r bp p q e) (ho : (I.op q).1 < bp) (hs : q ≤ I.size) :
    Builds I E p (exprBp R r bp) (fun c => some (c, .NotBlock)) e.kind q e.rest := by
  intro s hs'
  obtain ⟨cm0, s0, k, cm, b, s', e1, hk, hq', hc, ha, hb, hl⟩ := h s hs'
  refine ⟨cm.pos, s', ?_, hq', by rw [← hc]; exact ha⟩
  unfold exprBp
  rw [bind_ok e1]
  dsimp only
  rw [bind_ok (currentOp_run s0), if_neg (by simp [BlockLike.isBlock])]
  unfold loop
  rw [bind_assoc', bind_remaining, bind_ok (a := b) (s' := s')]
  · rw [hb, ← hc]; rfl
  · unfold Input.size at hs
    rw [show I.toks.length - s0.pos + 1 = (I.toks.length - s0.pos - k + 1) + k by omega, hl]
    show (exprLoop R bp b >>= _) I E s' = _
    unfold exprLoop
    rw [bind_assoc', bind_at, bind_assoc', bind_ok (currentOp_run s'), bind_assoc', bind_at, bind_assoc', bind_atKwIdent, hq', if_pos ho]
    rfl

/-! ### Operators before an operand -/

theorem unary_run {R : Rec} {r : Restr} {K k : SyntaxKind} {op : P Unit} {m : Nat} {x z : List Step} (hK : K ≠ .TOMBSTONE)
    (h : Emits I E p op () m x) (hb : Builds I E m (R.exprBp r 255) (fun c => some (c, .NotBlock)) k q z) :
    Builds I E p (unary R r K op) (fun c => some (c, .NotBlock)) K q (x ++ .start k :: z ++ [.finish]) := by
  unfold unary
  have := Builds.map (g := fun c => some (c, BlockLike.NotBlock)) (Emits.node hK
    (Emits.bind (f := fun _ => drop (R.exprBp r 255)) h hb.drop))
  simpa using this

theorem un_lhs [I.Valid] {R : Rec} {r : Restr} {o : UnOp} {e : Ex} {m : Nat} (h : I.UnAt o p m) (hf : First I e m)
    (hb : Builds I E m (R.exprBp r 255) (fun c => some (c, .NotBlock)) e.kind q e.rest) :
    Builds I E p (lhs R r) (fun c => some (c, .NotBlock)) (Ex.un o e).kind q (Ex.un o e).rest := by
  cases o with
  | borrow =>
    obtain ⟨h1, rfl⟩ := h
    refine Builds.of_eq (v := unary R r .BORROW_EXPR do bump .AMP; drop (eat .MUT_KW)) (fun s hs => ?_) (unary_run (x := [tk .AMP]) (by decide) ?_ hb)
    · subst hs
      unfold lhs isAtQuantKw
      simp only [bind_assoc', bind_current, bind_atKw, bind_nthAt, bind_pure]
      rw [h1, if_neg (by decide), if_pos rfl]
    · have hk := hf.kind
      refine (Emits.bind (Emits.bump (by decide) (atKind_of rfl h1)) (b := ()) (y := []) (Emits.eat_not ?_).drop).steps rfl
      exact atKind_not rfl (fun hc => by rw [show p + (parts .AMP).length = p + 1 from rfl] at hc; rw [hc] at hk; exact absurd hk (by decide))
  | borrowMut =>
    obtain ⟨h1, h2, rfl⟩ := h
    refine Builds.of_eq (v := unary R r .BORROW_EXPR do bump .AMP; drop (eat .MUT_KW)) (fun s hs => ?_)
      (unary_run (x := [tk .AMP, tk .MUT_KW]) (by decide) ?_ hb)
    · subst hs
      unfold lhs isAtQuantKw
      simp only [bind_assoc', bind_current, bind_atKw, bind_nthAt, bind_pure]
      rw [h1, if_neg (by decide), if_pos rfl]
    · refine (Emits.bind (Emits.bump (by decide) (atKind_of rfl h1)) (b := ()) (y := [tk .MUT_KW]) (Emits.eat (by decide) ?_).drop).steps rfl
      exact atKind_of rfl h2
  | deref =>
    obtain ⟨h1, rfl⟩ := h
    refine Builds.of_eq (v := unary R r .DEREF_EXPR (bump .STAR)) (fun s hs => ?_)
      (unary_run (x := [tk .STAR]) (by decide) (Emits.bump (by decide) (atKind_of rfl h1)) hb)
    subst hs
    unfold lhs isAtQuantKw
    simp only [bind_assoc', bind_current, bind_atKw, bind_nthAt, bind_pure]
    rw [h1, if_neg (by decide), if_neg (by decide), if_neg (by simp), if_neg (by simp), if_neg (by decide), if_pos rfl]
  | not =>
    obtain ⟨h1, rfl⟩ := h
    refine Builds.of_eq (v := unary R r .BANG_EXPR (bump .BANG)) (fun s hs => ?_)
      (unary_run (x := [tk .BANG]) (by decide) (Emits.bump (by decide) (atKind_of rfl h1)) hb)
    subst hs
    unfold lhs isAtQuantKw
    simp only [bind_assoc', bind_current, bind_atKw, bind_nthAt, bind_pure]
    rw [h1, if_neg (by decide), if_neg (by decide), if_neg (by simp), if_neg (by simp), if_neg (by decide), if_neg (by decide),
      if_pos rfl]
  | neg =>
    obtain ⟨h1, rfl⟩ := h
    refine Builds.of_eq (v := unary R r .MINUS_EXPR (bump .MINUS)) (fun s hs => ?_)
      (unary_run (x := [tk .MINUS]) (by decide) (Emits.bump (by decide) (atKind_of rfl h1)) hb)
    subst hs
    unfold lhs isAtQuantKw
    simp only [bind_assoc', bind_current, bind_atKw, bind_nthAt, bind_pure]
    rw [h1, if_neg (by decide), if_neg (by decide), if_neg (by simp), if_neg (by simp), if_neg (by decide), if_neg (by decide),
      if_neg (by decide), if_pos rfl]
  | move =>
    obtain ⟨h1, rfl⟩ := h
    refine Builds.of_eq (v := unary R r .RESOURCE_EXPR (bump .MOVE_KW)) (fun s hs => ?_)
      (unary_run (x := [tk .MOVE_KW]) (by decide) (Emits.bump (by decide) (atKind_of rfl h1)) hb)
    subst hs
    unfold lhs isAtQuantKw
    simp only [bind_assoc', bind_current, bind_atKw, bind_nthAt, bind_pure]
    rw [h1, if_neg (by decide), if_neg (by decide), if_neg (by simp), if_neg (by simp), if_pos rfl]
  | copy =>
    obtain ⟨h1, ht, rfl⟩ := h
    refine Builds.of_eq (v := unary R r .RESOURCE_EXPR (bumpRemap .COPY_KW)) (fun s hs => ?_)
      (unary_run (x := [tk .COPY_KW]) (by decide) (Emits.bumpRemap (k := .IDENT) (by decide) h1) hb)
    subst hs
    have hkw : ∀ w : String, I.isKeyword s.pos w = ("copy".toList == w.toList) := by
      intro w
      have hlt := lt_of_kind h1 (by decide)
      unfold Input.size at hlt
      unfold Input.isKeyword
      unfold Input.textAt at ht
      rw [List.getElem?_eq_getElem hlt] at ht ⊢
      simp only at ht
      simp only [ht]
    unfold lhs isAtQuantKw
    simp only [bind_assoc', bind_current, bind_atKw, bind_nthAt, bind_pure]
    rw [h1, hkw, hkw, hkw, hkw, show ("copy".toList == "forall".toList) = false by decide, show ("copy".toList == "exists".toList) = false by decide,
      show ("copy".toList == "choose".toList) = false by decide, show ("copy".toList == "copy".toList) = true by decide,
      if_neg (by decide), if_neg (by decide), if_neg (by simp), if_pos (by simp)]

/-! ### Parentheses -/

theorem expr_run {R : Rec} {k : SyntaxKind} {z : List Step}
    (h : Builds I E p (R.exprBp ⟨false, false⟩ 1) (fun c => some (c, .NotBlock)) k q z) :
    Emits I E p (expr R) true q (.start k :: z) := by
  unfold expr
  exact (Builds.bind h (b := true) (y := []) (fun c => Emits.pure)).steps (by simp)

theorem paren_run [I.Valid] {R : Rec} {e : Ex} {m : Nat} (h : I.kindAt p = .L_PAREN) (hp : I.PlainAt p) (hf : First I e (p + 1))
    (hm : p + 1 < m)
    (hb : Builds I { E with outer := E.outer.join (.ofTs (ts [.R_PAREN])) } (p + 1) (R.exprBp ⟨false, false⟩ 1)
      (fun c => some (c, .NotBlock)) e.kind m e.rest) (h2 : I.kindAt m = .R_PAREN) :
    Builds I E p (atomExpr R) (fun c => some (c, .NotBlock)) .PAREN_EXPR (m + 1) (Ex.paren e).rest := by
  refine paren_atom h hp (by decide) ?_
  have hk := hf.kind
  have hne : ∀ k ∈ startKinds, k ≠ .R_PAREN ∧ k ≠ .EOF ∧ TokenSet.contains (ts [.R_PAREN]) k = false := by decide +kernel
  obtain ⟨n1, n2, n3⟩ := hne _ hk
  have hbody : Emits I E p (do
      bump .L_PAREN
      let r ← at' .R_PAREN
      if r then do
        bump .R_PAREN
        pure .UNIT_EXPR
      else do
        let v ← iterate (ts [.R_PAREN]) (fun (v : Bool × Bool × Bool × Bool) => do
          let b ← expr R
          if !b then pure (false, (v.1, v.2.1, true, v.2.2.2))
          else do
            let c ← at' .COLON
            if v.1 && c then do
              typeAnnotation R
              pure (false, (v.1, v.2.1, true, true))
            else do
              let r ← at' .R_PAREN
              if r then pure (true, (false, v.2.1, true, v.2.2.2))
              else do
                drop (expect .COMMA)
                pure (true, (false, true, true, v.2.2.2))) (true, false, false, false)
        drop (expect .R_PAREN)
        pure (if v.2.2.2 then SyntaxKind.ANNOTATED_EXPR
          else if v.2.2.1 && !v.2.1 then .PAREN_EXPR else .TUPLE_EXPR)) SyntaxKind.PAREN_EXPR (m + 1)
      (tk .L_PAREN :: .start e.kind :: e.rest ++ [tk .R_PAREN]) := by
    refine (Emits.bind (Emits.bump (by decide) (atKind_of rfl h)) (b := SyntaxKind.PAREN_EXPR)
      (y := .start e.kind :: e.rest ++ [tk .R_PAREN]) (Emits.at' (Emits.ite_neg ?_ ?_))).steps rfl
    · rw [show p + (parts .L_PAREN).length = p + 1 from rfl, atKind_not rfl n1]; simp
    · refine (Emits.bind (m := m) (a := (false, false, true, false)) (Emits.iterate_then n2 n3 ?_ (by show m ≠ p + 1; omega) (by rw [h2]; decide +kernel))
        (b := SyntaxKind.PAREN_EXPR) (y := [tk .R_PAREN]) ?_).steps rfl
      · refine (Emits.bind (expr_run hb) (b := (true, false, false, true, false)) (y := []) ?_).steps (by simp)
        refine Emits.ite_neg (by simp) (Emits.at' (Emits.ite_neg ?_ (Emits.at' (Emits.ite_pos (atKind_of rfl h2) Emits.pure))))
        rw [atKind_not rfl (by rw [h2]; decide)]; simp
      · exact (Emits.bind (Emits.expect (by decide) (atKind_of rfl h2)).drop (b := SyntaxKind.PAREN_EXPR) (y := []) Emits.pure).steps rfl
  have hn := Emits.nodeOf (by decide) hbody
  have hr : tk .L_PAREN :: .start e.kind :: e.rest ++ [tk .R_PAREN] ++ [.finish] = (Ex.paren e).rest := by simp [Ex.rest]
  rw [hr] at hn
  refine Builds.of_eq (fun s hs => ?_) hn
  subst hs
  unfold parenOrTupleOrAnnotatedExpr
  rw [bind_at, bind_assert (atKind_of rfl h)]

/-! ### Arguments -/

theorem valueArg_run {R : Rec} {k : SyntaxKind} {z : List Step}
    (h : Builds I E p (R.exprBp ⟨false, false⟩ 1) (fun c => some (c, .NotBlock)) k q z) :
    Emits I E p (valueArg R) true q (.start .VALUE_ARG :: .start k :: z ++ [.finish]) := by
  unfold valueArg
  refine Emits.block (by decide) ?_
  exact (Emits.bind (expr_run h) (b := (Outcome.complete .VALUE_ARG, true)) (y := []) (Emits.ite_pos rfl Emits.pure)).steps (by simp)

theorem delimited_none {el : P Bool} {b : Bool} (h : I.kindAt p = .R_PAREN) :
    Emits I E p (delimitedN el .COMMA (some .R_PAREN) (n + 1) b) () p [] := by
  unfold delimitedN
  refine Emits.outerRec (Emits.at' (Emits.atTs (Emits.ite_pos ?_ Emits.pure)))
  rw [h, show TokenSet.contains (TokenSet.new [SyntaxKind.R_PAREN]) SyntaxKind.R_PAREN = true by decide +kernel]
  simp

theorem atRSet_end (E : Env) (h : I.kindAt p = .R_PAREN) :
    I.atRSet p ((E.outer.withTs (TokenSet.new [.R_PAREN])).withoutTok .COMMA) = true := by
  unfold Input.atRSet
  rw [if_neg (by rw [h]; decide), h]
  show TokenSet.contains (TokenSet.sub (TokenSet.union _ _) _) _ = true
  rw [contains_sub, contains_union, show TokenSet.contains (TokenSet.new [SyntaxKind.R_PAREN]) SyntaxKind.R_PAREN = true by decide +kernel,
    show TokenSet.contains (TokenSet.new [SyntaxKind.COMMA]) SyntaxKind.R_PAREN = false by decide +kernel]
  simp

theorem atRSet_comma (E : Env) (h : I.kindAt p = .COMMA) :
    I.atRSet p ((E.outer.withTs (TokenSet.new [.R_PAREN])).withoutTok .COMMA) = false := by
  unfold Input.atRSet
  rw [if_neg (by rw [h]; decide), h]
  show TokenSet.contains (TokenSet.sub (TokenSet.union _ _) _) _ = false
  rw [contains_sub, contains_union, show TokenSet.contains (TokenSet.new [SyntaxKind.COMMA]) SyntaxKind.COMMA = true by decide +kernel]
  simp

theorem atRSet_start (hE : Calm E) (h : I.kindAt p ∈ startKinds) (hi : I.kindAt p = .IDENT → I.PlainAt p ∨ I.textAt p = "copy".toList) :
    I.atRSet p ((E.outer.withTs (TokenSet.new [.R_PAREN])).withoutTok .COMMA) = false := by
  have ht : ((E.outer.withTs (TokenSet.new [.R_PAREN])).withoutTok .COMMA).hasTok (I.kindAt p) = false := by
    show TokenSet.contains (TokenSet.sub (TokenSet.union _ _) _) _ = false
    rw [contains_sub, contains_union]
    have h1 := hE.1 _ h
    unfold RSet.hasTok at h1
    have h2 : ∀ k ∈ startKinds, TokenSet.contains (TokenSet.new [SyntaxKind.R_PAREN]) k = false := by decide +kernel
    rw [h1, h2 _ h]
    rfl
  unfold Input.atRSet
  by_cases hk : I.kindAt p = .IDENT
  · rw [if_pos hk]
    rw [hk] at ht
    rw [ht]
    show E.outer.kws.contains _ = false
    rw [Bool.eq_false_iff]
    intro hc
    rw [List.contains_iff_mem] at hc
    obtain ⟨c1, w, hw, c2⟩ := hE.2 _ hc
    rcases hi hk with hp | hp
    · exact hp w hw c2
    · exact c1 hp
  · rw [if_neg hk]; exact ht

theorem delimited_one {el : P Bool} {b : Bool} {x : List Step} (hk : I.kindAt p ∈ startKinds)
    (h : Emits I { E with outer := E.outer.withTs (TokenSet.setOrKind (TokenSet.new [.COMMA]) .R_PAREN) } p el true q x)
    (h2 : I.kindAt q = .R_PAREN) : Emits I E p (delimitedN el .COMMA (some .R_PAREN) (n + 1) b) () q x := by
  have hne : ∀ k ∈ startKinds, k ≠ .EOF ∧ TokenSet.contains (TokenSet.new [SyntaxKind.R_PAREN]) k = false := by decide +kernel
  obtain ⟨n1, n2⟩ := hne _ hk
  unfold delimitedN
  refine Emits.outerRec (Emits.at' (Emits.atTs (Emits.ite_neg ?_ (Emits.getPos ?_))))
  · rw [n2, atKind_not rfl n1]; simp
  · refine (Emits.bind (Emits.withRec (f := (·.withTs (TokenSet.setOrKind (TokenSet.new [.COMMA]) .R_PAREN))) h) (b := ()) (y := [])
      (Emits.atTs (Emits.ite_neg (by simp) (Emits.iff_false rfl (Emits.containsCurrent (Emits.ite_pos ?_ Emits.pure)))))).steps (by simp)
    exact atRSet_end E h2

theorem delimited_more [I.Valid] {el : P Bool} {b : Bool} {m : Nat} {x y : List Step} (hE : Calm E) (hk : I.kindAt p ∈ startKinds)
    (h : Emits I { E with outer := E.outer.withTs (TokenSet.setOrKind (TokenSet.new [.COMMA]) .R_PAREN) } p el true m x) (hm : p < m)
    (h2 : I.kindAt m = .COMMA) (h3 : I.kindAt (m + 1) ∈ startKinds)
    (h4 : I.kindAt (m + 1) = .IDENT → I.PlainAt (m + 1) ∨ I.textAt (m + 1) = "copy".toList)
    (h5 : Emits I E (m + 1) (delimitedN el .COMMA (some .R_PAREN) n false) () q y) :
    Emits I E p (delimitedN el .COMMA (some .R_PAREN) (n + 1) b) () q (x ++ tk .COMMA :: y) := by
  have hne : ∀ k ∈ startKinds, k ≠ .EOF ∧ TokenSet.contains (TokenSet.new [SyntaxKind.R_PAREN]) k = false := by decide +kernel
  obtain ⟨n1, n2⟩ := hne _ hk
  unfold delimitedN
  refine Emits.outerRec (Emits.at' (Emits.atTs (Emits.ite_neg ?_ (Emits.getPos ?_))))
  · rw [n2, atKind_not rfl n1]; simp
  · refine Emits.bind (Emits.withRec (f := (·.withTs (TokenSet.setOrKind (TokenSet.new [.COMMA]) .R_PAREN))) h)
      (Emits.atTs (Emits.ite_neg (by simp) (Emits.iff_false rfl (Emits.containsCurrent (Emits.ite_neg ?_ ?_)))))
    · rw [atRSet_comma E h2]; simp
    · refine (Emits.bind (Emits.expect (by decide) (atKind_of rfl h2)) (b := ()) (y := y) (Emits.containsCurrent (Emits.ite_neg ?_
        (Emits.getPos (Emits.ite_neg (by show m + 1 ≠ p; omega) ?_))))).steps rfl
      · rw [show m + (parts .COMMA).length = m + 1 from rfl, atRSet_start hE h3 h4]; simp
      · rw [show (b && !true) = false by simp]
        exact h5

theorem argList_run [I.Valid] {R : Rec} {m : Nat} {x : List Step} (h : I.kindAt p = .L_PAREN) (hm : p < m)
    (ha : ∀ f, m - (p + 1) < f → Emits I E (p + 1) (delimitedN (valueArg R) .COMMA (some .R_PAREN) f true) () m x)
    (h2 : I.kindAt m = .R_PAREN) :
    Emits I E p (valueArgList R) () (m + 1) (.start .VALUE_ARG_LIST :: tk .L_PAREN :: x ++ [tk .R_PAREN, .finish]) := by
  unfold valueArgList
  refine Emits.at' (Emits.assert (atKind_of rfl h) ?_)
  have hlt := lt_of_kind h2 (by decide)
  unfold Input.size at hlt
  have hb : Emits I E p (do bump .L_PAREN; delimited (valueArg R) .COMMA (some .R_PAREN); drop (expect .R_PAREN)) () (m + 1)
      ([tk .L_PAREN] ++ (x ++ [tk .R_PAREN])) := by
    refine Emits.bind (Emits.bump (by decide) (atKind_of rfl h)) (Emits.bind (m := m) (a := ()) ?_ (Emits.expect (by decide) (atKind_of rfl h2)).drop)
    unfold delimited
    exact Emits.remaining (ha _ (by show _ < I.toks.length - (p + 1) + 1; omega))
  exact (Builds.drop (Emits.node (by decide) hb)).steps (by simp)

/-! ### Operators between operands -/

theorem Looped.bin [I.Valid] {R : Rec} {r : Restr} {bp m : Nat} {k : SyntaxKind} {l e : Ex} (h : Looped I E R r bp p m l) (hk : IsBin k)
    (ho : I.OpAt m k) (hbp : bp ≤ level k) (hf : First I e (m + (parts k).length)) (hmin : k = .DOT_DOT → e.minus = false)
    (hq : m < q)
    (hb : ∀ r', Builds I E (m + (parts k).length) (R.exprBp r' (level k + 1)) (fun c => some (c, .NotBlock)) e.kind q e.rest) :
    Looped I E R r bp p q (.bin k l e) := by
  refine Loops.step (x := tk k :: .start e.kind :: e.rest ++ [.finish]) h (by simp [Ex.rest]) hq fun s0 s cm z b hs hc ha hv => ?_
  have hop := op_of_opAt hk ho
  have hkind := kind_of_opAt hk ho
  have hne : I.kindAt m ≠ .AS_KW ∧ I.kindAt m ≠ .IDENT := by
    constructor <;> intro hc <;> rw [hc] at hkind <;> exact absurd hkind (by decide)
  have hrange : I.atKind m .DOT_DOT = decide (k = .DOT_DOT) := by
    by_cases hd : k = .DOT_DOT
    · rw [hd] at ho ⊢; rw [ho.1]; rfl
    · rw [atKind_not rfl]
      · simpa using hd
      · intro hc
        have h1 : I.op m = (3, .DOT_DOT) := by rw [op_eq]; simp [hc]
        rw [hop] at h1
        exact hd (Prod.mk.inj h1).2
  have hstart : ∀ x ∈ startKinds, x ≠ .L_CURLY ∧ (x ≠ .MINUS → TokenSet.contains EXPR_FIRST x = true) := by decide +kernel
  obtain ⟨n1, n2⟩ := hstart _ hf.kind
  have hkt : (if k = .DOT_DOT then SyntaxKind.RANGE_EXPR else .BIN_EXPR) ≠ .TOMBSTONE := by split <;> decide
  have heof : k ≠ .EOF := by rintro rfl; exact absurd hk (by decide)
  have hbody : ∀ r' : Restr, Emits I E m (do
      bump k
      let f ← atTs EXPR_FIRST
      let b ← at' .L_CURLY
      if decide (k = .DOT_DOT) && !(f && !(r'.forbidStructs && b)) then pure (SyntaxKind.RANGE_EXPR, false)
      else do
        let cm ← R.exprBp { r' with preferStmt := false } (level k + 1)
        iff cm.isNone error
        pure (if decide (k = .DOT_DOT) then SyntaxKind.RANGE_EXPR else .BIN_EXPR, true))
      ((if k = .DOT_DOT then SyntaxKind.RANGE_EXPR else .BIN_EXPR), true) q (tk k :: .start e.kind :: e.rest) := by
    intro r'
    refine (Emits.bind (Emits.bump heof ho.1) (b := ((if k = .DOT_DOT then SyntaxKind.RANGE_EXPR else .BIN_EXPR), true))
      (y := .start e.kind :: e.rest) (Emits.atTs (Emits.at' (Emits.ite_neg ?_ ?_)))).steps rfl
    · by_cases hd : k = .DOT_DOT
      · rw [n2 (hf.minus (hmin hd)), atKind_not rfl n1]; simp
      · simp [hd]
    · refine (Builds.bind (hb _) (b := ((if k = .DOT_DOT then SyntaxKind.RANGE_EXPR else .BIN_EXPR), true)) (y := [])
        (fun c => Emits.iff_false rfl ?_)).steps (by simp)
      have : (if decide (k = .DOT_DOT) = true then SyntaxKind.RANGE_EXPR else .BIN_EXPR) = if k = .DOT_DOT then SyntaxKind.RANGE_EXPR else .BIN_EXPR := by
        simp
      rw [this]
      exact Emits.pure
  obtain ⟨pos, s', e1, hq', ha'⟩ := Emits.preceded hkt (hbody b.2) s0 cm z s hs ha
  refine ⟨pos, s', (⟨pos, if k = .DOT_DOT then SyntaxKind.RANGE_EXPR else .BIN_EXPR⟩, { b.2 with preferStmt := false }), ?_, hq', ?_, ?_⟩
  · subst hs
    unfold exprLoop
    rw [bind_at, bind_ok (currentOp_run s), bind_at, bind_atKwIdent, if_neg (by rw [hop]; simpa using hbp), hop,
      atKind_not rfl hne.1, if_neg (by simp), show (I.kindAt s.pos == SyntaxKind.IDENT) = false by simpa using hne.2, if_neg (by simp), hrange, hv]
    unfold binExpr
    dsimp only
    rw [bind_ok e1]
    rfl
  · simp only [Ex.kind]
  · simpa [Ex.kind] using ha'

theorem Looped.cast [I.Valid] {r : Restr} {bp m : Nat} {l : Ex} {addr : Bool} {more : Nat} (h : Looped I E (grammar (n + 1)) r bp p m l)
    (hk : I.kindAt m = .AS_KW) (hbp : bp ≤ level .AS_KW) (hp : I.PathAt addr more (m + 1) q) (haddr : addr = true → more ≠ 0)
    (hq : I.kindAt q ≠ .COLON_COLON) (hq' : I.kindAt q ≠ .L_ANGLE) :
    Looped I E (grammar (n + 1)) r bp p q (.cast l addr more) := by
  have hlt := moreAt_le hp.2
  refine Loops.step (x := tk .AS_KW :: .start .PATH_TYPE :: pathTree addr more ++ [.finish, .finish]) h (by simp [Ex.rest]) (by omega)
    fun s0 s cm z b hs hc ha hv => ?_
  have hty : Emits I E (m + 1) (type_ (grammar (n + 1))) true q (.start .PATH_TYPE :: pathTree addr more ++ [.finish]) := by
    show Emits I E (m + 1) (typeOrRecover (grammar n) .new) true q _
    unfold typeOrRecover
    refine Emits.current (Emits.isPathStart ?_)
    have hs : ((I.kindAt (m + 1) == .INT_NUMBER && I.atKind (m + 1 + 1) .COLON_COLON) || I.kindAt (m + 1) == .IDENT ||
        I.kindAt (m + 1) == .UNDERSCORE) = true ∧ (I.kindAt (m + 1) ≠ .L_PAREN ∧ I.kindAt (m + 1) ≠ .AMP ∧ I.kindAt (m + 1) ≠ .PIPE) := by
      obtain ⟨h1, h2⟩ := hp
      cases addr with
      | false => simp at h1; simp [h1.1]
      | true =>
        simp at h1
        cases more with
        | zero => exact absurd rfl (haddr rfl)
        | succ m' => simp [h1, atKind_of (I := I) (p := m + 1 + 1) (k := .COLON_COLON) rfl h2.1]
    rw [hs.1]
    exact Emits.ite_neg hs.2.1 (Emits.ite_neg hs.2.2.1 (Emits.ite_neg hs.2.2.2 (Emits.ite_pos rfl
      (pathType_run hp haddr hq hq' (pathAt_size hp)))))
  have hbody : Emits I E m (do bump .AS_KW; drop (type_ (grammar (n + 1))); pure (SyntaxKind.CAST_EXPR, ())) (SyntaxKind.CAST_EXPR, ()) q
      ([tk .AS_KW] ++ ((.start .PATH_TYPE :: pathTree addr more ++ [.finish]) ++ [])) :=
    Emits.bind (Emits.bump (by decide) (atKind_of rfl hk)) (Emits.bind hty.drop Emits.pure)
  obtain ⟨pos, s', e1, hq1, ha'⟩ := Emits.preceded (k := .CAST_EXPR) (by decide) hbody s0 cm z s hs ha
  refine ⟨pos, s', (⟨pos, .CAST_EXPR⟩, b.2), ?_, hq1, rfl, ?_⟩
  · subst hs
    unfold exprLoop
    rw [bind_at, bind_ok (currentOp_run s), bind_at, bind_atKwIdent, if_neg (by rw [op_as hk]; simpa using hbp),
      atKind_of rfl hk, if_pos rfl, hv]
    unfold castExpr
    rw [bind_assoc', bind_at, atKind_of rfl hk, bind_assoc', bind_assert rfl, bind_assoc']
    dsimp only at e1
    rw [bind_ok e1]
    rfl
  · simpa [Ex.kind] using ha'

/-! ### The induction -/

theorem Ex.fits_primary : ∀ {e : Ex} {m m' : Nat}, e.Primary → e.Fits m → e.Fits m'
  | .path .., _, _, _, h | .lit _, _, _, _, h | .paren _, _, _, _, h | .field .., _, _, _, h | .index .., _, _, _, h
  | .call .., _, _, _, h | .method .., _, _, _, h => h

theorem Ex.lt_last : ∀ {e : Ex} {m o : Nat}, e.Fits m → o < m → m ≤ 255 → o < e.last
  | .bin k l r, m, o, h, ho, _ => by
    have := h.2.1
    simp only [Ex.last]; omega
  | .path .., m, o, _, ho, hm | .lit _, m, o, _, ho, hm | .paren _, m, o, _, ho, hm | .field .., m, o, _, ho, hm
  | .index .., m, o, _, ho, hm | .call .., m, o, _, ho, hm | .method .., m, o, _, ho, hm | .un .., m, o, _, ho, hm
  | .cast .., m, o, _, ho, hm => by simp only [Ex.last]; omega

theorem Ex.last_pos (e : Ex) : 0 < e.last := by cases e <;> simp [Ex.last]

theorem level_lt (k : SyntaxKind) : level k < 255 := by
  unfold level
  split
  · have : levels.findIdx (·.contains k) ≤ levels.length := List.findIdx_le_length
    have : levels.length = 12 := rfl
    omega
  · omega

/-- What is shown about an expression. -/
structure Runs (I : Input) (e : Ex) : Prop where
  post : ∀ {E n p q}, Calm E → e.Primary → e.Fits 255 → e.At I p q → e.depth ≤ n → Postfixed I E (grammar n) p q e
  loop : ∀ {E n r bp p q}, Calm E → e.Fits bp → bp ≤ 255 → e.At I p q → e.depth ≤ n → I.Free q → (I.op q).1 < e.last →
    Looped I E (grammar n) r bp p q e

theorem Runs.bp [I.Valid] {e : Ex} (h : Runs I e) {r : Restr} {bp : Nat} (hE : Calm E) (hf : e.Fits bp) (hbp : bp ≤ 255) (ha : e.At I p q)
    (hd : e.depth < n) (hq : I.Free q) (ho : (I.op q).1 < bp) :
    Builds I E p ((grammar n).exprBp r bp) (fun c => some (c, .NotBlock)) e.kind q e.rest := by
  obtain ⟨n, rfl⟩ : ∃ k, n = k + 1 := ⟨n - 1, by omega⟩
  exact exprBp_run (h.loop hE hf hbp ha (by omega) hq (e.lt_last hf ho hbp)) ho (e.first hf ha).2.1

/-- In parentheses, brackets, between commas. -/
theorem Runs.one [I.Valid] {e : Ex} (h : Runs I e) {r : Restr} (hE : Calm E) (hf : e.Fits 1) (ha : e.At I p q)
    (hd : e.depth < n) (hq : I.Ends q) :
    Builds I E p ((grammar n).exprBp r 1) (fun c => some (c, .NotBlock)) e.kind q e.rest :=
  h.bp hE hf (by omega) ha hd (free_ends hq) (by rw [op_ends hq]; decide)

/-- For an expression that a `.` can follow the loop of operators does nothing. -/
theorem Runs.of_post [I.Valid] {e : Ex} (hp : e.Primary)
    (h : ∀ {E n p q}, Calm E → e.Fits 255 → e.At I p q → e.depth ≤ n → Postfixed I E (grammar n) p q e) : Runs I e where
  post hE _ hf ha hd := h hE hf ha hd
  loop hE hf _ ha hd hq _ := Loops.base (fun _ => rfl) (extended_run (lhs_postfix (e.first hf ha).2.2 hp
    (h hE (e.fits_primary hp hf) ha hd) hq (e.first hf ha).2.1))

theorem ends_of {k : SyntaxKind} (h : I.kindAt p = k) (hk : k ∈ [SyntaxKind.R_PAREN, .R_BRACK, .R_CURLY, .COMMA, .SEMICOLON, .EOF]) : I.Ends p := by
  unfold Input.Ends; rw [h]; exact hk

mutual
theorem Ex.runs [I.Valid] : ∀ e : Ex, Runs I e
  | .path addr more => Runs.of_post trivial fun {E n p q} hE hf ha hd => by
    obtain ⟨n, rfl⟩ : ∃ k, n = k + 1 := ⟨n - 1, by simp only [Ex.depth] at hd; omega⟩
    exact Loops.base (fun _ => rfl) (path_atom ha.1 hf ha.2.1 ha.2.2)
  | .lit k => Runs.of_post trivial fun {E n p q} hE hf ha hd => by
    obtain ⟨h1, rfl, h2⟩ := ha
    exact Loops.base (fun _ => rfl) (lit_run hf h1 h2)
  | .paren e => Runs.of_post trivial fun {E n p q} hE hf ha hd => by
    obtain ⟨h1, h2, m, h3, h4, rfl⟩ := ha
    have hfi := e.first hf h3
    refine Loops.base (fun _ => rfl) (paren_run h1 h2 hfi.2.2 hfi.1 ?_ h4)
    exact e.runs.one (hE.join (by decide +kernel)) hf h3 (by simp only [Ex.depth] at hd; omega) (ends_of h4 (by decide))
  | .field e num => Runs.of_post trivial fun {E n p q} hE hf ha hd => by
    obtain ⟨m, h1, h2, h3, rfl, h4⟩ := ha
    simp only [Ex.depth] at hd
    have ih := e.runs.post hE hf.1 hf.2 h1 hd
    obtain ⟨n, rfl⟩ : ∃ k, n = k + 1 := ⟨n - 1, by have := e.depth_pos; omega⟩
    refine ih.step (prog := postfixDotExpr (grammar (n + 1))) (x := [tk .DOT, .start .NAME_REF, tk (if num then .INT_NUMBER else .IDENT), .finish, .finish])
      (by simp [Ex.rest]) (by omega) (fun cm s hs => ?_) ?_
    · subst hs
      unfold postfixLoop
      rw [bind_current, h2]
      rfl
    · cases num with
      | true => exact num_wraps h2 h3
      | false => exact field_wraps h2 h3 (h4 rfl).1 (h4 rfl).2
  | .index e i => Runs.of_post trivial fun {E n p q} hE hf ha hd => by
    obtain ⟨m, m', h1, h2, h3, h4, rfl⟩ := ha
    simp only [Ex.depth] at hd
    have ih := e.runs.post hE hf.1 hf.2.1 h1 (n := n) (by omega)
    have hi := i.runs.one (n := n) (r := ⟨false, false⟩) hE hf.2.2 h3 (by omega) (ends_of h4 (by decide))
    refine ih.step (prog := indexExpr (grammar n)) (x := tk .L_BRACK :: .start i.kind :: i.rest ++ [tk .R_BRACK, .finish])
      (by simp [Ex.rest]) (by have := (i.first hf.2.2 h3).1; omega) (fun cm s hs => ?_) (index_wraps h2 hi h4)
    subst hs
    unfold postfixLoop
    rw [bind_current, h2]
    rfl
  | .call e a => Runs.of_post trivial fun {E n p q} hE hf ha hd => by
    obtain ⟨m, m', h1, h2, h3, h4, rfl⟩ := ha
    simp only [Ex.depth] at hd
    have ih := e.runs.post hE hf.1 hf.2.1 h1 (n := n) (by omega)
    have hle := (a.first hf.2.2 h3).1
    have hi := argList_run (E := E) (R := grammar n) h2 (by omega) (fun f hlt => a.runs hE hf.2.2 h3 (by omega) h4 hlt) h4
    refine ih.step (prog := callExpr (grammar n))
      (by simp [Ex.rest]) (by omega) (fun cm s hs => ?_) (call_wraps h2 hi)
    subst hs
    unfold postfixLoop
    rw [bind_current, h2]
    rfl
  | .method e a => Runs.of_post trivial fun {E n p q} hE hf ha hd => by
    obtain ⟨m, m', h1, h2, h2', h2'', h3, h4, rfl⟩ := ha
    simp only [Ex.depth] at hd
    have ih := e.runs.post hE hf.1 hf.2.1 h1 (n := n) (by omega)
    have hle := (a.first hf.2.2 h3).1
    have hi := argList_run (E := E) (R := grammar n) h2'' (by omega) (fun f hlt => a.runs hE hf.2.2 h3 (by omega) h4 (by omega)) h4
    refine ih.step (prog := postfixDotExpr (grammar n))
      (by simp [Ex.rest]) (by omega) (fun cm s hs => ?_) (method_wraps h2 h2' h2'' hi)
    subst hs
    unfold postfixLoop
    rw [bind_current, h2]
    rfl
  | .un o e => by
    refine ⟨fun _ hp => hp.elim, fun {E n r bp p q} hE hf hbp ha hd hq ho => ?_⟩
    obtain ⟨m, h1, h2⟩ := ha
    simp only [Ex.depth] at hd
    exact Loops.base (fun _ => rfl) (extended_run (un_lhs h1 (e.first hf h2).2.2
      (e.runs.bp (n := n) hE hf (by omega) h2 (by omega) hq ho)))
  | .bin k l e => by
    refine ⟨fun _ hp => hp.elim, fun {E n r bp p q} hE hf hbp ha hd hq ho => ?_⟩
    obtain ⟨m, h1, h2, h3⟩ := ha
    obtain ⟨f1, f2, f3, f4, f5, f6⟩ := hf
    simp only [Ex.depth] at hd
    have hl := l.runs.loop (n := n) (r := r) hE f3 hbp h1 (by omega) (free_opAt f1 h2) (by rw [op_of_opAt f1 h2]; exact f4)
    have hfi := e.first f5 h3
    refine hl.bin f1 h2 f2 hfi.2.2 f6 (by omega) (fun r' => e.runs.bp (n := n) hE f5 (by have := level_lt k; omega) h3 (by omega) hq ho)
  | .cast e addr more => by
    refine ⟨fun _ hp => hp.elim, fun {E n r bp p q} hE hf hbp ha hd hq ho => ?_⟩
    obtain ⟨m, h1, h2, h3, h4, h5⟩ := ha
    obtain ⟨f1, f2, f3, f4⟩ := hf
    simp only [Ex.depth] at hd
    have hl := e.runs.loop (n := n) (r := r) hE f3 hbp h1 hd (by refine ⟨?_, ?_, ?_⟩ <;> rw [h2] <;> decide) (by rw [op_as h2]; exact f4)
    obtain ⟨n, rfl⟩ : ∃ k, n = k + 1 := ⟨n - 1, by have := e.depth_pos; omega⟩
    exact hl.cast h2 f2 h3 f1 h4 h5

theorem Args.runs [I.Valid] : ∀ a : Args, ∀ {E n p q f b}, Calm E → a.Fits → a.At I p q → a.depth < n → I.kindAt q = .R_PAREN → q - p < f →
    Emits I E p (delimitedN (valueArg (grammar n)) .COMMA (some .R_PAREN) f b) () q a.tree
  | .none, E, n, p, q, f, b, hE, hf, ha, hd, hq, hlt => by
    have : q = p := ha
    subst this
    obtain ⟨f, rfl⟩ : ∃ k, f = k + 1 := ⟨f - 1, by omega⟩
    exact delimited_none hq
  | .one e, E, n, p, q, f, b, hE, hf, ha, hd, hq, hlt => by
    obtain ⟨f, rfl⟩ : ∃ k, f = k + 1 := ⟨f - 1, by omega⟩
    have hb := e.runs.one (n := n) (r := ⟨false, false⟩)
      (hE.withTs (t := TokenSet.setOrKind (TokenSet.new [.COMMA]) .R_PAREN) (by decide +kernel)) hf ha hd (ends_of hq (by decide))
    exact delimited_one (e.first hf ha).2.2.kind (valueArg_run hb) hq
  | .more e a, E, n, p, q, f, b, hE, hf, ha, hd, hq, hlt => by
    obtain ⟨m, h1, h2, h3⟩ := ha
    simp only [Args.depth] at hd
    have hfi := e.first hf.1 h1
    obtain ⟨f, rfl⟩ : ∃ k, f = k + 1 := ⟨f - 1, by omega⟩
    have hb := e.runs.one (n := n) (r := ⟨false, false⟩)
      (hE.withTs (t := TokenSet.setOrKind (TokenSet.new [.COMMA]) .R_PAREN) (by decide +kernel)) hf.1 h1 (by omega) (ends_of h2 (by decide))
    have hfa := (a.first hf.2.2 h3)
    have hrest := a.runs (n := n) (f := f) (b := false) hE hf.2.2 h3 (by omega) hq (by omega)
    have := delimited_more (b := b) hE hfi.2.2.kind (valueArg_run hb) hfi.1 h2 (hfa.2 hf.2.1).2.1 (hfa.2 hf.2.1).2.2 hrest
    simpa [Args.tree] using this
end

end Verif.Parser
