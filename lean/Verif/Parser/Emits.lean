import Verif.Parser.Exact
import Verif.Parser.Hoare
import Verif.Parser.Words

/-! A judgement on pieces of the parser: from a position, a piece returns this value, ends at this position and makes these
calls on the sink. -/

namespace Verif.Parser
open Verif.Syntax (SyntaxKind)
open Verif.TokenSet (TSet)

/-- From position `p`, `prog` returns `a` at position `q` and its events make the calls `x`. -/
def Emits (I : Input) (E : Env) (p : Nat) (prog : P α) (a : α) (q : Nat) (x : List Step) : Prop :=
  ∀ s, s.pos = p → ∃ s', prog I E s = .ok a s' ∧ s'.pos = q ∧ Adds s s' x

/-- The same for a piece that returns a node: `z` are the calls after the start of the node. -/
def Builds (I : Input) (E : Env) (p : Nat) (prog : P α) (f : CM → α) (k : SyntaxKind) (q : Nat) (z : List Step) : Prop :=
  ∀ s, s.pos = p → ∃ pos s', prog I E s = .ok (f ⟨pos, k⟩) s' ∧ s'.pos = q ∧ AddsN s ⟨pos, k⟩ s' z

/-- The same for a piece that gives a node a parent: `x` are the calls after the calls for the node. -/
def Wraps (I : Input) (E : Env) (p : Nat) (prog : CM → P α) (f : CM → α) (k : SyntaxKind) (q : Nat) (x : List Step) : Prop :=
  ∀ s0 cm z s, s.pos = p → AddsN s0 cm s z → ∃ pos s', prog cm I E s = .ok (f ⟨pos, k⟩) s' ∧ s'.pos = q ∧
    AddsN s0 ⟨pos, k⟩ s' (.start cm.kind :: z ++ x)

section
variable {α β : Type} {I : Input} {E : Env} {p q m : Nat} {x y : List Step}

theorem bind_assoc' {γ : Type} (u : P α) (f : α → P β) (g : β → P γ) {s : St} :
    ((u >>= f) >>= g) I E s = (u >>= fun a => f a >>= g) I E s := by
  show P.bind' (P.bind' u f) g I E s = P.bind' u (fun a => P.bind' (f a) g) I E s
  unfold P.bind'
  cases u I E s <;> rfl

theorem Emits.pure {a : α} : Emits I E p (pure a) a p [] := fun s hs => ⟨s, rfl, hs, Adds.refl s⟩

theorem Emits.bind {u : P α} {f : α → P β} {a : α} {b : β} (h1 : Emits I E p u a m x) (h2 : Emits I E m (f a) b q y) :
    Emits I E p (u >>= f) b q (x ++ y) := by
  intro s hs
  obtain ⟨s1, e1, p1, a1⟩ := h1 s hs
  obtain ⟨s2, e2, p2, a2⟩ := h2 s1 p1
  exact ⟨s2, by rw [bind_ok e1, e2], p2, a1.trans a2⟩

theorem Emits.of_eq {u v : P α} {a : α} (h : ∀ s, s.pos = p → u I E s = v I E s) (hv : Emits I E p v a q x) :
    Emits I E p u a q x := by
  intro s hs
  obtain ⟨s', e, r⟩ := hv s hs
  exact ⟨s', by rw [h s hs, e], r⟩

theorem Emits.steps {u : P α} {a : α} (h : Emits I E p u a q x) (e : x = y) : Emits I E p u a q y := e ▸ h

theorem Emits.drop {u : P α} {a : α} (h : Emits I E p u a q x) : Emits I E p (drop u) () q x := by
  intro s hs
  obtain ⟨s', e, r⟩ := h s hs
  exact ⟨s', run_drop e, r⟩

theorem Builds.drop {u : P α} {f : CM → α} {k : SyntaxKind} (h : Builds I E p u f k q x) :
    Emits I E p (Verif.Parser.drop u) () q (.start k :: x) := by
  intro s hs
  obtain ⟨pos, s', e, hq, ha⟩ := h s hs
  exact ⟨s', run_drop e, hq, ha.adds⟩

/-- Only the value of the node's piece up to what does not depend on the node is used. -/
theorem Builds.bind {u : P α} {f : CM → α} {k : SyntaxKind} {g : α → P β} {b : β} (h : Builds I E p u f k m x)
    (hg : ∀ c, Emits I E m (g (f c)) b q y) : Emits I E p (u >>= g) b q (.start k :: x ++ y) := by
  intro s hs
  obtain ⟨pos, s1, e, hq, ha⟩ := h s hs
  obtain ⟨s2, e2, p2, a2⟩ := hg ⟨pos, k⟩ s1 hq
  exact ⟨s2, by rw [bind_ok e, e2], p2, ha.adds.trans a2⟩

theorem Builds.of_eq {u v : P α} {f : CM → α} {k : SyntaxKind} (h : ∀ s, s.pos = p → u I E s = v I E s)
    (hv : Builds I E p v f k q x) : Builds I E p u f k q x := by
  intro s hs
  obtain ⟨pos, s', e, r⟩ := hv s hs
  exact ⟨pos, s', by rw [h s hs, e], r⟩

theorem Builds.map {u : P α} {f : CM → α} {k : SyntaxKind} {g : α → β} (h : Builds I E p u f k q x) :
    Builds I E p (u >>= fun a => Pure.pure (g a)) (fun c => g (f c)) k q x := by
  intro s hs
  obtain ⟨pos, s', e, r⟩ := h s hs
  exact ⟨pos, s', by rw [bind_ok e]; rfl, r⟩

theorem Emits.node {k : SyntaxKind} {body : P Unit} (hk : k ≠ .TOMBSTONE) (h : Emits I E p body () q x) :
    Builds I E p (node k body) (fun c => c) k q (x ++ [.finish]) := by
  intro s hs
  obtain ⟨s1, e, hq, ha⟩ := h ⟨s.pos, s.events ++ [Event.tombstone]⟩ hs
  obtain ⟨s', e', hq', ha'⟩ := run_node hk e ha
  exact ⟨_, s', e', by omega, ha'⟩

theorem Emits.nodeOf {k : SyntaxKind} {body : P SyntaxKind} (hk : k ≠ .TOMBSTONE) (h : Emits I E p body k q x) :
    Builds I E p (nodeOf body) (fun c => c) k q (x ++ [.finish]) := by
  intro s hs
  obtain ⟨s1, e, hq, ha⟩ := h ⟨s.pos, s.events ++ [Event.tombstone]⟩ hs
  obtain ⟨s', e', hq', ha'⟩ := run_nodeOf hk e ha
  exact ⟨_, s', e', by omega, ha'⟩

theorem Emits.marked {k : SyntaxKind} {a : α} {body : P (Outcome × α)} (hk : k ≠ .TOMBSTONE)
    (h : Emits I E p body (.complete k, a) q x) :
    Builds I E p (marked body) (fun c => (some c, a)) k q (x ++ [.finish]) := by
  intro s hs
  obtain ⟨s1, e, hq, ha⟩ := h ⟨s.pos, s.events ++ [Event.tombstone]⟩ hs
  obtain ⟨s', e', hq', ha'⟩ := run_marked hk e ha
  exact ⟨_, s', e', by omega, ha'⟩

theorem Emits.block {k : SyntaxKind} {a : α} {body : P (Outcome × α)} (hk : k ≠ .TOMBSTONE)
    (h : Emits I E p body (.complete k, a) q x) :
    Emits I E p (block body) a q (.start k :: x ++ [.finish]) := by
  unfold Verif.Parser.block
  have := Builds.bind (Emits.marked hk h) (g := fun r => (Pure.pure r.2 : P α)) (b := a) (q := q) (y := [])
    (fun c => Emits.pure)
  simpa using this

theorem Emits.preceded {k : SyntaxKind} {a : α} {body : P (SyntaxKind × α)} (hk : k ≠ .TOMBSTONE)
    (h : Emits I E p body (k, a) q x) :
    Wraps I E p (fun cm => preceded cm body) (fun c => (c, a)) k q (x ++ [.finish]) := by
  intro s0 cm z s hs hn
  obtain ⟨pos, s', e, r1, r2⟩ := run_preceded (I := I) (E := E) (q := q) (body := body) (a := a) (x := x) hk hn
    (fun s2 h2 => h s2 (by omega))
  exact ⟨pos, s', e, r1, by simpa using r2⟩

theorem Wraps.map {u : CM → P α} {f : CM → α} {k : SyntaxKind} {g : α → β} (h : Wraps I E p u f k q x) :
    Wraps I E p (fun cm => u cm >>= fun a => Pure.pure (g a)) (fun c => g (f c)) k q x := by
  intro s0 cm z s hs hn
  obtain ⟨pos, s', e, r⟩ := h s0 cm z s hs hn
  exact ⟨pos, s', by show (u cm >>= _) I E s = _; rw [bind_ok e]; rfl, r⟩

theorem Wraps.of_eq {u v : CM → P α} {f : CM → α} {k : SyntaxKind} (h : ∀ cm s, s.pos = p → u cm I E s = v cm I E s)
    (hv : Wraps I E p v f k q x) : Wraps I E p u f k q x := by
  intro s0 cm z s hs hn
  obtain ⟨pos, s', e, r⟩ := hv s0 cm z s hs hn
  exact ⟨pos, s', by rw [h cm s hs, e], r⟩

theorem Emits.withRec {u : P α} {a : α} {f : RSet → RSet} (h : Emits I { E with outer := f E.outer } p u a q x) :
    Emits I E p (withRec f u) a q x := h

theorem Emits.rolled {a : α} {body : P (Outcome × α)} (h : Emits I E p body (.rollback, a) q x) (hx : x ≠ []) :
    Emits I E p (Verif.Parser.block body) a p [] := by
  intro s hs
  obtain ⟨s1, e, hq, ha⟩ := h ⟨s.pos, s.events ++ [Event.tombstone]⟩ hs
  exact ⟨s, run_rolled e ha hx, hs, Adds.refl s⟩

theorem Emits.abandoned {a : α} {body : P (Outcome × α)} (h : Emits I E p body (.abandon, a) q x) :
    Emits I E p (Verif.Parser.marked body) (none, a) q x := by
  intro s hs
  obtain ⟨s1, e, hq, ha⟩ := h ⟨s.pos, s.events ++ [Event.tombstone]⟩ hs
  obtain ⟨s', e', hq', ha'⟩ := run_abandoned e ha
  exact ⟨s', e', by omega, ha'⟩

theorem Emits.abandonedBlock {a : α} {body : P (Outcome × α)} (h : Emits I E p body (.abandon, a) q x) :
    Emits I E p (Verif.Parser.block body) a q x := by
  unfold Verif.Parser.block
  exact (Emits.bind h.abandoned (Emits.pure (a := a))).steps (by simp)

/-! Questions. -/

variable {b : β}

theorem Emits.current {f : SyntaxKind → P β} (h : Emits I E p (f (I.kindAt p)) b q x) : Emits I E p (current >>= f) b q x :=
  Emits.of_eq (fun s hs => by subst hs; rfl) h
theorem Emits.nth {n : Nat} {f : SyntaxKind → P β} (h : Emits I E p (f (I.kindAt (p + n))) b q x) :
    Emits I E p (nth n >>= f) b q x := Emits.of_eq (fun s hs => by subst hs; rfl) h
theorem Emits.at' {k : SyntaxKind} {f : Bool → P β} (h : Emits I E p (f (I.atKind p k)) b q x) :
    Emits I E p (at' k >>= f) b q x := Emits.of_eq (fun s hs => by subst hs; rfl) h
theorem Emits.nthAt {n : Nat} {k : SyntaxKind} {f : Bool → P β} (h : Emits I E p (f (I.atKind (p + n) k)) b q x) :
    Emits I E p (nthAt n k >>= f) b q x := Emits.of_eq (fun s hs => by subst hs; rfl) h
theorem Emits.atTs {t : TSet} {f : Bool → P β} (h : Emits I E p (f (TokenSet.contains t (I.kindAt p))) b q x) :
    Emits I E p (atTs t >>= f) b q x := Emits.of_eq (fun s hs => by subst hs; rfl) h
theorem Emits.atKw {w : String} {f : Bool → P β} (h : Emits I E p (f (I.isKeyword p w)) b q x) :
    Emits I E p (atKw w >>= f) b q x := Emits.of_eq (fun s hs => by subst hs; rfl) h
theorem Emits.atKwIdent {w : String} {f : Bool → P β}
    (h : Emits I E p (f (I.kindAt p == .IDENT && I.isKeyword p w)) b q x) :
    Emits I E p (atKwIdent w >>= f) b q x := Emits.of_eq (fun s hs => by subst hs; rfl) h
theorem Emits.containsCurrent {rs : RSet} {f : Bool → P β} (h : Emits I E p (f (I.atRSet p rs)) b q x) :
    Emits I E p (containsCurrent rs >>= f) b q x := Emits.of_eq (fun s hs => by subst hs; rfl) h
theorem Emits.prevWs {f : Nat → P β} (h : Emits I E p (f (I.prevWs p)) b q x) : Emits I E p (prevWs >>= f) b q x :=
  Emits.of_eq (fun s hs => by subst hs; rfl) h
theorem Emits.getPos {f : Nat → P β} (h : Emits I E p (f p) b q x) : Emits I E p (getPos >>= f) b q x :=
  Emits.of_eq (fun s hs => by subst hs; rfl) h
theorem Emits.outerRec {f : RSet → P β} (h : Emits I E p (f E.outer) b q x) : Emits I E p (outerRec >>= f) b q x :=
  Emits.of_eq (fun _ _ => rfl) h
theorem Emits.remaining {f : Nat → P β} (h : Emits I E p (f (I.toks.length - p)) b q x) :
    Emits I E p (remaining >>= f) b q x := Emits.of_eq (fun s hs => by subst hs; rfl) h
theorem Emits.assert {c : Bool} {k : SyntaxKind} {f : Unit → P β} (hc : c = true) (h : Emits I E p (f ()) b q x) :
    Emits I E p (assert c k >>= f) b q x := Emits.of_eq (fun _ _ => bind_assert hc) h
theorem Emits.iff_false {c : Bool} {u : P Unit} {f : Unit → P β} (hc : c = false) (h : Emits I E p (f ()) b q x) :
    Emits I E p (iff c u >>= f) b q x := Emits.of_eq (fun _ _ => bind_iff_false hc) h
theorem Emits.ite_pos {c : Prop} [Decidable c] {u v : P β} (hc : c) (h : Emits I E p u b q x) :
    Emits I E p (if c then u else v) b q x := by rw [if_pos hc]; exact h
theorem Emits.ite_neg {c : Prop} [Decidable c] {u v : P β} (hc : ¬ c) (h : Emits I E p v b q x) :
    Emits I E p (if c then u else v) b q x := by rw [if_neg hc]; exact h

/-! Tokens. -/

theorem atKind_single {k : SyntaxKind} (hp : parts k = [k]) : I.atKind p k = (I.kindAt p == k) := by
  unfold Input.atKind
  rw [hp]
  rfl

theorem Emits.eat [I.Valid] {k : SyntaxKind} (hk : k ≠ .EOF) (h : I.atKind p k = true) :
    Emits I E p (eat k) true (p + (parts k).length) [.token k (parts k).length] := by
  intro s hs
  subst hs
  refine ⟨⟨s.pos + (parts k).length, s.events ++ [Event.token k (parts k).length]⟩, ?_, rfl, Adds.token s _ _⟩
  unfold Verif.Parser.eat
  rw [bind_at, h, if_pos rfl]
  show Res.ok true ⟨advance I s.pos (parts k).length, _⟩ = _
  rw [advance_eq (atKind_spec hk h).1]

theorem Emits.eat_not {k : SyntaxKind} (h : I.atKind p k = false) : Emits I E p (Verif.Parser.eat k) false p [] := by
  unfold Verif.Parser.eat
  refine Emits.at' ?_
  rw [h]
  exact Emits.pure

theorem Emits.bump [I.Valid] {k : SyntaxKind} (hk : k ≠ .EOF) (h : I.atKind p k = true) :
    Emits I E p (bump k) () (p + (parts k).length) [.token k (parts k).length] := by
  unfold Verif.Parser.bump
  have := Emits.bind (Emits.eat (E := E) hk h) (f := fun b : Bool => if b then Pure.pure () else crash (.expected k))
    (b := ()) (Emits.ite_pos rfl Emits.pure)
  simpa using this

theorem Emits.expect [I.Valid] {k : SyntaxKind} (hk : k ≠ .EOF) (h : I.atKind p k = true) :
    Emits I E p (expect k) true (p + (parts k).length) [.token k (parts k).length] := by
  unfold Verif.Parser.expect
  have := Emits.bind (Emits.eat (E := E) hk h)
    (f := fun b : Bool => if b then (Pure.pure true : P Bool) else do error; Pure.pure false)
    (b := true) (Emits.ite_pos rfl Emits.pure)
  simpa using this

theorem advance_one {k : SyntaxKind} (h : I.kindAt p = k) (hk : k ≠ .EOF) : advance I p 1 = p + 1 := by
  unfold advance
  rw [if_neg (by rw [h]; exact hk)]
  rfl

theorem Emits.bumpAny {k : SyntaxKind} (hk : k ≠ .EOF) (h : I.kindAt p = k) :
    Emits I E p bumpAny () (p + 1) [.token k 1] := by
  intro s hs
  subst hs
  refine ⟨⟨s.pos + 1, s.events ++ [Event.token k 1]⟩, ?_, rfl, Adds.token s _ _⟩
  unfold Verif.Parser.bumpAny
  rw [bind_nth, Nat.add_zero, h, if_neg hk]
  show Res.ok () ⟨advance I s.pos 1, _⟩ = _
  rw [advance_one h hk]

theorem Emits.bumpRemap {k k' : SyntaxKind} (hk : k ≠ .EOF) (h : I.kindAt p = k) :
    Emits I E p (bumpRemap k') () (p + 1) [.token k' 1] := by
  intro s hs
  subst hs
  refine ⟨⟨s.pos + 1, s.events ++ [Event.token k' 1]⟩, ?_, rfl, Adds.token s _ _⟩
  unfold Verif.Parser.bumpRemap
  rw [bind_nth, Nat.add_zero, h, if_neg hk]
  show Res.ok () ⟨advance I s.pos 1, _⟩ = _
  rw [advance_one h hk]

/-! Errors. -/

theorem Emits.error : Emits I E p error () p [.error] := by
  intro s hs
  exact ⟨_, rfl, hs, Adds.error s⟩

theorem Emits.errorAndBump : ∃ q x, p ≤ q ∧ Emits I E p errorAndBump () q x := by
  unfold Verif.Parser.errorAndBump
  by_cases hk : I.kindAt p = .EOF
  · refine ⟨p, _, Nat.le_refl _, Builds.bind (Emits.node (by decide) (x := [.error]) ?_) (fun _ => Emits.pure)⟩
    have h : Emits I E p Verif.Parser.bumpAny () p [] := by
      unfold Verif.Parser.bumpAny
      refine Emits.nth ?_
      rw [Nat.add_zero]
      exact Emits.ite_pos hk Emits.pure
    exact (Emits.bind h Emits.error).steps (by simp)
  · exact ⟨p + 1, _, Nat.le_succ _, Builds.bind (Emits.node (by decide) (Emits.bind (Emits.bumpAny hk rfl) Emits.error))
      (fun _ => Emits.pure)⟩

theorem Emits.bumpUntil {rs : RSet} {n : Nat} (hn : I.toks.length - p < n) :
    ∃ q x, p ≤ q ∧ Emits I E p (bumpUntil rs n) () q x := by
  induction n generalizing p with
  | zero => omega
  | succ n ih =>
    unfold Verif.Parser.bumpUntil
    by_cases hc : (I.atKind p .EOF || I.atRSet p rs) = true
    · exact ⟨p, [], Nat.le_refl _, Emits.at' (Emits.containsCurrent (Emits.ite_pos hc Emits.pure))⟩
    · have hk : I.kindAt p ≠ .EOF := by
        intro h
        apply hc
        rw [atKind_single rfl, h]
        simp
      have hlt := kindAt_lt hk
      unfold Input.size at hlt
      obtain ⟨q, x, hq, h⟩ := ih (p := p + 1) (by omega)
      exact ⟨q, _, by omega, Emits.at' (Emits.containsCurrent (Emits.ite_neg hc (Emits.bind (Emits.bumpAny hk rfl) h)))⟩

theorem Emits.errorAndRecover {rs : RSet} : ∃ q x, p ≤ q ∧ Emits I E p (errorAndRecover rs) () q x := by
  unfold Verif.Parser.errorAndRecover
  by_cases hc : I.atRSet p (E.outer.join rs) = true
  · exact ⟨p, _, Nat.le_refl _, Emits.outerRec (Emits.containsCurrent (Emits.ite_pos hc Emits.error))⟩
  · obtain ⟨m, x, hm, h1⟩ := Emits.errorAndBump (I := I) (E := E) (p := p)
    obtain ⟨q, y, hq, h2⟩ := Emits.bumpUntil (I := I) (E := E) (p := m) (rs := E.outer.join rs)
      (n := I.toks.length - m + 1) (by omega)
    exact ⟨q, _, by omega, Emits.outerRec (Emits.containsCurrent (Emits.ite_neg hc (Emits.bind h1 (Emits.remaining h2))))⟩

/-! Loops. -/

/-- The loop ends before its first iteration. -/
theorem Emits.iterate_stop {stop : TSet} {body : β → P (Bool × β)} (h : TokenSet.contains stop (I.kindAt p) = true) :
    Emits I E p (iterate stop body b) b p [] := by
  unfold Verif.Parser.iterate
  refine Emits.remaining ?_
  unfold iterN
  exact Emits.at' (Emits.current (Emits.ite_pos (by rw [h]; simp) Emits.pure))

/-- The first iteration ends the loop. -/
theorem Emits.iterate_once {stop : TSet} {body : β → P (Bool × β)} {b0 : β} (h0 : I.kindAt p ≠ .EOF)
    (h1 : TokenSet.contains stop (I.kindAt p) = false)
    (h : Emits I { E with outer := E.outer.join (.ofTs stop) } p (body b0) (false, b) q x) :
    Emits I E p (iterate stop body b0) b q x := by
  unfold Verif.Parser.iterate
  refine Emits.remaining ?_
  unfold iterN
  refine Emits.at' (Emits.current (Emits.ite_neg (by rw [h1, atKind_single rfl]; simpa using h0) (Emits.getPos ?_)))
  refine (Emits.bind (Emits.withRec h) (b := b) (q := q) (y := []) ?_).steps (by simp)
  exact Emits.ite_pos (by simp) Emits.pure

/-- After the first iteration there is a token that ends the loop. -/
theorem Emits.iterate_then {stop : TSet} {body : β → P (Bool × β)} {b0 : β} (h0 : I.kindAt p ≠ .EOF)
    (h1 : TokenSet.contains stop (I.kindAt p) = false)
    (h : Emits I { E with outer := E.outer.join (.ofTs stop) } p (body b0) (true, b) q x) (hq : q ≠ p)
    (h2 : TokenSet.contains stop (I.kindAt q) = true) : Emits I E p (iterate stop body b0) b q x := by
  unfold Verif.Parser.iterate
  refine Emits.remaining ?_
  have hlt := kindAt_lt h0
  unfold Input.size at hlt
  unfold iterN
  refine Emits.at' (Emits.current (Emits.ite_neg (by rw [h1, atKind_single rfl]; simpa using h0) (Emits.getPos ?_)))
  refine (Emits.bind (Emits.withRec h) (b := b) (q := q) (y := []) ?_).steps (by simp)
  refine Emits.ite_neg (by simp) (Emits.outerRec (Emits.current ?_))
  by_cases ho : E.outer.hasTok (I.kindAt q) = true
  · exact Emits.ite_pos ho Emits.pure
  · refine Emits.ite_neg ho (Emits.getPos (Emits.ite_neg hq ?_))
    obtain ⟨n, hn⟩ : ∃ n, I.toks.length - p = n + 1 := ⟨I.toks.length - p - 1, by omega⟩
    rw [hn]
    unfold iterN
    exact Emits.at' (Emits.current (Emits.ite_pos (by rw [h2]; simp) Emits.pure))

end

end Verif.Parser
