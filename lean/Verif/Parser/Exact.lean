import Verif.Parser.Logic

/-! Runs of the parser with the exact calls that their events make on the sink. -/

namespace Verif.Parser
open Verif.Syntax (SyntaxKind)
open Verif.TokenSet (TSet)

/-! ### Running a program -/

section
variable {α β : Type} {I : Input} {E : Env} {s s' : St}

theorem bind_ok {x : P α} {f : α → P β} {a : α} (h : x I E s = .ok a s') : (x >>= f) I E s = f a I E s' := by
  show P.bind' x f I E s = _
  unfold P.bind'
  rw [h]

theorem run_pure (a : α) : (pure a : P α) I E s = .ok a s := rfl
theorem run_ite {c : Prop} [Decidable c] (x y : P α) : (if c then x else y) I E s = if c then x I E s else y I E s := by
  split <;> rfl
theorem run_drop {x : P α} {a : α} (h : x I E s = .ok a s') : drop x I E s = .ok () s' := by
  unfold drop
  rw [bind_ok h]
  rfl
theorem bind_drop {x : P α} {f : Unit → P β} {a : α} (h : x I E s = .ok a s') : (drop x >>= f) I E s = f () I E s' :=
  bind_ok (run_drop h)

theorem bind_pure (a : α) (f : α → P β) : (pure a >>= f) I E s = f a I E s := rfl
theorem bind_current (f : SyntaxKind → P β) : (current >>= f) I E s = f (I.kindAt s.pos) I E s := rfl
theorem bind_nth (n : Nat) (f : SyntaxKind → P β) : (nth n >>= f) I E s = f (I.kindAt (s.pos + n)) I E s := rfl
theorem bind_at (k : SyntaxKind) (f : Bool → P β) : (at' k >>= f) I E s = f (I.atKind s.pos k) I E s := rfl
theorem bind_nthAt (n : Nat) (k : SyntaxKind) (f : Bool → P β) : (nthAt n k >>= f) I E s = f (I.atKind (s.pos + n) k) I E s := rfl
theorem bind_atTs (t : TSet) (f : Bool → P β) : (atTs t >>= f) I E s = f (TokenSet.contains t (I.kindAt s.pos)) I E s := rfl
theorem bind_nthAtTs (n : Nat) (t : TSet) (f : Bool → P β) :
    (nthAtTs n t >>= f) I E s = f (TokenSet.contains t (I.kindAt (s.pos + n))) I E s := rfl
theorem bind_atKw (w : String) (f : Bool → P β) : (atKw w >>= f) I E s = f (I.isKeyword s.pos w) I E s := rfl
theorem bind_atKwIdent (w : String) (f : Bool → P β) :
    (atKwIdent w >>= f) I E s = f (I.kindAt s.pos == .IDENT && I.isKeyword s.pos w) I E s := rfl
theorem bind_containsCurrent (rs : RSet) (f : Bool → P β) : (containsCurrent rs >>= f) I E s = f (I.atRSet s.pos rs) I E s := rfl
theorem bind_prevWs (f : Nat → P β) : (prevWs >>= f) I E s = f (I.prevWs s.pos) I E s := rfl
theorem bind_getPos (f : Nat → P β) : (getPos >>= f) I E s = f s.pos I E s := rfl
theorem bind_outerRec (f : RSet → P β) : (outerRec >>= f) I E s = f E.outer I E s := rfl
theorem bind_stmtKind (f : StmtKind → P β) : (stmtKind >>= f) I E s = f E.stmt I E s := rfl
theorem bind_remaining (f : Nat → P β) : (remaining >>= f) I E s = f (I.toks.length - s.pos) I E s := rfl
theorem bind_assert {c : Bool} {k : SyntaxKind} {f : Unit → P β} (h : c = true) : (assert c k >>= f) I E s = f () I E s := by
  unfold assert
  rw [if_pos h]
  rfl
theorem bind_iff_true {c : Bool} {x : P Unit} {f : Unit → P β} (h : c = true) : (iff c x >>= f) I E s = (x >>= f) I E s := by
  unfold iff
  rw [if_pos h]
theorem bind_iff_false {c : Bool} {x : P Unit} {f : Unit → P β} (h : c = false) : (iff c x >>= f) I E s = f () I E s := by
  unfold iff
  rw [if_neg (by simp [h])]
  rfl
end

/-! ### The calls -/

/-- The events from one state to another make these calls. -/
def Adds (s s' : St) (x : List Step) : Prop :=
  ∃ seg, s'.events = s.events ++ seg ∧ Denotes seg x ∧ s'.pos = s.pos + width seg

/-- The events from one state to another make the calls for a node that can be given a parent: `z` are the calls after the node
has been started. -/
def AddsN (s : St) (cm : CM) (s' : St) (z : List Step) : Prop :=
  ∃ seg, s'.events = s.events ++ seg ∧ s.events.length ≤ cm.pos ∧ Ready (cm.pos - s.events.length) seg cm.kind [] z ∧
    s'.pos = s.pos + width seg

theorem width_append (a b : List Event) : width (a ++ b) = width a + width b := by
  induction a with
  | nil => simp [width]
  | cons e es ih => cases e <;> simp [width, ih, Nat.add_assoc]

theorem width_set {es : List Event} {i : Nat} {k k' : SyntaxKind} {f f' : Option Nat} (h : es[i]? = some (.start k f)) :
    width (es.set i (.start k' f')) = width es := by
  induction es generalizing i with
  | nil => simp at h
  | cons e es ih =>
    cases i with
    | zero => simp at h; subst h; simp [width]
    | succ i =>
      simp at h
      cases e <;> simp [width, ih h]

theorem Adds.refl (s : St) : Adds s s [] := ⟨[], by simp, Denotes.nil, by simp [width]⟩

theorem Adds.trans {a b c : St} {x y : List Step} (h1 : Adds a b x) (h2 : Adds b c y) : Adds a c (x ++ y) := by
  obtain ⟨s1, e1, d1, w1⟩ := h1
  obtain ⟨s2, e2, d2, w2⟩ := h2
  exact ⟨s1 ++ s2, by rw [e2, e1, List.append_assoc], d1.append d2, by rw [width_append]; omega⟩

theorem Adds.token (s : St) (k : SyntaxKind) (n : Nat) :
    Adds s ⟨s.pos + n, s.events ++ [Event.token k n]⟩ [.token k n] := ⟨[.token k n], rfl, Denotes.token k n, by simp [width]⟩

theorem Adds.error (s : St) : Adds s ⟨s.pos, s.events ++ [Event.error]⟩ [.error] :=
  ⟨[.error], rfl, Denotes.error, by simp [width]⟩

theorem AddsN.adds {s s' : St} {cm : CM} {z : List Step} (h : AddsN s cm s' z) : Adds s s' (.start cm.kind :: z) := by
  obtain ⟨seg, e, -, r, w⟩ := h
  exact ⟨seg, e, by simpa using r.denotes, w⟩

theorem run_node {I : Input} {E : Env} {k : SyntaxKind} {body : P Unit} {s s1 : St} {x : List Step} (hk : k ≠ .TOMBSTONE)
    (h : body I E ⟨s.pos, s.events ++ [Event.tombstone]⟩ = .ok () s1) (ha : Adds ⟨s.pos, s.events ++ [Event.tombstone]⟩ s1 x) :
    ∃ s', node k body I E s = .ok ⟨s.events.length, k⟩ s' ∧ s'.pos = s1.pos ∧
      AddsN s ⟨s.events.length, k⟩ s' (x ++ [.finish]) := by
  obtain ⟨seg, e, d, w⟩ := ha
  have hget : s1.events[s.events.length]? = some (Event.start .TOMBSTONE none) := by rw [e]; simp [Event.tombstone]
  refine ⟨⟨s1.pos, s1.events.set s.events.length (.start k none) ++ [Event.finish]⟩, ?_, rfl, ?_⟩
  · unfold node
    rw [bind_ok (show start I E s = .ok s.events.length ⟨s.pos, s.events ++ [Event.tombstone]⟩ from rfl), bind_ok h]
    unfold complete
    rw [hget]
  · refine ⟨Event.start k none :: seg ++ [Event.finish], ?_, by simp, ?_⟩
    · show s1.events.set s.events.length (Event.start k none) ++ [Event.finish] = _
      rw [e]
      simp only [List.append_assoc, List.cons_append, List.nil_append]
      rw [List.set_append_right _ _ (by omega)]
      simp
    · refine ⟨?_, ?_⟩
      · have := Ready.node hk Denotes.nil d Denotes.nil
        simpa using this
      · show s1.pos = _
        rw [w, width_append]
        simp [width]

theorem run_nodeOf {I : Input} {E : Env} {k : SyntaxKind} {body : P SyntaxKind} {s s1 : St} {x : List Step} (hk : k ≠ .TOMBSTONE)
    (h : body I E ⟨s.pos, s.events ++ [Event.tombstone]⟩ = .ok k s1) (ha : Adds ⟨s.pos, s.events ++ [Event.tombstone]⟩ s1 x) :
    ∃ s', nodeOf body I E s = .ok ⟨s.events.length, k⟩ s' ∧ s'.pos = s1.pos ∧
      AddsN s ⟨s.events.length, k⟩ s' (x ++ [.finish]) := by
  obtain ⟨s', h1, h2, h3⟩ := run_node (I := I) (E := E) (k := k) (body := do let _ ← body; pure ()) hk (bind_ok h) ha
  refine ⟨s', ?_, h2, h3⟩
  rw [← h1]
  unfold nodeOf node
  rw [bind_ok (show start I E s = .ok s.events.length ⟨s.pos, s.events ++ [Event.tombstone]⟩ from rfl),
    bind_ok (show start I E s = .ok s.events.length ⟨s.pos, s.events ++ [Event.tombstone]⟩ from rfl), bind_ok h,
    bind_ok (show (do let _ ← body; pure () : P Unit) I E ⟨s.pos, s.events ++ [Event.tombstone]⟩ = .ok () s1 from bind_ok h)]

theorem run_marked {I : Input} {E : Env} {α : Type} {k : SyntaxKind} {a : α} {body : P (Outcome × α)} {s s1 : St} {x : List Step}
    (hk : k ≠ .TOMBSTONE) (h : body I E ⟨s.pos, s.events ++ [Event.tombstone]⟩ = .ok (.complete k, a) s1)
    (ha : Adds ⟨s.pos, s.events ++ [Event.tombstone]⟩ s1 x) :
    ∃ s', marked body I E s = .ok (some ⟨s.events.length, k⟩, a) s' ∧ s'.pos = s1.pos ∧
      AddsN s ⟨s.events.length, k⟩ s' (x ++ [.finish]) := by
  obtain ⟨s', h1, h2, h3⟩ := run_node (I := I) (E := E) (k := k) (body := do let _ ← body; pure ()) hk (bind_ok h) ha
  refine ⟨s', ?_, h2, h3⟩
  unfold node at h1
  rw [bind_ok (show start I E s = .ok s.events.length ⟨s.pos, s.events ++ [Event.tombstone]⟩ from rfl),
    bind_ok (show (do let _ ← body; pure () : P Unit) I E ⟨s.pos, s.events ++ [Event.tombstone]⟩ = .ok () s1 from bind_ok h)] at h1
  unfold marked
  rw [bind_ok (show start I E s = .ok s.events.length ⟨s.pos, s.events ++ [Event.tombstone]⟩ from rfl), bind_ok h]
  dsimp only
  rw [bind_ok h1]
  rfl

/-- A marker that is abandoned. -/
theorem run_abandoned {I : Input} {E : Env} {α : Type} {a : α} {body : P (Outcome × α)} {s s1 : St} {x : List Step}
    (h : body I E ⟨s.pos, s.events ++ [Event.tombstone]⟩ = .ok (.abandon, a) s1)
    (ha : Adds ⟨s.pos, s.events ++ [Event.tombstone]⟩ s1 x) :
    ∃ s', marked body I E s = .ok (none, a) s' ∧ s'.pos = s1.pos ∧ Adds s s' x := by
  obtain ⟨seg, e, d, w⟩ := ha
  dsimp only at e w
  unfold marked
  rw [bind_ok (show start I E s = .ok s.events.length ⟨s.pos, s.events ++ [Event.tombstone]⟩ from rfl), bind_ok h]
  dsimp only
  cases seg with
  | nil =>
    refine ⟨⟨s1.pos, s.events⟩, ?_, rfl, [], by simp, d, w⟩
    rw [bind_ok (a := ()) (s' := ⟨s1.pos, s.events⟩)]
    · rfl
    · unfold abandon
      rw [e, if_pos (by simp), if_pos (by simp [Event.tombstone])]
      simp
  | cons ev seg =>
    refine ⟨s1, ?_, rfl, Event.tombstone :: ev :: seg, by rw [e]; simp, by simpa using Denotes.tombstone.append d, w⟩
    rw [bind_ok (a := ()) (s' := s1)]
    · rfl
    · unfold abandon
      rw [e, if_neg (by simp)]

/-- A marker that is rolled back. -/
theorem run_rolled {I : Input} {E : Env} {α : Type} {a : α} {body : P (Outcome × α)} {s s1 : St} {x : List Step}
    (h : body I E ⟨s.pos, s.events ++ [Event.tombstone]⟩ = .ok (.rollback, a) s1)
    (ha : Adds ⟨s.pos, s.events ++ [Event.tombstone]⟩ s1 x) (hx : x ≠ []) : block body I E s = .ok a s := by
  obtain ⟨seg, he, d, hp⟩ := ha
  dsimp only at he hp
  have hs : seg ≠ [] := by
    intro hc
    subst hc
    have := d []
    simp [process, processN] at this
    exact hx this
  unfold block
  rw [bind_ok (a := (none, a)) (s' := s)]
  · rfl
  unfold marked
  rw [bind_ok (show start I E s = .ok s.events.length ⟨s.pos, s.events ++ [Event.tombstone]⟩ from rfl), bind_ok h]
  dsimp only
  rw [bind_ok (a := ()) (s' := s)]
  · rfl
  · have hl : ¬ s.events.length = s1.events.length - 1 := by
      rw [he]
      cases seg with
      | nil => exact absurd rfl hs
      | cons x xs => simp
    unfold rollback
    rw [if_neg hl]
    unfold popTo
    rw [he, List.append_assoc]
    simp only [List.drop_left, List.take_left]
    have hw : width ([Event.tombstone] ++ seg) = width seg := rfl
    rw [hw, if_pos (by omega), hp]
    simp

theorem run_preceded {I : Input} {E : Env} {α : Type} {k : SyntaxKind} {a : α} {body : P (SyntaxKind × α)} {s0 s : St} {cm : CM}
    {z x : List Step} (hk : k ≠ .TOMBSTONE) (hn : AddsN s0 cm s z)
    (h : ∀ s2 : St, s2.pos = s.pos → ∃ s1, body I E s2 = .ok (k, a) s1 ∧ s1.pos = q ∧ Adds s2 s1 x) :
    ∃ pos s', preceded cm body I E s = .ok (⟨pos, k⟩, a) s' ∧ s'.pos = q ∧
      AddsN s0 ⟨pos, k⟩ s' (.start cm.kind :: z ++ x ++ [.finish]) := by
  obtain ⟨seg, e, hl, r, w⟩ := hn
  have hlt : cm.pos - s0.events.length < seg.length := by
    by_contra hc
    have := r.slot
    rw [List.getElem?_eq_none (by omega)] at this
    simp at this
  have hset : ∀ ev, (s.events ++ [Event.tombstone]).set cm.pos ev =
      s0.events ++ seg.set (cm.pos - s0.events.length) ev ++ [Event.tombstone] := by
    intro ev
    rw [e, List.set_append_left _ _ (by simp; omega), List.set_append_right _ _ (by omega)]
  have hlen : s.events.length = s0.events.length + seg.length := by rw [e]; simp
  have hsub : s.events.length - cm.pos = seg.length - (cm.pos - s0.events.length) := by omega
  have hslot : (s.events ++ [Event.tombstone])[cm.pos]? = some (Event.start cm.kind none) := by
    rw [e, List.getElem?_append_left (by simp; omega), List.getElem?_append_right (by omega)]
    exact r.slot
  obtain ⟨s1, h1, hq, inner, e', d, w'⟩ := h ⟨s.pos, (s.events ++ [Event.tombstone]).set cm.pos
    (.start cm.kind (some (s.events.length - cm.pos)))⟩ rfl
  dsimp only at e'
  simp only [hset, hsub] at e'
  have hget : s1.events[s.events.length]? = some (Event.start .TOMBSTONE none) := by
    rw [e', List.getElem?_append_left (by simp; omega), List.getElem?_append_right (by simp; omega)]
    simp [hlen, Event.tombstone]
  refine ⟨s.events.length, ⟨s1.pos, s1.events.set s.events.length (.start k none) ++ [Event.finish]⟩, ?_, hq, ?_⟩
  · unfold preceded
    rw [bind_ok (a := s.events.length) (s' := ⟨s.pos, (s.events ++ [Event.tombstone]).set cm.pos
      (.start cm.kind (some (s.events.length - cm.pos)))⟩)]
    · rw [bind_ok h1, bind_ok (a := (⟨s.events.length, k⟩ : CM))
        (s' := ⟨s1.pos, s1.events.set s.events.length (.start k none) ++ [Event.finish]⟩)]
      · rfl
      · unfold complete
        dsimp only
        rw [hget]
    · unfold precede
      rw [hslot]
  · refine ⟨seg.set (cm.pos - s0.events.length) (Event.start cm.kind (some (seg.length - (cm.pos - s0.events.length)))) ++
      Event.start k none :: inner ++ [Event.finish], ?_, by dsimp only; omega, ?_⟩
    · show s1.events.set s.events.length (Event.start k none) ++ [Event.finish] = _
      rw [e', hlen]
      simp only [List.append_assoc]
      rw [List.set_append_right _ _ (by omega), List.set_append_right _ _ (by simp)]
      simp
    · refine ⟨?_, ?_⟩
      · have hr := r.precede d hk
        show Ready (s.events.length - s0.events.length) _ _ _ _
        rw [show s.events.length - s0.events.length = seg.length by omega]
        exact hr
      · show s1.pos = _
        dsimp only at w'
        simp only [width_append, width, width_set r.slot]
        omega

theorem run_extended {I : Input} {E : Env} {α : Type} {a : α} {body : P (Option (CM × α))} {s s1 : St} {cm : CM} {z : List Step}
    (h : body I E ⟨s.pos, s.events ++ [Event.tombstone]⟩ = .ok (some (cm, a)) s1)
    (hn : AddsN ⟨s.pos, s.events ++ [Event.tombstone]⟩ cm s1 z) :
    ∃ s', extended body I E s = .ok (some (cm, a)) s' ∧ s'.pos = s1.pos ∧ AddsN s cm s' z := by
  obtain ⟨seg, e, hl, r, w⟩ := hn
  simp only [List.length_append, List.length_cons, List.length_nil] at hl r
  refine ⟨⟨s1.pos, s1.events.set s.events.length (.start .TOMBSTONE (some (cm.pos - s.events.length)))⟩, ?_, rfl, ?_⟩
  · unfold extended
    rw [bind_ok (show start I E s = .ok s.events.length ⟨s.pos, s.events ++ [Event.tombstone]⟩ from rfl), bind_ok h]
    dsimp only
    rw [bind_ok (a := cm) (s' := ⟨s1.pos, s1.events.set s.events.length (.start .TOMBSTONE (some (cm.pos - s.events.length)))⟩)]
    · rfl
    · unfold extendTo
      rw [show s1.events[s.events.length]? = some (Event.start .TOMBSTONE none) by rw [e]; simp [Event.tombstone]]
  · refine ⟨Event.start .TOMBSTONE (some (cm.pos - s.events.length)) :: seg, ?_, by omega, ?_⟩
    · show s1.events.set s.events.length _ = _
      rw [e]
      simp only [List.append_assoc, List.cons_append, List.nil_append]
      rw [List.set_append_right _ _ (by omega)]
      simp
    · refine ⟨?_, ?_⟩
      · have := r.extend
        rw [show cm.pos - (s.events.length + (0 + 1)) + 1 = cm.pos - s.events.length by omega] at this
        simpa using this
      · show s1.pos = _
        dsimp only at w
        simp only [width]
        exact w

end Verif.Parser
