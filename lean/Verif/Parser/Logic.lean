import Verif.Parser.Content

/-! A logic for the operations of the parser. `T I p h prog Q` says of a run of `prog` from position `p`, with `h` the
completed marker that may be given a parent: it does not use up the fuel; it panics only in the ways `Allowed`; it
appends well-formed events whose tokens are those between the positions; and it ends with a value, a position and a
marker of which `Q` holds. -/

namespace Verif.Parser
open Verif.Syntax (SyntaxKind)
open Verif.TokenSet (TSet)

/-- The number of tokens. -/
abbrev Input.size (I : Input) : Nat := I.toks.length

/-- The words that are keywords only in some places, with their kinds. -/
def contextual : List (SyntaxKind × String) := [
  (.ADDRESS_KW, "address"), (.CHOOSE_KW, "choose"), (.COPY_KW, "copy"), (.ENTRY_KW, "entry"), (.ENUM_KW, "enum"),
  (.EXCEPT_KW, "except"), (.EXISTS_KW, "exists"), (.FORALL_KW, "forall"), (.FOR_KW, "for"),
  (.GLOBAL_KW, "global"), (.HAS_KW, "has"), (.INTERNAL_KW, "internal"), (.IN_KW, "in"), (.IS_KW, "is"),
  (.LEMMA_KW, "lemma"), (.LOCAL_KW, "local"), (.MATCH_KW, "match"), (.MIN_KW, "min"), (.PACKAGE_KW, "package"),
  (.PHANTOM_KW, "phantom"), (.POST_KW, "post"), (.PROOF_KW, "proof"), (.SCHEMA_KW, "schema"), (.TO_KW, "to"),
  (.UPDATE_KW, "update"), (.WEIGHT_KW, "weight"), (.WHERE_KW, "where"), (.WITH_KW, "with"),
  (.ABORTS_IF_KW, "aborts_if"), (.ABORTS_WITH_KW, "aborts_with"), (.APPLY_KW, "apply"), (.AXIOM_KW, "axiom"),
  (.EMITS_KW, "emits"), (.INCLUDE_KW, "include"), (.PRAGMA_KW, "pragma"), (.SPLIT_KW, "split"),
  (.ASSUME_KW, "assume"), (.ASSERT_KW, "assert"), (.REQUIRES_KW, "requires"), (.ENSURES_KW, "ensures"),
  (.DECREASES_KW, "decreases"), (.MODIFIES_KW, "modifies")]

/-- The spelling of a contextual keyword. -/
def spelling (k : SyntaxKind) : Option String := contextual.lookup k

/-- How the `n` tokens at `p` come to be one token of kind `k`: it is that token; they are the parts of an operator; it
is a word that is a keyword there; it is an underscore or `friend` used as a name; or they are a pattern of names. -/
inductive Leaf (I : Input) (p : Nat) : SyntaxKind → Nat → Prop
  | same (k) : I.kindAt p = k → Leaf I p k 1
  | operator (k) : I.atKind p k = true → Leaf I p k (parts k).length
  | word (k w) : spelling k = some w → I.isKeyword p w = true → Leaf I p k 1
  | name : I.kindAt p = .UNDERSCORE ∨ I.kindAt p = .FRIEND_KW → Leaf I p .IDENT 1
  | wildcard (n) : (∀ j, p ≤ j → j < p + n → I.kindAt j = .IDENT ∨ I.kindAt j = .STAR) → Leaf I p .WILDCARD_IDENT n

/-- The tokens of the events are the ones from `p` to `q`, and a token made of several takes jointed ones. -/
def Glued (I : Input) : Nat → List (SyntaxKind × Nat) → Nat → Prop
  | p, [], q => p = q
  | p, (k, n) :: ns, q =>
    (Leaf I p k n ∧ 1 ≤ n) ∧ p + n ≤ I.size ∧ (∀ j, p ≤ j → j + 1 < p + n → I.jointAt j = true) ∧ Glued I (p + n) ns q

theorem Glued.append {I : Input} {p q r : Nat} {a b : List (SyntaxKind × Nat)} (ha : Glued I p a q) (hb : Glued I q b r) :
    Glued I p (a ++ b) r := by
  induction a generalizing p with
  | nil => simp only [Glued] at ha; subst ha; simpa using hb
  | cons x xs ih =>
    obtain ⟨k, n⟩ := x
    obtain ⟨h1, h2, h3, h4⟩ := ha
    exact ⟨h1, h2, h3, ih h4⟩

theorem Glued.le {I : Input} {p q : Nat} {a : List (SyntaxKind × Nat)} (h : Glued I p a q) : p ≤ q := by
  induction a generalizing p with
  | nil => simp only [Glued] at h; omega
  | cons x xs ih =>
    obtain ⟨k, n⟩ := x
    obtain ⟨h1, h2, h3, h4⟩ := h
    have := ih h4; omega

theorem Glued.bound {I : Input} {p q : Nat} {a : List (SyntaxKind × Nat)} (h : Glued I p a q) (hp : p ≤ I.size) :
    q ≤ I.size := by
  induction a generalizing p with
  | nil => simp only [Glued] at h; omega
  | cons x xs ih =>
    obtain ⟨k, n⟩ := x
    obtain ⟨h1, h2, h3, h4⟩ := h
    exact ih h4 h2

theorem Glued.width {I : Input} {p q : Nat} {seg : List Event} (h : Glued I p (eventTokens seg) q) :
    p + Verif.Parser.width seg = q := by
  induction seg generalizing p with
  | nil => simpa [eventTokens, Glued, Verif.Parser.width] using h
  | cons e es ih =>
    cases e with
    | token k n =>
      simp only [eventTokens, Glued] at h
      have := ih h.2.2.2
      simp only [Verif.Parser.width]; omega
    | start k fp => simpa [eventTokens, Verif.Parser.width] using ih (by simpa [eventTokens] using h)
    | finish => simpa [eventTokens, Verif.Parser.width] using ih (by simpa [eventTokens] using h)
    | error => simpa [eventTokens, Verif.Parser.width] using ih (by simpa [eventTokens] using h)

/-- A run from `s` to `s'` has appended well-formed events, which are `ts` at the outermost level. -/
def ExtT (I : Input) (s s' : St) (ts : List Top) : Prop :=
  ∃ seg steps, s'.events = s.events ++ seg ∧ Denotes seg steps ∧ Sh I ts steps ∧ Glued I s.pos (eventTokens seg) s'.pos

/-- A run from `s` to `s'` has appended well-formed events. -/
def Ext (I : Input) (s s' : St) : Prop := ∃ ts, ExtT I s s' ts

/-- The same, and the marker can be given a parent: before it is `p`, in it `x` and after it `y`. -/
def ExtR (I : Input) (s : St) (cm : CM) (s' : St) : Prop :=
  ∃ seg p x y pre ts us, s'.events = s.events ++ seg ∧ s.events.length ≤ cm.pos ∧
    Ready (cm.pos - s.events.length) seg cm.kind p (x ++ Step.finish :: y) ∧
    Sh I pre p ∧ (Sh I ts x ∧ Req I cm.kind ts) ∧ Sh I us y ∧ Glued I s.pos (eventTokens seg) s'.pos

theorem ExtT.ext {I : Input} {s s' : St} {ts : List Top} (h : ExtT I s s' ts) : Ext I s s' := ⟨ts, h⟩

theorem ExtT.refl (I : Input) (s : St) : ExtT I s s [] := ⟨[], [], by simp, Denotes.nil, .nil, rfl⟩

theorem Ext.refl (I : Input) (s : St) : Ext I s s := (ExtT.refl I s).ext

theorem ExtT.trans {I : Input} {a b c : St} {ts us : List Top} (h1 : ExtT I a b ts) (h2 : ExtT I b c us) :
    ExtT I a c (ts ++ us) := by
  obtain ⟨s1, t1, e1, d1, b1, g1⟩ := h1
  obtain ⟨s2, t2, e2, d2, b2, g2⟩ := h2
  refine ⟨s1 ++ s2, t1 ++ t2, by rw [e2, e1, List.append_assoc], d1.append d2, b1.append b2, ?_⟩
  rw [eventTokens_append]; exact g1.append g2

theorem Ext.trans {I : Input} {a b c : St} (h1 : Ext I a b) (h2 : Ext I b c) : Ext I a c := by
  obtain ⟨_, h1⟩ := h1
  obtain ⟨_, h2⟩ := h2
  exact (h1.trans h2).ext

theorem Ext.le {I : Input} {a b : St} (h : Ext I a b) : a.pos ≤ b.pos := by
  obtain ⟨_, _, _, _, _, _, g⟩ := h; exact g.le

theorem Ext.bound {I : Input} {a b : St} (h : Ext I a b) (ha : a.pos ≤ I.size) : b.pos ≤ I.size := by
  obtain ⟨_, _, _, _, _, _, g⟩ := h; exact g.bound ha

theorem Ext.ne {I : Input} {a b : St} (h : Ext I a b) (ha : a.events ≠ []) : b.events ≠ [] := by
  obtain ⟨_, _, _, e, _, _, _⟩ := h
  rw [e]; simp [ha]

/-- The node of the marker is one of those at the outermost level. -/
theorem ExtR.extT {I : Input} {a b : St} {cm : CM} (h : ExtR I a cm b) : ∃ ts, ExtT I a b ts ∧ Top.node cm.kind ∈ ts := by
  obtain ⟨seg, p, x, y, pre, ts, us, e, _, r, bp, ⟨bx, hr⟩, b3, g⟩ := h
  exact ⟨_, ⟨seg, _, e, r.denotes, bp.append (Sh.node hr bx b3), g⟩, by simp⟩

theorem ExtR.ext {I : Input} {a b : St} {cm : CM} (h : ExtR I a cm b) : Ext I a b := by
  obtain ⟨ts, h, _⟩ := h.extT
  exact h.ext

theorem Ext.andR {I : Input} {a b c : St} {cm : CM} (h1 : Ext I a b) (h2 : ExtR I b cm c) : ExtR I a cm c := by
  obtain ⟨ts1, s1, t1, e1, d1, b1, g1⟩ := h1
  obtain ⟨s2, p, x, y, pre, ts, us, e2, hl, r, bp, bx, b3, g2⟩ := h2
  rw [e1, List.length_append] at hl r
  refine ⟨s1 ++ s2, t1 ++ p, x, y, _, ts, us, by rw [e2, e1, List.append_assoc], by omega, ?_, b1.append bp, bx, b3, ?_⟩
  · have := r.prepend d1
    rwa [show s1.length + (cm.pos - (a.events.length + s1.length)) = cm.pos - a.events.length by omega] at this
  · rw [eventTokens_append]; exact g1.append g2

theorem Ext.error {I : Input} (s : St) : Ext I s ⟨s.pos, s.events ++ [Event.error]⟩ :=
  ⟨_, [.error], _, rfl, Denotes.error, .error .nil, rfl⟩

theorem Ext.tombstone {I : Input} (s : St) : Ext I s ⟨s.pos, s.events ++ [Event.tombstone]⟩ :=
  ⟨_, [Event.tombstone], _, rfl, Denotes.tombstone, .nil, rfl⟩

theorem ExtT.token {I : Input} (s : St) (k : SyntaxKind) {n : Nat} (hl : Leaf I s.pos k n) (h1 : 1 ≤ n) (h2 : s.pos + n ≤ I.size)
    (hj : ∀ j, s.pos ≤ j → j + 1 < s.pos + n → I.jointAt j = true) :
    ExtT I s ⟨s.pos + n, s.events ++ [Event.token k n]⟩ [.tok k] :=
  ⟨[.token k n], _, rfl, Denotes.token k n, .token .nil, ⟨hl, h1⟩, h2, hj, rfl⟩

theorem Ext.token {I : Input} (s : St) (k : SyntaxKind) {n : Nat} (hl : Leaf I s.pos k n) (h1 : 1 ≤ n) (h2 : s.pos + n ≤ I.size)
    (hj : ∀ j, s.pos ≤ j → j + 1 < s.pos + n → I.jointAt j = true) :
    Ext I s ⟨s.pos + n, s.events ++ [Event.token k n]⟩ := (ExtT.token s k hl h1 h2 hj).ext

/-- A completed node. -/
theorem ExtT.node {I : Input} {s s' : St} {k : SyntaxKind} {ts : List Top} (hk : k ≠ .TOMBSTONE) (hr : Req I k ts)
    (h : ExtT I ⟨s.pos, s.events ++ [Event.tombstone]⟩ s' ts) :
    ∃ fp, s'.events[s.events.length]? = some (Event.start .TOMBSTONE fp) ∧
      ExtR I s ⟨s.events.length, k⟩ ⟨s'.pos, s'.events.set s.events.length (Event.start k fp) ++ [Event.finish]⟩ := by
  obtain ⟨seg, steps, e, d, b, g⟩ := h
  refine ⟨none, ?_, ?_⟩
  · rw [e]; simp [Event.tombstone]
  · refine ⟨Event.start k none :: seg ++ [Event.finish], [], steps, [], [], ts, [], ?_, by simp, ?_, .nil, ⟨b, hr⟩, .nil, ?_⟩
    · show s'.events.set s.events.length (Event.start k none) ++ [Event.finish] = _
      rw [e]
      simp only [List.append_assoc, List.cons_append, List.nil_append]
      rw [List.set_append_right _ _ (by omega)]
      simp
    · have := Ready.node hk Denotes.nil d Denotes.nil
      simpa using this
    · have : eventTokens (Event.start k none :: seg ++ [Event.finish]) = eventTokens seg := by
        simp [eventTokens, eventTokens_append]
      rw [this]; exact g

/-- A node that is given a parent. -/
theorem ExtR.precede {I : Input} {s0 s s' : St} {cm : CM} {k2 : SyntaxKind} {vs : List Top} (hk2 : k2 ≠ .TOMBSTONE)
    (hr2 : ∀ us, Req I k2 (Top.node cm.kind :: us ++ vs)) (h : ExtR I s0 cm s)
    (h' : ExtT I ⟨s.pos, (s.events ++ [Event.tombstone]).set cm.pos
      (Event.start cm.kind (some (s.events.length - cm.pos)))⟩ s' vs) :
    (s.events ++ [Event.tombstone])[cm.pos]? = some (Event.start cm.kind none) ∧
    s'.events[s.events.length]? = some (Event.start .TOMBSTONE none) ∧
      ExtR I s0 ⟨s.events.length, k2⟩ ⟨s'.pos, s'.events.set s.events.length (Event.start k2 none) ++ [Event.finish]⟩ := by
  obtain ⟨seg, p, x, y, pre, ts, us, e, hl, r, bp, ⟨bx, hr⟩, b3, g⟩ := h
  obtain ⟨inner, steps, e', d, b, g'⟩ := h'
  have hlt : cm.pos - s0.events.length < seg.length := by
    by_contra hc
    have := r.slot
    rw [List.getElem?_eq_none (by omega)] at this
    simp at this
  have hset : ∀ ev, (s.events ++ [Event.tombstone]).set cm.pos ev =
      s0.events ++ seg.set (cm.pos - s0.events.length) ev ++ [Event.tombstone] := by
    intro ev
    rw [e, List.set_append_left _ _ (by simp; omega), List.set_append_right _ _ (by omega)]
  have hlen : s.events.length = s0.events.length + seg.length := by rw [e]; simp
  have hsub : s.events.length - cm.pos = seg.length - (cm.pos - s0.events.length) := by omega
  simp only [hset, hsub] at e'
  refine ⟨?_, ?_, ?_⟩
  · rw [e, List.getElem?_append_left (by simp; omega), List.getElem?_append_right (by omega)]
    exact r.slot
  · rw [e', List.getElem?_append_left (by simp; omega), List.getElem?_append_right (by simp; omega)]
    simp [hlen, Event.tombstone]
  · refine ⟨seg.set (cm.pos - s0.events.length) (Event.start cm.kind (some (seg.length - (cm.pos - s0.events.length)))) ++
      Event.start k2 none :: inner ++ [Event.finish], p, Step.start cm.kind :: (x ++ Step.finish :: y) ++ steps, [],
      pre, Top.node cm.kind :: us ++ vs, [], ?_, by simp; omega, ?_,
      bp, ⟨?_, hr2 us⟩, .nil, ?_⟩
    · show s'.events.set s.events.length (Event.start k2 none) ++ [Event.finish] = _
      rw [e', hlen]
      simp only [List.append_assoc]
      rw [List.set_append_right _ _ (by omega), List.set_append_right _ _ (by simp)]
      simp
    · have hr := r.precede d hk2
      show Ready (s.events.length - s0.events.length) _ _ _ _
      rw [show s.events.length - s0.events.length = seg.length by omega]
      simpa using hr
    · exact (Sh.node hr bx b3).append b
    · have h1 : eventTokens (seg.set (cm.pos - s0.events.length)
          (Event.start cm.kind (some (seg.length - (cm.pos - s0.events.length)))) ++
          Event.start k2 none :: inner ++ [Event.finish]) = eventTokens seg ++ eventTokens inner := by
        rw [eventTokens_append, eventTokens_append, eventTokens_set r.slot]
        simp [eventTokens]
      rw [h1]; exact g.append g'

/-- `extend_to`. -/
theorem ExtR.extend {I : Input} {s s' : St} {cm : CM} (hk : exprKind cm.kind = true)
    (h : ExtR I ⟨s.pos, s.events ++ [Event.tombstone]⟩ cm s') :
    s'.events[s.events.length]? = some (Event.start .TOMBSTONE none) ∧
      ExtR I s cm ⟨s'.pos, s'.events.set s.events.length (Event.start .TOMBSTONE (some (cm.pos - s.events.length)))⟩ := by
  obtain ⟨seg, p, x, y, pre, ts, us, e, hl, r, bp, ⟨bx, hr⟩, b3, g⟩ := h
  simp only [List.length_append, List.length_cons, List.length_nil] at hl r
  refine ⟨by rw [e]; simp [Event.tombstone], ?_⟩
  refine ⟨Event.start .TOMBSTONE (some (cm.pos - s.events.length)) :: seg, [], p ++ x, y, [], pre ++ ts, us, ?_, by omega, ?_, .nil,
    ⟨bp.append bx, hr.prepend hk⟩, b3, ?_⟩
  · show s'.events.set s.events.length _ = _
    rw [e]
    simp only [List.append_assoc, List.cons_append, List.nil_append]
    rw [List.set_append_right _ _ (by omega)]
    simp
  · have := r.extend
    rw [show cm.pos - (s.events.length + (0 + 1)) + 1 = cm.pos - s.events.length by omega] at this
    simpa using this
  · exact g

/-- `abandon` of a marker started before the stretch: one event less, or a tombstone that stays. -/
theorem Ext.pop {I : Input} {s s' : St} (h : Ext I ⟨s.pos, s.events ++ [Event.tombstone]⟩ s')
    (hl : s.events.length = s'.events.length - 1) :
    s'.events.getLast? = some (Event.start .TOMBSTONE none) ∧ (⟨s'.pos, s'.events.dropLast⟩ : St) = s := by
  obtain ⟨ts, seg, steps, e, d, b, g⟩ := h
  have : seg = [] := by
    have := congrArg List.length e
    simp at this
    exact List.length_eq_zero_iff.mp (by omega)
  subst this
  simp only [List.append_nil] at e
  simp only [eventTokens, Glued] at g
  constructor
  · rw [e]; simp [Event.tombstone]
  · rw [e, ← g]; simp

/-- `abandon_with_rollback`: the state is the one before the marker was started. -/
theorem Ext.undo {I : Input} {s s' : St} (h : Ext I s s') :
    width (s'.events.drop s.events.length) ≤ s'.pos ∧
      (⟨s'.pos - width (s'.events.drop s.events.length), s'.events.take s.events.length⟩ : St) = s := by
  obtain ⟨ts, seg, steps, e, d, b, g⟩ := h
  have hw := g.width
  have h1 : s'.events.drop s.events.length = seg := by rw [e]; simp
  have h2 : s'.events.take s.events.length = s.events := by rw [e]; simp
  rw [h1, h2]
  refine ⟨by omega, ?_⟩
  have : s'.pos - width seg = s.pos := by omega
  rw [this]

end Verif.Parser
