import Verif.Parser.Event

/-! Lemmas on `process`: well-formed stretches of events. -/

namespace Verif.Parser
open Verif.Syntax (SyntaxKind)

theorem follow_length {fuel idx : Nat} {rest : List Event} {ks : List SyntaxKind} {rest' : List Event}
    (h : follow fuel idx rest = some (ks, rest')) : rest'.length = rest.length := by
  induction fuel generalizing idx rest ks rest' with
  | zero => simp [follow] at h
  | succ n ih =>
    simp only [follow] at h
    split at h
    · rename_i k fp hk
      cases fp with
      | none => simp at h; rw [← h.2]; simp
      | some fwd =>
        simp only [Option.map_eq_some_iff] at h
        obtain ⟨⟨a, b⟩, h1, h2⟩ := h
        simp at h2
        rw [← h2.2, ih h1]; simp
    · simp at h

theorem follow_append (fuel : Nat) (a b : List Event) (idx : Nat) :
    follow fuel (a.length + idx) (a ++ b) = (follow fuel idx b).map fun p => (p.1, a ++ p.2) := by
  induction fuel generalizing idx b with
  | zero => simp [follow]
  | succ n ih =>
    simp only [follow]
    rw [List.getElem?_append_right (by omega)]
    simp only [Nat.add_sub_cancel_left]
    cases h : b[idx]? with
    | none => simp
    | some e =>
      cases e with
      | start k fp =>
        simp only
        rw [List.set_append_right _ _ (by omega)]
        simp only [Nat.add_sub_cancel_left]
        cases fp with
        | none => simp
        | some d =>
          simp only
          rw [Nat.add_assoc, ih]
          simp [Option.map_map, Function.comp_def]
      | finish => simp
      | token => simp
      | error => simp

/-- More fuel than needed changes nothing. -/
theorem follow_fuel {fuel idx : Nat} {rest : List Event} {r} (h : follow fuel idx rest = some r) :
    follow (fuel + 1) idx rest = some r := by
  induction fuel generalizing idx rest r with
  | zero => simp [follow] at h
  | succ n ih =>
    unfold follow at h ⊢
    cases hk : rest[idx]? with
    | none => rw [hk] at h; simp at h
    | some e =>
      rw [hk] at h
      cases e with
      | start k fp =>
        simp only at h ⊢
        cases fp with
        | none => simpa using h
        | some d =>
          simp only [Option.map_eq_some_iff] at h
          obtain ⟨q, h1, h2⟩ := h
          have := ih h1
          simp only [this, Option.map_some, h2]
      | finish => simp at h
      | token => simp at h
      | error => simp at h

theorem follow_fuel_le {fuel fuel' idx : Nat} {rest : List Event} {r} (h : follow fuel idx rest = some r)
    (hle : fuel ≤ fuel') : follow fuel' idx rest = some r := by
  induction fuel' with
  | zero => have : fuel = 0 := by omega
            subst this; exact h
  | succ n ih =>
    rcases Nat.lt_or_ge n fuel with h1 | h1
    · have : fuel = n + 1 := by omega
      subst this; exact h
    · exact follow_fuel (ih h1)

/-- Has the event a forward parent? -/
def hasParent : Event → Bool
  | .start _ (some _) => true
  | _ => false

theorem countP_set_tombstone {rest : List Event} {idx : Nat} {k : SyntaxKind} {d : Nat}
    (h : rest[idx]? = some (.start k (some d))) :
    (rest.set idx Event.tombstone).countP hasParent + 1 = rest.countP hasParent := by
  induction rest generalizing idx with
  | nil => simp at h
  | cons e es ih =>
    cases idx with
    | zero =>
      simp at h; subst h
      simp [List.countP_cons, hasParent, Event.tombstone]
    | succ i =>
      simp at h
      simp only [List.set_cons_succ, List.countP_cons]
      have := ih h
      omega

/-- The loop visits every event with a forward parent at most once. -/
theorem follow_bound {fuel idx : Nat} {rest : List Event} {r} (h : follow fuel idx rest = some r) :
    follow (rest.length + 1) idx rest = some r := by
  have aux : ∀ {fuel idx rest r}, follow fuel idx rest = some r →
      follow (rest.countP hasParent + 1) idx rest = some r := by
    intro fuel
    induction fuel with
    | zero => intro idx rest r h; simp [follow] at h
    | succ n ih =>
      intro idx rest r h
      unfold follow at h ⊢
      cases hk : rest[idx]? with
      | none => rw [hk] at h; simp at h
      | some e =>
        rw [hk] at h
        cases e with
        | start k fp =>
          simp only at h ⊢
          cases fp with
          | none => simpa using h
          | some d =>
            simp only [Option.map_eq_some_iff] at h
            obtain ⟨q, h1, h2⟩ := h
            have := ih h1
            rw [countP_set_tombstone hk] at this
            simp only [this, Option.map_some, h2]
        | finish => simp at h
        | token => simp at h
        | error => simp at h
  exact follow_fuel_le (aux h) (by have := List.countP_le_length (p := hasParent) (l := rest); omega)

/-- A stretch of events always makes the same calls, whatever comes after it. -/
def Denotes (seg : List Event) (steps : List Step) : Prop :=
  ∀ rest, process (seg ++ rest) = (process rest).map (steps ++ ·)

theorem Denotes.nil : Denotes [] [] := by intro rest; simp

theorem Denotes.append {a b : List Event} {x y : List Step} (ha : Denotes a x) (hb : Denotes b y) :
    Denotes (a ++ b) (x ++ y) := by
  intro rest
  rw [List.append_assoc, ha, hb]
  simp [Option.map_map, Function.comp_def]

theorem process_token (k : SyntaxKind) (n : Nat) (rest : List Event) :
    process (.token k n :: rest) = (process rest).map (.token k n :: ·) := by simp [process, processN]

theorem process_error (rest : List Event) :
    process (.error :: rest) = (process rest).map (.error :: ·) := by simp [process, processN]

theorem process_finish (rest : List Event) :
    process (.finish :: rest) = (process rest).map (.finish :: ·) := by simp [process, processN]

/-- The calls for a list that starts with a `Start` event, split after the calls for this event. -/
def head (k : SyntaxKind) (fp : Option Nat) (rest : List Event) : Option (List Step × List Step) := do
  let (ks, rest') ← chain k fp rest
  let steps ← process rest'
  pure (opened ks, steps)

theorem chain_length {k : SyntaxKind} {fp : Option Nat} {rest : List Event} {ks : List SyntaxKind} {rest' : List Event}
    (h : chain k fp rest = some (ks, rest')) : rest'.length = rest.length := by
  rcases fp with _ | _ | d
  · simp [chain] at h; rw [h.2]
  · simp [chain] at h; rw [h.2]
  · simp only [chain, Option.map_eq_some_iff] at h
    obtain ⟨⟨a, b⟩, h1, h2⟩ := h
    simp at h2
    rw [← h2.2, follow_length h1]

theorem process_start (k : SyntaxKind) (fp : Option Nat) (rest : List Event) :
    process (.start k fp :: rest) = (head k fp rest).map fun p => p.1 ++ p.2 := by
  simp only [process, processN, List.length_cons, head]
  cases h : chain k fp rest with
  | none => simp
  | some q =>
    obtain ⟨ks, rest'⟩ := q
    simp only [Option.bind_eq_bind, Option.bind_some, chain_length h]
    cases processN rest.length rest' <;> simp

theorem opened_tombstone : opened [.TOMBSTONE] = [] := by decide

theorem opened_one {k : SyntaxKind} (hk : k ≠ .TOMBSTONE) : opened [k] = [.start k] := by simp [opened, hk]

theorem head_none (k : SyntaxKind) (rest : List Event) :
    head k none rest = (process rest).map fun x => (opened [k], x) := by
  simp only [head, chain, Option.bind_eq_bind, Option.bind_some]
  cases process rest <;> simp

theorem Denotes.tombstone : Denotes [Event.tombstone] [] := by
  intro rest
  simp only [Event.tombstone, List.cons_append, List.nil_append]
  rw [process_start, head_none]
  simp [opened_tombstone, Option.map_map, Function.comp_def]

theorem Denotes.token (k : SyntaxKind) (n : Nat) : Denotes [.token k n] [.token k n] := by
  intro rest; simp [process_token]

theorem Denotes.error : Denotes [.error] [.error] := by intro rest; simp [process_error]

theorem Denotes.node {k : SyntaxKind} (hk : k ≠ .TOMBSTONE) {inner : List Event} {x : List Step} (h : Denotes inner x) :
    Denotes (.start k none :: inner ++ [.finish]) (.start k :: x ++ [.finish]) := by
  intro rest
  simp only [List.cons_append, List.append_assoc, List.nil_append]
  rw [process_start, head_none, h, process_finish, opened_one hk]
  simp [Option.map_map, Function.comp_def]

/-- The first step of the loop, when the target is the first event. -/
theorem follow_zero (n : Nat) (k2 : SyntaxKind) (fp : Option Nat) (w : List Event) :
    follow (n + 2 + w.length) 0 (.start k2 fp :: w) = (chain k2 fp w).map fun p => (p.1, Event.tombstone :: p.2) := by
  rw [show n + 2 + w.length = (n + 1 + w.length) + 1 by omega]
  simp only [follow, List.getElem?_cons_zero, List.set_cons_zero]
  rcases fp with _ | _ | d
  · simp [chain]
  · rw [show n + 1 + w.length = (n + w.length) + 1 by omega]
    simp [follow, chain, Event.tombstone]
  · simp only [Nat.zero_add, chain]
    have h1 := follow_append (n + 1 + w.length) [Event.tombstone] w d
    simp only [List.length_singleton, List.singleton_append] at h1
    rw [Nat.add_comm d 1, h1]
    have h2 : follow (n + 1 + w.length) d w = follow (w.length + 1) d w := by
      cases hf : follow (w.length + 1) d w with
      | some r => exact follow_fuel_le hf (by omega)
      | none =>
        cases hg : follow (n + 1 + w.length) d w with
        | none => rfl
        | some r =>
          exfalso
          have := follow_bound hg
          rw [hf] at this; simp at this
    rw [h2]
    simp [Option.map_map, Function.comp_def]

theorem opened_cons (k : SyntaxKind) (ks : List SyntaxKind) : opened (k :: ks) = opened ks ++ opened [k] := by
  simp [opened]

theorem chain_jump (k k2 : SyntaxKind) (fp : Option Nat) (a w : List Event) :
    chain k (some (a.length + 1)) (a ++ .start k2 fp :: w) =
      (chain k2 fp w).map fun p => (k :: p.1, a ++ Event.tombstone :: p.2) := by
  have h0 := follow_append ((a ++ .start k2 fp :: w).length + 1) a (.start k2 fp :: w) 0
  have hlen : (a ++ .start k2 fp :: w).length + 1 = a.length + 2 + w.length := by simp; omega
  rw [hlen, follow_zero] at h0
  replace h0 : follow (a.length + 2 + w.length) a.length (a ++ .start k2 fp :: w) = _ := h0
  have h1 : chain k (some (a.length + 1)) (a ++ .start k2 fp :: w) =
      (follow ((a ++ .start k2 fp :: w).length + 1) a.length (a ++ .start k2 fp :: w)).map
        fun p => (k :: p.1, p.2) := rfl
  rw [h1, hlen, h0]
  simp [Option.map_map, Function.comp_def]

/-- The first `Start` of a list with a forward parent just after the stretch `a` that follows it. -/
theorem head_jump {k k2 : SyntaxKind} {fp : Option Nat} {a w : List Event} {x : List Step} (ha : Denotes a x) :
    head k (some (a.length + 1)) (a ++ .start k2 fp :: w) =
      (head k2 fp w).map fun p => (p.1 ++ opened [k], x ++ p.2) := by
  unfold head
  rw [chain_jump]
  cases chain k2 fp w with
  | none => simp
  | some q =>
    obtain ⟨ks, w'⟩ := q
    have ht : process (a ++ Event.tombstone :: w') = (process w').map (x ++ ·) := by
      have := Denotes.append ha Denotes.tombstone w'
      simpa using this
    simp only [Option.map_some, Option.bind_eq_bind, Option.bind_some, ht]
    cases process w' with
    | none => simp
    | some y => simp [opened_cons k ks]

/-- A stretch of events in which the node completed at index `i` can still be given a parent that starts
after the stretch. `p` are the calls before the node starts, `q` those after. -/
structure Ready (i : Nat) (seg : List Event) (k : SyntaxKind) (p q : List Step) : Prop where
  slot : seg[i]? = some (.start k none)
  kind : k ≠ .TOMBSTONE
  denotes : Denotes seg (p ++ Step.start k :: q)
  skip : Denotes (seg.set i Event.tombstone) (p ++ q)
  jump : ∀ k2 fp w, process (seg.set i (Event.start k (some (seg.length - i))) ++ .start k2 fp :: w) =
    (head k2 fp w).map fun r => p ++ r.1 ++ .start k :: q ++ r.2

theorem Ready.node {k : SyntaxKind} (hk : k ≠ .TOMBSTONE) {a inner gap : List Event} {x y z : List Step}
    (ha : Denotes a x) (hi : Denotes inner y) (hg : Denotes gap z) :
    Ready a.length (a ++ Event.start k none :: inner ++ [Event.finish] ++ gap) k x (y ++ Step.finish :: z) where
  slot := by simp
  kind := hk
  denotes := by
    have := (ha.append (hi.node hk)).append hg
    simpa using this
  skip := by
    have hf : Denotes [Event.finish] [.finish] := by intro rest; simp [process_finish]
    have := (((ha.append Denotes.tombstone).append hi).append hf).append hg
    simpa using this
  jump := by
    intro k2 fp w
    have hset : (a ++ Event.start k none :: inner ++ [Event.finish] ++ gap).set a.length
        (.start k (some ((a ++ Event.start k none :: inner ++ [Event.finish] ++ gap).length - a.length))) =
        a ++ .start k (some ((inner ++ [Event.finish] ++ gap).length + 1)) :: (inner ++ [Event.finish] ++ gap) := by
      simp
    rw [hset, List.append_assoc, ha, List.cons_append, process_start]
    have hd : Denotes (inner ++ [Event.finish] ++ gap) (y ++ [Step.finish] ++ z) := by
      refine (hi.append ?_).append hg
      intro rest; simp [process_finish]
    rw [head_jump hd, opened_one hk]
    simp [Option.map_map, Function.comp_def]

/-- `CompletedMarker::precede` and `Marker::complete` for the new marker. -/
theorem Ready.precede {i : Nat} {seg inner : List Event} {k k2 : SyntaxKind} {p q y : List Step}
    (h : Ready i seg k p q) (hi : Denotes inner y) (hk2 : k2 ≠ .TOMBSTONE) :
    Ready seg.length (seg.set i (Event.start k (some (seg.length - i))) ++ Event.start k2 none :: inner ++ [Event.finish]) k2 p
      (Step.start k :: q ++ y ++ [Step.finish]) where
  slot := by
    simp only [List.append_assoc, List.cons_append]
    rw [List.getElem?_append_right (by simp)]
    simp
  kind := hk2
  denotes := by
    intro rest
    simp only [List.append_assoc, List.cons_append, List.nil_append]
    rw [h.jump, head_none, hi, process_finish, opened_one hk2]
    simp [Option.map_map, Function.comp_def]
  skip := by
    intro rest
    simp only [List.append_assoc, List.cons_append, List.nil_append]
    rw [List.set_append_right _ _ (by simp)]
    simp only [List.length_set, Nat.sub_self, List.set_cons_zero, List.append_assoc, List.cons_append,
      List.nil_append, Event.tombstone]
    rw [h.jump, head_none, hi, process_finish, opened_tombstone]
    simp [Option.map_map, Function.comp_def]
  jump := by
    intro k3 fp w
    have hset : (seg.set i (Event.start k (some (seg.length - i))) ++ Event.start k2 none :: inner ++ [Event.finish]).set seg.length
        (.start k2 (some ((seg.set i (Event.start k (some (seg.length - i))) ++ Event.start k2 none :: inner ++
          [Event.finish]).length - seg.length))) =
        seg.set i (Event.start k (some (seg.length - i))) ++
          .start k2 (some ((inner ++ [Event.finish]).length + 1)) :: (inner ++ [Event.finish]) := by
      simp only [List.append_assoc, List.cons_append]
      rw [List.set_append_right _ _ (by simp)]
      simp
    rw [hset, List.append_assoc, List.cons_append, h.jump]
    have hd : Denotes (inner ++ [Event.finish]) (y ++ [Step.finish]) := by
      refine hi.append ?_
      intro rest; simp [process_finish]
    rw [head_jump hd, opened_one hk2]
    simp [Option.map_map, Function.comp_def]

theorem Ready.prepend {i : Nat} {seg a : List Event} {k : SyntaxKind} {p q x : List Step} (ha : Denotes a x)
    (h : Ready i seg k p q) : Ready (a.length + i) (a ++ seg) k (x ++ p) q where
  slot := by rw [List.getElem?_append_right (by omega)]; simpa using h.slot
  kind := h.kind
  denotes := by have := ha.append h.denotes; simpa using this
  skip := by
    rw [List.set_append_right _ _ (by omega)]
    have := ha.append h.skip; simpa using this
  jump := by
    intro k2 fp w
    rw [List.set_append_right _ _ (by omega)]
    simp only [Nat.add_sub_cancel_left, List.length_append, Nat.add_sub_add_left]
    rw [List.append_assoc, ha, h.jump]
    simp [Option.map_map, Function.comp_def]

/-- `CompletedMarker::extend_to` for a marker started just before the stretch. -/
theorem Ready.extend {i : Nat} {seg : List Event} {k : SyntaxKind} {p q : List Step} (h : Ready i seg k p q) :
    Ready (i + 1) (Event.start .TOMBSTONE (some (i + 1)) :: seg) k [] (p ++ q) := by
  have hi : i < seg.length := by
    by_contra hc
    have := h.slot
    rw [List.getElem?_eq_none (by omega)] at this
    simp at this
  have hseg : seg = seg.take i ++ Event.start k none :: seg.drop (i + 1) := by
    have h1 := h.slot
    rw [List.getElem?_eq_getElem hi] at h1
    simp only [Option.some.injEq] at h1
    rw [← h1, List.getElem_cons_drop, List.take_append_drop]
  have hset : ∀ e, seg.set i e = seg.take i ++ e :: seg.drop (i + 1) := by
    intro e
    rw [List.set_eq_take_append_cons_drop, if_pos hi]
  have hfl : ∀ e : Event, ∀ rest fuel, follow fuel i (seg.set i e ++ rest) =
      (follow fuel 0 (e :: (seg.drop (i + 1) ++ rest))).map fun r => (r.1, seg.take i ++ r.2) := by
    intro e rest fuel
    rw [hset, List.append_assoc, List.cons_append]
    have := follow_append fuel (seg.take i) (e :: (seg.drop (i + 1) ++ rest)) 0
    have hl : (seg.take i).length = i := by simp; omega
    rw [Nat.add_zero, hl] at this
    exact this
  have hchain : ∀ rest, chain .TOMBSTONE (some (i + 1)) (seg ++ rest) =
      some ([.TOMBSTONE, k], seg.set i Event.tombstone ++ rest) := by
    intro rest
    have h0 : seg.set i (Event.start k none) = seg := by rw [hset]; exact hseg.symm
    have h1 := hfl (.start k none) rest ((seg ++ rest).length + 1)
    rw [h0] at h1
    unfold chain
    simp only [h1]
    rw [hset]
    simp [follow]
  have hskip : Denotes (Event.start .TOMBSTONE (some (i + 1)) :: seg.set i Event.tombstone) (p ++ q) := by
    intro rest
    rw [List.cons_append, process_start]
    have h1 := hfl Event.tombstone rest ((seg.set i Event.tombstone ++ rest).length + 1)
    have h2 : chain .TOMBSTONE (some (i + 1)) (seg.set i Event.tombstone ++ rest) =
        some ([.TOMBSTONE, .TOMBSTONE], seg.set i Event.tombstone ++ rest) := by
      unfold chain
      simp only [h1]
      conv => rhs; rw [hset]
      simp [follow, Event.tombstone]
    simp only [head, h2, Option.bind_eq_bind, Option.bind_some, h.skip rest]
    cases process rest with
    | none => simp
    | some y => simp [show opened [SyntaxKind.TOMBSTONE, SyntaxKind.TOMBSTONE] = [] by decide]
  refine ⟨?_, h.kind, ?_, ?_, ?_⟩
  · simpa using h.slot
  · intro rest
    rw [List.cons_append, process_start]
    simp only [head, hchain, Option.bind_eq_bind, Option.bind_some, h.skip rest]
    have ho : opened [.TOMBSTONE, k] = [Step.start k] := by simp [opened, h.kind]
    cases process rest with
    | none => simp
    | some y => simp [ho]
  · simpa using hskip
  · intro k2 fp w
    simp only [List.set_cons_succ, List.length_cons, Nat.add_sub_add_right, List.cons_append, List.nil_append]
    rw [process_start]
    -- the second link of the chain
    have hlink : chain .TOMBSTONE (some (i + 1)) (seg.set i (Event.start k (some (seg.length - i))) ++ .start k2 fp :: w) =
        (chain k2 fp w).map fun r => (SyntaxKind.TOMBSTONE :: k :: r.1, seg.set i Event.tombstone ++ Event.tombstone :: r.2) := by
      have h1 := hfl (.start k (some (seg.length - i))) (.start k2 fp :: w)
      conv => lhs; unfold chain
      simp only [h1]
      generalize hF : (seg.set i (Event.start k (some (seg.length - i))) ++ Event.start k2 fp :: w).length = F
      have hF' : F = seg.length + 1 + w.length := by rw [← hF]; simp; omega
      rw [show F + 1 = F + 1 from rfl]
      simp only [follow, List.getElem?_cons_zero, List.set_cons_zero, Nat.zero_add]
      have h2 := follow_append F (Event.tombstone :: seg.drop (i + 1)) (.start k2 fp :: w) 0
      have hl : (Event.tombstone :: seg.drop (i + 1)).length + 0 = seg.length - i := by simp; omega
      rw [hl, List.cons_append] at h2
      rw [h2, hF', show seg.length + 1 + w.length = (seg.length - 1) + 2 + w.length by omega, follow_zero]
      cases chain k2 fp w with
      | none => simp
      | some r => rw [hset]; simp
    have ho : ∀ ks, opened (.TOMBSTONE :: k :: ks) = opened ks ++ [Step.start k] := by
      intro ks; simp [opened, h.kind]
    simp only [head, hlink]
    cases chain k2 fp w with
    | none => simp
    | some r =>
      have hs : process (seg.set i Event.tombstone ++ Event.tombstone :: r.2) = (process r.2).map ((p ++ q) ++ ·) := by
        have := (h.skip.append Denotes.tombstone) r.2
        simpa using this
      simp only [Option.map_some, Option.bind_eq_bind, Option.bind_some, hs, ho]
      cases process r.2 <;> simp

end Verif.Parser
