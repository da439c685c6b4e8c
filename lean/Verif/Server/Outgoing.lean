import Mathlib.Data.List.Basic
import Mathlib.Data.List.Nodup
import Mathlib.Data.List.Perm.Basic

/-! Requests the server sends to the client, and property C19.

Model of `GlobalState::send_request` (global_state.rs 192-202), `complete_request` (204-211) and the
dispatch of responses (main_loop.rs 200). `lsp_server::ReqQueue::outgoing` is an external crate: `register`
takes the next number as id, stores the handler under it; `complete` removes and returns the handler.
The counter is an `i32` in the crate and unbounded here. -/

namespace Verif.Server.Outgoing

/-- `lsp_server::RequestId`: a number or a string. -/
inductive Id where
  | num (n : Int)
  | str (s : String)
deriving DecidableEq, Repr

/-- The state: the next number, the pending handlers, and what was observed: the numbers of the requests
sent, and the handlers that were run (newest first). Handlers are named by the environment. -/
structure State (H : Type) where
  next : Nat := 0
  pending : List (Id × H) := []
  sent : List (Id × H) := []
  ran : List (Id × H) := []

variable {H : Type}

/-- `send_request` (global_state.rs 192-202). -/
def sendRequest (s : State H) (h : H) : State H :=
  let id := Id.num s.next
  { s with next := s.next + 1, pending := (id, h) :: s.pending, sent := (id, h) :: s.sent }

/-- `complete_request` (global_state.rs 204-211). `none` is the panic of `expect`. Requests sent by the
handler itself are separate `send` events. -/
def completeRequest (s : State H) (id : Id) : Option (State H) :=
  match s.pending.find? (fun p => p.1 = id) with
  | none => none
  | some p => some { s with pending := s.pending.filter (fun q => q.1 ≠ id), ran := p :: s.ran }

/-- What can happen. -/
inductive Event (H : Type) where
  | send (h : H)
  | response (id : Id)

/-- One event. -/
def step (s : State H) : Event H → Option (State H)
  | .send h => some (sendRequest s h)
  | .response id => completeRequest s id

/-- A history. -/
def run (s : State H) : List (Event H) → Option (State H)
  | [] => some s
  | e :: es => (step s e).bind (run · es)

/-! ### Specification -/

/-- The ids of the responses in a history. -/
def responses : List (Event H) → List Id
  | [] => []
  | .send _ :: es => responses es
  | .response id :: es => id :: responses es

/-- A client that answers only what it was asked, and at most once: the `k`-th request has the number `k`,
so a response to number `k` has to come after more than `k` requests. `n` counts the requests sent so far
and `done` holds the ids answered. -/
def Answers : Nat → List Id → List (Event H) → Prop
  | _, _, [] => True
  | n, done, .send _ :: es => Answers (n + 1) done es
  | n, done, .response id :: es => (∃ k < n, id = .num k) ∧ id ∉ done ∧ Answers n (id :: done) es

/-! ### Proofs -/

/-- The invariant, with the ids answered so far. -/
structure Inv (s : State H) (done : List Id) : Prop where
  nodup : (s.pending.map (·.1)).Nodup
  pending : ∀ id, id ∈ s.pending.map (·.1) ↔ (∃ k < s.next, id = .num k) ∧ id ∉ done
  ran : s.ran.map (·.1) = done
  sent : s.sent.Perm (s.pending ++ s.ran)
  sentLt : ∀ id ∈ s.sent.map (·.1), ∃ k < s.next, id = .num k
  sentNodup : (s.sent.map (·.1)).Nodup

theorem inv_new : Inv ({} : State H) [] := by
  constructor <;> simp

theorem inv_send {s : State H} {done : List Id} (h : Inv s done) (x : H)
    (hd : ∀ id ∈ done, ∃ k < s.next, id = .num k) : Inv (sendRequest s x) done := by
  have hn : Id.num s.next ∉ s.pending.map (·.1) := by
    rw [h.pending]
    rintro ⟨⟨k, hk, he⟩, -⟩
    cases he
    exact Nat.lt_irrefl _ hk
  have hnd : Id.num s.next ∉ done := by
    intro hx
    obtain ⟨k, hk, he⟩ := hd _ hx
    cases he
    exact Nat.lt_irrefl _ hk
  have hns : Id.num s.next ∉ s.sent.map (·.1) := by
    intro hx
    obtain ⟨k, hk, he⟩ := h.sentLt _ hx
    cases he
    exact Nat.lt_irrefl _ hk
  refine ⟨?_, ?_, h.ran, ?_, ?_, ?_⟩
  · simp only [sendRequest, List.map_cons, List.nodup_cons]
    exact ⟨hn, h.nodup⟩
  · intro id
    simp only [sendRequest, List.map_cons, List.mem_cons, h.pending]
    constructor
    · rintro (rfl | ⟨⟨k, hk, rfl⟩, h2⟩)
      · exact ⟨⟨s.next, Nat.lt_succ_self _, rfl⟩, hnd⟩
      · exact ⟨⟨k, Nat.lt_succ_of_lt hk, rfl⟩, h2⟩
    · rintro ⟨⟨k, hk, rfl⟩, h2⟩
      rcases Nat.lt_succ_iff_lt_or_eq.1 hk with hk | rfl
      · exact Or.inr ⟨⟨k, hk, rfl⟩, h2⟩
      · exact Or.inl rfl
  · exact (h.sent.cons _)
  · intro id hid
    simp only [sendRequest, List.map_cons, List.mem_cons] at hid ⊢
    rcases hid with rfl | hid
    · exact ⟨s.next, Nat.lt_succ_self _, rfl⟩
    · obtain ⟨k, hk, he⟩ := h.sentLt _ hid
      exact ⟨k, Nat.lt_succ_of_lt hk, he⟩
  · simp only [sendRequest, List.map_cons, List.nodup_cons]
    exact ⟨hns, h.sentNodup⟩

theorem perm_filter_cons (l : List (Id × H)) (hn : (l.map (·.1)).Nodup) (p : Id × H) (hp : p ∈ l) :
    l.Perm (p :: l.filter (fun q => q.1 ≠ p.1)) := by
  induction l with
  | nil => cases hp
  | cons a l ih =>
    simp only [List.map_cons, List.nodup_cons] at hn
    rcases List.mem_cons.1 hp with rfl | hp
    · have : l.filter (fun q => q.1 ≠ p.1) = l := by
        rw [List.filter_eq_self]
        intro q hq
        have : q.1 ≠ p.1 := fun he => hn.1 (he ▸ List.mem_map_of_mem hq)
        simpa using this
      have h2 : (p :: l).filter (fun q => q.1 ≠ p.1) = l.filter (fun q => q.1 ≠ p.1) := by simp
      rw [h2, this]
    · have ha : a.1 ≠ p.1 := fun he => hn.1 (he ▸ List.mem_map_of_mem hp)
      have h2 : (a :: l).filter (fun q => q.1 ≠ p.1) = a :: l.filter (fun q => q.1 ≠ p.1) := by simp [ha]
      rw [h2]
      exact ((ih hn.2 hp).cons a).trans (List.Perm.swap ..)

theorem inv_response {s : State H} {done : List Id} (h : Inv s done) (id : Id)
    (h1 : ∃ k < s.next, id = .num k) (h2 : id ∉ done) :
    ∃ s' x, completeRequest s id = some s' ∧ Inv s' (id :: done) ∧ s'.next = s.next ∧
      (id, x) ∈ s.sent ∧ s'.ran = (id, x) :: s.ran := by
  have hm : id ∈ s.pending.map (·.1) := (h.pending id).2 ⟨h1, h2⟩
  obtain ⟨p, hp, he⟩ := List.mem_map.1 hm
  have hf : (s.pending.find? (fun p => p.1 = id)).isSome := by
    rw [List.find?_isSome]
    exact ⟨p, hp, by simpa using he⟩
  obtain ⟨q, hq⟩ := Option.isSome_iff_exists.1 hf
  have hq1 : q.1 = id := by simpa using List.find?_some hq
  have hq2 := List.mem_of_find?_eq_some hq
  obtain ⟨qi, x⟩ := q
  simp only at hq1
  subst hq1
  refine ⟨{ s with pending := s.pending.filter (fun q => q.1 ≠ qi), ran := (qi, x) :: s.ran }, x,
    by simp [completeRequest, hq], ⟨?_, ?_, ?_, ?_, h.sentLt, h.sentNodup⟩, rfl, ?_, rfl⟩
  · exact h.nodup.sublist ((List.filter_sublist).map _)
  · intro id
    have := h.pending id
    simp only [List.mem_map, List.mem_filter, decide_eq_true_eq, List.mem_cons, not_or] at this ⊢
    constructor
    · rintro ⟨a, ⟨ha1, ha2⟩, rfl⟩
      obtain ⟨b1, b2⟩ := this.1 ⟨a, ha1, rfl⟩
      exact ⟨b1, ha2, b2⟩
    · rintro ⟨b1, b2, b3⟩
      obtain ⟨a, ha1, rfl⟩ := this.2 ⟨b1, b3⟩
      exact ⟨a, ⟨ha1, b2⟩, rfl⟩
  · simp [h.ran]
  · refine h.sent.trans ?_
    refine (List.Perm.append_right _ (perm_filter_cons _ h.nodup _ hq2)).trans ?_
    simp only [List.cons_append]
    exact List.perm_middle.symm
  · exact h.sent.mem_iff.2 (List.mem_append_left _ hq2)

/-- **C19.** For a client that answers only requests it was sent, each at most once (in any order), the
server never panics, and after every history exactly the handlers of the answered requests have run, each
once and in the order of the responses; the handler that runs is the one given when the request was
sent. -/
theorem C19_responses_partial (es : List (Event H)) (h : Answers 0 [] es) :
    ∃ s : State H, run {} es = some s ∧ s.ran.map (·.1) = (responses es).reverse ∧
      (∀ p ∈ s.ran, p ∈ s.sent) ∧ (s.ran.map (·.1)).Nodup ∧ (s.sent.map (·.1)).Nodup := by
  suffices H : ∀ (es : List (Event H)) (s0 : State H) (done : List Id), Inv s0 done →
      (∀ id ∈ done, ∃ k < s0.next, id = .num k) → done.Nodup → Answers s0.next done es →
      ∃ s : State H, run s0 es = some s ∧ ∃ done', Inv s done' ∧ done'.Nodup ∧
        done' = (responses es).reverse ++ done by
    obtain ⟨s, h1, d, h2, h3, h4⟩ := H es {} [] inv_new (by simp) List.nodup_nil h
    refine ⟨s, h1, by rw [h2.ran, h4, List.append_nil], fun p hp => ?_, h2.ran ▸ h3, h2.sentNodup⟩
    exact h2.sent.mem_iff.2 (List.mem_append_right _ hp)
  intro es
  induction es with
  | nil => intro s0 done h0 _ hn _; exact ⟨s0, rfl, done, h0, hn, rfl⟩
  | cons e es ih =>
    intro s0 done h0 hd hn ha
    cases e with
    | send x =>
      obtain ⟨s, h1, d, h2, h3, h4⟩ := ih (sendRequest s0 x) done (inv_send h0 x hd)
        (fun id hid => by
          obtain ⟨k, hk, he⟩ := hd id hid
          exact ⟨k, Nat.lt_succ_of_lt hk, he⟩) hn ha
      exact ⟨s, h1, d, h2, h3, h4⟩
    | response id =>
      obtain ⟨ha1, ha2, ha3⟩ := ha
      obtain ⟨s1, x, e1, i1, n1, -, -⟩ := inv_response h0 id ha1 ha2
      rw [← n1] at ha3
      obtain ⟨s, h1, d, h2, h3, h4⟩ := ih s1 (id :: done) i1 (fun i hi => by
        rw [n1]
        rcases List.mem_cons.1 hi with rfl | hi
        · exact ha1
        · exact hd i hi) (List.nodup_cons.2 ⟨ha2, hn⟩) ha3
      refine ⟨s, ?_, d, h2, h3, ?_⟩
      · simp only [run, step, e1, Option.bind_some]; exact h1
      · rw [h4]; simp [responses]

/-- A client that answers two requests in the opposite order. -/
example : Answers 0 [] [.send "a", .send "b", .response (.num 1), .response (.num 0)] ∧
    (run ({} : State String) [.send "a", .send "b", .response (.num 1), .response (.num 0)]).map (·.ran) =
      some [(.num 0, "a"), (.num 1, "b")] := by
  refine ⟨⟨⟨1, by decide, rfl⟩, by simp, ⟨0, by decide, rfl⟩, by simp, trivial⟩, by decide +kernel⟩

/-- **C19 (exactly when it fails).** In every reachable state, a response brings the server down exactly if
its id is not that of a pending request. -/
theorem C19_panics_iff (s : State H) (id : Id) :
    completeRequest s id = none ↔ id ∉ s.pending.map (·.1) := by
  unfold completeRequest
  split
  · next h =>
    simp only [List.find?_eq_none, decide_eq_true_eq] at h
    simp only [List.mem_map, not_exists, not_and, true_iff]
    exact h
  · next p h =>
    simp only [reduceCtorEq, List.mem_map, not_exists, not_and, false_iff, not_forall, not_not]
    exact ⟨p, List.mem_of_find?_eq_some h, by simpa using List.find?_some h⟩

/-- **C19 fails.** A response with an unknown id, and a second response to the same request, bring the
server down. -/
theorem C19_unknown_response_fails :
    run ({} : State String) [.response (.num 0)] = none ∧
    run ({} : State String) [.send "a", .response (.str "0")] = none ∧
    run ({} : State String) [.send "a", .response (.num 0), .response (.num 0)] = none := by
  refine ⟨rfl, ?_, ?_⟩ <;> decide +kernel

end Verif.Server.Outgoing
