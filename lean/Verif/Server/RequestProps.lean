import Verif.Server.Requests

/-! Property theorems about requests: C14, C15, C16. -/

set_option linter.unusedSectionVars false

namespace Verif.Server

variable {Id : Type} [DecidableEq Id]

/-! ### Specification -/

/-- How often a request with this id arrives in a history. -/
def arrivals (id : Id) : List (Step Id) → Nat
  | [] => 0
  | .request r _ :: h => (if r.id = id then 1 else 0) + arrivals id h
  | _ :: h => arrivals id h

/-- How often the client received a response with this id. -/
def answers (id : Id) (s : State Id) : Nat := (s.sent.map (·.1)).count id

/-! ### C14 -/

/-- Responses sent plus one if still pending. -/
def credit (id : Id) (s : State Id) : Nat := answers id s + if id ∈ s.pending then 1 else 0

theorem credit_respond (id : Id) (s : State Id) (j : Id) (a : Answer) :
    credit id (respond s j a) = credit id s := by
  unfold credit answers respond
  by_cases h : j ∈ s.pending
  · simp only [h, if_true, List.map_append, List.map_cons, List.map_nil, List.count_append,
      List.mem_filter, decide_eq_true_eq]
    by_cases hj : j = id
    · subst hj; simp [h]
    · have : id ≠ j := fun h => hj h.symm
      simp [hj, this]
  · simp [h]

theorem credit_ran (id : Id) (s : State Id) (r : List Id) : credit id { s with ran := r } = credit id s := rfl

theorem credit_parseThen (id : Id) (s : State Id) (r : Request Id) (k : State Id → State Id)
    (hk : ∀ s, credit id (k s) = credit id s) : credit id (parseThen s r k) = credit id s := by
  unfold parseThen
  split
  · exact hk s
  · exact credit_respond ..

theorem credit_spawn (id : Id) (s : State Id) (r : Request Id) (b c) :
    credit id (spawn s r b c) = credit id s := credit_parseThen _ _ _ _ fun _ => rfl

theorem credit_dispatchMode (id : Id) (s : State Id) (r : Request Id) (o : Outcome) (m : Mode) :
    credit id (dispatchMode s r o m) = credit id s := by
  cases m with
  | sync =>
    refine credit_parseThen _ _ _ _ fun s => ?_
    simp only
    split
    · rw [credit_respond]; rfl
    · rfl
  | fmt => exact credit_spawn ..
  | pool b =>
    simp only [dispatchMode]; split
    · exact credit_spawn ..
    · exact credit_respond ..
  | poolVfsDefault =>
    simp only [dispatchMode]; split
    · exact credit_spawn ..
    · exact credit_respond ..
  | identity b =>
    simp only [dispatchMode]; split
    · exact credit_spawn ..
    · exact credit_parseThen _ _ _ _ fun s => credit_respond ..

theorem credit_dispatchChain (id : Id) (s : State Id) (r : Request Id) (o : Outcome) (l) :
    credit id (dispatchChain s r o l) = credit id s := by
  induction l with
  | nil => exact credit_respond ..
  | cons p l ih =>
    obtain ⟨m, mode⟩ := p
    rw [dispatchChain]; split
    · exact credit_dispatchMode ..
    · exact ih

theorem credit_onRequest (id : Id) (s : State Id) (r : Request Id) (o : Outcome) :
    credit id (onRequest s r o) = credit id s := by
  unfold onRequest
  split
  · exact credit_parseThen _ _ _ _ fun s => by rw [credit_respond]; rfl
  · split
    · exact credit_respond ..
    · exact credit_dispatchChain ..

theorem credit_register (id : Id) (s : State Id) (j : Id) :
    credit id (register s j) ≤ credit id s + if j = id then 1 else 0 := by
  unfold credit register
  simp only
  have : answers id { s with pending := if j ∈ s.pending then s.pending else j :: s.pending } = answers id s := rfl
  rw [this]
  by_cases h : j ∈ s.pending
  · simp [h]
  · by_cases hj : j = id
    · subst hj; simp [h]
    · have : id ≠ j := fun h => hj h.symm
      simp [h, hj, this]

theorem credit_step (id : Id) (s : State Id) (e : Step Id) :
    credit id (step s e) ≤ credit id s + arrivals id [e] := by
  cases e with
  | request r o =>
    simp only [step, onNewRequest, arrivals]
    rw [credit_onRequest]
    exact credit_register ..
  | cancel j => simp only [step, cancel]; rw [credit_respond]; simp [arrivals]
  | finish i o =>
    simp only [step]
    split <;> simp [credit, answers, arrivals]
  | task i o =>
    simp only [step]
    split
    · next t _ =>
      cases t with
      | response j a => simp only [handleTask]; rw [credit_respond]; simp [credit, answers, arrivals]
      | retry r =>
        simp only [handleTask]
        split
        · rw [credit_onRequest]; simp [credit, answers, arrivals]
        · simp [credit, answers, arrivals]
    · simp [arrivals]
  | vfs b => exact Nat.le_refl _

theorem arrivals_append (id : Id) (a b : List (Step Id)) : arrivals id (a ++ b) = arrivals id a + arrivals id b := by
  induction a with
  | nil => simp [arrivals]
  | cons e a ih => cases e <;> simp [arrivals, ih]; omega

theorem credit_run (id : Id) (s : State Id) (h : List (Step Id)) :
    credit id (run s h) ≤ credit id s + arrivals id h := by
  induction h generalizing s with
  | nil => simp [run, arrivals]
  | cons e h ih =>
    have h1 := ih (step s e)
    have h2 := credit_step id s e
    have h3 := arrivals_append id [e] h
    simp only [List.singleton_append] at h3
    show credit id (run (step s e) h) ≤ _
    omega

/-- **C14.** In every history, with every interleaving of requests, cancellations, worker completions and
retries: the client receives at most as many responses with an id as it sent requests with this id, and
strictly less while one is pending. -/
theorem C14_at_most_one_response (h : List (Step Id)) (id : Id) :
    answers id (run State.init h) ≤ arrivals id h ∧
    (id ∈ (run State.init h).pending → answers id (run State.init h) < arrivals id h) := by
  have h1 := credit_run id State.init h
  have h2 : credit id (State.init : State Id) = 0 := by simp [credit, answers, State.init]
  rw [h2] at h1
  unfold credit at h1
  constructor
  · split at h1 <;> omega
  · intro hp; rw [if_pos hp] at h1; omega

/-- **C14, for unique ids**: no id occurs twice among the responses, and only ids of requests occur. -/
theorem C14_unique_ids (h : List (Step Id)) (hu : ∀ id, arrivals id h ≤ 1) :
    ((run State.init h).sent.map (·.1)).Nodup ∧
    ∀ id ∈ (run State.init h).sent.map (·.1), arrivals id h = 1 := by
  have key := fun id => (C14_at_most_one_response h id).1
  constructor
  · rw [List.nodup_iff_count]
    exact fun id => Nat.le_trans (key id) (hu id)
  · intro id hid
    have h1 : 1 ≤ answers id (run State.init h) := List.one_le_count_iff.2 hid
    have h2 := key id
    have h3 := hu id
    omega

/-- A cancelled request whose worker finishes later: answered once, by the cancellation. -/
example : (run State.init [.vfs true, .request ⟨1, "textDocument/hover", true⟩ .value, .finish 0 .value, .cancel 1,
    .task 0 .value]).sent = [((1 : Nat), .error requestCanceled)] := by decide +kernel

/-! ### C15 -/

/-- Somebody is still working for the id. -/
def InFlight (s : State Id) (id : Id) : Prop :=
  (∃ w ∈ s.workers, w.req.id = id) ∨
  (∃ t ∈ s.inbox, (∃ a, t = .response id a) ∨ (∃ r, t = .retry r ∧ r.id = id))

/-- Every pending request is worked for. -/
def Attended (s : State Id) : Prop := ∀ id ∈ s.pending, InFlight s id

/-- All pending requests other than `x` are worked for. -/
def AttendedBut (x : Id) (s : State Id) : Prop := ∀ id ∈ s.pending, id ≠ x → InFlight s id

theorem respond_attended {s : State Id} {x : Id} {a : Answer} (h : AttendedBut x s) :
    Attended (respond s x a) := by
  unfold respond
  split
  · intro id hid
    obtain ⟨h1, h2⟩ := List.mem_filter.1 hid
    exact h id h1 (by simpa using h2)
  · next hn =>
    intro id hid
    exact h id hid (fun he => hn (he ▸ hid))

theorem toAnswer_none {o : Outcome} (h : toAnswer o = none) : o = .cancelled ∨ o = .panickedCancelled := by
  cases o <;> simp_all [toAnswer]

/-- The steps in which a handler on the main thread is cancelled by the database. -/
def SyncCancelled (r : Request Id) (o : Outcome) : Prop :=
  r.method = "textDocument/selectionRange" ∧ (o = .cancelled ∨ o = .panickedCancelled)

theorem spawn_attended {s : State Id} {r : Request Id} {b c} (h : AttendedBut r.id s) :
    Attended (spawn s r b c) := by
  unfold spawn parseThen
  split
  · intro id hid
    by_cases he : id = r.id
    · exact Or.inl ⟨_, List.mem_append_right _ (List.mem_singleton_self _), he.symm⟩
    · rcases h id hid he with ⟨w, hw, e⟩ | h'
      · exact Or.inl ⟨w, List.mem_append_left _ hw, e⟩
      · exact Or.inr h'
  · exact respond_attended h

theorem dispatchMode_attended {s : State Id} {r : Request Id} {o : Outcome} {m : Mode}
    (h : AttendedBut r.id s) (hs : m = .sync → toAnswer o ≠ none) : Attended (dispatchMode s r o m) := by
  cases m with
  | sync =>
    simp only [dispatchMode, parseThen]
    split
    · cases ho : toAnswer o with
      | none => exact absurd ho (hs rfl)
      | some a => exact respond_attended (s := { s with ran := s.ran ++ [r.id] }) h
    · exact respond_attended h
  | fmt => exact spawn_attended h
  | pool b =>
    simp only [dispatchMode]; split
    · exact spawn_attended h
    · exact respond_attended h
  | poolVfsDefault =>
    simp only [dispatchMode]; split
    · exact spawn_attended h
    · exact respond_attended h
  | identity b =>
    simp only [dispatchMode]; split
    · exact spawn_attended h
    · unfold parseThen
      split <;> exact respond_attended h

theorem dispatchChain_attended {s : State Id} {r : Request Id} {o : Outcome} (l : List (String × Mode))
    (h : AttendedBut r.id s) (hs : ∀ p ∈ l, p.2 = .sync → r.method = p.1 → toAnswer o ≠ none) :
    Attended (dispatchChain s r o l) := by
  induction l with
  | nil => exact respond_attended h
  | cons p l ih =>
    obtain ⟨m, mode⟩ := p
    rw [dispatchChain]; split
    · next hm => exact dispatchMode_attended h fun hsync => hs _ (List.mem_cons_self ..) hsync hm
    · exact ih fun p hp => hs p (List.mem_cons_of_mem _ hp)

theorem routes_sync : ∀ p ∈ routes, p.2 = Mode.sync → p.1 = "textDocument/selectionRange" := by
  decide +kernel

theorem onRequest_attended {s : State Id} {r : Request Id} {o : Outcome} (h : AttendedBut r.id s)
    (hs : ¬ SyncCancelled r o) : Attended (onRequest s r o) := by
  unfold onRequest
  split
  · unfold parseThen
    split
    · exact respond_attended (s := { s with shutdown := true }) h
    · exact respond_attended h
  · split
    · exact respond_attended h
    · refine dispatchChain_attended _ h fun p hp hsync hm ho => hs ⟨?_, toAnswer_none ho⟩
      rw [hm]; exact routes_sync p hp hsync

/-- No handler on the main thread is cancelled in the history. -/
def NoSyncCancelled (h : List (Step Id)) : Prop :=
  (∀ r o, Step.request r o ∈ h → ¬ SyncCancelled r o) ∧
  (∀ i o, Step.task i o ∈ h → o ≠ .cancelled ∧ o ≠ .panickedCancelled)

theorem inFlight_erase_worker {s : State Id} {i : Nat} {w : Worker Id} {o : Outcome} {id : Id}
    (hi : s.workers[i]? = some w) (h : InFlight s id) :
    InFlight { s with workers := s.workers.eraseIdx i, inbox := s.inbox ++ [workerTask w o] } id := by
  rcases h with ⟨w', hw, e⟩ | ⟨t, ht, e⟩
  · by_cases hww : w' = w
    · subst hww
      right
      refine ⟨_, List.mem_append_right _ (List.mem_singleton_self _), ?_⟩
      unfold workerTask
      split
      · exact Or.inl ⟨_, by rw [e]⟩
      · split
        · exact Or.inr ⟨_, rfl, e⟩
        · exact Or.inl ⟨_, by rw [e]⟩
    · left
      refine ⟨w', ?_, e⟩
      rw [List.mem_eraseIdx_iff_getElem?]
      obtain ⟨k, hk⟩ := List.mem_iff_getElem?.1 hw
      refine ⟨k, ?_, hk⟩
      rintro rfl
      rw [hi, Option.some.injEq] at hk
      exact hww hk.symm
  · exact Or.inr ⟨t, List.mem_append_left _ ht, e⟩

theorem step_attended {s : State Id} {e : Step Id} (h : Attended s) (hs : NoSyncCancelled [e]) :
    Attended (step s e) := by
  cases e with
  | request r o =>
    refine onRequest_attended ?_ (hs.1 r o (List.mem_singleton_self _))
    intro id hid hne
    unfold register at hid
    simp only at hid
    split at hid
    · exact h id hid
    · rcases List.mem_cons.1 hid with h' | h'
      · exact absurd h' hne
      · exact h id h'
  | cancel j => exact respond_attended fun id hid _ => h id hid
  | finish i o =>
    simp only [step]
    split
    · next w hw => intro id hid; exact inFlight_erase_worker hw (h id hid)
    · exact h
  | task i o =>
    simp only [step]
    split
    · next t ht =>
      -- only the id of the message may lose its attendant
      have key : ∀ x, (∀ id, ((∃ a, t = .response id a) ∨ (∃ r, t = .retry r ∧ r.id = id)) → id = x) →
          AttendedBut x { s with inbox := s.inbox.eraseIdx i } := by
        intro x hx id hid hne
        rcases h id hid with h' | ⟨t', ht', e⟩
        · exact Or.inl h'
        · right
          refine ⟨t', ?_, e⟩
          simp only
          rw [List.mem_eraseIdx_iff_getElem?]
          obtain ⟨k, hk⟩ := List.mem_iff_getElem?.1 ht'
          refine ⟨k, ?_, hk⟩
          rintro rfl
          rw [ht, Option.some.injEq] at hk
          subst hk
          exact hne (hx id e)
      cases t with
      | response j a =>
        exact respond_attended (key j (by rintro id (⟨a', h⟩ | ⟨r, h, -⟩) <;> cases h; rfl))
      | retry r =>
        have hk := key r.id (by rintro id (⟨a', h⟩ | ⟨r', h, h'⟩) <;> cases h; exact h'.symm)
        simp only [handleTask]
        split
        · exact onRequest_attended hk fun hc =>
            hc.2.elim (hs.2 i o (List.mem_singleton_self _)).1 (hs.2 i o (List.mem_singleton_self _)).2
        · next hn =>
          intro id hid
          exact hk id hid (fun he => hn (he ▸ hid))
    · exact h
  | vfs b => exact h

theorem run_attended {s : State Id} {h : List (Step Id)} (hA : Attended s) (hs : NoSyncCancelled h) :
    Attended (run s h) := by
  induction h generalizing s with
  | nil => exact hA
  | cons e h ih =>
    refine ih (step_attended hA ⟨?_, ?_⟩) ⟨?_, ?_⟩
    · intro r o hm; exact hs.1 r o (by simp at hm; simp [hm])
    · intro r o hm; exact hs.2 r o (by simp at hm; simp [hm])
    · intro r o hm; exact hs.1 r o (List.mem_cons_of_mem _ hm)
    · intro r o hm; exact hs.2 r o (List.mem_cons_of_mem _ hm)

/-- Every id that arrived is pending or was answered. -/
theorem arrived_credit (h : List (Step Id)) (id : Id) (ha : 0 < arrivals id h) (s : State Id) :
    0 < credit id (run s h) := by
  have mono : ∀ (s : State Id) (e : Step Id), credit id s ≤ credit id (step s e) := by
    intro s e
    cases e with
    | request r o =>
      simp only [step, onNewRequest]
      rw [credit_onRequest]
      unfold credit register
      simp only
      have : answers id { s with pending := if r.id ∈ s.pending then s.pending else r.id :: s.pending } =
        answers id s := rfl
      rw [this]
      by_cases hp : id ∈ s.pending
      · have : id ∈ (if r.id ∈ s.pending then s.pending else r.id :: s.pending) := by
          split
          · exact hp
          · exact List.mem_cons_of_mem _ hp
        rw [if_pos hp, if_pos this]; exact Nat.le_refl _
      · simp [hp]
    | cancel j => simp only [step, cancel]; rw [credit_respond]; exact Nat.le_refl _
    | finish i o => simp only [step]; split <;> simp [credit, answers]
    | task i o =>
      simp only [step]
      split
      · next t _ =>
        cases t with
        | response j a => simp only [handleTask]; rw [credit_respond]; simp [credit, answers]
        | retry r =>
          simp only [handleTask]
          split
          · rw [credit_onRequest]; simp [credit, answers]
          · simp [credit, answers]
      · simp
    | vfs b => exact Nat.le_refl _
  have monoRun : ∀ (h : List (Step Id)) (s : State Id), credit id s ≤ credit id (run s h) := by
    intro h
    induction h with
    | nil => intro s; exact Nat.le_refl _
    | cons e h ih => intro s; exact Nat.le_trans (mono s e) (ih _)
  induction h generalizing s with
  | nil => simp [arrivals] at ha
  | cons e h ih =>
    show 0 < credit id (run (step s e) h)
    by_cases h0 : 0 < arrivals id h
    · exact ih h0 _
    · refine Nat.lt_of_lt_of_le ?_ (monoRun h _)
      cases e with
      | request r o =>
        simp only [arrivals] at ha
        have hr : r.id = id := by
          by_contra hne
          simp only [hne, if_false] at ha
          omega
        simp only [step, onNewRequest]
        rw [credit_onRequest]
        unfold credit register
        simp only
        rw [hr]
        have : id ∈ (if id ∈ s.pending then s.pending else id :: s.pending) := by
          split
          · assumption
          · exact List.mem_cons_self ..
        rw [if_pos this]
        omega
      | _ => simp only [arrivals] at ha; omega

/-- **C15, partial.** In every history in which no handler on the main thread is cancelled by the
database: every request that arrived has been answered, or a worker runs for it, or its result or retry is
on the way to the main loop. So once no worker runs and no message waits, everything is answered. Missing:
the cancellation of `textDocument/selectionRange`, see `C15_sync_cancelled_fails`. -/
theorem C15_answered_or_in_flight_partial (h : List (Step Id)) (hs : NoSyncCancelled h) (id : Id)
    (ha : 0 < arrivals id h) :
    0 < answers id (run State.init h) ∨ InFlight (run State.init h) id := by
  have h1 := arrived_credit h id ha State.init
  have h2 := run_attended (s := (State.init : State Id)) (by intro id hid; simp [State.init] at hid) hs
  by_cases hp : id ∈ (run State.init h).pending
  · exact Or.inr (h2 id hp)
  · rw [credit, if_neg hp] at h1; exact Or.inl h1

/-- Amount of work left. -/
def work (s : State Id) : Nat :=
  2 * s.workers.length + (s.inbox.map fun t => match t with | .response .. => 1 | .retry _ => 3).sum

/-- A step of a worker that is not cancelled, or the handling of a message. -/
def Progress (s : State Id) : Step Id → Prop
  | .finish i o => i < s.workers.length ∧ o ≠ .cancelled ∧ o ≠ .panickedCancelled
  | .task i _ => i < s.inbox.length
  | _ => False

theorem sum_eraseIdx (f : Task Id → Nat) (l : List (Task Id)) (i : Nat) (t : Task Id) (h : l[i]? = some t) :
    ((l.eraseIdx i).map f).sum + f t = (l.map f).sum := by
  induction l generalizing i with
  | nil => simp at h
  | cons a l ih =>
    cases i with
    | zero => simp at h; subst h; simp [Nat.add_comm]
    | succ i =>
      simp at h
      have := ih i h
      simp only [List.eraseIdx_cons_succ, List.map_cons, List.sum_cons]
      omega

theorem work_respond (s : State Id) (j : Id) (a : Answer) : work (respond s j a) = work s := by
  unfold respond; split <;> rfl

theorem work_parseThen (s : State Id) (r : Request Id) (k : State Id → State Id) (n : Nat)
    (hk : work (k s) ≤ work s + n) : work (parseThen s r k) ≤ work s + n := by
  unfold parseThen; split
  · exact hk
  · rw [work_respond]; omega

theorem work_spawn (s : State Id) (r : Request Id) (b c) : work (spawn s r b c) ≤ work s + 2 := by
  refine work_parseThen _ _ _ _ ?_
  simp [work]; omega

theorem work_onRequest (s : State Id) (r : Request Id) (o : Outcome) : work (onRequest s r o) ≤ work s + 2 := by
  unfold onRequest
  split
  · refine work_parseThen _ _ _ _ ?_
    rw [work_respond]; simp [work]
  · split
    · rw [work_respond]; omega
    · generalize routes = l
      induction l with
      | nil => rw [dispatchChain, work_respond]; omega
      | cons p l ih =>
        obtain ⟨m, mode⟩ := p
        rw [dispatchChain]
        split
        · cases mode with
          | sync =>
            refine work_parseThen _ _ _ _ ?_
            simp only
            split
            · rw [work_respond]; simp [work]
            · simp [work]
          | fmt => exact work_spawn ..
          | pool b =>
            simp only [dispatchMode]; split
            · exact work_spawn ..
            · rw [work_respond]; omega
          | poolVfsDefault =>
            simp only [dispatchMode]; split
            · exact work_spawn ..
            · rw [work_respond]; omega
          | identity b =>
            simp only [dispatchMode]; split
            · exact work_spawn ..
            · refine work_parseThen _ _ _ _ ?_
              rw [work_respond]; omega
        · exact ih

/-- **C15 (termination).** Every step of a worker that is not cancelled, and every handled message,
decreases a natural number; a step is possible as long as something is in flight. Hence, whatever the order
in which workers and messages are served, without new requests and further cancellations everything is
answered after finitely many steps. -/
theorem C15_progress (s : State Id) :
    (∀ e, Progress s e → work (step s e) < work s) ∧
    ((∃ id, InFlight s id) → ∃ e, Progress s e) := by
  constructor
  · intro e he
    cases e with
    | finish i o =>
      obtain ⟨hi, ho1, ho2⟩ := he
      have ho : toAnswer o ≠ none := fun h => (toAnswer_none h).elim ho1 ho2
      simp only [step]
      rw [List.getElem?_eq_getElem hi]
      simp only [work, List.map_append, List.sum_append, List.map_cons, List.map_nil, List.sum_cons,
        List.sum_nil, List.length_eraseIdx, hi, if_true]
      have : workerTask s.workers[i] o = .response s.workers[i].req.id ((toAnswer o).get (by simpa [Option.isSome_iff_ne_none] using ho)) := by
        unfold workerTask
        split
        · next a ha => simp [ha]
        · next ha => exact absurd ha ho
      rw [this]
      simp only
      omega
    | task i o =>
      have hi : i < s.inbox.length := he
      simp only [step]
      have hg := List.getElem?_eq_getElem hi
      rw [hg]
      simp only
      have hsum := sum_eraseIdx (fun t => match t with | .response .. => 1 | .retry _ => 3) s.inbox i _ hg
      have hw : work { s with inbox := s.inbox.eraseIdx i } +
          (match s.inbox[i] with | .response .. => 1 | .retry _ => 3) = work s := by
        unfold work; simp only at hsum ⊢; omega
      cases ht : s.inbox[i] with
      | response j a =>
        rw [ht] at hw
        simp only [handleTask]; rw [work_respond]; simp only at hw; omega
      | retry r =>
        rw [ht] at hw
        simp only at hw
        simp only [handleTask]
        split
        · have := work_onRequest { s with inbox := s.inbox.eraseIdx i } r o
          omega
        · omega
    | _ => exact absurd he (by simp [Progress])
  · rintro ⟨id, ⟨w, hw, -⟩ | ⟨t, ht, -⟩⟩
    · exact ⟨.finish 0 .value, List.length_pos_of_mem hw, by simp⟩
    · exact ⟨.task 0 .value, List.length_pos_of_mem ht⟩

/-- What the client is told when a worker ends, according to the protocol: results and errors of the handler
are passed on, a panic is an internal error, and a cancelled computation that is not retried is
`ServerCancelled` for pulled diagnostics and `ContentModified` for everything else. -/
def expectedAnswer (diagnostics : Bool) : Outcome → Answer
  | .value => .result
  | .lspError c => .error c
  | .otherError => .error (-32603)
  | .panicked => .error (-32603)
  | .cancelled => .error (if diagnostics then -32802 else -32801)
  | .panickedCancelled => .error (if diagnostics then -32802 else -32801)

/-- **C15 (answers of workers).** When the worker of a pending request ends and its message is handled, the
client gets the documented answer; only a cancelled computation may be retried instead. -/
theorem C15_worker_answer (s : State Id) (i : Nat) (w : Worker Id) (o o' : Outcome)
    (hw : s.workers[i]? = some w) (hp : w.req.id ∈ s.pending)
    (hc : (w.retry = true ∧ (o = .cancelled ∨ o = .panickedCancelled)) → False) (d : Bool)
    (hd : w.cancelCode = if d then -32802 else -32801) :
    let s' := step (step s (.finish i o)) (.task s.inbox.length o')
    s'.sent = s.sent ++ [(w.req.id, expectedAnswer d o)] ∧ s'.inbox = s.inbox ∧ w.req.id ∉ s'.pending := by
  simp only [step, hw]
  have ht : workerTask w o = .response w.req.id (expectedAnswer d o) := by
    cases hr : w.retry <;> cases o <;>
      simp_all [workerTask, toAnswer, expectedAnswer, internalError]
  rw [ht]
  simp [handleTask, respond, hp, List.eraseIdx_append_of_length_le]

/-- **C15 (workers of the dispatcher).** Every worker the dispatcher starts carries one of the two documented
codes; the one for pulled diagnostics is not retried. -/
theorem C15_worker_codes (s : State Id) (r : Request Id) (o : Outcome)
    (w : Worker Id) (hw : w ∈ (onNewRequest s r o).workers) (hn : w ∉ s.workers) : w.req = r ∧
      w.cancelCode = (if r.method = "textDocument/diagnostic" then -32802 else -32801) ∧
      (r.method = "textDocument/diagnostic" → w.retry = false) := by
  have hresp : ∀ (s : State Id) j a, (respond s j a).workers = s.workers := by
    intro s j a; unfold respond; split <;> rfl
  have hreg : (register s r.id).workers = s.workers := rfl
  unfold onNewRequest onRequest parseThen at hw
  generalize register s r.id = s1 at hw hreg
  rw [← hreg] at hn
  clear hreg
  split at hw
  · split at hw <;> (rw [hresp] at hw; exact absurd hw hn)
  split at hw
  · rw [hresp] at hw; exact absurd hw hn
  have hroutes : ∀ p ∈ routes, (p.2 = .poolVfsDefault ↔ p.1 = "textDocument/diagnostic") := by decide +kernel
  generalize routes = l at hw hroutes
  induction l with
  | nil => rw [dispatchChain, hresp] at hw; exact absurd hw hn
  | cons p l ih =>
    obtain ⟨m, mode⟩ := p
    rw [dispatchChain] at hw
    split at hw
    · rename_i _ _ hm
      have hk := hroutes _ (List.mem_cons_self ..)
      simp only at hk
      rw [hm]
      have hsp : ∀ b c, w ∈ (spawn s1 r b c).workers → w = ⟨r, b, c⟩ := by
        intro b c h
        unfold spawn parseThen at h
        split at h
        · simp only [List.mem_append, List.mem_singleton] at h
          exact h.resolve_left hn
        · rw [hresp] at h; exact absurd h hn
      cases mode with
      | sync =>
        simp only [dispatchMode, parseThen] at hw
        split at hw
        · split at hw
          · rw [hresp] at hw; exact absurd hw hn
          · exact absurd hw hn
        · rw [hresp] at hw; exact absurd hw hn
      | fmt =>
        have := hsp _ _ hw
        have hd : m ≠ "textDocument/diagnostic" := fun h => by simpa using hk.2 h
        subst this; simp [hd, contentModified]
      | pool b =>
        simp only [dispatchMode] at hw
        split at hw
        · have := hsp _ _ hw
          have hd : m ≠ "textDocument/diagnostic" := fun h => by simpa using hk.2 h
          subst this; simp [hd, contentModified]
        · rw [hresp] at hw; exact absurd hw hn
      | poolVfsDefault =>
        simp only [dispatchMode] at hw
        split at hw
        · have := hsp _ _ hw
          subst this; simp [hk.1 rfl, serverCancelled]
        · rw [hresp] at hw; exact absurd hw hn
      | identity b =>
        simp only [dispatchMode] at hw
        split at hw
        · have := hsp _ _ hw
          have hd : m ≠ "textDocument/diagnostic" := fun h => by simpa using hk.2 h
          subst this; simp [hd, contentModified]
        · simp only [parseThen] at hw
          split at hw <;> (rw [hresp] at hw; exact absurd hw hn)
    · exact ih hw (fun p hp => hroutes p (List.mem_cons_of_mem _ hp))

example : (run State.init [.vfs true, .request ⟨(1 : Nat), "textDocument/diagnostic", true⟩ .value,
    .request ⟨2, "textDocument/hover", true⟩ .value, .finish 0 .cancelled, .finish 0 .panicked,
    .task 0 .value, .task 0 .value]).sent = [(1, .error (-32802)), (2, .error (-32603))] := by decide +kernel

/-- **C15 fails for cancelled handlers on the main thread.** The request stays pending for ever: nothing is
in flight for it and nothing was sent. -/
theorem C15_sync_cancelled_fails :
    let s := run State.init [.request ⟨(7 : Nat), "textDocument/selectionRange", true⟩ .cancelled]
    s.pending = [7] ∧ s.sent = [] ∧ s.workers = [] ∧ s.inbox = [] ∧ s.ran = [7] := by decide +kernel

/-- **C15 (every dispatch).** Every single request is, right after its arrival, answered or worked for,
with the sole exception of the cancelled synchronous handler. -/
theorem C15_dispatch_exhaustive (s : State Id) (r : Request Id) (o : Outcome) :
    (r.id ∉ (onNewRequest s r o).pending ∨ InFlight (onNewRequest s r o) r.id) ∨ SyncCancelled r o := by
  by_cases hs : SyncCancelled r o
  · exact Or.inr hs
  · left
    -- forget all other pending requests
    by_cases hp : r.id ∈ (onNewRequest s r o).pending
    · right
      have key : ∀ (s : State Id), (∀ id, id ≠ r.id → id ∉ s.pending) → AttendedBut r.id s :=
        fun s h id hid hne => absurd hid (h id hne)
      -- the behaviour for this id does not depend on the other pending ids
      have h1 : ∀ (s : State Id) (p : List Id), (r.id ∈ p ↔ r.id ∈ s.pending) →
          (onRequest { s with pending := p } r o).workers = (onRequest s r o).workers ∧
          (onRequest { s with pending := p } r o).inbox = (onRequest s r o).inbox ∧
          (r.id ∈ (onRequest { s with pending := p } r o).pending ↔ r.id ∈ (onRequest s r o).pending) := by
        intro s p hpp
        have hresp : ∀ (s : State Id) (p : List Id) (a : Answer), (r.id ∈ p ↔ r.id ∈ s.pending) →
            (respond { s with pending := p } r.id a).workers = (respond s r.id a).workers ∧
            (respond { s with pending := p } r.id a).inbox = (respond s r.id a).inbox ∧
            (r.id ∈ (respond { s with pending := p } r.id a).pending ↔ r.id ∈ (respond s r.id a).pending) := by
          intro s p a h
          unfold respond
          by_cases h' : r.id ∈ s.pending
          · have h2 : r.id ∈ p := h.2 h'
            simp [h', h2]
          · have h2 : r.id ∉ p := fun hh => h' (h.1 hh)
            simp [h', h2]
        have hparse : ∀ (s : State Id) (p : List Id) (k : State Id → State Id), (r.id ∈ p ↔ r.id ∈ s.pending) →
            ((k { s with pending := p }).workers = (k s).workers ∧
              (k { s with pending := p }).inbox = (k s).inbox ∧
              (r.id ∈ (k { s with pending := p }).pending ↔ r.id ∈ (k s).pending)) →
            (parseThen { s with pending := p } r k).workers = (parseThen s r k).workers ∧
            (parseThen { s with pending := p } r k).inbox = (parseThen s r k).inbox ∧
            (r.id ∈ (parseThen { s with pending := p } r k).pending ↔ r.id ∈ (parseThen s r k).pending) := by
          intro s p k h hk
          unfold parseThen
          split
          · exact hk
          · exact hresp s p _ h
        have hspawn : ∀ b c, (spawn { s with pending := p } r b c).workers = (spawn s r b c).workers ∧
            (spawn { s with pending := p } r b c).inbox = (spawn s r b c).inbox ∧
            (r.id ∈ (spawn { s with pending := p } r b c).pending ↔ r.id ∈ (spawn s r b c).pending) :=
          fun b c => hparse s p _ hpp ⟨rfl, rfl, hpp⟩
        unfold onRequest
        split
        · exact hparse s p _ hpp (hresp { s with shutdown := true } p _ hpp)
        · simp only
          split
          · exact hresp s p _ hpp
          · generalize routes = l
            induction l with
            | nil => exact hresp s p _ hpp
            | cons q l ih =>
              obtain ⟨m, mode⟩ := q
              rw [dispatchChain, dispatchChain]
              split
              · cases mode with
                | sync =>
                  refine hparse s p _ hpp ?_
                  simp only
                  split
                  · exact hresp { s with ran := s.ran ++ [r.id] } p _ hpp
                  · exact ⟨rfl, rfl, hpp⟩
                | fmt => exact hspawn ..
                | pool b =>
                  simp only [dispatchMode]; split
                  · exact hspawn ..
                  · exact hresp s p _ hpp
                | poolVfsDefault =>
                  simp only [dispatchMode]; split
                  · exact hspawn ..
                  · exact hresp s p _ hpp
                | identity b =>
                  simp only [dispatchMode]; split
                  · exact hspawn ..
                  · exact hparse s p _ hpp (hresp s p _ hpp)
              · exact ih
      have hreg : r.id ∈ (register s r.id).pending := by
        unfold register; simp only; split
        · assumption
        · exact List.mem_cons_self ..
      obtain ⟨e1, e2, e3⟩ := h1 (register s r.id) [r.id] (by simp [hreg])
      have hA : Attended (onRequest { register s r.id with pending := [r.id] } r o) :=
        onRequest_attended (key _ (by intro id hne; simp [hne])) hs
      have := hA r.id (e3.2 hp)
      unfold InFlight at this ⊢
      rw [e1, e2] at this
      exact this
    · exact Or.inl hp

/-- A request that is cancelled by the database and retried, then answered. -/
example : (run State.init [.vfs true, .request ⟨1, "textDocument/completion", true⟩ .value, .finish 0 .cancelled,
    .task 0 .value, .finish 0 .value, .task 0 .value]).sent = [((1 : Nat), .result)] := by decide +kernel

/-! ### C16 -/

/-- No handler has been called and no worker started since. -/
structure Quiet (s s' : State Id) : Prop where
  ran : s'.ran = s.ran
  workers : s'.workers.length ≤ s.workers.length
  shutdown : s'.shutdown = true

theorem respond_fields (s : State Id) (j : Id) (a : Answer) :
    (respond s j a).ran = s.ran ∧ (respond s j a).workers = s.workers ∧ (respond s j a).shutdown = s.shutdown := by
  unfold respond; split <;> exact ⟨rfl, rfl, rfl⟩

theorem quiet_onRequest {s0 s : State Id} (h : Quiet s0 s) (r : Request Id) (o : Outcome) :
    Quiet s0 (onRequest s r o) := by
  unfold onRequest
  split
  · unfold parseThen
    split
    · obtain ⟨h1, h2, h3⟩ := respond_fields { s with shutdown := true } r.id .result
      exact ⟨h1.trans h.ran, by rw [h2]; exact h.workers, h3⟩
    · obtain ⟨h1, h2, h3⟩ := respond_fields s r.id (.error invalidParams)
      exact ⟨h1.trans h.ran, by rw [h2]; exact h.workers, h3.trans h.shutdown⟩
  · rw [if_pos h.shutdown]
    obtain ⟨h1, h2, h3⟩ := respond_fields s r.id (.error invalidRequest)
    exact ⟨h1.trans h.ran, by rw [h2]; exact h.workers, h3.trans h.shutdown⟩

theorem quiet_step {s0 s : State Id} (h : Quiet s0 s) (e : Step Id) : Quiet s0 (step s e) := by
  cases e with
  | request r o => exact quiet_onRequest (s := register s r.id) ⟨h.ran, h.workers, h.shutdown⟩ r o
  | cancel j =>
    obtain ⟨h1, h2, h3⟩ := respond_fields s j (.error requestCanceled)
    exact ⟨h1.trans h.ran, h2 ▸ h.workers, h3.trans h.shutdown⟩
  | finish i o =>
    simp only [step]; split
    · refine ⟨h.ran, ?_, h.shutdown⟩
      simp only [List.length_eraseIdx]
      have := h.workers
      split <;> omega
    · exact h
  | task i o =>
    simp only [step]; split
    · next t _ =>
      have h' : Quiet s0 { s with inbox := s.inbox.eraseIdx i } := ⟨h.ran, h.workers, h.shutdown⟩
      cases t with
      | response j a =>
        obtain ⟨h1, h2, h3⟩ := respond_fields { s with inbox := s.inbox.eraseIdx i } j a
        exact ⟨h1.trans h.ran, Nat.le_trans (Nat.le_of_eq (congrArg List.length h2)) h.workers, h3.trans h.shutdown⟩
      | retry r =>
        simp only [handleTask]; split
        · exact quiet_onRequest h' r o
        · exact h'
    · exact h
  | vfs b => exact ⟨h.ran, h.workers, h.shutdown⟩

theorem quiet_run {s0 s : State Id} (h : Quiet s0 s) (es : List (Step Id)) : Quiet s0 (run s es) := by
  induction es generalizing s with
  | nil => exact h
  | cons e es ih => exact ih (quiet_step h e)

theorem run_append (s : State Id) (a b : List (Step Id)) : run s (a ++ b) = run (run s a) b := by
  simp [run, List.foldl_append]

/-- State right after a well-formed shutdown request. -/
theorem shutdown_quiet (s : State Id) (r : Request Id) (o : Outcome) (hm : r.method = "shutdown")
    (hp : r.paramsOk = true) : Quiet s (step s (.request r o)) := by
  simp only [step, onNewRequest, onRequest, hm, if_true, parseThen, hp]
  obtain ⟨h1, h2, h3⟩ := respond_fields { register s r.id with shutdown := true } r.id .result
  exact ⟨h1, by rw [h2]; exact Nat.le_refl _, h3⟩

/-- **C16, partial.** Take any history in which a shutdown request is followed by anything at all, including
worker completions and retries. No handler has been called and no worker was started since the shutdown
request, and the next request, unless it is itself a shutdown request, is answered at once with the error
"invalid request", and with nothing else. Missing: a second shutdown request, see
`C16_second_shutdown_fails`. -/
theorem C16_refused_partial (h1 h2 : List (Step Id)) (sd r : Request Id) (o o' : Outcome)
    (hm : sd.method = "shutdown") (hp : sd.paramsOk = true) (hr : r.method ≠ "shutdown") :
    let s := run State.init (h1 ++ .request sd o :: h2)
    s.ran = (run State.init h1).ran ∧ s.workers.length ≤ (run State.init h1).workers.length ∧
    (step s (.request r o')).sent = s.sent ++ [(r.id, .error invalidRequest)] ∧
    (step s (.request r o')).ran = s.ran ∧ r.id ∉ (step s (.request r o')).pending := by
  have hq : Quiet (run State.init h1) (run State.init (h1 ++ .request sd o :: h2)) := by
    rw [run_append]
    exact quiet_run (shutdown_quiet _ sd o hm hp) h2
  refine ⟨hq.ran, hq.workers, ?_⟩
  generalize run State.init (h1 ++ .request sd o :: h2) = s at hq ⊢
  have hreg : r.id ∈ (register s r.id).pending := by
    unfold register; simp only; split
    · assumption
    · exact List.mem_cons_self ..
  have hsd : (register s r.id).shutdown = true := hq.shutdown
  simp only [step, onNewRequest, onRequest, hr, if_false, hsd, if_true, respond, hreg]
  exact ⟨rfl, rfl, by simp⟩

/-- **C16 fails for a second shutdown request**, which is answered with success. -/
theorem C16_second_shutdown_fails :
    (run State.init [.request ⟨1, "shutdown", true⟩ .value, .request ⟨2, "shutdown", true⟩ .value]).sent =
      [((1 : Nat), .result), (2, .result)] := by decide +kernel

example : (run State.init [.vfs true, .request ⟨1, "shutdown", true⟩ .value,
    .request ⟨2, "textDocument/hover", true⟩ .value]).sent =
      [((1 : Nat), .result), (2, .error invalidRequest)] := by decide +kernel

end Verif.Server
