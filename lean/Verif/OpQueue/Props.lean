import Verif.OpQueue.Model

/-! Property theorems for the operation queue: C12, C13. -/

namespace Verif.OpQueue

variable {Cause Args Output Packages : Type}

/-! ### Specification: functions of the observed history (newest observation first) -/

namespace Spec

/-- Operations started so far. -/
def starts : List (Obs Cause Args Output) → Nat
  | [] => 0
  | .started _ _ :: h => starts h + 1
  | _ :: h => starts h

/-- Operations completed so far. -/
def completions : List (Obs Cause Args Output) → Nat
  | [] => 0
  | .completed _ :: h => completions h + 1
  | _ :: h => completions h

/-- The latest request made after the latest start. -/
def pending : List (Obs Cause Args Output) → Option (Cause × Args)
  | [] => none
  | .requested c a :: _ => some (c, a)
  | .started _ _ :: _ => none
  | _ :: h => pending h

/-- The result of the latest completion. -/
def lastResult : List (Obs Cause Args Output) → Option Output
  | [] => none
  | .completed r :: _ => some r
  | _ :: h => lastResult h

/-- A history is right if operations complete only while running, start only when none is running with the
latest pending request, and a poll stays idle only when one is running or nothing is pending. -/
def Right : List (Obs Cause Args Output) → Prop
  | [] => True
  | .requested _ _ :: h => Right h
  | .started c a :: h => Right h ∧ starts h = completions h ∧ pending h = some (c, a)
  | .idle :: h => Right h ∧ (starts h = completions h + 1 ∨ pending h = none)
  | .completed _ :: h => Right h ∧ starts h = completions h + 1

end Spec

open Spec

/-- The state is determined by the history. -/
def Agrees (q : Queue Cause Args Output) (h : List (Obs Cause Args Output)) : Prop :=
  Right h ∧ q.opRequested = pending h ∧ q.lastOpResult = lastResult h ∧
    starts h = completions h + (if q.opInProgress then 1 else 0)

theorem agrees_step {q q' : Queue Cause Args Output} {h : List (Obs Cause Args Output)}
    {c : Call Cause Args Output} {o : Obs Cause Args Output} (ha : Agrees q h)
    (hs : step q c = some (o, q')) : Agrees q' (o :: h) := by
  obtain ⟨h1, h2, h3, h4⟩ := ha
  obtain ⟨rq, ip, lr⟩ := q
  simp only at h2 h3 h4
  cases c with
  | request c a =>
    simp only [step, Queue.requestOp, Option.some.injEq, Prod.mk.injEq] at hs
    obtain ⟨rfl, rfl⟩ := hs
    exact ⟨h1, rfl, h3, h4⟩
  | poll =>
    cases ip with
    | true =>
      simp only [step, Queue.shouldStartOp, if_true, Option.some.injEq, Prod.mk.injEq] at hs
      obtain ⟨rfl, rfl⟩ := hs
      exact ⟨⟨h1, Or.inl h4⟩, h2, h3, h4⟩
    | false =>
      cases rq with
      | none =>
        simp [step, Queue.shouldStartOp] at hs
        obtain ⟨rfl, rfl⟩ := hs
        exact ⟨⟨h1, Or.inr h2.symm⟩, h2, h3, h4⟩
      | some ca =>
        simp [step, Queue.shouldStartOp] at hs
        obtain ⟨rfl, rfl⟩ := hs
        refine ⟨⟨h1, ?_, ?_⟩, rfl, h3, ?_⟩
        · simpa using h4
        · exact h2.symm
        · simpa [starts, completions] using h4
  | complete r =>
    cases ip with
    | false => simp [step, Queue.opCompleted] at hs
    | true =>
      simp [step, Queue.opCompleted] at hs
      obtain ⟨rfl, rfl⟩ := hs
      refine ⟨⟨h1, ?_⟩, h2, rfl, ?_⟩
      · simpa using h4
      · simpa [starts, completions] using h4

theorem agrees_run {q : Queue Cause Args Output} {h : List (Obs Cause Args Output)}
    {cs : List (Call Cause Args Output)} {h' q'} (ha : Agrees q h) (hr : run q h cs = some (h', q')) :
    Agrees q' h' := by
  induction cs generalizing q h with
  | nil => simp only [run, Option.some.injEq, Prod.mk.injEq] at hr; obtain ⟨rfl, rfl⟩ := hr; exact ha
  | cons c cs ih =>
    rw [run] at hr
    split at hr
    · rename_i o q1 hs
      exact ih (agrees_step ha hs) hr
    · simp at hr

/-- **C12.** For every sequence of requests, polls and completions: the observed history is right (no
start while an operation runs, every start carries the latest request, no pending request is passed over
by an idle poll when nothing runs), at most one operation is running, and the stored result is that of the
last completion. -/
theorem C12_single_flight_no_loss (cs : List (Call Cause Args Output))
    (h : List (Obs Cause Args Output)) (q : Queue Cause Args Output)
    (hr : run {} [] cs = some (h, q)) :
    Right h ∧ starts h ≤ completions h + 1 ∧ completions h ≤ starts h ∧
      (q.opInProgress = true ↔ starts h = completions h + 1) ∧ q.lastOpResult = lastResult h := by
  have ha : Agrees ({} : Queue Cause Args Output) [] := ⟨trivial, rfl, rfl, rfl⟩
  obtain ⟨h1, _, h3, h4⟩ := agrees_run ha hr
  refine ⟨h1, ?_, ?_, ?_, h3⟩ <;> revert h4 <;> cases q.opInProgress <;> simp <;> omega

/-- **C12 (panics).** The only call that panics is completing an operation when none is running. -/
theorem C12_panics_iff (cs : List (Call Cause Args Output)) (c : Call Cause Args Output)
    (h : List (Obs Cause Args Output)) (q : Queue Cause Args Output) (hr : run {} [] cs = some (h, q)) :
    run {} [] (cs ++ [c]) = none ↔ (∃ r, c = .complete r) ∧ starts h = completions h := by
  have hap : ∀ (q0 : Queue Cause Args Output) h0 (cs : List (Call Cause Args Output)),
      run q0 h0 cs = some (h, q) → run q0 h0 (cs ++ [c]) = run q h [c] := by
    intro q0 h0 cs
    induction cs generalizing q0 h0 with
    | nil => intro e; simp only [run, Option.some.injEq, Prod.mk.injEq] at e; rw [← e.1, ← e.2]; rfl
    | cons d ds ih =>
      intro e
      simp only [run, List.cons_append] at e ⊢
      split at e
      · exact ih _ _ e
      · simp at e
  rw [hap _ _ _ hr]
  have ha : Agrees ({} : Queue Cause Args Output) [] := ⟨trivial, rfl, rfl, rfl⟩
  obtain ⟨_, _, _, h4⟩ := agrees_run ha hr
  cases c with
  | request c a => simp [run, step]
  | poll =>
    simp only [run, step, reduceCtorEq, exists_const, false_and, iff_false]
    rcases hq : q.shouldStartOp with ⟨_ | ⟨_, _⟩, _⟩ <;> simp [run]
  | complete r =>
    cases hp : q.opInProgress with
    | true => simp [hp] at h4; simp [run, step, Queue.opCompleted, hp]; omega
    | false => simp [hp] at h4; simp [run, step, Queue.opCompleted, hp]; omega

example : ∃ h q, run ({} : Queue Nat Nat Nat) [] [.request 1 1, .request 2 2, .poll, .request 3 3, .poll,
    .complete 7, .poll] = some (h, q) ∧ starts h = 2 ∧ completions h = 1 ∧
      h.head? = some (.started 3 3) := ⟨_, _, rfl, rfl, rfl, rfl⟩

/-! ### The main loop -/

/-- Invariant between events: one worker iff the queue is busy, and nothing waits in an idle queue. -/
def Good (s : Sys Cause Packages) : Prop :=
  s.workers.length = (if s.queue.opInProgress then 1 else 0) ∧
    (s.queue.opInProgress = false → s.queue.opRequested = none)

theorem good_poll {s : Sys Cause Packages}
    (h : s.workers.length = (if s.queue.opInProgress then 1 else 0)) : Good s.poll := by
  obtain ⟨⟨rq, ip, lr⟩, ws⟩ := s
  simp only at h
  cases ip with
  | true => simpa [Good, Sys.poll, Queue.shouldStartOp] using h
  | false =>
    cases rq with
    | none => simpa [Good, Sys.poll, Queue.shouldStartOp] using h
    | some r => simpa [Good, Sys.poll, Queue.shouldStartOp] using h

theorem foldl_request_inProgress (rs : List (Cause × LoadRequest))
    (q : Queue Cause LoadRequest (Packages × Bool)) :
    (rs.foldl (fun q r => q.requestOp r.1 r.2) q).opInProgress = q.opInProgress := by
  induction rs generalizing q with
  | nil => rfl
  | cons r rs ih => rw [List.foldl_cons, ih]; rfl

theorem good_handle {s : Sys Cause Packages} (e : Event Cause Packages) (h : Good s) :
    ∃ s', s.handle e = some s' ∧ Good s' := by
  obtain ⟨q, ws⟩ := s
  obtain ⟨h1, h2⟩ := h
  simp only at h1 h2
  unfold Sys.handle
  cases hf : e.finish with
  | none =>
    refine ⟨_, rfl, good_poll ?_⟩
    simpa [foldl_request_inProgress] using h1
  | some p =>
    cases ws with
    | nil =>
      refine ⟨_, rfl, good_poll ?_⟩
      simpa [foldl_request_inProgress] using h1
    | cons w ws =>
      have hip : q.opInProgress = true := by
        cases hq : q.opInProgress with
        | true => rfl
        | false => simp [hq] at h1
      simp only [Queue.opCompleted, hip, if_true, Option.map_some]
      refine ⟨_, rfl, good_poll ?_⟩
      simp only [foldl_request_inProgress]
      simpa [hip] using h1

/-- **C12 (main loop).** In every execution of the main loop the assertion in `op_completed` holds, at
most one worker runs, and after every event no request waits while no worker runs. -/
theorem C12_main_loop (c : Cause) (es : List (Event Cause Packages)) :
    ∃ s, (Sys.start c).handleAll es = some s ∧ s.workers.length ≤ 1 ∧
      (s.workers = [] → s.queue.opRequested = none) := by
  have key : ∀ (es : List (Event Cause Packages)) (s : Sys Cause Packages), Good s →
      ∃ s', s.handleAll es = some s' ∧ Good s' := by
    intro es
    induction es with
    | nil => intro s h; exact ⟨s, rfl, h⟩
    | cons e es ih =>
      intro s h
      obtain ⟨s1, h1, h2⟩ := good_handle e h
      obtain ⟨s2, h3, h4⟩ := ih s1 h2
      exact ⟨s2, by rw [Sys.handleAll, h1]; exact h3, h4⟩
  obtain ⟨s, h1, h2, h3⟩ := key es (Sys.start c) (good_poll rfl)
  refine ⟨s, h1, ?_, ?_⟩
  · rw [h2]; split <;> omega
  · intro hw
    apply h3
    cases hq : s.queue.opInProgress with
    | true => simp [hw, hq] at h2
    | false => rfl

/-! ### C13 -/

/-- Does the history contain a forced request after the latest start? -/
def Spec.forcedPending : List (Obs Cause LoadRequest Output) → Bool
  | [] => false
  | .requested _ a :: h => a.forceReloadPackageDeps || forcedPending h
  | .started _ _ :: _ => false
  | _ :: h => forcedPending h

/-- **C13 fails.** A forced request made while an operation runs is lost when an unforced one follows
before the next start: the started operation is not forced. -/
theorem C13_forced_reload_lost_fails :
    ∃ (cs : List (Call Nat LoadRequest Nat)) (h : List (Obs Nat LoadRequest Nat))
      (q : Queue Nat LoadRequest Nat) (c : Nat) (a : LoadRequest),
      run {} [] cs = some (.started c a :: h, q) ∧ forcedPending h = true ∧
        a.forceReloadPackageDeps = false :=
  ⟨[.request 0 ⟨false⟩, .poll, .request 1 ⟨true⟩, .request 2 ⟨false⟩, .complete 9, .poll],
    _, _, _, _, rfl, rfl, rfl⟩

/-- **C13 fails in the main loop as well**: the startup load runs, a file is created (forced request),
then a manifest is saved (unforced request), then the startup load ends; the next load is unforced. -/
theorem C13_main_loop_fails :
    ∃ (es : List (Event Nat Nat)) (s : Sys Nat Nat),
      (∃ e ∈ es, ∃ r ∈ e.reqs, r.2.forceReloadPackageDeps = true) ∧
      (Sys.start 0).handleAll es = some s ∧ s.workers = [false] ∧ s.queue.opRequested = none :=
  ⟨[⟨[(1, ⟨true⟩)], none⟩, ⟨[(2, ⟨false⟩)], none⟩, ⟨[], some 5⟩], _,
    ⟨⟨[(1, ⟨true⟩)], none⟩, by simp, (1, ⟨true⟩), by simp, rfl⟩, rfl, rfl, rfl⟩

/-- **C13, partial.** A started operation is forced if the latest request before the start is; hence a
forced request is honoured if no other request follows it before the start. Missing: later unforced
requests, for which the claim is false (`C13_forced_reload_lost_fails`). -/
theorem C13_latest_request_honoured_partial (cs : List (Call Cause LoadRequest Output))
    (h : List (Obs Cause LoadRequest Output)) (q : Queue Cause LoadRequest Output) (c : Cause)
    (a : LoadRequest) (hr : run {} [] cs = some (.started c a :: h, q)) :
    ∃ h1 h2, h = h1 ++ .requested c a :: h2 ∧
      ∀ o ∈ h1, (∀ c' a', o ≠ .requested c' a') ∧ (∀ c' a', o ≠ .started c' a') := by
  have hp := (C12_single_flight_no_loss cs _ q hr).1.2.2
  clear hr
  induction h with
  | nil => simp [pending] at hp
  | cons o h ih =>
    cases o with
    | requested c' a' =>
      simp only [pending, Option.some.injEq, Prod.mk.injEq] at hp
      exact ⟨[], h, by simp [hp.1, hp.2], by simp⟩
    | started c' a' => simp [pending] at hp
    | idle =>
      obtain ⟨h1, h2, e, hh⟩ := ih hp
      exact ⟨.idle :: h1, h2, by simp [e], by simpa using hh⟩
    | completed r =>
      obtain ⟨h1, h2, e, hh⟩ := ih hp
      exact ⟨.completed r :: h1, h2, by simp [e], by simpa using hh⟩

end Verif.OpQueue
