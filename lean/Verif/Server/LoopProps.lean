import Verif.Server.Loop

/-! Property theorems about the turns of the main loop: C17, C18, C54, C55. -/

namespace Verif.Server.Loop
open Verif.OpQueue (Queue LoadRequest)

variable {Pkg : Type}

/-! ### Specification: functions of what the outside world saw (newest first) -/

/-- Status notifications. -/
def statuses : List (Out Pkg) → List Status
  | [] => []
  | .status s :: o => s :: statuses o
  | _ :: o => statuses o

/-- Configurations handed to the file loader. -/
def configs : List (Out Pkg) → List (Nat × List Pkg)
  | [] => []
  | .setConfig v p :: o => (v, p) :: configs o
  | _ :: o => configs o

/-- How often the client was asked to refresh. -/
def refreshes : List (Out Pkg) → Nat
  | [] => 0
  | .refresh :: o => refreshes o + 1
  | _ :: o => refreshes o

/-- File changes reached the database after the client was last asked to refresh. -/
def stale : List (Out Pkg) → Bool
  | [] => false
  | .refresh :: _ => false
  | .filesChanged :: _ => true
  | _ :: o => stale o

/-- Some package of a load could not be read. -/
def Failed (l : Loaded Pkg) : Prop := none ∈ l

/-- What the client believes before any notification. -/
def initialStatus : Status := ⟨.ok, true, none⟩

/-- No two consecutive entries are equal, nor is the first one the initial status (newest first). -/
def Changing : List Status → Prop
  | [] => True
  | [a] => a ≠ initialStatus
  | a :: b :: l => a ≠ b ∧ Changing (b :: l)

/-- Versions `n, n - 1, …, 1` (newest first). -/
def Counting : Nat → List (Nat × List Pkg) → Prop
  | n, [] => n = 0
  | n, (v, _) :: l => v = n ∧ 0 < n ∧ Counting (n - 1) l

/-! ### Invariants -/

/-- The invariant between turns that does not concern the status. -/
structure Inv (s : State Pkg) : Prop where
  workers : s.workers.length = if s.queue.opInProgress then 1 else 0
  requested : s.queue.opInProgress = false → s.queue.opRequested = none
  switch : s.switch = true → s.syncing = true
  adopted : s.switch = false → ∀ l f, s.queue.lastOpResult = some (l, f) →
    s.packages = validPackages l ∨ Failed l
  counting : Counting s.configVersion (configs s.out)
  current : s.packages = ((configs s.out).head?.map (·.2)).getD []
  stale : stale s.out = true → fullyLoaded s = false

/-- The invariant inside a turn, between messages. `w` is whether the project was loaded when the turn
began. -/
structure Mid (w : Bool) (s : State Pkg) : Prop where
  workers : s.workers.length = if s.queue.opInProgress then 1 else 0
  adopted : s.switch = false → ∀ l f, s.queue.lastOpResult = some (l, f) →
    s.packages = validPackages l ∨ Failed l
  counting : Counting s.configVersion (configs s.out)
  current : s.packages = ((configs s.out).head?.map (·.2)).getD []
  stale : Loop.stale s.out = true → w = false

theorem mid_msg {w : Bool} {s : State Pkg} (h : Mid w s) (m : Msg Pkg) :
    ∃ s', handleMsg s m = some s' ∧ Mid w s' := by
  cases m with
  | request r => exact ⟨_, rfl, ⟨h.workers, h.adopted, h.counting, h.current, h.stale⟩⟩
  | config c => exact ⟨_, rfl, ⟨h.workers, h.adopted, h.counting, h.current, h.stale⟩⟩
  | loadEnd l =>
    have hw := h.workers
    simp only [handleMsg]
    split
    · exact ⟨s, rfl, h⟩
    · next b ws hws =>
      rw [hws] at hw
      by_cases hp : s.queue.opInProgress = true
      · simp only [Queue.opCompleted, hp, if_true, Option.map_some]
        refine ⟨_, rfl, ⟨?_, by simp, h.counting, h.current, h.stale⟩⟩
        simpa [hp] using hw
      · simp [hp] at hw
  | vfsProgress fin v =>
    refine ⟨_, rfl, ?_⟩
    cases fin with
    | false => exact ⟨h.workers, h.adopted, h.counting, h.current, h.stale⟩
    | true => exact ⟨h.workers, h.adopted, h.counting, h.current, h.stale⟩

theorem mid_msgs {w : Bool} {s : State Pkg} (h : Mid w s) (ms : List (Msg Pkg)) :
    ∃ s', handleMsgs s ms = some s' ∧ Mid w s' := by
  induction ms generalizing s with
  | nil => exact ⟨s, rfl, h⟩
  | cons m ms ih =>
    obtain ⟨s1, h1, h2⟩ := mid_msg h m
    obtain ⟨s2, h3, h4⟩ := ih h2
    exact ⟨s2, by rw [handleMsgs, h1]; exact h3, h4⟩

/-- What a switch does, in terms of the specification. -/
theorem switchWorkspaces_spec (s : State Pkg) (l : Loaded Pkg) (f : Bool)
    (h : s.queue.lastOpResult = some (l, f)) :
    (Failed l ∧ s.packages ≠ [] → (switchWorkspaces s).packages = s.packages ∧
      (switchWorkspaces s).configVersion = s.configVersion ∧ configs (switchWorkspaces s).out = configs s.out) ∧
    (¬ (Failed l ∧ s.packages ≠ []) → (switchWorkspaces s).packages = validPackages l ∧
      (switchWorkspaces s).configVersion = s.configVersion + 1 ∧
      configs (switchWorkspaces s).out = (s.configVersion + 1, validPackages l) :: configs s.out) := by
  have he : (loadingError s && !s.packages.isEmpty) = true ↔ Failed l ∧ s.packages ≠ [] := by
    simp [loadingError, h, Failed]
  unfold switchWorkspaces
  rw [h]
  simp only
  by_cases hc : Failed l ∧ s.packages ≠ []
  · rw [if_pos (he.2 hc)]
    refine ⟨fun _ => ?_, fun hn => absurd hc hn⟩
    split <;> exact ⟨rfl, rfl, rfl⟩
  · rw [if_neg (fun hx => hc (he.1 hx))]
    exact ⟨fun hx => absurd hx hc, fun _ => ⟨rfl, rfl, rfl⟩⟩

/-- The rest of the state is untouched by a switch. -/
theorem switchWorkspaces_frame (s : State Pkg) :
    (switchWorkspaces s).queue = s.queue ∧ (switchWorkspaces s).workers = s.workers ∧
    (switchWorkspaces s).switch = s.switch ∧ (switchWorkspaces s).syncing = s.syncing ∧
    (switchWorkspaces s).progressVersion = s.progressVersion ∧ stale (switchWorkspaces s).out = stale s.out := by
  unfold switchWorkspaces
  split
  · exact ⟨rfl, rfl, rfl, rfl, rfl, rfl⟩
  · split
    · split <;> exact ⟨rfl, rfl, rfl, rfl, rfl, rfl⟩
    · exact ⟨rfl, rfl, rfl, rfl, rfl, rfl⟩

theorem mid_switch {w : Bool} {s : State Pkg} (h : Mid w s) :
    Mid w (switchWorkspaces { s with switch := false }) := by
  obtain ⟨f1, f2, f3, f4, f5, f6⟩ := switchWorkspaces_frame { s with switch := false }
  simp only at f1 f2 f3 f4 f5 f6
  cases hl : s.queue.lastOpResult with
  | none =>
    have : switchWorkspaces { s with switch := false } = { s with switch := false } := by
      simp [switchWorkspaces, hl]
    rw [this]
    exact ⟨h.workers, by simp [hl], h.counting, h.current, h.stale⟩
  | some p =>
    obtain ⟨l, f⟩ := p
    obtain ⟨hk, ha⟩ := switchWorkspaces_spec { s with switch := false } l f hl
    simp only at hk ha
    by_cases hc : Failed l ∧ s.packages ≠ []
    · obtain ⟨k1, k2, k3⟩ := hk hc
      refine ⟨by rw [f2, f1]; exact h.workers, ?_, by rw [k2, k3]; exact h.counting,
        by rw [k1, k3]; exact h.current, by rw [f6]; exact h.stale⟩
      intro _ l' f' hl'
      rw [f1, hl] at hl'
      cases hl'
      exact Or.inr hc.1
    · obtain ⟨k1, k2, k3⟩ := ha hc
      refine ⟨by rw [f2, f1]; exact h.workers, ?_, ?_, ?_, by rw [f6]; exact h.stale⟩
      · intro _ l' f' hl'
        rw [f1, hl] at hl'
        cases hl'
        exact Or.inl k1
      · rw [k2, k3]
        exact ⟨rfl, Nat.succ_pos _, h.counting⟩
      · rw [k1, k3]; rfl

/-- The result of `settle`. -/
structure Settled (w : Bool) (s : State Pkg) (r : Bool × State Pkg) : Prop where
  workers : r.2.workers.length = if r.2.queue.opInProgress then 1 else 0
  switch : r.2.switch = true → r.2.syncing = true
  adopted : r.2.switch = false → ∀ l f, r.2.queue.lastOpResult = some (l, f) →
    r.2.packages = validPackages l ∨ Failed l
  counting : Counting r.2.configVersion (configs r.2.out)
  current : r.2.packages = ((configs r.2.out).head?.map (·.2)).getD []
  stale : Loop.stale r.2.out = true → w = false ∨ r.1 = true

theorem settle_spec {w : Bool} {s : State Pkg} (h : Mid w s) (p : Option Bool) :
    Settled w s (settle s p) := by
  unfold settle
  split
  · next hs => exact ⟨h.workers, fun _ => hs, h.adopted, h.counting, h.current, fun hx => Or.inl (h.stale hx)⟩
  · have hm : Mid w (if s.switch = true then switchWorkspaces { s with switch := false } else s) ∧
        (if s.switch = true then switchWorkspaces { s with switch := false } else s).switch = false := by
      split
      · exact ⟨mid_switch h, (switchWorkspaces_frame _).2.2.1⟩
      · next hsw => exact ⟨h, by simpa using hsw⟩
    generalize (if s.switch = true then switchWorkspaces { s with switch := false } else s) = s1 at hm ⊢
    obtain ⟨h1, h2⟩ := hm
    cases p with
    | none =>
      exact ⟨h1.workers, by simp [processFiles, h2], h1.adopted, h1.counting, h1.current,
        fun hx => Or.inl (h1.stale hx)⟩
    | some b =>
      cases b with
      | false =>
        exact ⟨h1.workers, by simp [processFiles, h2], h1.adopted, h1.counting, h1.current, fun _ => Or.inr rfl⟩
      | true =>
        exact ⟨h1.workers, by simp [processFiles, h2], h1.adopted, h1.counting, h1.current, fun _ => Or.inr rfl⟩

/-- Polling: what changes. -/
theorem poll_spec (s : State Pkg) (hw : s.workers.length = if s.queue.opInProgress then 1 else 0) :
    (poll s).workers.length = (if (poll s).queue.opInProgress then 1 else 0) ∧
    ((poll s).queue.opInProgress = false → (poll s).queue.opRequested = none) ∧
    (poll s).queue.lastOpResult = s.queue.lastOpResult ∧
    (fullyLoaded s = false → fullyLoaded (poll s) = false) ∧
    (poll s).switch = s.switch ∧ (poll s).syncing = s.syncing ∧ (poll s).configVersion = s.configVersion ∧
    (poll s).packages = s.packages ∧ (poll s).out = s.out ∧ (poll s).reported = s.reported := by
  obtain ⟨⟨rq, ip, lr⟩, ws, sw, sy, so, cv, pv, pk, cf, rp, out⟩ := s
  cases ip with
  | true => simp_all [poll, Queue.shouldStartOp]
  | false =>
    cases rq with
    | none => simp_all [poll, Queue.shouldStartOp, fullyLoaded]
    | some c => simp_all [poll, Queue.shouldStartOp, fullyLoaded]

/-- Reporting the status: what changes. -/
theorem updateStatus_frame (cap : Bool) (s : State Pkg) :
    ∃ rp o, updateStatus cap s = { s with reported := rp, out := o } ∧ configs o = configs s.out ∧
      stale o = stale s.out ∧ rp = currentStatus s ∧
      (cap = true → statuses o = if s.reported = currentStatus s then statuses s.out
        else currentStatus s :: statuses s.out) ∧
      refreshes o = refreshes s.out := by
  unfold updateStatus
  simp only
  split
  · next h => exact ⟨s.reported, s.out, rfl, rfl, rfl, h, fun _ => rfl, rfl⟩
  · cases cap with
    | true =>
      exact ⟨_, _, rfl, rfl, rfl, rfl, fun _ => rfl, rfl⟩
    | false =>
      simp only [Bool.false_eq_true, if_false]
      split
      · exact ⟨_, _, rfl, rfl, rfl, rfl, by simp, rfl⟩
      · exact ⟨_, _, rfl, rfl, rfl, rfl, by simp, rfl⟩
      · exact ⟨_, _, rfl, rfl, rfl, rfl, by simp, rfl⟩

theorem inv_turn {cap : Bool} {s : State Pkg} (h : Inv s) (t : Turn Pkg) :
    ∃ s', turn cap s t = some s' ∧ Inv s' := by
  have hmid : Mid (fullyLoaded s) s :=
    ⟨h.workers, h.adopted, h.counting, h.current, h.stale⟩
  obtain ⟨s1, h1, h2⟩ := mid_msgs hmid t.msgs
  have h3 := settle_spec h2 t.pending
  refine ⟨_, by rw [turn, h1]; rfl, ?_⟩
  unfold afterHandle
  generalize hr : settle s1 t.pending = r at h3 ⊢
  simp only
  -- after the refresh
  have h4 : ∃ s4, (if (fullyLoaded r.2 && (!fullyLoaded s || r.1)) = true then
        { r.2 with out := .refresh :: r.2.out } else r.2) = s4 ∧
      s4.workers.length = (if s4.queue.opInProgress then 1 else 0) ∧
      (s4.switch = true → s4.syncing = true) ∧
      (s4.switch = false → ∀ l f, s4.queue.lastOpResult = some (l, f) →
        s4.packages = validPackages l ∨ Failed l) ∧
      Counting s4.configVersion (configs s4.out) ∧
      s4.packages = ((configs s4.out).head?.map (·.2)).getD [] ∧
      (stale s4.out = true → fullyLoaded s4 = false) := by
    refine ⟨_, rfl, ?_⟩
    split
    · exact ⟨h3.workers, h3.switch, h3.adopted, h3.counting, h3.current, by simp [stale]⟩
    · next hn =>
      refine ⟨h3.workers, h3.switch, h3.adopted, h3.counting, h3.current, fun hst => ?_⟩
      by_contra hl
      apply hn
      have hl' : fullyLoaded r.2 = true := by simpa using hl
      rcases h3.stale hst with hx | hx <;> simp [hl', hx]
  obtain ⟨s4, e4, w4, sw4, ad4, ct4, cu4, st4⟩ := h4
  rw [e4]
  obtain ⟨p1, p2, p3, p4, p5, p6, p7, p8, p9, -⟩ := poll_spec s4 w4
  obtain ⟨rp, o, e5, u1, u2, -⟩ := updateStatus_frame cap (poll s4)
  rw [e5]
  exact ⟨p1, p2, fun hx => by rw [p6]; exact sw4 (p5 ▸ hx),
    fun hx l f hl => by rw [p8]; exact ad4 (p5 ▸ hx) l f (p3 ▸ hl),
    by simp only; rw [u1, p9, p7]; exact ct4, by simp only; rw [u1, p9, p8]; exact cu4,
    fun hx => p4 (st4 (by rw [← p9, ← u2]; exact hx))⟩

theorem inv_start (cap : Bool) (c : Config) : Inv (start cap c : State Pkg) := by
  unfold start
  obtain ⟨rp, o, e, h1, h2, -⟩ := updateStatus_frame cap (State.new c : State Pkg)
  simp only
  rw [e]
  obtain ⟨p1, p2, p3, p4, p5, p6, p7, p8, p9, -⟩ := poll_spec
    { ({ (State.new c : State Pkg) with reported := rp, out := o } : State Pkg) with
      queue := Queue.requestOp (State.new c : State Pkg).queue () ⟨false⟩ } rfl
  refine ⟨p1, p2, ?_, ?_, ?_, ?_, ?_⟩
  · rw [p5]; simp [State.new]
  · intro _ l f hl; rw [p3] at hl; simp [State.new, Queue.requestOp] at hl
  · rw [p7, p9]; simp only; rw [h1]; simp [State.new, configs, Counting]
  · rw [p8, p9]; simp only; rw [h1]; simp [State.new, configs]
  · rw [p9]; simp only; rw [h2]; simp [State.new, stale]

theorem inv_run {cap : Bool} {s : State Pkg} (h : Inv s) (ts : List (Turn Pkg)) :
    ∃ s', run cap s ts = some s' ∧ Inv s' := by
  induction ts generalizing s with
  | nil => exact ⟨s, rfl, h⟩
  | cons t ts ih =>
    obtain ⟨s1, h1, h2⟩ := inv_turn (cap := cap) h t
    obtain ⟨s2, h3, h4⟩ := ih h2
    exact ⟨s2, by rw [run, h1]; exact h3, h4⟩

/-! ### C17 -/

/-- The status part of the invariant. -/
structure StatusInv (s : State Pkg) : Prop where
  last : ((statuses s.out).head?.getD initialStatus) = s.reported
  changing : Changing (statuses s.out)

theorem statusInv_update {s : State Pkg} (h : StatusInv s) :
    StatusInv (updateStatus true s) ∧ (updateStatus true s).reported = currentStatus (updateStatus true s) := by
  obtain ⟨rp, o, e, -, -, h1, h2, -⟩ := updateStatus_frame true s
  have h2 := h2 rfl
  rw [e]
  refine ⟨⟨?_, ?_⟩, ?_⟩
  · simp only
    rw [h2, h1]
    split
    · next he => rw [h.last, he]
    · rfl
  · simp only
    rw [h2]
    split
    · exact h.changing
    · next he =>
      have hl := h.last
      cases hs : statuses s.out with
      | nil =>
        rw [hs] at hl
        simp only [List.head?_nil, Option.getD_none] at hl
        exact fun hx => he (hl ▸ hx.symm)
      | cons a l =>
        rw [hs] at hl
        simp only [List.head?_cons, Option.getD_some] at hl
        have hc := h.changing
        rw [hs] at hc
        exact ⟨fun hx => he (by rw [← hl, hx]), hc⟩
  · exact h1

/-- Steps other than status reports do not touch the notifications. -/
theorem statusInv_of_eq {s s' : State Pkg} (h : StatusInv s) (h1 : statuses s'.out = statuses s.out)
    (h2 : s'.reported = s.reported) : StatusInv s' :=
  ⟨by rw [h1, h2]; exact h.last, by rw [h1]; exact h.changing⟩

theorem statuses_msg {s s' : State Pkg} {m : Msg Pkg} (h : handleMsg s m = some s') :
    statuses s'.out = statuses s.out ∧ s'.reported = s.reported := by
  cases m with
  | request r => cases h; exact ⟨rfl, rfl⟩
  | config c => cases h; exact ⟨rfl, rfl⟩
  | loadEnd l =>
    simp only [handleMsg] at h
    split at h
    · cases h; exact ⟨rfl, rfl⟩
    · obtain ⟨q, -, rfl⟩ := Option.map_eq_some_iff.1 h; exact ⟨rfl, rfl⟩
  | vfsProgress fin v =>
    simp only [handleMsg, Option.some.injEq] at h
    subst h
    cases fin <;> exact ⟨rfl, rfl⟩

theorem statuses_msgs {s s' : State Pkg} {ms : List (Msg Pkg)} (h : handleMsgs s ms = some s') :
    statuses s'.out = statuses s.out ∧ s'.reported = s.reported := by
  induction ms generalizing s with
  | nil => cases h; exact ⟨rfl, rfl⟩
  | cons m ms ih =>
    obtain ⟨s1, h1, h2⟩ := Option.bind_eq_some_iff.1 h
    obtain ⟨a1, a2⟩ := statuses_msg h1
    obtain ⟨b1, b2⟩ := ih h2
    exact ⟨b1.trans a1, b2.trans a2⟩

theorem statuses_switch (s : State Pkg) :
    statuses (switchWorkspaces s).out = statuses s.out ∧ (switchWorkspaces s).reported = s.reported := by
  unfold switchWorkspaces
  split
  · exact ⟨rfl, rfl⟩
  · split
    · split <;> exact ⟨rfl, rfl⟩
    · exact ⟨rfl, rfl⟩

theorem statuses_settle (s : State Pkg) (p : Option Bool) :
    statuses (settle s p).2.out = statuses s.out ∧ (settle s p).2.reported = s.reported := by
  unfold settle
  split
  · exact ⟨rfl, rfl⟩
  · have : ∀ s1 : State Pkg, statuses (processFiles s1 p).2.out = statuses s1.out ∧
        (processFiles s1 p).2.reported = s1.reported := by
      intro s1
      cases p with
      | none => exact ⟨rfl, rfl⟩
      | some b => cases b <;> exact ⟨rfl, rfl⟩
    simp only
    split
    · obtain ⟨a1, a2⟩ := this (switchWorkspaces { s with switch := false })
      obtain ⟨b1, b2⟩ := statuses_switch { s with switch := false }
      exact ⟨a1.trans b1, a2.trans b2⟩
    · exact this s

theorem poll_status (s : State Pkg) : (poll s).out = s.out ∧ (poll s).reported = s.reported := by
  unfold poll
  split <;> exact ⟨rfl, rfl⟩

theorem statusInv_turn {s s' : State Pkg} (h : StatusInv s) {t : Turn Pkg} (ht : turn true s t = some s') :
    StatusInv s' ∧ s'.reported = currentStatus s' := by
  obtain ⟨s1, h1, rfl⟩ := Option.map_eq_some_iff.1 ht
  obtain ⟨a1, a2⟩ := statuses_msgs h1
  obtain ⟨b1, b2⟩ := statuses_settle s1 t.pending
  unfold afterHandle
  generalize settle s1 t.pending = r at b1 b2 ⊢
  simp only
  apply statusInv_update
  refine statusInv_of_eq h ?_ ?_
  · rw [(poll_status _).1]; split
    · exact b1.trans a1
    · exact b1.trans a1
  · rw [(poll_status _).2]; split
    · exact b2.trans a2
    · exact b2.trans a2

/-- **C17.** For a client that supports status notifications, after every history: no notification equals
the one before it (nor the first one the status assumed initially), and after every turn of the loop the
last notification is the current status. -/
theorem C17_status_exactly_on_change (c : Config) (ts : List (Turn Pkg)) :
    ∃ s, run true (start true c) ts = some s ∧ Changing (statuses s.out) ∧
      (ts ≠ [] → (statuses s.out).head?.getD initialStatus = currentStatus s) := by
  have h0 : StatusInv (start true c : State Pkg) := by
    have h := (statusInv_update (s := (State.new c : State Pkg)) ⟨rfl, trivial⟩).1
    refine statusInv_of_eq h ?_ ?_
    · simp only [start]; rw [(poll_status _).1]
    · simp only [start]; rw [(poll_status _).2]
  obtain ⟨s, hs, -⟩ := inv_run (cap := true) (inv_start true c) ts
  refine ⟨s, hs, ?_⟩
  suffices H : ∀ (s0 : State Pkg), StatusInv s0 → run true s0 ts = some s →
      Changing (statuses s.out) ∧ (ts ≠ [] → (statuses s.out).head?.getD initialStatus = currentStatus s) from
    H _ h0 hs
  clear h0 hs
  intro s0 h0 hs
  induction ts generalizing s0 with
  | nil => cases hs; exact ⟨h0.changing, by simp⟩
  | cons t ts ih =>
    obtain ⟨s1, h1, h2⟩ := Option.bind_eq_some_iff.1 hs
    obtain ⟨i1, e1⟩ := statusInv_turn h0 h1
    cases ts with
    | nil =>
      cases h2
      exact ⟨i1.changing, fun _ => by rw [i1.last, e1]⟩
    | cons t' ts =>
      obtain ⟨g1, g2⟩ := ih s1 i1 h2
      exact ⟨g1, fun _ => g2 (by simp)⟩

/-- **C17 (meaning of the status).** The health is an error exactly if a package could not be loaded, a
warning exactly if not but the configuration has errors or no packages were found, and there is a message
exactly if the health is not fine. -/
theorem C17_status_meaning (s : State Pkg) :
    ((currentStatus s).health = .error ↔ loadingError s = true) ∧
    ((currentStatus s).health = .warning ↔
      loadingError s = false ∧ (s.config.errors.isSome = true ∨ s.config.noManifests = true)) ∧
    ((currentStatus s).message = none ↔ (currentStatus s).health = .ok) ∧
    ((currentStatus s).quiescent = fullyLoaded s) := by
  unfold currentStatus
  cases he : s.config.errors <;> cases hm : s.config.noManifests <;> cases hl : loadingError s <;>
    simp [Health.or]

/-! ### C18 -/

/-- **C18 (one turn).** In every turn of the loop, the set of packages changes only together with a new
configuration of the file loader whose version is one larger, for exactly the packages of the latest load;
and if the latest load failed while packages are in use, nothing changes. -/
theorem C18_failed_reload_keeps_workspace (cap : Bool) (s s' : State Pkg) (t : Turn Pkg)
    (h : turn cap s t = some s') :
    (s'.packages = s.packages ∧ s'.configVersion = s.configVersion ∧ configs s'.out = configs s.out) ∨
    ∃ l f, s'.queue.lastOpResult = some (l, f) ∧ s'.packages = validPackages l ∧
      s'.configVersion = s.configVersion + 1 ∧
      configs s'.out = (s.configVersion + 1, validPackages l) :: configs s.out ∧
      (Failed l → s.packages = []) := by
  obtain ⟨s1, h1, rfl⟩ := Option.map_eq_some_iff.1 h
  have hm : ∀ (ms : List (Msg Pkg)) (a b : State Pkg), handleMsgs a ms = some b →
      b.packages = a.packages ∧ b.configVersion = a.configVersion ∧ configs b.out = configs a.out := by
    intro ms
    induction ms with
    | nil => intro a b hab; cases hab; exact ⟨rfl, rfl, rfl⟩
    | cons m ms ih =>
      intro a b hab
      obtain ⟨a1, e1, e2⟩ := Option.bind_eq_some_iff.1 hab
      have hx : a1.packages = a.packages ∧ a1.configVersion = a.configVersion ∧ configs a1.out = configs a.out := by
        cases m with
        | request r => cases e1; exact ⟨rfl, rfl, rfl⟩
        | config c => cases e1; exact ⟨rfl, rfl, rfl⟩
        | loadEnd l =>
          simp only [handleMsg] at e1
          split at e1
          · cases e1; exact ⟨rfl, rfl, rfl⟩
          · obtain ⟨q, -, rfl⟩ := Option.map_eq_some_iff.1 e1; exact ⟨rfl, rfl, rfl⟩
        | vfsProgress fin v =>
          simp only [handleMsg, Option.some.injEq] at e1
          subst e1
          cases fin <;> exact ⟨rfl, rfl, rfl⟩
      obtain ⟨b1, b2, b3⟩ := ih a1 b e2
      exact ⟨b1.trans hx.1, b2.trans hx.2.1, b3.trans hx.2.2⟩
  obtain ⟨m1, m2, m3⟩ := hm _ _ _ h1
  -- effect of everything after `settle`
  have hend : ∀ (cap w : Bool) (r : Bool × State Pkg),
      let z := updateStatus cap (poll (if (fullyLoaded r.2 && (!w || r.1)) = true then
        { r.2 with out := .refresh :: r.2.out } else r.2))
      z.packages = r.2.packages ∧ z.configVersion = r.2.configVersion ∧ configs z.out = configs r.2.out ∧
        z.queue.lastOpResult = r.2.queue.lastOpResult := by
    intro cap w r
    have hp : ∀ a : State Pkg, (poll a).packages = a.packages ∧ (poll a).configVersion = a.configVersion ∧
        (poll a).out = a.out ∧ (poll a).queue.lastOpResult = a.queue.lastOpResult := by
      intro a
      obtain ⟨⟨rq, ip, lr⟩, ws, sw, sy, so, cv, pv, pk, cf, rp, out⟩ := a
      cases ip with
      | true => exact ⟨rfl, rfl, rfl, rfl⟩
      | false => cases rq <;> exact ⟨rfl, rfl, rfl, rfl⟩
    simp only
    split
    · obtain ⟨rp, o, e, u1, -⟩ := updateStatus_frame cap (poll { r.2 with out := .refresh :: r.2.out })
      rw [e]
      obtain ⟨q1, q2, q3, q4⟩ := hp { r.2 with out := .refresh :: r.2.out }
      exact ⟨q1, q2, by simp only; rw [u1, q3]; rfl, q4⟩
    · obtain ⟨rp, o, e, u1, -⟩ := updateStatus_frame cap (poll r.2)
      rw [e]
      obtain ⟨q1, q2, q3, q4⟩ := hp r.2
      exact ⟨q1, q2, by simp only; rw [u1, q3], q4⟩
  obtain ⟨e1, e2, e3, e4⟩ := hend cap (fullyLoaded s) (settle s1 t.pending)
  have hsettle : ((settle s1 t.pending).2.packages = s1.packages ∧
        (settle s1 t.pending).2.configVersion = s1.configVersion ∧
        configs (settle s1 t.pending).2.out = configs s1.out) ∨
      ∃ l f, (settle s1 t.pending).2.queue.lastOpResult = some (l, f) ∧
        (settle s1 t.pending).2.packages = validPackages l ∧
        (settle s1 t.pending).2.configVersion = s1.configVersion + 1 ∧
        configs (settle s1 t.pending).2.out = (s1.configVersion + 1, validPackages l) :: configs s1.out ∧
        (Failed l → s1.packages = []) := by
    have hf : ∀ (a : State Pkg) (p : Option Bool), (processFiles a p).2.packages = a.packages ∧
        (processFiles a p).2.configVersion = a.configVersion ∧ configs (processFiles a p).2.out = configs a.out ∧
        (processFiles a p).2.queue.lastOpResult = a.queue.lastOpResult := by
      intro a p
      cases p with
      | none => exact ⟨rfl, rfl, rfl, rfl⟩
      | some b => cases b <;> exact ⟨rfl, rfl, rfl, rfl⟩
    unfold settle
    split
    · exact Or.inl ⟨rfl, rfl, rfl⟩
    · simp only
      split
      · obtain ⟨g1, g2, g3, g4⟩ := hf (switchWorkspaces { s1 with switch := false }) t.pending
        rw [g1, g2, g3, g4]
        have hq := (switchWorkspaces_frame { s1 with switch := false }).1
        cases hl : s1.queue.lastOpResult with
        | none =>
          have : switchWorkspaces { s1 with switch := false } = { s1 with switch := false } := by
            simp [switchWorkspaces, hl]
          rw [this]
          exact Or.inl ⟨rfl, rfl, rfl⟩
        | some p =>
          obtain ⟨l, f⟩ := p
          obtain ⟨hk, ha⟩ := switchWorkspaces_spec { s1 with switch := false } l f hl
          by_cases hc : Failed l ∧ s1.packages ≠ []
          · exact Or.inl (hk hc)
          · refine Or.inr ⟨l, f, by rw [hq]; exact hl, (ha hc).1, (ha hc).2.1, (ha hc).2.2, fun hfl => ?_⟩
            by_contra hne
            exact hc ⟨hfl, hne⟩
      · obtain ⟨g1, g2, g3, -⟩ := hf s1 t.pending
        exact Or.inl ⟨g1, g2, g3⟩
  have eA : afterHandle cap (fullyLoaded s) t.pending s1 =
      updateStatus cap (poll (if (fullyLoaded (settle s1 t.pending).2 && (!fullyLoaded s || (settle s1 t.pending).1)) = true then
        { (settle s1 t.pending).2 with out := .refresh :: (settle s1 t.pending).2.out } else (settle s1 t.pending).2)) := rfl
  rw [eA, e1, e2, e3, e4]
  rw [m1, m2, m3] at hsettle
  exact hsettle

/-- **C18 (histories).** After every history, which never makes the server panic: the file loader was
configured with the versions 1, 2, …, n in this order, where n is the version in force, and the packages in
use are those of the latest configuration. -/
theorem C18_versions_increase (cap : Bool) (c : Config) (ts : List (Turn Pkg)) :
    ∃ s, run cap (start cap c) ts = some s ∧ Counting s.configVersion (configs s.out) ∧
      s.packages = ((configs s.out).head?.map (·.2)).getD [] := by
  obtain ⟨s, hs, hi⟩ := inv_run (cap := cap) (inv_start cap c) ts
  exact ⟨s, hs, hi.counting, hi.current⟩

/-! ### C54, C55 -/

/-- **C54.** Whenever, between turns, the server regards itself as quiescent: no load runs or is
requested, no finished load waits to be adopted, the file loader is idle and has acknowledged the latest
configuration, and the packages in use are those of the last load unless that load failed. -/
theorem C54_quiescent_means_settled (cap : Bool) (c : Config) (ts : List (Turn Pkg)) :
    ∃ s, run cap (start cap c) ts = some s ∧ (fullyLoaded s = true →
      s.workers = [] ∧ s.queue.opRequested = none ∧ s.switch = false ∧ s.syncing = false ∧
      s.configVersion ≤ s.progressVersion ∧
      ∀ l f, s.queue.lastOpResult = some (l, f) → s.packages = validPackages l ∨ Failed l) := by
  obtain ⟨s, hs, hi⟩ := inv_run (cap := cap) (inv_start cap c) ts
  refine ⟨s, hs, fun hf => ?_⟩
  simp only [fullyLoaded, Bool.and_eq_true, Bool.not_eq_true', decide_eq_true_eq] at hf
  obtain ⟨⟨h1, h2⟩, h3⟩ := hf
  have hsw : s.switch = false := by
    by_contra hx
    have := hi.switch (by simpa using hx)
    rw [h1] at this
    cases this
  have hw := hi.workers
  rw [h2] at hw
  exact ⟨List.length_eq_zero_iff.1 hw, hi.requested h2, hsw, h1, h3, hi.adopted hsw⟩

/-- **C55 (file changes).** Between turns, if the server is fully loaded then no file change has reached
the database since the client was last asked to refresh. -/
theorem C55_changes_are_announced (cap : Bool) (c : Config) (ts : List (Turn Pkg)) :
    ∃ s, run cap (start cap c) ts = some s ∧ (fullyLoaded s = true → stale s.out = false) := by
  obtain ⟨s, hs, hi⟩ := inv_run (cap := cap) (inv_start cap c) ts
  refine ⟨s, hs, fun hf => ?_⟩
  by_contra hx
  have := hi.stale (by simpa using hx)
  rw [hf] at this
  cases this

theorem refreshes_msgs {s s' : State Pkg} {ms : List (Msg Pkg)} (h : handleMsgs s ms = some s') :
    refreshes s'.out = refreshes s.out := by
  induction ms generalizing s with
  | nil => cases h; rfl
  | cons m ms ih =>
    obtain ⟨s1, h1, h2⟩ := Option.bind_eq_some_iff.1 h
    rw [ih h2]
    cases m with
    | request r => cases h1; rfl
    | config c => cases h1; rfl
    | loadEnd l =>
      simp only [handleMsg] at h1
      split at h1
      · cases h1; rfl
      · obtain ⟨q, -, rfl⟩ := Option.map_eq_some_iff.1 h1; rfl
    | vfsProgress fin v =>
      simp only [handleMsg, Option.some.injEq] at h1
      subst h1
      cases fin <;> rfl

theorem refreshes_settle (s : State Pkg) (p : Option Bool) :
    refreshes (settle s p).2.out = refreshes s.out := by
  unfold settle
  split
  · rfl
  · have : ∀ s1 : State Pkg, refreshes (processFiles s1 p).2.out = refreshes s1.out := by
      intro s1
      cases p with
      | none => rfl
      | some b => cases b <;> rfl
    simp only
    split
    · rw [this]
      unfold switchWorkspaces
      split
      · rfl
      · split
        · split <;> rfl
        · rfl
    · exact this s

/-- **C55 (becoming ready).** In every turn that begins with the server not fully loaded and ends with it
fully loaded, the client is asked to refresh, exactly once. -/
theorem C55_becoming_ready_is_announced (cap : Bool) (c : Config) (ts : List (Turn Pkg)) (t : Turn Pkg)
    (s s' : State Pkg) (hs : run cap (start cap c) ts = some s) (h : turn cap s t = some s')
    (h0 : fullyLoaded s = false) (h1 : fullyLoaded s' = true) :
    refreshes s'.out = refreshes s.out + 1 := by
  obtain ⟨s0, hs0, hi⟩ := inv_run (cap := cap) (inv_start cap c) ts
  rw [hs] at hs0
  cases hs0
  obtain ⟨s1, e1, rfl⟩ := Option.map_eq_some_iff.1 h
  have hr1 := (refreshes_settle s1 t.pending).trans (refreshes_msgs e1)
  have hmid : Mid (fullyLoaded s) s := ⟨hi.workers, hi.adopted, hi.counting, hi.current, hi.stale⟩
  obtain ⟨s2, e2, m2⟩ := mid_msgs hmid t.msgs
  rw [e1] at e2
  cases e2
  have h3 := settle_spec m2 t.pending
  unfold afterHandle at h1 ⊢
  generalize settle s1 t.pending = r at h1 h3 hr1 ⊢
  simp only [h0, Bool.not_false, Bool.true_or, Bool.and_true] at h1 ⊢
  by_cases hl : fullyLoaded r.2 = true
  · rw [if_pos hl]
    obtain ⟨rp, o, e, -, -, -, -, hx⟩ := updateStatus_frame cap (poll { r.2 with out := .refresh :: r.2.out })
    rw [e]
    simp only
    rw [hx, (poll_status _).1, ← hr1]
    rfl
  · exfalso
    rw [if_neg hl] at h1
    obtain ⟨rp, o, e, -⟩ := updateStatus_frame cap (poll r.2)
    rw [e] at h1
    have := (poll_spec r.2 h3.workers).2.2.2.1 (by simpa using hl)
    have h1' : fullyLoaded (poll r.2) = true := h1
    rw [this] at h1'
    cases h1'

/-- A complete start: load two packages, switch, the file loader reports, files reach the database. -/
example : ∃ s : State Nat, run true (start true ⟨none, false⟩)
    [⟨[.loadEnd [some 1, some 2]], none⟩, ⟨[.vfsProgress false 1], none⟩, ⟨[.vfsProgress true 1], some false⟩] = some s ∧
    s.packages = [1, 2] ∧ fullyLoaded s = true ∧ (statuses s.out).map (·.quiescent) = [true, false] ∧
    configs s.out = [(1, [1, 2])] := by
  refine ⟨_, rfl, ?_⟩
  decide +kernel

/-- A failed reload later keeps the packages, and is reported. -/
example : ∃ s : State Nat, run true (start true ⟨none, false⟩)
    [⟨[.loadEnd [some 1, some 2]], none⟩, ⟨[.vfsProgress true 1], none⟩, ⟨[.request ⟨true⟩], none⟩,
      ⟨[.loadEnd [some 1, none]], none⟩] = some s ∧
    s.packages = [1, 2] ∧ s.configVersion = 1 ∧ (currentStatus s).health = .error := by
  refine ⟨_, rfl, ?_⟩
  decide +kernel

end Verif.Server.Loop
