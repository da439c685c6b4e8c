/-! Model of `crates/aptos-language-server/src/op_queue.rs` and of the way the main loop drives it. -/

namespace Verif.OpQueue

/-- `OpQueue<Args, Output>` (op_queue.rs 33-37). The cause is part of the request. -/
structure Queue (Cause Args Output : Type) where
  opRequested : Option (Cause × Args) := none
  opInProgress : Bool := false
  lastOpResult : Option Output := none

variable {Cause Args Output : Type}

/-- `OpQueue::request_op` (op_queue.rs 51-53). -/
def Queue.requestOp (q : Queue Cause Args Output) (c : Cause) (a : Args) : Queue Cause Args Output :=
  { q with opRequested := some (c, a) }

/-- `OpQueue::should_start_op` (op_queue.rs 57-63). -/
def Queue.shouldStartOp (q : Queue Cause Args Output) :
    Option (Cause × Args) × Queue Cause Args Output :=
  if q.opInProgress then (none, q)
  else (q.opRequested, { q with opInProgress := q.opRequested.isSome, opRequested := none })

/-- `OpQueue::op_completed` (op_queue.rs 66-70); `none` is the failed assertion. -/
def Queue.opCompleted (q : Queue Cause Args Output) (r : Output) : Option (Queue Cause Args Output) :=
  if q.opInProgress then some { q with opInProgress := false, lastOpResult := some r } else none

/-- The calls a client of the queue can make. -/
inductive Call (Cause Args Output : Type) where
  | request (c : Cause) (a : Args)
  | poll
  | complete (r : Output)

/-- What an observer of the calls sees: requests, starts with their arguments, polls that start nothing,
completions. -/
inductive Obs (Cause Args Output : Type) where
  | requested (c : Cause) (a : Args)
  | started (c : Cause) (a : Args)
  | idle
  | completed (r : Output)

/-- One call: the observation and the new state, `none` on panic. -/
def step (q : Queue Cause Args Output) :
    Call Cause Args Output → Option (Obs Cause Args Output × Queue Cause Args Output)
  | .request c a => some (.requested c a, q.requestOp c a)
  | .poll =>
    match q.shouldStartOp with
    | (some (c, a), q') => some (.started c a, q')
    | (none, q') => some (.idle, q')
  | .complete r => (q.opCompleted r).map fun q' => (.completed r, q')

/-- A sequence of calls; the history is newest first. -/
def run (q : Queue Cause Args Output) (h : List (Obs Cause Args Output)) :
    List (Call Cause Args Output) → Option (List (Obs Cause Args Output) × Queue Cause Args Output)
  | [] => some (h, q)
  | c :: cs =>
    match step q c with
    | some (o, q') => run q' (o :: h) cs
    | none => none

/-! ### The main loop (main_loop.rs)

`GlobalState::run` requests a load and polls (125-137); afterwards every event is handled by
`handle_event`, which may request loads (notification.rs 137 and 231, reload.rs 73, file_changes.rs 34)
and, for a task `FetchPackagesProgress::End`, completes the operation (330); `handle_event` ends with a
poll (255-259). A started operation spawns exactly one worker, which sends exactly one `End`
(reload.rs 113-155; assumed: a worker that starts also finishes). All other state is left out. -/

/-- Arguments of a load: `LoadPackagesRequest` (global_state.rs). -/
structure LoadRequest where
  forceReloadPackageDeps : Bool
deriving DecidableEq, Repr

/-- The queue together with the arguments of the workers that have not yet sent `End`. -/
structure Sys (Cause Packages : Type) where
  queue : Queue Cause LoadRequest (Packages × Bool)
  workers : List Bool

/-- What an event brings: a list of requests made by its handlers before (`reqs`), possibly the `End` of
a running worker with the loaded packages. -/
structure Event (Cause Packages : Type) where
  reqs : List (Cause × LoadRequest)
  finish : Option Packages

variable {Packages : Type}

/-- The poll at the end of event handling (main_loop.rs 255-259): a start spawns a worker. -/
def Sys.poll (s : Sys Cause Packages) : Sys Cause Packages :=
  match s.queue.shouldStartOp with
  | (some (_, r), q) => { queue := q, workers := r.forceReloadPackageDeps :: s.workers }
  | (none, q) => { s with queue := q }

/-- `handle_event` restricted to the queue (main_loop.rs 160-262). An `End` can only come from a running
worker; an event claiming one when there is none does not occur and is a no-op. `none` is a panic. -/
def Sys.handle (s : Sys Cause Packages) (e : Event Cause Packages) : Option (Sys Cause Packages) :=
  let afterEnd : Option (Sys Cause Packages) :=
    match e.finish, s.workers with
    | some p, w :: ws => (s.queue.opCompleted (p, w)).map fun q => { queue := q, workers := ws }
    | _, _ => some s
  afterEnd.map fun s =>
    Sys.poll { s with queue := e.reqs.foldl (fun q r => q.requestOp r.1 r.2) s.queue }

/-- Startup (main_loop.rs 125-137). -/
def Sys.start (c : Cause) : Sys Cause Packages :=
  Sys.poll { queue := Queue.requestOp {} c ⟨false⟩, workers := [] }

/-- All events up to some moment. -/
def Sys.handleAll (s : Sys Cause Packages) : List (Event Cause Packages) → Option (Sys Cause Packages)
  | [] => some s
  | e :: es => (s.handle e).bind fun s => s.handleAll es

end Verif.OpQueue
