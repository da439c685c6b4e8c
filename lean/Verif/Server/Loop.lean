import Verif.OpQueue.Model
import Mathlib.Data.List.Basic

/-! Model of the turns of the main loop as far as loading packages, switching workspaces, reporting the
status and asking the client to refresh are concerned:

* `main_loop.rs` 121-153 (`run`), 178-232 (`handle_event`), 234-288 (`after_handle_event`,
  `update_status_or_notify`), 318-346 (`handle_task`), 348-395 (`handle_vfs_msg`);
* `reload.rs` 57-61 (`is_project_fully_loaded`), 85-115 (`current_status`), 160-233
  (`switch_workspaces`), 357-366 (`is_package_loading_error`);
* `lsp/ext.rs` 57-82 (`ServerStatusParams`, `Health`).

Left out: what packages contain, progress reports, file watcher registration, the package graph itself
(only that it is recreated). -/

namespace Verif.Server.Loop
open Verif.OpQueue (Queue LoadRequest)

/-- `Health` (lsp/ext.rs 66-72). -/
inductive Health where
  | ok
  | warning
  | error
deriving DecidableEq, Repr

/-- `BitOrAssign for Health` (lsp/ext.rs 74-82). -/
def Health.or : Health → Health → Health
  | .error, _ => .error
  | _, .error => .error
  | .warning, _ => .warning
  | _, .warning => .warning
  | .ok, .ok => .ok

/-- `ServerStatusParams` (lsp/ext.rs 57-63). -/
structure Status where
  health : Health
  quiescent : Bool
  message : Option (List Char)
deriving DecidableEq, Repr

/-- The parts of the configuration that matter for the status. -/
structure Config where
  /-- `config_errors`, rendered -/
  errors : Option (List Char)
  /-- `config.discovered_manifests().is_empty()` -/
  noManifests : Bool
deriving DecidableEq, Repr

/-- What the outside world sees, newest first. -/
inductive Out (Pkg : Type) where
  /-- `vfs_loader.handle.set_config` with this version, for these packages -/
  | setConfig (version : Nat) (packages : List Pkg)
  /-- status notification -/
  | status (s : Status)
  /-- `show_message`, for clients without status notifications -/
  | message (h : Health) (text : List Char)
  /-- the client is asked to refresh tokens, lenses, hints and diagnostics -/
  | refresh
  /-- file changes reached the database -/
  | filesChanged
  /-- the package graph in the database was recreated -/
  | graph

/-- `LoadedPackages`: `none` is a `ManifestParseError` (load_from_fs.rs 27-37). -/
abbrev Loaded (Pkg : Type) := List (Option Pkg)

/-- `GlobalState`. -/
structure State (Pkg : Type) where
  queue : Queue Unit LoadRequest (Loaded Pkg × Bool)
  /-- loads running on worker threads, with their `force` flag -/
  workers : List Bool
  /-- `scheduled_switch.is_some()` -/
  switch : Bool
  /-- `vfs_sync_in_progress` -/
  syncing : Bool
  /-- `vfs_synced_once` -/
  syncedOnce : Bool
  configVersion : Nat
  progressVersion : Nat
  packages : List Pkg
  config : Config
  /-- `last_reported_status` -/
  reported : Status
  out : List (Out Pkg)

variable {Pkg : Type}

/-- `is_project_fully_loaded` (reload.rs 57-61). -/
def fullyLoaded (s : State Pkg) : Bool :=
  !s.syncing && !s.queue.opInProgress && decide (s.configVersion ≤ s.progressVersion)

/-- `is_package_loading_error` (reload.rs 357-366). -/
def loadingError (s : State Pkg) : Bool :=
  match s.queue.lastOpResult with
  | some (l, _) => l.any (·.isNone)
  | none => false

/-- `str::trim_end`, for the white space that occurs in the messages (blanks and line feeds; other Unicode
white space at the end of a rendered configuration error would be trimmed too). -/
def trimEnd (t : List Char) : List Char :=
  (t.reverse.dropWhile fun c => c == ' ' || c == '\n').reverse

/-- `current_status` (reload.rs 85-115). -/
def currentStatus (s : State Pkg) : Status :=
  let h0 := Health.ok
  let m0 : List Char := []
  let (h1, m1) := match s.config.errors with
    | some e => (h0.or .warning, m0 ++ e ++ ['\n'])
    | none => (h0, m0)
  let (h2, m2) := if s.config.noManifests then
      (h1.or .warning, m1 ++ "Failed to discover Aptos packages in the current folder.".toList)
    else (h1, m1)
  let (h3, m3) := if loadingError s then
      (h2.or .error, m2 ++ "Failed to load some of the Aptos packages.\n\n".toList)
    else (h2, m2)
  ⟨h3, fullyLoaded s, if m3.isEmpty then none else some (trimEnd m3)⟩

/-- `update_status_or_notify` (main_loop.rs 264-288); `cap` is whether the client supports status
notifications (a fixed client capability). -/
def updateStatus (cap : Bool) (s : State Pkg) : State Pkg :=
  let st := currentStatus s
  if s.reported = st then s
  else
    let s := { s with reported := st }
    if cap then { s with out := .status st :: s.out }
    else match st.health, st.message with
      | .ok, _ => s
      | _, none => s
      | h, some m => { s with out := .message h m :: s.out }

/-- `valid_packages` (load_from_fs.rs 40-48). -/
def validPackages (l : Loaded Pkg) : List Pkg := l.filterMap id

/-- `switch_workspaces` (reload.rs 160-233). -/
def switchWorkspaces (s : State Pkg) : State Pkg :=
  match s.queue.lastOpResult with
  | none => s
  | some (l, force) =>
    if loadingError s && !s.packages.isEmpty then
      if force then { s with out := .graph :: s.out } else s
    else
      { s with configVersion := s.configVersion + 1
               packages := validPackages l
               out := .setConfig (s.configVersion + 1) (validPackages l) :: s.out }

/-- Messages handled in a turn. -/
inductive Msg (Pkg : Type) where
  /-- a handler requests a load (reload.rs 73, notification.rs) -/
  | request (r : LoadRequest)
  /-- the configuration changes -/
  | config (c : Config)
  /-- `FetchPackagesProgress::End` from the oldest running worker -/
  | loadEnd (l : Loaded Pkg)
  /-- `vfs::loader::Message::Progress` with this version; `finished` says whether loading ended -/
  | vfsProgress (finished : Bool) (version : Nat)

/-- Handling of one message (main_loop.rs 318-346, 358-395). A `loadEnd` without running worker does not
occur and is a no-op; `none` is the failed assertion in `op_completed`. -/
def handleMsg (s : State Pkg) : Msg Pkg → Option (State Pkg)
  | .request r => some { s with queue := s.queue.requestOp () r }
  | .config c => some { s with config := c }
  | .loadEnd l =>
    match s.workers with
    | [] => some s
    | w :: ws => (s.queue.opCompleted (l, w)).map fun q => { s with queue := q, workers := ws, switch := true }
  | .vfsProgress fin v =>
    let s := { s with progressVersion := v, syncedOnce := s.syncedOnce || fin, syncing := !fin }
    some (if fin then { s with out := .graph :: s.out } else s)

/-- All messages of a turn (coalescing, main_loop.rs 202-217). -/
def handleMsgs (s : State Pkg) : List (Msg Pkg) → Option (State Pkg)
  | [] => some s
  | m :: ms => (handleMsg s m).bind fun s => handleMsgs s ms

/-- The poll of the queue (main_loop.rs 255-259). -/
def poll (s : State Pkg) : State Pkg :=
  match s.queue.shouldStartOp with
  | (some (_, r), q) => { s with queue := q, workers := s.workers ++ [r.forceReloadPackageDeps] }
  | (none, q) => { s with queue := q }

/-- `process_pending_file_changes` (file_changes.rs 16-43): `pending` says whether the vfs has pending
changes, and whether they change the workspace structure. -/
def processFiles (s : State Pkg) : Option Bool → Bool × State Pkg
  | none => (false, s)
  | some structural =>
    let s := { s with out := .filesChanged :: s.out }
    (true, if structural then { s with queue := s.queue.requestOp () ⟨true⟩ } else s)

/-- First part of `after_handle_event` (main_loop.rs 235-241). -/
def settle (s : State Pkg) (pending : Option Bool) : Bool × State Pkg :=
  if s.syncing then (false, s)
  else
    let s := if s.switch then switchWorkspaces { s with switch := false } else s
    processFiles s pending

/-- `after_handle_event` (main_loop.rs 234-262). -/
def afterHandle (cap wasLoaded : Bool) (pending : Option Bool) (s : State Pkg) : State Pkg :=
  let r := settle s pending
  let s := if fullyLoaded r.2 && (!wasLoaded || r.1) then { r.2 with out := .refresh :: r.2.out } else r.2
  updateStatus cap (poll s)

/-- A turn of the loop: its messages, and the pending file changes found at its end. -/
structure Turn (Pkg : Type) where
  msgs : List (Msg Pkg)
  pending : Option Bool

/-- `handle_event` (main_loop.rs 178-232). -/
def turn (cap : Bool) (s : State Pkg) (t : Turn Pkg) : Option (State Pkg) :=
  (handleMsgs s t.msgs).map (afterHandle cap (fullyLoaded s) t.pending)

/-- Any number of turns. -/
def run (cap : Bool) (s : State Pkg) : List (Turn Pkg) → Option (State Pkg)
  | [] => some s
  | t :: ts => (turn cap s t).bind fun s => run cap s ts

/-- `GlobalState::new` (global_state.rs 134-163). -/
def State.new (c : Config) : State Pkg :=
  ⟨{}, [], false, false, false, 0, 0, [], c, ⟨.ok, true, none⟩, []⟩

/-- Start of `run` (main_loop.rs 121-137): report the status, request a load, start it. -/
def start (cap : Bool) (c : Config) : State Pkg :=
  let s := updateStatus cap (State.new c)
  poll { s with queue := s.queue.requestOp () ⟨false⟩ }

end Verif.Server.Loop
