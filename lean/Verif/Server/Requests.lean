import Mathlib.Data.List.Basic

/-! Model of the life of a client request:

* `global_state.rs` 218-246 (`register_request`, `respond`, `cancel`, `is_completed`);
* `main_loop.rs` 318-346 (`handle_task`), 420-515 (`on_new_request`, `on_request`);
* `handlers/dispatch.rs` 40-408 (`RequestDispatcher`).

`lsp_server::ReqQueue` is an external crate: `incoming` is a map from ids to data with `register`
(insert), `complete` (remove, returning the data if present), `cancel` (`complete`, then an error
response) and `is_completed` (absent).

Worker threads are modelled by two lists: closures that run (`workers`), and task messages in the channels
to the main loop (`inbox`). A worker may finish, and a message may be taken from the channels, in any
order; this includes every schedule of the two thread pools. What a handler does is not modelled, only how
it ends (`Outcome`), which is chosen by the environment. -/

namespace Verif.Server

variable {Id : Type} [DecidableEq Id]

/-- How a handler ends: `Ok(result)`; `Err` with an `LspError`, another error or `Cancelled`; or a panic
with a message or with `Cancelled` (dispatch.rs 336-400). -/
inductive Outcome where
  | value
  | lspError (code : Int)
  | otherError
  | cancelled
  | panicked
  | panickedCancelled
deriving DecidableEq, Repr

/-- Content of a response. -/
inductive Answer where
  | result
  | vfsDefault
  | echo
  | error (code : Int)
deriving DecidableEq, Repr

/-- `lsp_server::ErrorCode`. -/
def invalidRequest : Int := -32600
def methodNotFound : Int := -32601
def invalidParams : Int := -32602
def internalError : Int := -32603
def requestCanceled : Int := -32800
def contentModified : Int := -32801
def serverCancelled : Int := -32802

/-- The dispatch modes (dispatch.rs 47-238). `on` and `on_latency_sensitive` differ in the thread priority
only; so both are `pool`. -/
inductive Mode where
  | sync
  | fmt
  | pool (retry : Bool)
  | poolVfsDefault
  | identity (retry : Bool)
deriving DecidableEq, Repr

/-- A request. Whether its parameters can be read for the method is `paramsOk` (`from_json`). -/
structure Request (Id : Type) where
  id : Id
  method : String
  paramsOk : Bool
deriving DecidableEq

/-- The chain of handlers in `on_request` after the shutdown check (main_loop.rs 456-514). -/
def routes : List (String × Mode) := [
  ("textDocument/selectionRange", .sync),
  ("textDocument/formatting", .fmt),
  ("textDocument/completion", .pool true),
  ("completionItem/resolve", .pool true),
  ("textDocument/semanticTokens/full", .pool true),
  ("textDocument/semanticTokens/range", .pool false),
  ("textDocument/diagnostic", .poolVfsDefault),
  ("textDocument/documentSymbol", .pool true),
  ("textDocument/signatureHelp", .pool false),
  ("textDocument/hover", .pool false),
  ("textDocument/definition", .pool false),
  ("textDocument/inlayHint", .pool false),
  ("inlayHint/resolve", .identity false),
  ("textDocument/codeLens", .pool false),
  ("codeLens/resolve", .identity false),
  ("textDocument/prepareRename", .pool false),
  ("textDocument/rename", .pool false),
  ("textDocument/references", .pool false),
  ("textDocument/documentHighlight", .pool false),
  ("workspace/symbol", .pool true),
  ("textDocument/codeAction", .pool false),
  ("codeAction/resolve", .identity true),
  ("aptos-language-server/analyzerStatus", .pool true),
  ("aptos-language-server/viewSyntaxTree", .pool false),
  ("experimental/organizeImports", .pool false)]

/-- A closure given to a thread pool (dispatch.rs 268-288): the request, whether it may be retried, and
the error code used if it was cancelled. -/
structure Worker (Id : Type) where
  req : Request Id
  retry : Bool
  cancelCode : Int
deriving DecidableEq

/-- `Task` (main_loop.rs 99-104) without progress reports. -/
inductive Task (Id : Type) where
  | response (id : Id) (a : Answer)
  | retry (req : Request Id)
deriving DecidableEq

/-- The state. `sent` is the log of responses written to the client, newest last; `ran` is the log of
requests for which a handler was called. -/
structure State (Id : Type) where
  pending : List Id
  shutdown : Bool
  vfsLoaded : Bool
  workers : List (Worker Id)
  inbox : List (Task Id)
  sent : List (Id × Answer)
  ran : List Id

/-- The state at startup. -/
def State.init : State Id := ⟨[], false, false, [], [], [], []⟩

/-- `register_request` (global_state.rs 218-222): insertion into a map. -/
def register (s : State Id) (id : Id) : State Id :=
  { s with pending := if id ∈ s.pending then s.pending else id :: s.pending }

/-- `respond` (global_state.rs 224-236). -/
def respond (s : State Id) (id : Id) (a : Answer) : State Id :=
  if id ∈ s.pending then
    { s with pending := s.pending.filter (· ≠ id), sent := s.sent ++ [(id, a)] }
  else s

/-- `cancel` (global_state.rs 238-242). -/
def cancel (s : State Id) (id : Id) : State Id := respond s id (.error requestCanceled)

/-- `result_to_response` and `thread_result_to_response` (dispatch.rs 345-408): the answer, or `none` for
`HandlerCancelledError`. -/
def toAnswer : Outcome → Option Answer
  | .value => some .result
  | .lspError c => some (.error c)
  | .otherError => some (.error internalError)
  | .cancelled => none
  | .panicked => some (.error internalError)
  | .panickedCancelled => none

/-- `parse` (dispatch.rs 293-318) after the method matched: invalid parameters are answered at once. -/
def parseThen (s : State Id) (r : Request Id) (k : State Id → State Id) : State Id :=
  if r.paramsOk then k s else respond s r.id (.error invalidParams)

/-- `on_with_thread_intent` (dispatch.rs 250-291). -/
def spawn (s : State Id) (r : Request Id) (retry : Bool) (code : Int) : State Id :=
  parseThen s r fun s => { s with workers := s.workers ++ [⟨r, retry, code⟩], ran := s.ran ++ [r.id] }

/-- One handler of the chain, called with a request of its method (dispatch.rs 47-238). `o` is how a
handler run on the main thread ends; a panic there is caught by `catch_unwind` (`on_sync`). -/
def dispatchMode (s : State Id) (r : Request Id) (o : Outcome) : Mode → State Id
  | .sync => parseThen s r fun s =>
      let s := { s with ran := s.ran ++ [r.id] }
      match toAnswer o with
      | some a => respond s r.id a
      | none => s
  | .fmt => spawn s r false contentModified
  | .pool retry =>
      if s.vfsLoaded then spawn s r retry contentModified else respond s r.id .vfsDefault
  | .poolVfsDefault =>
      if s.vfsLoaded then spawn s r false serverCancelled else respond s r.id .vfsDefault
  | .identity retry =>
      if s.vfsLoaded then spawn s r retry contentModified
      else parseThen s r fun s => respond s r.id .echo

/-- The chain: each handler takes the request if the method matches; `finish` answers what is left
(dispatch.rs 239-249). -/
def dispatchChain (s : State Id) (r : Request Id) (o : Outcome) : List (String × Mode) → State Id
  | [] => respond s r.id (.error methodNotFound)
  | (m, mode) :: rest => if r.method = m then dispatchMode s r o mode else dispatchChain s r o rest

/-- `on_request` (main_loop.rs 428-515). -/
def onRequest (s : State Id) (r : Request Id) (o : Outcome) : State Id :=
  if r.method = "shutdown" then
    parseThen s r fun s => respond { s with shutdown := true } r.id .result
  else if s.shutdown then respond s r.id (.error invalidRequest)
  else dispatchChain s r o routes

/-- `on_new_request` (main_loop.rs 420-425). -/
def onNewRequest (s : State Id) (r : Request Id) (o : Outcome) : State Id :=
  onRequest (register s r.id) r o

/-- The end of a worker's closure (dispatch.rs 269-288). -/
def workerTask (w : Worker Id) (o : Outcome) : Task Id :=
  match toAnswer o with
  | some a => .response w.req.id a
  | none => if w.retry then .retry w.req else .response w.req.id (.error w.cancelCode)

/-- `handle_task` (main_loop.rs 318-325). -/
def handleTask (s : State Id) (o : Outcome) : Task Id → State Id
  | .response id a => respond s id a
  | .retry r => if r.id ∈ s.pending then onRequest s r o else s

/-- Steps of the whole system. -/
inductive Step (Id : Type) where
  /-- a request arrives; `o` is the outcome if the handler runs on the main thread -/
  | request (r : Request Id) (o : Outcome)
  /-- `$/cancelRequest` arrives -/
  | cancel (id : Id)
  /-- the `i`-th running worker ends with outcome `o` -/
  | finish (i : Nat) (o : Outcome)
  /-- the `i`-th message is taken from the channels -/
  | task (i : Nat) (o : Outcome)
  /-- the vfs becomes ready or busy -/
  | vfs (loaded : Bool)

/-- One step; steps that name no worker or message do nothing. -/
def step (s : State Id) : Step Id → State Id
  | .request r o => onNewRequest s r o
  | .cancel id => cancel s id
  | .finish i o =>
    match s.workers[i]? with
    | some w => { s with workers := s.workers.eraseIdx i, inbox := s.inbox ++ [workerTask w o] }
    | none => s
  | .task i o =>
    match s.inbox[i]? with
    | some t => handleTask { s with inbox := s.inbox.eraseIdx i } o t
    | none => s
  | .vfs b => { s with vfsLoaded := b }

/-- A history. -/
def run (s : State Id) (h : List (Step Id)) : State Id := h.foldl step s

end Verif.Server
