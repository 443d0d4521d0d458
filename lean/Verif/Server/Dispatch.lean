/-
Model of the language server's message loop: crates/zubanls/src/server.rs and
crates/zubanls/src/panic_hooks.rs.

Everything a handler can do to the project is an arbitrary state transformer on an abstract world
`ω`, given by `Env`; what is modelled here is exactly which messages leave the server.  Sending on
the channel (`Sender::send`) is assumed to succeed: the `unwrap` in `respond` (server.rs:630) fails
only if the client is already gone.
-/
namespace Verif.Server

/-- What a request handler does: `anyhow::Result<R::Result>` where the error is or is not an
`LspError` (server.rs:845-858), or a panic. -/
inductive Outcome (R : Type) where
  | ok (r : R)
  | lspError (code : Int)
  | error
  | panic

/-- `lsp_server::ErrorCode` (JSON-RPC codes used in server.rs:456, 524, 804, 818, 853). -/
def invalidRequest : Int := -32600
def methodNotFound : Int := -32601
def invalidParams : Int := -32602
def internalError : Int := -32603

/-- `lsp_server::Request`. -/
structure Request (I P : Type) where
  id : I
  method : String
  params : P

/-- `lsp_server::Message` as received (server.rs:503-515). -/
inductive Message (I P : Type) where
  | request (r : Request I P)
  | notification (method : String) (params : P)
  | response

/-- Messages sent by the server: responses (server.rs:623-631), and the `window/showMessage`
notification sent by the panic hook (server.rs:166-186).  Published diagnostics and configuration
warnings are notifications too; they are not modelled because no claim is about them. -/
inductive Sent (I R : Type) where
  | response (id : I) (result : R ⊕ Int)
  | showPanic

/-- The parts of the server that are not modelled: deserialisation of parameters (`from_json`,
server.rs:826-832), the handlers, the notification handlers (`true` = panicked), the recovery of the
project (server.rs:537-546), the reindexing check (server.rs:279-283), publishing diagnostics
(server.rs:637-691, `none` = panicked) and the file watcher events (server.rs:548-564). -/
structure Env (ω P R : Type) where
  unit : R
  parses : String → P → Bool
  run : String → P → ω → ω × Outcome R
  notify : String → P → ω → ω × Bool
  recover : ω → ω
  reindex : ω → ω
  publish : ω → Option ω
  watch : ω → Option ω

/-- `GlobalState` (server.rs:223-237) together with the thread local panic hook
(panic_hooks.rs:5-7) and the messages sent so far. -/
structure State (ω I R : Type) where
  world : ω
  shutdown : Bool
  hook : Bool
  out : List (Sent I R)

/-- A computation that may unwind. -/
inductive Flow (σ α : Type) where
  | done (s : σ) (a : α)
  | panicked (s : σ)

variable {ω I P R : Type}

/-- `GlobalState::respond` (server.rs:623-631). -/
def respond (st : State ω I R) (id : I) (result : R ⊕ Int) : State ω I R :=
  { st with out := st.out ++ [.response id result] }

/-- The hook installed by `panic_hooks::enter` (panic_hooks.rs:20-25): `cell.take()` removes the
hook from the cell, and nothing puts it back; without it the default hook runs, which writes to
stderr. -/
def panicHook (st : State ω I R) : State ω I R :=
  if st.hook then { st with hook := false, out := st.out ++ [.showPanic] } else st

/-- The handlers registered in `on_request` in order (server.rs:468-492), by `R::METHOD` of
`lsp_types::request` and crates/zubanls/src/custom.rs:13.  `Shutdown` is registered twice. -/
def handlers : List String :=
  ["textDocument/diagnostic", "workspace/diagnostic", "textDocument/completion",
   "completionItem/resolve", "textDocument/signatureHelp", "textDocument/hover",
   "textDocument/declaration", "textDocument/definition", "textDocument/typeDefinition",
   "textDocument/implementation", "textDocument/references", "textDocument/documentHighlight",
   "textDocument/codeAction", "textDocument/prepareRename", "textDocument/rename",
   "textDocument/documentSymbol", "workspace/symbol", "textDocument/semanticTokens/full",
   "textDocument/semanticTokens/range", "textDocument/foldingRange", "textDocument/selectionRange",
   "textDocument/inlayHint", "shutdown", "shutdown", "zuban/textDocument/status"]

/-- The handler registered for a method.  `handle_shutdown` (request_handlers.rs:812-815) sets
`shutdown_requested`. -/
def runHandler (env : Env ω P R) (st : State ω I R) (m : String) (p : P) : State ω I R × Outcome R :=
  if m = "shutdown" then ({ st with shutdown := true }, .ok env.unit)
  else
    let r := env.run m p st.world
    ({ st with world := r.1 }, r.2)

/-- `RequestDispatcher::parse` and `on_sync_mut` (server.rs:768-811) with `result_to_response`
(server.rs:836-860). -/
def onSync (env : Env ω P R) (st : State ω I R) (req : Option (Request I P)) (m : String) :
    Flow (State ω I R) (Option (Request I P)) :=
  match req with
  | none => .done st none
  | some r =>
    if r.method = m then
      if env.parses m r.params then
        let h := runHandler env st m r.params
        match h.2 with
        | .ok x => .done (respond h.1 r.id (.inl x)) none
        | .lspError code => .done (respond h.1 r.id (.inr code)) none
        | .error => .done (respond h.1 r.id (.inr internalError)) none
        | .panic => .panicked (panicHook h.1)
      else .done (respond st r.id (.inr invalidParams)) none
    else .done st (some r)

/-- The chain of `.on_sync_mut` calls (server.rs:468-492). -/
def onSyncAll (env : Env ω P R) : List String → State ω I R → Option (Request I P) →
    Flow (State ω I R) (Option (Request I P))
  | [], st, req => .done st req
  | m :: ms, st, req =>
    match onSync env st req m with
    | .done st' req' => onSyncAll env ms st' req'
    | .panicked st' => .panicked st'

/-- `GlobalState::on_request` (server.rs:452-494) with `finish` (server.rs:813-823). -/
def onRequest (env : Env ω P R) (st : State ω I R) (r : Request I P) : Flow (State ω I R) Unit :=
  if st.shutdown then .done (respond st r.id (.inr invalidRequest)) ()
  else
    match onSyncAll env handlers st (some r) with
    | .panicked st' => .panicked st'
    | .done st' none => .done st' ()
    | .done st' (some r') => .done (respond st' r'.id (.inr methodNotFound)) ()

/-- The handlers registered in `on_notification` (server.rs:440-448). -/
def notificationHandlers : List String :=
  ["textDocument/didOpen", "textDocument/didChange", "textDocument/didClose",
   "notebookDocument/didOpen", "notebookDocument/didChange", "notebookDocument/didClose",
   "test-panic"]

/-- `GlobalState::on_notification` (server.rs:431-450, 707-760): the first handler with that method
runs; parameters that do not deserialise panic (server.rs:726-728); errors are only logged. -/
def onNotification (env : Env ω P R) (st : State ω I R) (m : String) (p : P) :
    Flow (State ω I R) Unit :=
  if notificationHandlers.contains m then
    if env.parses m p then
      let r := env.notify m p st.world
      let st' := { st with world := r.1 }
      if r.2 then .panicked (panicHook st') else .done st' ()
    else .panicked (panicHook st)
  else .done st ()

/-- `on_lsp_message_and_return_on_shutdown` (server.rs:496-535); the result says whether the loop
ends. -/
def onMessage (env : Env ω P R) (st : State ω I R) : Message I P → State ω I R × Bool
  | .request r =>
    match onRequest env st r with
    | .done st' _ => (st', false)
    | .panicked st' =>
      let st'' := respond st' r.id (.inr internalError)
      ({ st'' with world := env.recover st''.world }, false)
  | .notification m p =>
    if m = "exit" then (st, true)
    else
      match onNotification env st m p with
      | .done st' _ => (st', false)
      | .panicked st' => ({ st' with world := env.recover st'.world }, false)
  | .response => (st, false)

/-- What `select!` yields (server.rs:269-277). -/
inductive Event (I P : Type) where
  | message (m : Message I P)
  | watcher

/-- How the server is doing: it runs, it left the loop after `exit`, or a panic outside of
`catch_unwind` unwound `event_loop`. -/
inductive Status where
  | running | exited | dead
  deriving DecidableEq

/-- One iteration of `event_loop` (server.rs:264-287).  `project()` (server.rs:267) is not
modelled. -/
def loopStep (env : Env ω P R) (st : State ω I R) (e : Event I P) : State ω I R × Status :=
  let after (st : State ω I R) : State ω I R × Status :=
    let w := env.reindex st.world
    match env.publish w with
    | some w' => ({ st with world := w' }, .running)
    | none => (panicHook { st with world := w }, .dead)
  match e with
  | .message m =>
    let r := onMessage env st m
    if r.2 then (r.1, .exited) else after r.1
  | .watcher =>
    match env.watch st.world with
    | some w => after { st with world := w }
    | none => (panicHook st, .dead)

/-- `event_loop` (server.rs:264-287) on a sequence of events; returns the events that were never
looked at. -/
def eventLoop (env : Env ω P R) (st : State ω I R) : List (Event I P) →
    State ω I R × Status × List (Event I P)
  | [] => (st, .running, [])
  | e :: es =>
    let r := loopStep env st e
    match r.2 with
    | .running => eventLoop env r.1 es
    | s => (r.1, s, es)

/-- The server right after `initialize` (server.rs:143, 192-198, 239-262). -/
def initial (w : ω) : State ω I R := { world := w, shutdown := false, hook := true, out := [] }

end Verif.Server
