import Verif.Server.Dispatch
/-
C27, C29, C65: every request is answered exactly once; panics are reported; the server survives
panics.
-/
namespace Verif.Server

variable {ω I P R : Type}

/-! ### Specification -/

/-- The responses among the messages that left the server, in order. -/
def responses : List (Sent I R) → List (I × (R ⊕ Int))
  | [] => []
  | .response id r :: l => (id, r) :: responses l
  | .showPanic :: l => responses l

/-- How often a panic was shown to the user. -/
def shown : List (Sent I R) → Nat
  | [] => 0
  | .response _ _ :: l => shown l
  | .showPanic :: l => shown l + 1

/-- The requests among the received events, in order. -/
def requestIds : List (Event I P) → List I
  | [] => []
  | .message (.request r) :: l => r.id :: requestIds l
  | _ :: l => requestIds l

/-- The requests of the language server protocol the server offers (alphabetically), apart from
`shutdown`. -/
def offered : List String :=
  ["completionItem/resolve", "textDocument/codeAction", "textDocument/completion",
   "textDocument/declaration", "textDocument/definition", "textDocument/diagnostic",
   "textDocument/documentHighlight", "textDocument/documentSymbol", "textDocument/foldingRange",
   "textDocument/hover", "textDocument/implementation", "textDocument/inlayHint",
   "textDocument/prepareRename", "textDocument/references", "textDocument/rename",
   "textDocument/selectionRange", "textDocument/semanticTokens/full",
   "textDocument/semanticTokens/range", "textDocument/signatureHelp", "textDocument/typeDefinition",
   "workspace/diagnostic", "workspace/symbol", "zuban/textDocument/status"]

/-- The reply JSON-RPC and the language server protocol ask for. -/
inductive Expected (env : Env ω P R) (st : State ω I R) (r : Request I P) : R ⊕ Int → Prop
  | afterShutdown (h : st.shutdown = true) : Expected env st r (.inr (-32600))
  | unknown (h : st.shutdown = false) (h1 : r.method ∉ offered) (h2 : r.method ≠ "shutdown") :
      Expected env st r (.inr (-32601))
  | malformed (h : st.shutdown = false) (h1 : r.method ∈ offered ∨ r.method = "shutdown")
      (h2 : env.parses r.method r.params = false) : Expected env st r (.inr (-32602))
  | shutdown (h : st.shutdown = false) (h1 : r.method = "shutdown")
      (h2 : env.parses r.method r.params = true) : Expected env st r (.inl env.unit)
  | ok (h : st.shutdown = false) (h1 : r.method ∈ offered)
      (h2 : env.parses r.method r.params = true) (x : R)
      (h3 : (env.run r.method r.params st.world).2 = .ok x) : Expected env st r (.inl x)
  | lspError (h : st.shutdown = false) (h1 : r.method ∈ offered)
      (h2 : env.parses r.method r.params = true) (c : Int)
      (h3 : (env.run r.method r.params st.world).2 = .lspError c) : Expected env st r (.inr c)
  | failed (h : st.shutdown = false) (h1 : r.method ∈ offered)
      (h2 : env.parses r.method r.params = true)
      (h3 : (env.run r.method r.params st.world).2 = .error) : Expected env st r (.inr (-32603))
  | panicked (h : st.shutdown = false) (h1 : r.method ∈ offered)
      (h2 : env.parses r.method r.params = true)
      (h3 : (env.run r.method r.params st.world).2 = .panic) : Expected env st r (.inr (-32603))

/-! ### Helper lemmas -/

theorem responses_append (a b : List (Sent I R)) : responses (a ++ b) = responses a ++ responses b := by
  induction a with
  | nil => rfl
  | cons x l ih => cases x <;> simp [responses, ih]

theorem shown_append (a b : List (Sent I R)) : shown (a ++ b) = shown a + shown b := by
  induction a with
  | nil => simp [shown]
  | cons x l ih => cases x <;> simp [shown, ih]; omega

theorem responses_panicHook (st : State ω I R) : responses (panicHook st).out = responses st.out := by
  unfold panicHook
  split
  · simp [responses_append, responses]
  · rfl

theorem onSyncAll_none (env : Env ω P R) (ms : List String) (st : State ω I R) :
    onSyncAll env ms st (none : Option (Request I P)) = .done st none := by
  induction ms with
  | nil => rfl
  | cons m ms ih => simp [onSyncAll, onSync, ih]

theorem onSyncAll_not_mem (env : Env ω P R) (ms : List String) (st : State ω I R) (r : Request I P)
    (h : r.method ∉ ms) : onSyncAll env ms st (some r) = .done st (some r) := by
  induction ms with
  | nil => rfl
  | cons m ms ih =>
    simp only [List.mem_cons, not_or] at h
    simp [onSyncAll, onSync, h.1, ih h.2]

theorem onSyncAll_mem (env : Env ω P R) (ms : List String) (st : State ω I R) (r : Request I P)
    (h : r.method ∈ ms) : onSyncAll env ms st (some r) = onSync env st (some r) r.method := by
  induction ms with
  | nil => simp at h
  | cons m ms ih =>
    by_cases hm : r.method = m
    · subst hm
      simp only [onSyncAll]
      have : ∀ f, onSync env st (some r) r.method = f →
          (∃ s, f = .done s none) ∨ (∃ s, f = .panicked s) := by
        intro f hf
        subst hf
        simp only [onSync, if_true]
        split
        · split <;> first | exact .inl ⟨_, rfl⟩ | exact .inr ⟨_, rfl⟩
        · exact .inl ⟨_, rfl⟩
      rcases this _ rfl with ⟨s, hs⟩ | ⟨s, hs⟩
      · rw [hs]; exact onSyncAll_none env ms s
      · rw [hs]
    · have h' : r.method ∈ ms := by
        rcases List.mem_cons.mp h with h | h
        · exact absurd h hm
        · exact h
      have : onSync env st (some r) m = .done st (some r) := by simp [onSync, hm]
      simp only [onSyncAll, this]
      exact ih h'

theorem mem_handlers (m : String) : m ∈ handlers ↔ m ∈ offered ∨ m = "shutdown" := by
  simp only [handlers, offered, List.mem_cons, List.not_mem_nil, or_false]
  grind

theorem offered_ne (m : String) (h : m ∈ offered) : m ≠ "shutdown" := by
  intro hm
  subst hm
  revert h
  decide

/-! ### C27 -/

/-- **C27 (each request).**  Handling a request sends exactly one response; it carries the id of the
request and is the reply the protocol asks for. -/
theorem request_reply (env : Env ω P R) (st : State ω I R) (r : Request I P) :
    ∃ x, Expected env st r x ∧
      responses (onMessage env st (.request r)).1.out = responses st.out ++ [(r.id, x)] := by
  by_cases hs : st.shutdown = true
  · refine ⟨_, .afterShutdown hs, ?_⟩
    simp [onMessage, onRequest, hs, respond, responses_append, responses, invalidRequest]
  · have hs' : st.shutdown = false := by simpa using hs
    by_cases hm : r.method ∈ handlers
    · have hm' := (mem_handlers _).1 hm
      by_cases hp : env.parses r.method r.params = true
      · rcases hm' with ho | hsd
        · have hne := offered_ne _ ho
          cases hrun : (env.run r.method r.params st.world).2 with
          | ok x =>
            refine ⟨_, .ok hs' ho hp x hrun, ?_⟩
            simp [onMessage, onRequest, hs', onSyncAll_mem _ _ _ _ hm, onSync, hp, runHandler, hne,
              hrun, respond, responses_append, responses]
          | lspError c =>
            refine ⟨_, .lspError hs' ho hp c hrun, ?_⟩
            simp [onMessage, onRequest, hs', onSyncAll_mem _ _ _ _ hm, onSync, hp, runHandler, hne,
              hrun, respond, responses_append, responses]
          | error =>
            refine ⟨_, .failed hs' ho hp hrun, ?_⟩
            simp [onMessage, onRequest, hs', onSyncAll_mem _ _ _ _ hm, onSync, hp, runHandler, hne,
              hrun, respond, responses_append, responses, internalError]
          | panic =>
            refine ⟨_, .panicked hs' ho hp hrun, ?_⟩
            simp [onMessage, onRequest, hs', onSyncAll_mem _ _ _ _ hm, onSync, hp, runHandler, hne,
              hrun, respond, responses_append, responses, internalError, responses_panicHook]
        · refine ⟨_, .shutdown hs' hsd hp, ?_⟩
          rw [hsd] at hp
          simp [onMessage, onRequest, hs', onSyncAll_mem _ _ _ _ hm, onSync, hp, runHandler, hsd,
            respond, responses_append, responses]
      · have hp' : env.parses r.method r.params = false := by simpa using hp
        refine ⟨_, .malformed hs' hm' hp', ?_⟩
        simp [onMessage, onRequest, hs', onSyncAll_mem _ _ _ _ hm, onSync, hp',
          respond, responses_append, responses, invalidParams]
    · have hm' := (not_congr (mem_handlers _)).1 hm
      simp only [not_or] at hm'
      refine ⟨_, .unknown hs' hm'.1 hm'.2, ?_⟩
      simp [onMessage, onRequest, hs', onSyncAll_not_mem _ _ _ _ hm, respond, responses_append,
        responses, methodNotFound]

/-- The reply is determined by the request, the shutdown flag and what the handler does. -/
theorem expected_unique (env : Env ω P R) (st : State ω I R) (r : Request I P) (x y : R ⊕ Int)
    (hx : Expected env st r x) (hy : Expected env st r y) : x = y := by
  have hne := offered_ne r.method
  cases hx <;> cases hy <;> simp_all

/-- **C27 (shutdown).**  A well-formed shutdown request makes the server refuse every later
request. -/
theorem shutdown_refuses (env : Env ω P R) (st : State ω I R) (r : Request I P)
    (hm : r.method = "shutdown") (hp : env.parses "shutdown" r.params = true) :
    (onMessage env st (.request r)).1.shutdown = true := by
  have hmem : r.method ∈ handlers := (mem_handlers _).2 (.inr hm)
  by_cases hs : st.shutdown = true
  · simp [onMessage, onRequest, hs, respond]
  · simp [onMessage, onRequest, hs, onSyncAll_mem _ _ _ _ hmem, onSync, hm, hp, runHandler, respond]

/-- Notifications and responses of the client are not answered. -/
theorem other_message (env : Env ω P R) (st : State ω I R) (m : Message I P)
    (h : ∀ r, m ≠ .request r) :
    responses (onMessage env st m).1.out = responses st.out := by
  cases m with
  | request r => exact absurd rfl (h r)
  | response => rfl
  | notification k p =>
    simp only [onMessage]
    split
    · rfl
    · have key : ∀ f, onNotification env st k p = f →
          (∃ s, f = .done s () ∧ responses s.out = responses st.out) ∨
          (∃ s, f = .panicked s ∧ responses s.out = responses st.out) := by
        intro f hf
        subst hf
        simp only [onNotification]
        split
        · split
          · split
            · exact .inr ⟨_, rfl, by simp [responses_panicHook]⟩
            · exact .inl ⟨_, rfl, rfl⟩
          · exact .inr ⟨_, rfl, by simp [responses_panicHook]⟩
        · exact .inl ⟨_, rfl, rfl⟩
      rcases key _ rfl with ⟨s, hs, h'⟩ | ⟨s, hs, h'⟩ <;> simp [hs, h']

theorem message_ids (env : Env ω P R) (st : State ω I R) (m : Message I P) :
    (responses (onMessage env st m).1.out).map (·.1) =
      (responses st.out).map (·.1) ++ requestIds [.message m] := by
  cases m with
  | request r =>
    obtain ⟨x, _, hx⟩ := request_reply env st r
    rw [hx]
    simp [requestIds]
  | response => simp [onMessage, requestIds]
  | notification k p =>
    rw [other_message env st _ (by intro r h; cases h)]
    simp [requestIds]

theorem loopStep_ids (env : Env ω P R) (st : State ω I R) (e : Event I P) :
    (responses (loopStep env st e).1.out).map (·.1) =
      (responses st.out).map (·.1) ++ requestIds [e] := by
  cases e with
  | message m =>
    rw [← message_ids env st m]
    simp only [loopStep]
    split
    · rfl
    · split
      · rfl
      · simp [responses_panicHook]
  | watcher =>
    simp only [loopStep, requestIds, List.append_nil]
    split
    · split
      · rfl
      · simp [responses_panicHook]
    · simp [responses_panicHook]

theorem requestIds_append (a b : List (Event I P)) : requestIds (a ++ b) = requestIds a ++ requestIds b := by
  induction a with
  | nil => rfl
  | cons x l ih =>
    cases x with
    | watcher => simpa [requestIds] using ih
    | message m => cases m <;> simp [requestIds, ih]

/-- **C27 (whole sessions).**  In every session the ids of the responses are the ids of the requests
the server has read, each exactly once and in the same order; unread events remain only after the
loop has ended. -/
theorem one_response_each (env : Env ω P R) (st : State ω I R) (es : List (Event I P)) :
    ∃ read, es = read ++ (eventLoop env st es).2.2 ∧
      (responses (eventLoop env st es).1.out).map (·.1) =
        (responses st.out).map (·.1) ++ requestIds read ∧
      ((eventLoop env st es).2.1 = .running → (eventLoop env st es).2.2 = []) := by
  induction es generalizing st with
  | nil => exact ⟨[], rfl, by simp [eventLoop, requestIds], fun _ => rfl⟩
  | cons e es ih =>
    simp only [eventLoop]
    cases hr : (loopStep env st e).2 with
    | running =>
      obtain ⟨read, h1, h2, h3⟩ := ih (loopStep env st e).1
      refine ⟨e :: read, by simpa using h1, ?_, h3⟩
      rw [h2, loopStep_ids, List.append_assoc]
      congr 1
      exact (requestIds_append [e] read).symm
    | exited => exact ⟨[e], rfl, loopStep_ids env st e, by simp⟩
    | dead => exact ⟨[e], rfl, loopStep_ids env st e, by simp⟩

/-- An environment for examples: worlds are numbers, `hover` panics, `definition` succeeds. -/
def demoEnv : Env Nat Unit String where
  unit := "null"
  parses _ _ := true
  run m _ w := if m = "textDocument/hover" then (w, .panic) else (w + 1, .ok "here")
  notify _ _ w := (w, false)
  recover _ := 0
  reindex w := w
  publish w := some w
  watch w := some w

/-- A session with a success, a panic, an unknown method, a shutdown and a late request. -/
def demoEvents : List (Event Nat Unit) :=
  [.message (.request ⟨1, "textDocument/definition", ()⟩),
   .message (.request ⟨2, "textDocument/hover", ()⟩),
   .watcher,
   .message (.request ⟨3, "textDocument/unknown", ()⟩),
   .message (.notification "textDocument/didOpen" ()),
   .message (.request ⟨4, "shutdown", ()⟩),
   .message (.request ⟨5, "textDocument/definition", ()⟩),
   .message (.notification "exit" ()),
   .message (.request ⟨6, "textDocument/definition", ()⟩)]

example : (responses (eventLoop demoEnv (initial 0) demoEvents).1.out) =
    [(1, .inl "here"), (2, .inr (-32603)), (3, .inr (-32601)), (4, .inl "null"), (5, .inr (-32600))] := by
  decide

/-! ### C29 -/

/-- The handler of a request panics. -/
def RequestPanics (env : Env ω P R) (st : State ω I R) (r : Request I P) : Prop :=
  st.shutdown = false ∧ r.method ∈ offered ∧ env.parses r.method r.params = true ∧
    (env.run r.method r.params st.world).2 = .panic

theorem shown_panicHook (st : State ω I R) :
    shown (panicHook st).out = shown st.out + if st.hook then 1 else 0 := by
  unfold panicHook
  split <;> simp_all [shown_append, shown]

theorem panic_onRequest (env : Env ω P R) (st : State ω I R) (r : Request I P)
    (h : RequestPanics env st r) :
    onRequest env st r =
      .panicked (panicHook { st with world := (env.run r.method r.params st.world).1 }) := by
  obtain ⟨hs, ho, hp, hrun⟩ := h
  have hm : r.method ∈ handlers := (mem_handlers _).2 (.inl ho)
  have hne := offered_ne _ ho
  simp [onRequest, hs, onSyncAll_mem _ _ _ _ hm, onSync, hp, runHandler, hne, hrun]

/-- **C29 (the code).**  The first panic of the server thread is shown to the user.  Missing: every
later panic, see `panic_reported_violation`. -/
theorem panic_reported_partial (env : Env ω P R) (st : State ω I R) (r : Request I P)
    (h : RequestPanics env st r) (hfirst : st.hook = true) :
    shown (onMessage env st (.request r)).1.out = shown st.out + 1 ∧
    ∀ e, RequestPanics env st e → (onMessage env st (.request e)).1.hook = false := by
  constructor
  · simp only [onMessage, panic_onRequest env st r h, respond, shown_append, shown_panicHook, hfirst]
    simp [shown]
  · intro e he
    simp [onMessage, panic_onRequest env st e he, respond, panicHook, hfirst]

/-- What is shown: nothing unless a handler panicked. -/
theorem not_shown_without_panic (env : Env ω P R) (st : State ω I R) (r : Request I P)
    (h : ¬ RequestPanics env st r) :
    shown (onMessage env st (.request r)).1.out = shown st.out ∧
      (onMessage env st (.request r)).1.hook = st.hook := by
  by_cases hs : st.shutdown = true
  · simp [onMessage, onRequest, hs, respond, shown_append, shown]
  · have hs' : st.shutdown = false := by simpa using hs
    by_cases hm : r.method ∈ handlers
    · by_cases hp : env.parses r.method r.params = true
      · rcases (mem_handlers _).1 hm with ho | hsd
        · have hne := offered_ne _ ho
          cases hrun : (env.run r.method r.params st.world).2 with
          | panic => exact absurd ⟨hs', ho, hp, hrun⟩ h
          | _ =>
            simp [onMessage, onRequest, hs', onSyncAll_mem _ _ _ _ hm, onSync, hp, runHandler, hne,
              hrun, respond, shown_append, shown]
        · rw [hsd] at hp
          simp [onMessage, onRequest, hs', onSyncAll_mem _ _ _ _ hm, onSync, hp, runHandler, hsd,
            respond, shown_append, shown]
      · have hp' : env.parses r.method r.params = false := by simpa using hp
        simp [onMessage, onRequest, hs', onSyncAll_mem _ _ _ _ hm, onSync, hp',
          respond, shown_append, shown]
    · simp [onMessage, onRequest, hs', onSyncAll_not_mem _ _ _ _ hm, respond, shown_append, shown]

/-- **C29 is false of the code**: two requests whose handlers panic, one message to the user. -/
theorem panic_reported_violation :
    ∃ (env : Env Nat Unit String) (st : State Nat Nat String) (r : Request Nat Unit),
      RequestPanics env st r ∧
      RequestPanics env (onMessage env st (.request r)).1 r ∧
      shown (onMessage env (onMessage env st (.request r)).1 (.request r)).1.out = 1 :=
  ⟨demoEnv, initial 0, ⟨1, "textDocument/hover", ()⟩,
    ⟨rfl, by decide, rfl, rfl⟩, ⟨rfl, by decide, rfl, rfl⟩, rfl⟩

example : RequestPanics demoEnv (initial 0 : State Nat Nat String) ⟨1, "textDocument/hover", ()⟩ :=
  ⟨rfl, by decide, rfl, rfl⟩

/-! ### C65 -/

/-- The notifications a server has to act on. -/
def notified : List String :=
  ["textDocument/didOpen", "textDocument/didChange", "textDocument/didClose",
   "notebookDocument/didOpen", "notebookDocument/didChange", "notebookDocument/didClose"]

/-- There is no `exit` notification among the events. -/
def NoExit (es : List (Event I P)) : Prop := ∀ p, Event.message (.notification "exit" p) ∉ es

/-- **C65 (the code).**  However requests and notification handlers fail or panic, the server keeps
running and reads every message until `exit`, as long as nothing outside the handlers panics: neither
publishing diagnostics (which only happens for clients that do not request diagnostics) nor
processing file watcher events.  Missing: panics there, see `survives_violation`. -/
theorem survives_partial (env : Env ω P R) (st : State ω I R) (es : List (Event I P))
    (hpub : ∀ w, (env.publish w).isSome) (hwatch : ∀ w, (env.watch w).isSome) (hex : NoExit es) :
    (eventLoop env st es).2.1 = .running ∧ (eventLoop env st es).2.2 = [] := by
  induction es generalizing st with
  | nil => exact ⟨rfl, rfl⟩
  | cons e es ih =>
    have hex' : NoExit es := fun p hp => hex p (List.mem_cons_of_mem _ hp)
    have hrun : (loopStep env st e).2 = .running := by
      have hafter : ∀ w, ∃ w', env.publish w = some w' := fun w => Option.isSome_iff_exists.1 (hpub w)
      cases e with
      | watcher =>
        obtain ⟨w, hw⟩ := Option.isSome_iff_exists.1 (hwatch st.world)
        obtain ⟨w', hw'⟩ := hafter (env.reindex w)
        simp [loopStep, hw, hw']
      | message m =>
        have hr : (onMessage env st m).2 = false := by
          cases m with
          | request r => simp only [onMessage]; split <;> rfl
          | response => rfl
          | notification k p =>
            have hk : k ≠ "exit" := by
              intro hk
              subst hk
              exact hex p (List.mem_cons_self ..)
            simp only [onMessage, hk, if_false]
            split <;> rfl
        obtain ⟨w', hw'⟩ := hafter (env.reindex (onMessage env st m).1.world)
        simp [loopStep, hr, hw']
    simp only [eventLoop, hrun]
    exact ih _ hex'

/-- **C65 (recovery).**  After a panicking request handler the project is the recovered one; an
ordinary result leaves the project as the handler left it. -/
theorem panic_recovers (env : Env ω P R) (st : State ω I R) (r : Request I P) :
    (RequestPanics env st r →
      (onMessage env st (.request r)).1.world = env.recover (env.run r.method r.params st.world).1) ∧
    (r.method ∈ offered → st.shutdown = false → env.parses r.method r.params = true →
      (env.run r.method r.params st.world).2 ≠ .panic →
      (onMessage env st (.request r)).1.world = (env.run r.method r.params st.world).1) := by
  have hhook : ∀ s : State ω I R, (panicHook s).world = s.world := by
    intro s; unfold panicHook; split <;> rfl
  constructor
  · intro h
    simp only [onMessage, panic_onRequest env st r h, respond, hhook]
  · intro ho hs hp hn
    have hm : r.method ∈ handlers := (mem_handlers _).2 (.inl ho)
    have hne := offered_ne _ ho
    simp only [onMessage, onRequest, hs, onSyncAll_mem _ _ _ _ hm, onSync, hp, runHandler, hne]
    cases h : (env.run r.method r.params st.world).2 with
    | panic => exact absurd h hn
    | ok x => simp [h, respond]
    | lspError c => simp [h, respond]
    | error => simp [h, respond]

/-- **C65 (recovery).**  The same for notifications, whose parameters may also fail to parse. -/
theorem notification_recovers (env : Env ω P R) (st : State ω I R) (m : String) (p : P)
    (hm : m ∈ notified) :
    (onMessage env st (.notification m p)).1.world =
      if env.parses m p then
        (if (env.notify m p st.world).2 then env.recover (env.notify m p st.world).1
         else (env.notify m p st.world).1)
      else env.recover st.world := by
  have hhook : ∀ s : State ω I R, (panicHook s).world = s.world := by
    intro s; unfold panicHook; split <;> rfl
  have hc : notificationHandlers.contains m = true := by
    simp only [notified, List.mem_cons, List.not_mem_nil, or_false] at hm
    rcases hm with rfl | rfl | rfl | rfl | rfl | rfl <;> decide
  have hne : m ≠ "exit" := by rintro rfl; revert hm; decide
  simp only [onMessage, hne, if_false, onNotification, hc, if_true]
  cases h1 : env.parses m p <;> simp [hhook]
  cases h2 : (env.notify m p st.world).2 <;> simp [hhook]

example : RequestPanics demoEnv (initial 0 : State Nat Nat String) ⟨1, "textDocument/hover", ()⟩ ∧
    "textDocument/didChange" ∈ notified := ⟨⟨rfl, by decide, rfl, rfl⟩, by decide⟩

/-- An environment in which computing diagnostics panics. -/
def panickingPublish : Env Nat Unit String := { demoEnv with publish := fun _ => none }

/-- **C65 is false of the code**: a panic while publishing diagnostics ends the server, the next
request is never read. -/
theorem survives_violation :
    let r := eventLoop panickingPublish (initial 0 : State Nat Nat String)
      [.message (.notification "textDocument/didOpen" ()),
       .message (.request ⟨1, "textDocument/definition", ()⟩)]
    r.2.1 = .dead ∧ r.2.2.length = 1 ∧ responses r.1.out = [] := by
  decide

example : NoExit [Event.message (.request (⟨2, "textDocument/hover", ()⟩ : Request Nat Unit)), .watcher] := by
  intro p h
  simp at h

end Verif.Server
