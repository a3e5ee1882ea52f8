import Verif.Proofs.Opening
import Verif.Proofs.Adrift
import Verif.Props.Demo

/-!
# The engine, the registry of work queues, and dead actors (C54-C58, C67)
-/

namespace AJ.Props
open Demo

/-! ## C54 -/

/-- A client calls `AJ::start` while no other client does: all its steps. -/
def startAlone (c b : Nat) : List HubOp :=
  [.begin c (.start b), .client c false, .client c false, .client c false, .client c false, .client c false]

/-- C54, the first call: it makes an engine with the backend of the call and returns its address. -/
theorem C54_first (ops : List HubOp) (c b : Nat) (hn : (Hub.run {} ops).addr = none)
    (hc : ∀ d, ¬ ((Hub.run {} ops).clients d).Starting)
    (hi : (Hub.run {} ops).clients c = .idle ∨ ∃ call r, (Hub.run {} ops).clients c = .done call r) :
    let h := Hub.run {} ops
    let h' := h.run (startAlone c b)
    h'.Running h.engines.length ∧ h'.clients c = .done (.start b) (.engine h.engines.length) ∧
      h'.engines.map (·.backend) = h.engines.map (·.backend) ++ [b] := by
  have hw := (Hub.locked_run Hub.locked_init ops).free hc
  generalize Hub.run {} ops = h at *
  have hb : h.begin c (.start b) = h.go c (.begun (.start b)) := by
    unfold Hub.begin
    rcases hi with hi | ⟨call, r, hi⟩ <;> rw [hi]
  have e : h.run (startAlone c b) =
      { h with
        addr := some h.engines.length
        writer := none
        engines := h.engines ++ [{ backend := b }]
        clients := upd h.clients c (.done (.start b) (.engine h.engines.length)) } := by
    have hu : ∀ p q : ClientPc, upd (upd h.clients c p) c q = upd h.clients c q := by
      intro p q; funext x; simp only [upd]; split <;> rfl
    simp only [startAlone, Hub.run_cons, Hub.run_nil, Hub.step, hb, Hub.go]
    simp [Hub.client, Hub.go, Hub.look, Hub.readAddr, hw, hn, upd_same, hu]
  simp only [e]
  refine ⟨⟨rfl, fun d => ?_⟩, upd_same _ _ _, by simp⟩
  by_cases hd : d = c
  · subst hd; simp [upd_same, ClientPc.Starting]
  · simp only [upd, if_neg hd]; exact hc d

/-- C54, every later call, in any history of any clients: once an engine runs and no client is about to put another
in its place, it stays the engine of the process with the backend it has, no other engine is made, and every call of
`start` returns its address and changes nothing. -/
theorem C54_later (ops ops' : List HubOp) (e : Nat) (hr : (Hub.run {} ops).Running e) :
    let h := Hub.run {} ops
    let h' := h.run ops'
    h'.Running e ∧ h'.engines.map (·.backend) = h.engines.map (·.backend) ∧
      ∀ c b x, h'.clients c = .begun (.start b) →
        (h'.client c x).clients c = .done (.start b) (.engine e) ∧ h'.SameBut c (h'.client c x) := by
  have hl := Hub.locked_run Hub.locked_init ops
  obtain ⟨h1, h2⟩ := Hub.running_run hl hr ops'
  refine ⟨h1, h2, fun c b x hc => ?_⟩
  have hw := (Hub.locked_run hl ops').free h1.calm
  have hrd : ((Hub.run {} ops).run ops').readAddr = some e := by simp [Hub.readAddr, hw, h1.addr]
  simp only [Hub.client, hc, Hub.look, hrd]
  refine ⟨by simp [Hub.go_clients], rfl, rfl, rfl, rfl, rfl, rfl, fun d hd => by simp [Hub.go_clients, hd]⟩

/-- Two engines are asked for, one after the other, and a job is submitted in between. -/
def startTwice : List HubOp :=
  startAlone 0 7 ++ [.begin 1 (.submit 4 c!"mail"), .client 1 false, .client 1 false, .engine 0, .begin 0 (.start 8)]

theorem startTwice_running : (Hub.run {} startTwice).Running 0 := by
  refine ⟨by decide +kernel, starting_fin (n := 2) (fun c hc => run_idle _ _ _ rfl ?_) ?_⟩
  · intro op hop call
    simp [startTwice, startAlone] at hop
    intro e
    subst e
    simp at hop
    omega
  · decide +kernel

/-- The second call returns the first engine, with the first backend. -/
example : ((Hub.run {} startTwice).client 0 false).clients 0 = .done (.start 8) (.engine 0) ∧
    (Hub.run {} startTwice).clients 0 = .begun (.start 8) ∧
    (Hub.run {} startTwice).engines.map (·.backend) = [7] := by decide +kernel

example : (Hub.run {} (startTwice ++ [.client 0 true])).Running 0 := by
  rw [Hub.run_append]; exact (C54_later startTwice [.client 0 true] 0 startTwice_running).1

/-! ## C67 -/

/-- Clients 0 and 1 start an engine at the same time. -/
def startRace : List HubOp :=
  [.begin 0 (.start 7), .begin 1 (.start 8), .client 0 false, .client 1 false, .client 0 false, .client 1 false,
   .client 0 false, .client 0 false, .client 0 false, .client 1 false]

/-- C67 is false: two threads that call `start` at the same time may get different engines, with different backends,
and the second one replaces the first that was already in use. -/
theorem C67_refuted_two : ∃ ops, let h := Hub.run {} ops
    h.clients 0 = .done (.start 7) (.engine 0) ∧ h.clients 1 = .done (.start 8) (.engine 1) ∧ h.addr = some 1 ∧
      h.engines.map (·.backend) = [7, 8] :=
  ⟨startRace ++ [.client 1 false, .client 1 false], by decide +kernel⟩

/-- C67 is false: while the second thread replaces the engine, a thread whose own `start` has returned panics with
"AJ is not start" when it submits a job. -/
theorem C67_refuted_panic : ∃ ops, let h := Hub.run {} ops
    h.addr = some 0 ∧ h.clients 0 = .done (.submit 4 c!"mail") .panic :=
  ⟨startRace ++ [.begin 0 (.submit 4 c!"mail"), .client 0 false, .client 0 false], by decide +kernel⟩

/-- C67 is false: when a third thread looks up the address while the lock is held, `try_write` fails, and `start`
panics with "AJ address must be registered!" even though no other thread starts an engine. -/
theorem C67_refuted_reader : ∃ ops, let h := Hub.run {} ops
    h.clients 0 = .done (.start 7) .panic ∧ h.addr = none ∧ h.engines.map (·.backend) = [7] :=
  ⟨[.begin 0 (.start 7), .client 0 false, .client 0 false, .client 0 true, .client 0 false], by decide +kernel⟩

/-! ## C55 -/

/-- C55, in every history in which one engine was made (for which see C54): at every moment at most one work queue of
every type and of every name exists, the registry leads to queues of the right type and name, and a type keeps its
queue for ever. Missing for C55 as stated: several engines (`C55_refuted`). -/
theorem C55_partial (ops ops' : List HubOp) (h1 : (Hub.run {} (ops ++ ops')).engines.length ≤ 1) :
    (Hub.run {} ops).Once ∧ (Hub.run {} ops).Filed ∧ (Hub.run {} ops).Keeps (Hub.run {} (ops ++ ops')) := by
  rw [Hub.run_append] at h1 ⊢
  have h2 := Nat.le_trans (Hub.run_length (Hub.run {} ops) ops') h1
  have hs := Hub.run_single Hub.single_init ops h2
  exact ⟨hs.once h2, hs.filed, Hub.run_keeps hs ops' h1⟩

/-- Two types get their queues, in steps that overlap. -/
def twoTypes : List HubOp :=
  startAlone 0 7 ++
  [.begin 1 (.submit 4 c!"mail"), .begin 2 (.submit 5 c!"bill"), .client 1 false, .client 2 false, .client 1 false,
   .engine 0, .client 2 false, .engine 0, .engine 0, .begin 3 (.submit 4 c!"other"), .client 3 false, .engine 0,
   .engine 0, .engine 0, .engine 0, .engine 0]

example : (Hub.run {} twoTypes).engines.length ≤ 1 ∧
    (Hub.run {} twoTypes).queues = [⟨4, c!"mail", 7⟩, ⟨5, c!"bill", 7⟩] ∧
    (Hub.run {} twoTypes).clients 3 = .done (.submit 4 c!"other") (.answer 0) ∧
    (Hub.run {} twoTypes).clients 2 = .done (.submit 5 c!"bill") (.answer 1) := by decide +kernel

/-- Client 0 asks engine 0 before client 1 replaces it, client 3 asks engine 1. -/
def queueRace : List HubOp :=
  [.begin 0 (.start 7), .begin 1 (.start 8), .client 0 false, .client 1 false, .client 0 false, .client 1 false,
   .client 0 false, .client 0 false, .client 0 false,
   .begin 2 (.submit 4 c!"mail"), .client 2 false, .client 2 false,
   .client 1 false, .client 1 false, .client 1 false,
   .begin 3 (.submit 4 c!"mail"), .client 3 false, .client 3 false,
   .engine 0, .engine 1, .engine 0, .engine 1, .engine 0]

/-- C55 is false when two threads start the engine at the same time: two queues of the same type and the same name
are made, on different backends, and the type changes its queue. -/
theorem C55_refuted : ∃ ops ops', let h := Hub.run {} ops; let h' := Hub.run {} (ops ++ ops')
    h'.queues = [⟨4, c!"mail", 7⟩, ⟨4, c!"mail", 8⟩] ∧ h.byType 4 = some 0 ∧ h'.byType 4 = some 1 ∧
      h'.clients 2 = .done (.submit 4 c!"mail") (.answer 0) ∧ h'.clients 3 = .done (.submit 4 c!"mail") (.answer 1) :=
  ⟨queueRace, [.engine 1, .engine 0, .engine 1], by decide +kernel⟩

/-! ## C56 -/

/-- The state after one call of `start`. -/
theorem started (c b : Nat) : Hub.run {} (startAlone c b) =
    { addr := some 0
      engines := [{ backend := b }]
      clients := upd (fun _ => .idle) c (.done (.start b) (.engine 0)) } := by
  have hu : ∀ p q : ClientPc, upd (upd (fun _ : Nat => ClientPc.idle) c p) c q = upd (fun _ => .idle) c q := by
    intro p q; funext x; simp only [upd]; split <;> rfl
  simp [startAlone, Hub.run_cons, Hub.run_nil, Hub.step, Hub.begin, Hub.go, Hub.client, Hub.look, Hub.readAddr, upd_same, hu]

theorem started_orderly (N : Nat → Str) (c b : Nat) :
    Hub.Orderly N (Hub.run {} (startAlone c b)) { backend := b } := by
  rw [started]
  refine ⟨rfl, rfl, rfl, rfl, ?_, fun d => ?_, fun m hm => ?_, fun m hm => ?_, fun m q e => (by cases e), by simp [Hub.reqs, Hub.EnginePc.msgs, Hub.EnginePc.halfMsg],
    fun ty _ x y hx => ?_, fun a ha => (by cases ha)⟩
  · refine ⟨⟨fun _ _ h => (by cases h), fun _ _ h => (by cases h)⟩, fun E hE => ?_, fun _ _ h => (by simp at h)⟩
    simp at hE
    subst hE
    exact ⟨fun _ h => (by cases h), fun _ h => (by cases h), fun _ _ h => (by cases h)⟩
  · by_cases hd : d = c
    · subst hd; simp [upd_same, Hub.ClientOk]
    · simp [upd, hd, Hub.ClientOk]
  · simp [Hub.reqs, Hub.EnginePc.msgs, Hub.EnginePc.halfMsg] at hm
  · simp [Hub.EnginePc.msgs] at hm
  · by_cases hd : x = c
    · subst hd; simp [upd_same, ClientPc.Opening] at hx
    · simp [upd, hd, ClientPc.Opening] at hx

/-- C56 for clients that do not race: if one engine was started, different types use different names, and a
submission of a type without a queue is only begun when no other submission of this type is under way, then in every
such history the engine lives, and every submission that has ended has reached the queue of its type.
Missing for C56 as stated: first submissions of one type at the same time (`C56_refuted`). -/
theorem C56_partial (N : Nat → Str) (hN : ∀ a b, N a = N b → a = b) (c b : Nat) (ops : List HubOp)
    (ho : OrderlyRun N (Hub.run {} (startAlone c b)) ops) :
    let h := Hub.run {} (startAlone c b ++ ops)
    (∀ E ∈ h.engines, E.alive = true) ∧
      (∀ d ty n r, h.clients d = .done (.submit ty n) r →
        ∃ q a, r = .answer q ∧ h.queues[q]? = some a ∧ a.ty = ty ∧ a.name = N ty ∧ h.byType ty = some q) ∧
      ∀ d call, h.clients d ≠ .done call .panic ∧ h.clients d ≠ .done call .mailboxError := by
  rw [Hub.run_append]
  obtain ⟨E, hE⟩ := Hub.orderly_run hN (started_orderly N c b) ops ho
  refine ⟨?_, fun d ty n r hd => ?_, fun d call => ⟨fun hd => ?_, fun hd => ?_⟩⟩
  · intro E' hE'
    rw [hE.engines] at hE'
    simp at hE'; subst hE'; exact hE.alive
  · have := hE.client d
    rw [hd] at this
    obtain ⟨q, hq, ht⟩ := this
    obtain ⟨a, ha, haty⟩ := hE.single.filed.types _ _ ht
    exact ⟨q, a, hq, ha, haty, by rw [hE.names a (List.mem_of_getElem? ha), haty], ht⟩
  · have := hE.client d
    rw [hd] at this
    cases call with
    | submit => obtain ⟨_, h, _⟩ := this; cases h
    | start => cases this
    | _ => exact this.1 rfl
  · have := hE.client d
    rw [hd] at this
    cases call with
    | submit => obtain ⟨_, h, _⟩ := this; cases h
    | start => cases this
    | _ => exact this.2 rfl

/-- C56 for clients that do not race, their submissions end: a client that waits for its queue gets it when the
engine goes on. -/
theorem C56_ends_partial (N : Nat → Str) (hN : ∀ a b, N a = N b → a = b) (c b : Nat) (ops : List HubOp)
    (ho : OrderlyRun N (Hub.run {} (startAlone c b)) ops) (d : Nat) (call : ApiCall) (e ty : Nat) (n : Str)
    (hw : (Hub.run {} (startAlone c b ++ ops)).clients d = .waiting call e ty n) :
    ∃ i q, (Hub.run {} (startAlone c b ++ ops ++ List.replicate i (.engine 0))).clients d =
      .done (.submit ty n) (.answer q) := by
  rw [Hub.run_append] at hw
  obtain ⟨E, hE⟩ := Hub.orderly_run hN (started_orderly N c b) ops ho
  obtain ⟨i, q, h⟩ := Hub.answered hN (Hub.work E + 1) hE (by omega) hw
  exact ⟨i, q, by rw [Hub.run_append, Hub.run_append]; exact h⟩

/-- Names for types. -/
def letters (ty : Nat) : Str := List.replicate ty 'a'

theorem letters_inj (a b : Nat) (h : letters a = letters b) : a = b := by
  have := congrArg List.length h
  simpa [letters] using this

/-- Two types at the same time, and one of them a second time. -/
def orderlyOps : List HubOp :=
  [.begin 1 (.submit 1 c!"a"), .begin 2 (.submit 2 c!"aa"), .client 1 false, .client 2 false, .client 1 false,
   .client 2 false, .engine 0, .engine 0, .engine 0, .engine 0, .begin 3 (.submit 1 c!"a"), .client 3 false, .engine 0]

example : OrderlyRun letters (Hub.run {} (startAlone 0 7)) orderlyOps ∧
    (Hub.run {} (startAlone 0 7 ++ orderlyOps)).clients 3 = .done (.submit 1 c!"a") (.answer 0) ∧
    (Hub.run {} (startAlone 0 7 ++ orderlyOps)).clients 2 = .waiting (.submit 2 c!"aa") 0 2 c!"aa" := by
  refine ⟨?_, by decide +kernel⟩
  refine .cons ⟨rfl, fun _ d hd => ?_⟩ (.cons ⟨rfl, fun _ d hd => ?_⟩ ?_)
  · rw [started]
    by_cases h : d = 0
    · subst h; exact fun x => x
    · simp [upd, h, ClientPc.Opening]
  · rw [started]
    by_cases h : d = 0
    · subst h; exact fun x => x
    · by_cases h1 : d = 1
      · subst h1; intro x; cases x
      · simp [Hub.step, Hub.begin, Hub.go, upd, h1, upd, h, ClientPc.Opening]
  · refine .cons trivial (.cons trivial (.cons trivial (.cons trivial (.cons trivial (.cons trivial (.cons trivial
      (.cons trivial (.cons ⟨rfl, fun h => ?_⟩ (.cons trivial (.cons trivial (.nil _)))))))))))
    exact absurd h (by decide +kernel)

/-- C56 is false: whatever the type and its name, when two clients submit its first jobs at the same time the second
may get an error, and the engine is dead. -/
theorem C56_refuted (b ty : Nat) (n : Str) : ∃ ops, let h := Hub.run {} (startAlone 0 b ++ ops)
    h.clients 1 = .done (.submit ty n) (.answer 0) ∧ h.clients 2 = .done (.submit ty n) .mailboxError ∧
      h.engines = [{ backend := b, alive := false }] ∧ h.Running 0 := by
  refine ⟨[.begin 1 (.submit ty n), .begin 2 (.submit ty n), .client 1 false, .client 2 false, .client 1 false,
    .client 2 false, .engine 0, .engine 0, .engine 0, .engine 0, .engine 0], ?_⟩
  have hr : (Hub.run {} (startAlone 0 b)).Running 0 :=
    (C54_first [] 0 b rfl (by intro d; simp [Hub.run, ClientPc.Starting]) (.inl rfl)).1
  refine ⟨?_, ?_, ?_, ?_⟩
  · rw [Hub.run_append, started]; simp [Hub.run, Hub.step, Hub.begin, Hub.go, Hub.client, Hub.look, Hub.readAddr, Hub.send, Hub.engine, Hub.answer, Hub.crash, Hub.release, upd]
  · rw [Hub.run_append, started]; simp [Hub.run, Hub.step, Hub.begin, Hub.go, Hub.client, Hub.look, Hub.readAddr, Hub.send, Hub.engine, Hub.answer, Hub.crash, Hub.release, upd]
  · rw [Hub.run_append, started]; simp [Hub.run, Hub.step, Hub.begin, Hub.go, Hub.client, Hub.look, Hub.readAddr, Hub.send, Hub.engine, Hub.answer, Hub.crash, Hub.release, upd]
  · rw [Hub.run_append]; exact (C54_later (startAlone 0 b) _ 0 hr).1

/-- C56, what the race leaves behind: once the only engine is dead, it stays the engine of the process, no type ever
gets a queue any more, and every submission of a type without a queue ends with an error. -/
theorem C56_refuted_dead (ops ops' : List HubOp) (E : Engine) (hr : (Hub.run {} ops).Running 0)
    (he : (Hub.run {} ops).engines = [E]) (ha : E.alive = false) :
    let h := Hub.run {} ops
    let h' := h.run ops'
    h'.Running 0 ∧ h'.engines = [E] ∧ h'.byType = h.byType ∧ h'.queues = h.queues ∧
      ∀ c ty n x y, h'.clients c = .begun (.submit ty n) → h.byType ty = none →
        ((h'.client c x).client c y).clients c = .done (.submit ty n) .mailboxError := by
  have hd : DeadEmpty (Hub.run {} ops) := deadEmpty_run (fun E hE => by cases hE) ops
  have hl := Hub.locked_run Hub.locked_init ops
  have key : ∀ ops' : List HubOp, ((Hub.run {} ops).run ops').engines = [E] ∧
      ((Hub.run {} ops).run ops').byType = (Hub.run {} ops).byType ∧
      ((Hub.run {} ops).run ops').queues = (Hub.run {} ops).queues := by
    generalize Hub.run {} ops = h at *
    intro ops'
    induction ops' generalizing h with
    | nil => exact ⟨he, rfl, rfl⟩
    | cons op ops' ih =>
      obtain ⟨h1, h2, h3⟩ := dead_engine_step hd hl hr he ha op
      have := ih (h.step op) (Hub.running_step hl hr op).1 h1 (deadEmpty_step hd op) (Hub.locked_step hl op)
      rw [h2, h3] at this
      exact this
  obtain ⟨h1, h2, h3⟩ := key ops'
  have hr' := (Hub.running_run hl hr ops').1
  refine ⟨hr', h1, h2, h3, fun c ty n x y hc hty => ?_⟩
  have hw := (Hub.locked_run hl ops').free hr'.calm
  have ea := hr'.addr
  rw [← h2] at hty
  generalize (Hub.run {} ops).run ops' = h at *
  simp [Hub.client, hc, Hub.go, Hub.look, hty, upd_same, Hub.readAddr, hw, ea, Hub.send, h1, ha]

/-- After the race of `C56_refuted`, a client submits a job of another type. -/
example : ∃ ops, ((Hub.run {} ops).Running 0 ∧ (Hub.run {} ops).engines = [{ backend := 7, alive := false }]) ∧
    (Hub.run {} (ops ++ [.begin 5 (.submit 9 c!"bill"), .client 5 false, .client 5 false])).clients 5 =
      .done (.submit 9 c!"bill") .mailboxError := by
  obtain ⟨ops, -, -, h3, h4⟩ := C56_refuted 7 4 c!"mail"
  have h5 := C56_refuted_dead _ [.begin 5 (.submit 9 c!"bill")] _ h4 h3 rfl
  refine ⟨[.begin 0 (.start 7), .client 0 false, .client 0 false, .client 0 false, .client 0 false, .client 0 false,
    .begin 1 (.submit 4 c!"mail"), .begin 2 (.submit 4 c!"mail"), .client 1 false, .client 2 false, .client 1 false,
    .client 2 false, .engine 0, .engine 0, .engine 0, .engine 0, .engine 0], ⟨⟨by decide +kernel, ?_⟩, by decide +kernel⟩,
    by decide +kernel⟩
  refine starting_fin (n := 3) (fun c hc => run_idle _ _ _ rfl ?_) (by decide +kernel)
  intro op hop call e
  subst e
  simp at hop
  omega

/-! ## C57 -/

/-- C57, in every state: a request for a type without a queue ends in its first step, with the answer that says so,
and changes nothing: neither registry nor engines nor queues nor other clients. -/
theorem C57_unregistered (h : Hub) (c : Nat) (call : ApiCall) (ty : Nat) (r : ApiResult) (x : Bool)
    (hc : h.clients c = .begun call) (ht : ApiCall.ty? call = some ty) (hr : refusal call = some r)
    (hn : h.byType ty = none) :
    (h.client c x).clients c = .done call r ∧ h.SameBut c (h.client c x) := by
  have hl : h.look call = .done call r := by
    cases call <;> simp [refusal] at hr <;> simp [ApiCall.ty?] at ht <;> subst hr <;> subst ht <;> simp [Hub.look, hn]
  simp only [Hub.client, hc, hl]
  exact ⟨by simp [Hub.go_clients], rfl, rfl, rfl, rfl, rfl, rfl, fun d hd => by simp [Hub.go_clients, hd]⟩

/-- C57, over histories: as long as nobody submits a job, whatever else the clients ask for, no queue exists, no type
has one, and every request that has ended was answered as it should. -/
theorem C57_histories (ops : List HubOp) (ho : NoFirst ops) :
    let h := Hub.run {} ops
    h.queues = [] ∧ (∀ ty, h.byType ty = none) ∧
      ∀ c call r r', h.clients c = .done call r → refusal call = some r' → r = r' := by
  have key : ∀ (h : Hub) (ops : List HubOp), Bare h → NoFirst ops → Bare (h.run ops) := by
    intro h ops
    induction ops generalizing h with
    | nil => exact fun hb _ => hb
    | cons op ops ih =>
      exact fun hb ho => ih (h.step op) (bare_step hb op (ho op (by simp))) fun o ho' => ho o (by simp [ho'])
  have hb := key {} ops ⟨fun _ => rfl, rfl, fun E hE => (by cases hE), fun c => trivial⟩ ho
  refine ⟨hb.queues, hb.types, fun c call r r' hc hr => ?_⟩
  have := hb.clients c
  rw [hc] at this
  exact this r' hr

/-- Requests before anything was submitted. -/
def earlyRequests : List HubOp :=
  startAlone 0 7 ++ [.begin 1 (.cancel 4), .begin 2 (.update 4 c!"mail"), .client 1 false, .client 2 false,
    .begin 0 (.get 4), .client 0 false, .engine 0]

example : NoFirst earlyRequests ∧ (Hub.run {} earlyRequests).clients 1 = .done (.cancel 4) .noQueueRegister ∧
    (Hub.run {} earlyRequests).clients 2 = .done (.update 4 c!"mail") .unit ∧
    (Hub.run {} earlyRequests).clients 0 = .done (.get 4) .none := by
  refine ⟨fun op ho c ty n e => ?_, by decide +kernel⟩
  subst e
  simp [earlyRequests, startAlone] at ho

example : (Hub.run {} [.begin 1 (.cancel 4)]).clients 1 = .begun (.cancel 4) ∧ refusal (.cancel 4) = some .noQueueRegister :=
  by decide +kernel

/-! ## C58 -/

variable {D O : Type} {b : Impl} {E : Env D} {name : Str} {clk : Nat → Time} {P : Snap D → Op D O → Prop}

/-- C58, what is true of it: a panic in the user code of a task touches no stored job and no list, so that every
other job is still there for the next process (C47). Missing: the rest of C58 (`C58_refuted`). -/
theorem C58_kept_partial {s : Sys D b.B} (ha : s.alive = true) (i : Nat) (t : Task D) (j : Job D)
    (ht : s.tasks[i]? = some t) (hj : t.executing = some j) :
    (b.snap E name s).Dies (b.snap E name (Sys.step E name b.B clk s (.userPanic i : Op D O)).1) := by
  obtain ⟨orig, ex⟩ := t
  cases hj
  have : Sys.step E name b.B clk s (.userPanic i : Op D O) = ({ s with tasks := [], alive := false }, .silent) := by
    simp [Sys.step, ha, ht]
  rw [this]
  exact ⟨rfl, rfl, rfl, rfl⟩

/-- C58 is false: in every state of every history on every backend, once the user code of one job panics, every later
turn changes nothing - no job is stored, queued, started, run or ended any more - and every request gets an error or
no answer. -/
theorem C58_refuted {s : Sys D b.B} (ha : s.alive = true) (i : Nat) (t : Task D) (j : Job D)
    (ht : s.tasks[i]? = some t) (hj : t.executing = some j) {s' : Sys D b.B}
    (hl : Later (O := O) b E name clk (fun _ _ => True) (Sys.step E name b.B clk s (.userPanic i : Op D O)).1 s') :
    s' = (Sys.step E name b.B clk s (.userPanic i : Op D O)).1 ∧
      (b.snap E name s').runs = (b.snap E name s).runs ∧
      (∀ k, (b.snap E name s').own k = []) ∧
      (∀ job c, (Sys.step E name b.B clk s' (.enqueue job c : Op D O)).2 = .unit (.error .mailboxError)) ∧
      (∀ k, (Sys.step E name b.B clk s' (.cancel k : Op D O)).2 = .unit (.error .mailboxError)) ∧
      (∀ c, (Sys.step E name b.B clk s' (.config c : Op D O)).2 = .unit (.error .mailboxError)) ∧
      (∀ k, (Sys.step E name b.B clk s' (.retry k : Op D O)).2 = .bool (.error .mailboxError)) ∧
      (∀ k, (Sys.step E name b.B clk s' (.get k : Op D O)).2 = .job none) := by
  obtain ⟨orig, ex⟩ := t
  cases hj
  have e : Sys.step E name b.B clk s (.userPanic i : Op D O) = ({ s with tasks := [], alive := false }, .silent) := by
    simp [Sys.step, ha, ht]
  rw [e] at hl ⊢
  have h1 : s' = { s with tasks := [], alive := false } := by
    induction hl with
    | refl => rfl
    | step op _ _ ih => rw [ih]; exact dead_step rfl op
  subst h1
  refine ⟨rfl, rfl, fun k => rfl, ?_, ?_, ?_, ?_, ?_⟩ <;> intros <;> simp [Sys.step, Sys.deadResp]

/-- Job `b` waits while the user code of job `a` runs, at most one at a time. -/
def panicSoon : List (Op Int Unit) :=
  [.config { maxProcessingJobs := 1 }, .enqueue (job c!"a") .newReRun, .enqueue (job c!"b") .newReRun,
   .tick, .start 0]

example (b : Impl) : (on b panicSoon).alive = true ∧ (∃ t j, (on b panicSoon).tasks[0]? = some t ∧ t.executing = some j) ∧
    (b.snap Demo.E c!"print" (on b panicSoon)).lists .queued = [c!"b"] ∧
    (b.snap Demo.E c!"print" (on b (panicSoon ++ [.userPanic 0, .tick, .tick]))).lists .queued = [c!"b"] ∧
    (b.snap Demo.E c!"print" (on b (panicSoon ++ [.userPanic 0, .tick, .tick]))).alive = false := by
  have h1 : (b.snap Demo.E c!"print" (on b panicSoon)).alive = true := by rw [see_on]; decide +kernel
  have h2 : ((b.snap Demo.E c!"print" (on b panicSoon)).tasks[0]?.bind (·.executing)).isSome = true := by
    rw [see_on]; decide +kernel
  refine ⟨h1, ?_, ?_⟩
  · obtain ⟨j, h5⟩ := Option.isSome_iff_exists.1 h2
    obtain ⟨t, h3, h4⟩ := Option.bind_eq_some_iff.1 h5
    exact ⟨t, j, h3, h4⟩
  · rw [see_on, see_on]; decide +kernel

end AJ.Props
