import Verif.Proofs.Runtime
import Verif.Props.Plugin

/-!
# C80, C81: actix systems

Theorems about `Runtime`: any number of threads and systems, for all histories of making, dropping and stopping systems, starting AJ,
registering plugins, submitting jobs, messages of work queues, and steps of the plugin centres.
-/

namespace AJ.Props

open _root_.AJ.Runtime

/-! ## C80: plugins work with any runtime -/

/-- C80, while the runner of a system exists: once the plugin centre of the system has handled its messages and no hook is suspended
or has panicked, exactly the calls were made that the messages sent in the system should lead to. -/
theorem C80_delivered_partial (ops : List RunOp) (s : Nat) :
    let r := Runtime.run {} ops
    r.runs s = true → r.boxes s = [] → (r.centres s).Quiet → (∀ i, .panic s i ∉ ops) →
    ∀ m, (r.centres s).callsOf m = expected (r.meantFor s) m := by
  intro r hr hb hq hp m
  obtain ⟨cops, h1, h2, h3⟩ := (booked_run settled_init (booked_init fun _ => True) ops).kept s hr
  have h2 : mail cops ++ r.boxes s = r.meantFor s := h2
  have h1 : r.centres s = Centre.run {} cops := h1
  rw [hb, List.append_nil] at h2
  rw [← h2, h1]
  rw [h1] at hq
  exact C43_all_partial cops (h3 ⟨trivial, hp⟩) hq m

/-- C80, for the system AJ was started in, as long as it is neither stopped nor its runner dropped: once the plugin centre has handled its
messages and no hook is suspended or has panicked, exactly the calls were made that should be, for every plugin registered by a thread
of this system and every message of every work queue. -/
theorem C80_told_partial (before later : List RunOp) (th s : Nat) :
    let r := Runtime.run {} before
    let r' := Runtime.run {} (before ++ .start th :: later)
    r.addr = none → r.current th = some s → r.runs s = true → .stop s ∉ later → .drop s ∉ later → (∀ i, .panic s i ∉ before ++ later) →
    r'.boxes s = [] → (r'.centres s).Quiet →
    ∀ m, (r'.centres s).callsOf m = expected (r.meantFor s ++ letters (fun x => r.current x = some s) [] later) m := by
  intro r r' ha hc hr h1 h2 hp hb hq m
  have hs : Settled r := settled_run settled_init before
  have he : r.engines = [] := by
    rcases hs.one with ⟨-, h⟩ | ⟨a, h, -⟩
    · exact h
    · rw [ha] at h; cases h
  have hqs : r.queues = [] := by
    refine List.eq_nil_iff_forall_not_mem.2 fun q hq => ?_
    obtain ⟨a, h, -⟩ := hs.queue q hq
    rw [he] at h; cases h
  have hstart : r.start th = (r.registerAddr s).say (.engine r.engines.length) := by
    unfold Runtime.start; rw [ha, hc]
  have ht : Tuned (r.start th) s (fun x => r.current x = some s) [] := by
    rw [hstart]
    refine ⟨⟨by show some r.engines.length = _; rw [he]; rfl, by show r.engines ++ _ = _; rw [he]; rfl, ?_⟩, hr, fun x => ?_, ?_, fun ty => ?_⟩
    · show ∀ q ∈ r.queues, _
      rw [hqs]; exact fun _ h => by cases h
    · show r.current x = some s ↔ _
      exact decide_eq_true_iff.symm
    · show r.queues.map _ = _
      rw [hqs]; rfl
    · show r.byType ty = none ↔ _
      cases hty : r.byType ty with
      | none => simp
      | some q =>
        have := hs.byType ty q hty
        rw [hqs] at this; cases this
  have hend : r' = (r.start th).run later := by
    show Runtime.run {} (before ++ .start th :: later) = _
    rw [run_append]; rfl
  obtain ⟨h3, h4⟩ := letters_run (settled_step hs (.start th)) ht later h1 h2
  have h5 : (r.start th).meantFor s = r.meantFor s := by rw [hstart]; rfl
  rw [← h5]
  have h3 : r'.meantFor s = (r.start th).meantFor s ++ letters (fun x => r.current x = some s) [] later := by rw [hend]; exact h3
  rw [← h3]
  refine C80_delivered_partial _ s (by show r'.runs s = true; rw [hend]; exact h4) hb hq (fun i hi => hp i ?_) m
  rcases List.mem_append.1 hi with hi | hi
  · exact List.mem_append_left _ hi
  · rcases List.mem_cons.1 hi with hi | hi
    · cases hi
    · exact List.mem_append_right _ hi

/-- C80, for every system at every moment: no call is made but for a message sent in the system, and in the order it should be. -/
theorem C80_prefix_partial (ops : List RunOp) (s m : Nat) :
    let r := Runtime.run {} ops
    (r.centres s).callsOf m <+: expected (r.meantFor s) m :=
  prefix_run settled_init (booked_init _) C43_prefix_partial (fun _ _ => List.nil_prefix) ops s m

/-- C80: hooks are only called in the system the engine lives in; plugins registered in another one are never called. -/
theorem C80_home (ops : List RunOp) (s : Nat) :
    let r := Runtime.run {} ops
    (r.centres s).calls ≠ [] → ∃ a ∈ r.engines, a.system = s := by
  intro r hc
  refine Classical.byContradiction fun hn => hc ?_
  exact (mute_run settled_init ops (fun _ => mute_init s) (fun a ha e => hn ⟨a, ha, e⟩)).calls

/-- C80, refuted: if AJ is started by a thread without a system, no hook is ever called, whatever happens afterwards. The system
AJ makes for itself ends at once (`let _ = System::new();`). -/
theorem C80_refuted (before later : List RunOp) (th : Nat) :
    let r := Runtime.run {} before
    r.addr = none → r.current th = none → ¬ (Runtime.run {} (before ++ .start th :: later)).Heard := by
  intro r ha hc
  have hs : Settled r := settled_run settled_init before
  have he : r.engines = [] := by
    rcases hs.one with ⟨-, h⟩ | ⟨a, h, -⟩
    · exact h
    · rw [ha] at h; cases h
  have hb : Blank r r.running.length := (booked_run settled_init (booked_init fun _ => True) before).blank _ (Nat.le_refl _)
  have hstart : r.start th = ({ r with running := r.running ++ [false] }.registerAddr r.running.length).say (.engine r.engines.length) := by
    unfold Runtime.start; rw [ha, hc]
  have hsil : Silent (r.start th) := by
    rw [hstart]
    refine ⟨by show some r.engines.length = _; rw [he]; rfl, { system := r.running.length }, by show r.engines ++ _ = _; rw [he]; rfl, ⟨?_, ?_⟩, ?_⟩
    · show r.running.length < (r.running ++ [false]).length
      rw [List.length_append]; exact Nat.lt_succ_self _
    · show ((r.running ++ [false])[r.running.length]?).getD false = false
      rw [List.getElem?_append_right (Nat.le_refl _), Nat.sub_self]; rfl
    · show (r.centres r.running.length).calls = []
      rw [hb.centre]
  have hend : Runtime.run {} (before ++ .start th :: later) = (r.start th).run later := by
    rw [run_append]; rfl
  rintro ⟨s, hh⟩
  obtain ⟨a, ha', hsys⟩ := C80_home (before ++ .start th :: later) s hh
  rw [hend] at ha' hh
  obtain ⟨b, h1, -, h2⟩ := (silent_run hsil later).engine
  rw [h1] at ha'
  rw [List.mem_singleton.1 ha'] at hsys
  rw [hsys] at h2
  exact hh h2

/-- C80, refuted: a plugin registered by a thread without a system is not registered, the call panics. -/
theorem C80_refuted_register (ops : List RunOp) (th : Nat) :
    let r := Runtime.run {} ops
    r.current th = none → (r.plugin th).verdicts = r.verdicts ++ [.panic] ∧ ∀ s, (r.plugin th).meantFor s = r.meantFor s := by
  intro r hc
  have : r.plugin th = r.say .panic := by unfold Runtime.plugin; rw [hc]
  rw [this]
  exact ⟨rfl, fun _ => rfl⟩

/-- A service on actix: the main thread makes a system, starts AJ, registers a plugin and submits a job; the work queue sends the messages
of a run, and the plugin centre handles them. -/
def service : List RunOp :=
  [.system 0, .start 0, .plugin 0, .submit 5, .event 0 (.hookMsg c!"a" true), .event 0 (.statusMsg c!"a" .running),
   .deliver 0 0, .deliver 0 1, .deliver 0 1]

example : (Runtime.run {} service).runs 0 = true ∧ (Runtime.run {} service).boxes 0 = [] ∧
    ((Runtime.run {} service).centres 0).calls = [(1, 0, .beforeRun c!"a"), (2, 0, .changeStatus c!"a" .running)] ∧
    (Runtime.run {} service).verdicts = [.engine 0, .ok, .ok] := by decide +kernel

example (m : Nat) : ((Runtime.run {} service).centres 0).callsOf m = expected ((Runtime.run {} service).meantFor 0) m :=
  C80_delivered_partial service 0 (by decide +kernel) (by decide +kernel) (by unfold Centre.Quiet; decide +kernel)
    (fun i h => by simp [service] at h) m

example : expected ((Runtime.run {} service).meantFor 0) 2 = [(0, .changeStatus c!"a" .running)] := by decide +kernel

/-- What the service should tell its plugins. -/
example : letters (fun x => x == 0) [] (service.drop 2) = [.register .ofUser, .runHook 5 c!"a" true, .changeStatus 5 c!"a" .running] := by decide +kernel

example (m : Nat) : ((Runtime.run {} service).centres 0).callsOf m =
    expected ([] ++ letters (fun x => (Runtime.run {} [.system 0]).current x = some 0) [] (service.drop 2)) m :=
  C80_told_partial [.system 0] (service.drop 2) 0 0 (by decide +kernel) (by decide +kernel) (by decide +kernel) (by decide +kernel) (by decide +kernel)
    (fun i h => by simp [service] at h) (by decide +kernel) (by unfold Centre.Quiet; decide +kernel) m

example : ∃ a ∈ (Runtime.run {} service).engines, a.system = 0 := C80_home service 0 (by decide +kernel)

/-- The same service with AJ started by a thread that has no system, before. -/
def elsewhere : List RunOp := .start 1 :: service

example : ¬ (Runtime.run {} elsewhere).Heard := C80_refuted [] service 1 rfl rfl

/-- All calls succeed, and a plugin centre has the plugin; the messages went to another. -/
example : (Runtime.run {} elsewhere).verdicts = [.engine 0, .engine 0, .ok, .ok] ∧
    ((Runtime.run {} (elsewhere ++ [.deliver 1 0])).centres 1).plugins = [.ofUser] ∧
    (Runtime.run {} elsewhere).meantFor 0 = [.runHook 5 c!"a" true, .changeStatus 5 c!"a" .running] := by decide +kernel

example : ((Runtime.run {} [.start 0]).plugin 0).verdicts = [.engine 0, .panic] :=
  (C80_refuted_register [.start 0] 0 rfl).1

/-! ## C81: AJ goes on as long as its process -/

/-- C81, as long as nobody stops the system AJ was started in: there is one engine, `AJ::start` returns it, every submission is accepted,
and the engine and all work queues go on, even when the runner of the system is dropped or other systems are stopped. -/
theorem C81_survives_partial (before later : List RunOp) (th : Nat) :
    let r := Runtime.run {} before
    r.addr = none →
    let s := (r.current th).getD r.running.length
    .stop s ∉ later →
    let r' := (r.start th).run later
    r'.engines = [{ system := s }] ∧ (∀ q ∈ r'.queues, q.2 = { system := s }) ∧
    (∀ th', (r'.start th').verdicts = r'.verdicts ++ [.engine 0]) ∧ ∀ ty, (r'.submit ty).verdicts = r'.verdicts ++ [.ok] := by
  intro r ha s hst r'
  have hs : Settled r := settled_run settled_init before
  have he : r.engines = [] := by
    rcases hs.one with ⟨-, h⟩ | ⟨a, h, -⟩
    · exact h
    · rw [ha] at h; cases h
  have hq : r.queues = [] := by
    refine List.eq_nil_iff_forall_not_mem.2 fun q hq => ?_
    obtain ⟨a, h, -⟩ := hs.queue q hq
    rw [he] at h; cases h
  have hl : Live (r.start th) s := by
    show Live _ ((r.current th).getD r.running.length)
    unfold Runtime.start
    rw [ha]
    cases r.current th with
    | some s' =>
      exact ⟨by show some r.engines.length = _; rw [he]; rfl, by show r.engines ++ _ = _; rw [he]; rfl, by show ∀ q ∈ r.queues, _; rw [hq]; exact fun _ h => by cases h⟩
    | none =>
      exact ⟨by show some r.engines.length = _; rw [he]; rfl, by show r.engines ++ _ = _; rw [he]; rfl, by show ∀ q ∈ r.queues, _; rw [hq]; exact fun _ h => by cases h⟩
  have hs' : Settled (r.start th) := settled_step hs (.start th)
  have hl' : Live r' s := live_run hs' hl later hst
  refine ⟨hl'.engine, hl'.queue, fun th' => ?_, fun ty => ?_⟩
  · unfold Runtime.start; rw [hl'.addr]; rfl
  · obtain ⟨x, h1, h2, -⟩ := live_submit (settled_run hs' later) hl' ty
    rw [h1]
    show x.verdicts ++ _ = _
    rw [h2]

/-- C81, refuted: once the system AJ was started in is stopped, AJ has ended for good. In every later history the engine and all work
queues stay dead, `AJ::start` returns the dead engine, also in a new system, every submission fails and no message is sent. -/
theorem C81_refuted (before later : List RunOp) (a : Resident) :
    let r := Runtime.run {} before
    r.engines = [a] → r.runs a.system = true →
    let r' := Runtime.run {} (before ++ .stop a.system :: later)
    (∀ a' ∈ r'.engines, a'.alive = false) ∧ (∀ q ∈ r'.queues, q.2.alive = false) ∧
    (∀ th, (r'.start th).verdicts = r'.verdicts ++ [.engine 0]) ∧ (∀ th, (r'.start th).engines = r'.engines) ∧
    (∀ ty, (r'.submit ty).verdicts = r'.verdicts ++ [.mailboxError]) ∧ ∀ q ev, (r'.event q ev).sent = r'.sent := by
  intro r he hr r'
  have hd : Dead r' := by
    have hend : r' = (r.stop a.system).run later := by
      show Runtime.run {} (before ++ .stop a.system :: later) = _
      rw [run_append]; rfl
    rw [hend]
    exact dead_run (dead_stop (settled_run settled_init before) he hr) later
  obtain ⟨b, h1, h2⟩ := hd.engine
  refine ⟨fun a' ha' => ?_, hd.queue, fun th => ?_, fun th => ?_, fun ty => ?_, fun q ev => ?_⟩
  · rw [h1] at ha'
    rw [List.mem_singleton.1 ha']; exact h2
  · rw [dead_start hd]; rfl
  · rw [dead_start hd]; rfl
  · rw [dead_submit hd]; rfl
  · rw [dead_event hd]

/-- The second test of a program: the system of the first has been stopped, and the second makes its own. -/
def secondTest : List RunOp := [.system 1, .start 1, .submit 5, .submit 6]

example : (Runtime.run {} ([.system 0, .start 0, .submit 5] ++ .stop 0 :: secondTest)).verdicts =
    [.engine 0, .ok, .engine 0, .mailboxError, .mailboxError] := by decide +kernel

example (ty : Nat) : ((Runtime.run {} ([.system 0, .start 0, .submit 5] ++ .stop 0 :: secondTest)).submit ty).verdicts =
    [.engine 0, .ok, .engine 0, .mailboxError, .mailboxError, .mailboxError] :=
  (C81_refuted [.system 0, .start 0, .submit 5] secondTest { system := 0 } (by decide +kernel) (by decide +kernel)).2.2.2.2.1 ty

/-- The runner of the first test is only dropped: AJ goes on. -/
example : let r := Runtime.run {} ([.system 0, .start 0, .submit 5, .drop 0] ++ secondTest)
    r.verdicts = [.engine 0, .ok, .engine 0, .ok, .ok] ∧ ∀ ty, (r.submit ty).verdicts = r.verdicts ++ [.ok] := by
  refine ⟨by decide +kernel, ?_⟩
  exact (C81_survives_partial [.system 0] ([.submit 5, .drop 0] ++ secondTest) 0 (by decide +kernel) (by decide +kernel)).2.2.2

end AJ.Props
