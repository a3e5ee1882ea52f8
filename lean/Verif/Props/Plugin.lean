import Verif.Proofs.AsyncParts
import Verif.Proofs.Says
import Verif.Props.Demo

/-!
# Plugins (C42-C44)

The plugin centre handles messages in the order in which they arrive; hooks may suspend and may panic. A work
queue sends its messages in the order of its log.
-/

namespace AJ.Props
open Demo

/-! ## C43 -/

/-- C43, at any moment of any history: the calls made for a message are the first ones of those it should lead
to, in order, without a repetition and without a call of a plugin registered later or for other types. -/
theorem C43_prefix_partial (ops : List CentreOp) (m : Nat) :
    (Centre.run {} ops).callsOf m <+: expected (mail ops) m :=
  (faithful ops).made m

/-- C43, for a message whose task has come to its end: exactly the calls it should lead to were made. -/
theorem C43_ended_partial (ops : List CentreOp) (f : HookTask) (hf : f ∈ (Centre.run {} ops).tasks) (he : f.rest = []) :
    (Centre.run {} ops).callsOf f.src = expected (mail ops) f.src := by
  have := ((faithful ops).task f hf).2.2
  rw [HookTask.todo, he] at this
  simpa using this

/-- C43, for all messages, when no hook panics and no hook is suspended: exactly the calls they should lead to
were made. Missing for C43 as stated: hooks that panic (`C43_refuted`) or never return. -/
theorem C43_all_partial (ops : List CentreOp) (hp : NoPanic ops) (hq : (Centre.run {} ops).Quiet) (m : Nat) :
    (Centre.run {} ops).callsOf m = expected (mail ops) m := by
  cases hm : (mail ops)[m]? >>= PluginMsg.hook? with
  | none =>
    have h := (faithful ops).made m
    have e : expected (mail ops) m = [] := by unfold expected; rw [hm]
    rw [e] at h ⊢
    exact List.prefix_nil.mp h
  | some q =>
    obtain ⟨f, hf, rfl⟩ := has_task hp hm
    exact C43_ended_partial ops f hf (hq f hf)

/-- Two plugins for all types, one for type 7 between them. -/
def threePlugins : List CentreOp :=
  [.deliver (.register ⟨[]⟩) 0, .deliver (.register ⟨[7]⟩) 0, .deliver (.changeStatus 1 c!"a" .queued) 1,
   .deliver (.register ⟨[]⟩) 0, .deliver (.runHook 7 c!"b" true) 2, .poll 0 5, .poll 1 1]

example : NoPanic threePlugins ∧ (Centre.run {} threePlugins).Quiet ∧
    (Centre.run {} threePlugins).callsOf 2 = [(0, .changeStatus c!"a" .queued)] ∧
    (Centre.run {} threePlugins).callsOf 4 = [(0, .beforeRun c!"b"), (1, .beforeRun c!"b"), (2, .beforeRun c!"b")] ∧
    expected (mail threePlugins) 4 = [(0, .beforeRun c!"b"), (1, .beforeRun c!"b"), (2, .beforeRun c!"b")] := by
  refine ⟨fun i h => by simp [threePlugins] at h, ?_, ?_⟩
  · unfold Centre.Quiet; decide +kernel
  · decide +kernel

/-- A task that is not there makes no calls. -/
private theorem gone (m : Nat) (c : Centre) (hm : m < c.received) (h : ∀ f ∈ c.tasks, f.src ≠ m) (ops : List CentreOp) :
    (c.run ops).callsOf m = c.callsOf m := by
  induction ops generalizing c with
  | nil => rfl
  | cons op ops ih =>
    have key : m < (c.step op).received ∧ (∀ f ∈ (c.step op).tasks, f.src ≠ m) ∧ (c.step op).callsOf m = c.callsOf m := by
      have new : ∀ ty call n, m < (c.spawn ty call n).received ∧ (∀ f ∈ (c.spawn ty call n).tasks, f.src ≠ m) ∧
          (c.spawn ty call n).callsOf m = c.callsOf m := by
        intro ty call n
        refine ⟨Nat.lt_succ_of_lt hm, fun f hf => ?_, ?_⟩
        · rcases List.mem_append.mp hf with hf | hf
          · exact h f hf
          · rw [List.mem_singleton.mp hf]
            exact fun e => absurd (show c.received = m from e) (by omega)
        · rw [callsOf_append c _ _ rfl, HookTask.calls_of, if_neg, List.append_nil]
          exact fun e => absurd (show m = c.received from e) (by omega)
      cases op with
      | deliver msg n =>
        cases msg with
        | register p => exact ⟨Nat.lt_succ_of_lt hm, h, rfl⟩
        | changeStatus => exact new _ _ _
        | runHook => exact new _ _ _
      | poll i n =>
        cases hi : c.tasks[i]? with
        | none => rw [c.step_poll_none hi]; exact ⟨hm, h, rfl⟩
        | some f =>
          rw [c.step_poll hi]
          have hf := h f (List.mem_of_getElem? hi)
          refine ⟨hm, fun g hg => ?_, ?_⟩
          · rcases List.mem_or_eq_of_mem_set hg with hg | rfl
            · exact h g hg
            · exact hf
          · rw [callsOf_append c _ (f.calls n) rfl, HookTask.calls_of, if_neg (fun e => hf e.symm), List.append_nil]
      | panic i => exact ⟨hm, fun f hf => h f (List.mem_of_mem_eraseIdx hf), rfl⟩
    have := ih (c.step op) key.1 key.2.1
    exact this.trans key.2.2

/-- C43 is false when a hook panics: if the hook of the first plugin panics, the hook of the second one, which
wants every message, is not called for this message, whatever happens later. -/
theorem C43_refuted (ty : Nat) (id : Str) (st : JobStatus) :
    let ops : List CentreOp :=
      [.deliver (.register ⟨[]⟩) 0, .deliver (.register ⟨[]⟩) 0, .deliver (.changeStatus ty id st) 1, .panic 0]
    expected (mail ops) 2 = [(0, .changeStatus id st), (1, .changeStatus id st)] ∧
    ∀ later, (Centre.run {} (ops ++ later)).callsOf 2 = [(0, .changeStatus id st)] := by
  refine ⟨rfl, fun later => ?_⟩
  unfold Centre.run
  rw [List.foldl_append]
  exact gone 2 _ (by decide +kernel : 2 < 3) (fun f hf => by cases hf) later

/-! ## C42 -/

section
variable {D O : Type} {E : Env D} {name : Str} {clk : Nat → Time} {b : Impl} {k : Str}

/-- C42, as far as the work queue is concerned: in every history that is careful with `k`, the last status of
`k` that was sent to the plugins is the one `get_job` returns (and none was sent if `k` is not stored). -/
theorem C42_sent_partial (L : E.Lawful) {s : Sys D b.B} (hs : Reach (O := O) b E name clk (CarefulFor E k) s) :
    ((b.snap E name s).sent k).getLast? = (b.snap E name s).status k :=
  sent_last L hs

/-- The same, whatever user code leaves and callers submit, as long as the submissions of `k` are orderly: the last
status of a job that `get_job` returns is the one sent last. -/
theorem C42_sent_read_partial (L : E.Lawful) {s : Sys D b.B} (hs : Reach (O := O) b E name clk (Orderly k) s)
    {j : Job D} (hj : (b.snap E name s).job k = some j) :
    ((b.snap E name s).sent k).getLast? = some j.context.jobStatus :=
  sent_read L hs (by simp [Snap.status, hj])

/-- C42, for plugins whose predecessors do not suspend: once all messages have arrived, the last status of `k` a
plugin was notified of is the one of the job `get_job` returns. Missing for C42 as stated: plugins registered after
one whose hook suspends (`C42_refuted`). -/
theorem C42_told_partial (L : E.Lawful) {s : Sys D b.B} (hs : Reach (O := O) b E name clk (Orderly k) s)
    {j : Job D} (hj : (b.snap E name s).job k = some j)
    (ty p : Nat) (ops : List CentreOp) (harr : statusesOf k (mail ops) = ((b.snap E name s).sent k).map (ty, ·))
    (hp : ReachedAtOnce p ops) (st : JobStatus) (ht : ((Centre.run {} ops).told p k).getLast? = some st) :
    j.context.jobStatus = st := by
  have hty : ∀ q ∈ statusesOf k (mail ops), q.1 = ty := by
    intro q hq
    rw [harr] at hq
    obtain ⟨_, _, rfl⟩ := List.mem_map.mp hq
    rfl
  rcases told_last hp hty with h | ⟨_, h⟩
  · rw [h] at ht; cases ht
  · rw [harr, List.getLast?_map, C42_sent_read_partial L hs hj, ht] at h
    simpa using h.symm

end

/-- Job `a` is submitted and started. -/
def begunA : List (Op Int Unit) := [.enqueue (job c!"a") .newReRun, .tick]

/-- Two plugins; both messages about `a` arrive, and no hook suspends. -/
def promptMail : List CentreOp :=
  [.deliver (.register ⟨[]⟩) 9, .deliver (.register ⟨[]⟩) 9, .deliver (.changeStatus 1 c!"a" .queued) 9,
   .deliver (.changeStatus 1 c!"a" .running) 9]

theorem prompt_reached : ReachedAtOnce 1 promptMail := by
  intro m n h
  simp [promptMail] at h
  rcases h with h | h | h <;> omega

example (b : Impl) : Reach (O := Unit) b E c!"print" clk (CarefulFor E c!"a") (on b begunA) ∧
    statusesOf c!"a" (mail promptMail) = ((b.snap E c!"print" (on b begunA)).sent c!"a").map (1, ·) ∧
    ReachedAtOnce 1 promptMail ∧ (Centre.run {} promptMail).told 1 c!"a" = [.queued, .running] := by
  refine ⟨okAll.on (by decide +kernel) b, ?_, ?_, by decide +kernel⟩
  · rw [see_on]; decide +kernel
  · exact prompt_reached

/-- `C42_told_partial` there. -/
example (j : Job Int) (hj : (Impl.memory.snap E c!"print" (on Impl.memory begunA)).job c!"a" = some j) :
    j.context.jobStatus = .running := by
  refine C42_told_partial (O := Unit) (b := Impl.memory) (clk := clk) lawful ((okAll.on (by decide +kernel) Impl.memory).orderly lawful) hj
    1 1 promptMail ?_ prompt_reached .running (by decide +kernel)
  rw [see_on]; decide +kernel

/-- The same two messages arrive, in the same order; the hook of the first plugin suspends both times, and returns
first from the second call. -/
def tardyMail : List CentreOp :=
  [.deliver (.register ⟨[]⟩) 9, .deliver (.register ⟨[]⟩) 9, .deliver (.changeStatus 1 c!"a" .queued) 1,
   .deliver (.changeStatus 1 c!"a" .running) 1, .poll 1 1, .poll 0 1]

/-- C42 is false when the hook of an earlier plugin suspends: the second plugin is told Queued last, although the
job runs, no hook panics, all hooks have returned, and the messages arrived in the right order. -/
theorem C42_refuted (b : Impl) :
    Reach (O := Unit) b E c!"print" clk (CarefulFor E c!"a") (on b begunA) ∧
    statusesOf c!"a" (mail tardyMail) = ((b.snap E c!"print" (on b begunA)).sent c!"a").map (1, ·) ∧
    NoPanic tardyMail ∧ (Centre.run {} tardyMail).Quiet ∧
    ((Centre.run {} tardyMail).told 1 c!"a").getLast? = some .queued ∧
    (b.snap E c!"print" (on b begunA)).status c!"a" = some .running := by
  refine ⟨okAll.on (by decide +kernel) b, ?_, fun i h => by simp [tardyMail] at h, ?_, by decide +kernel, ?_⟩
  · rw [see_on]; decide +kernel
  · unfold Centre.Quiet; decide +kernel
  · rw [see_on]; decide +kernel

/-! ## C44 -/

section
variable {D O : Type} {E : Env D} {name : Str} {clk : Nat → Time} {b : Impl} {k : Str}

/-- C44, as far as it is true: in every history with orderly submissions of `k`, the executions of `k` follow one
another, each with one message to the plugins before its user code and one after it; an execution inside user
code has sent the first one. Missing for C44 as stated: the second message does not call `after_run`
(`C44_refuted`). -/
theorem C44_around_partial (L : E.Lawful) {s : Sys D b.B} (hs : Reach (O := O) b E name clk (Orderly k) s)
    (ha : s.alive = true) :
    let v := b.snap E name s
    ∃ n, v.parts k = (List.replicate n [.hook true, .code, .hook true]).flatten ++
        (if v.executing k then [.hook true, .code] else []) ∧
      (v.runs k).length = n + (if v.executing k then 1 else 0) := by
  have hal : (b.snap E name s).alive = s.alive := rfl
  exact parts_shape L hs (hal.trans ha)

/-- No message to the plugins is about the end of a run. -/
private theorem no_after {P : Snap D → Op D O → Prop} {s : Sys D b.B} (hs : Reach b E name clk P s) :
    ∀ e ∈ (b.snap E name s).log, e.NotAfter := by
  show ∀ e ∈ s.w.log, e.NotAfter
  induction hs with
  | start => intro e he; cases he
  | step op _ _ ih => exact Sys.says _ op ih

/-- C44 is false: in no history of a work queue, on any backend, and whatever its callers and user code do, does a
plugin get a call of `after_run`. -/
theorem C44_refuted {P : Snap D → Op D O → Prop} {s : Sys D b.B} (hs : Reach b E name clk P s) (ops : List CentreOp)
    (harr : ∀ ty id before, .runHook ty id before ∈ mail ops → .hookMsg id before ∈ (b.snap E name s).log)
    (p : Nat) (id : Str) : .afterRun id ∉ (Centre.run {} ops).seenBy p := by
  intro h
  obtain ⟨⟨m, p', call⟩, h1, e⟩ := List.mem_map.mp h
  have e : call = .afterRun id := e
  subst e
  have h2 : (p', .afterRun id) ∈ (Centre.run {} ops).callsOf m :=
    List.mem_map.mpr ⟨_, List.mem_filter.mpr ⟨List.mem_of_mem_filter h1, by simp⟩, rfl⟩
  have h3 := (C43_prefix_partial ops m).subset h2
  unfold expected at h3
  cases hm : (mail ops)[m]? with
  | none => rw [hm] at h3; cases h3
  | some msg =>
    rw [hm] at h3
    have hmem : msg ∈ mail ops := List.mem_of_getElem? hm
    cases msg with
    | register pl => cases h3
    | changeStatus ty id' st =>
      obtain ⟨_, _, e⟩ := List.mem_map.mp h3
      cases e
    | runHook ty id' before =>
      cases before with
      | true =>
        obtain ⟨_, _, e⟩ := List.mem_map.mp h3
        cases e
      | false => exact no_after hs _ (harr _ _ _ hmem) _ rfl

/-- What plugins see instead: for every job `k`, a plugin that wants the type of `k`, was registered before its
first run and is not held up by earlier plugins gets two calls of `before_run` per run of `k`, and nothing else,
once the messages have arrived and no run is going on. -/
theorem C44_twice (L : E.Lawful) {s : Sys D b.B} (hs : Reach (O := O) b E name clk (Orderly k) s)
    (ha : s.alive = true) (hidle : (b.snap E name s).executing k = false) (ty p : Nat) (pl : Plugin)
    (ops0 ops1 : List CentreOp) (hreg : (registered (mail ops0))[p]? = some pl) (hw : pl.Wants ty)
    (hfirst : hooksOf k (mail ops0) = [])
    (harr : hooksOf k (mail (ops0 ++ ops1)) = ((b.snap E name s).hooks k).map (ty, ·))
    (hp : ReachedAtOnce p (ops0 ++ ops1)) :
    (Centre.run {} (ops0 ++ ops1)).around p k =
      List.replicate (2 * ((b.snap E name s).runs k).length) (.beforeRun k) := by
  obtain ⟨n, h1, h2⟩ := C44_around_partial L hs ha
  simp only [hidle] at h1 h2
  have hty : ∀ q ∈ hooksOf k (mail (ops0 ++ ops1)), q.1 = ty := by
    intro q hq
    rw [harr] at hq
    obtain ⟨_, _, rfl⟩ := List.mem_map.mp hq
    rfl
  have hh : (b.snap E name s).hooks k = List.replicate (2 * n) true := by
    unfold Snap.hooks
    rw [h1]
    clear h1 h2
    induction n with
    | zero => rfl
    | succ n ih =>
      simp only [Bool.false_eq_true, if_false, List.append_nil] at ih ⊢
      rw [List.replicate_succ, List.flatten_cons, List.filterMap_append, ih]
      rw [show 2 * (n + 1) = 2 * n + 2 by omega, List.replicate_succ, List.replicate_succ]
      rfl
  rw [(around_all hreg hw hfirst hp hty).2, harr, hh, h2]
  simp

end

/-- Job `a` runs once, then is retried by hand and runs again. -/
def twoRuns : List (Op Int Unit) :=
  [.enqueue (job c!"a") .newReRun] ++ round good ++ [.retry c!"a"] ++ round good

/-- The messages about these runs. -/
def twoRunsMail : List CentreOp :=
  (List.replicate 4 (.deliver (.runHook 1 c!"a" true) 1))

example (b : Impl) : Reach (O := Unit) b E c!"print" clk (Orderly c!"a") (on b twoRuns) ∧
    (on b twoRuns).alive = true ∧ (b.snap E c!"print" (on b twoRuns)).executing c!"a" = false ∧
    ((b.snap E c!"print" (on b twoRuns)).runs c!"a").length = 2 ∧
    (registered (mail [.deliver (.register ⟨[1]⟩) 1]))[0]? = some ⟨[1]⟩ ∧ (⟨[1]⟩ : Plugin).Wants 1 ∧
    hooksOf c!"a" (mail ([.deliver (.register ⟨[1]⟩) 1] ++ twoRunsMail)) =
      ((b.snap E c!"print" (on b twoRuns)).hooks c!"a").map (1, ·) ∧
    ReachedAtOnce 0 ([.deliver (.register ⟨[1]⟩) 1] ++ twoRunsMail) ∧
    (Centre.run {} ([.deliver (.register ⟨[1]⟩) 1] ++ twoRunsMail)).around 0 c!"a" =
      List.replicate 4 (.beforeRun c!"a") := by
  refine ⟨(okAll.on (by decide +kernel) b).orderly lawful, ?_, ?_, ?_, rfl, by decide, ?_, ?_, by decide +kernel⟩
  · have : (b.snap E c!"print" (on b twoRuns)).alive = true := by rw [see_on]; decide +kernel
    exact this
  · rw [see_on]; decide +kernel
  · rw [see_on]; decide +kernel
  · rw [see_on]; decide +kernel
  · intro m n h
    simp [twoRunsMail] at h
    omega

/-- In the middle of the second run. -/
example : (see (twoRuns.take 7)).executing c!"a" = true ∧
    (see (twoRuns.take 7)).parts c!"a" = [.hook true, .code, .hook true, .hook true, .code] := by decide +kernel

end AJ.Props
