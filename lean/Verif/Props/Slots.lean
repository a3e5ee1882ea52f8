import Verif.Props.Fair

/-!
# The places in the running list (C90)

A job in the running list takes up capacity. Here it is shown that every entry of the list belongs to an execution in flight, except
for those that earlier processes have left; so that capacity comes back when executions end, whatever callers and user code do, and is
lost for ever when a process dies.
-/

namespace AJ.Props

section
variable {D O : Type} {b : Impl} {E : Env D} {name : Str} {clk : Nat → Time} {k : Str} {s : Sys D b.B} {ops : Nat → Op D O}

/-- C90: begun with nothing in flight, on whatever earlier processes have left, an alive work queue has no more entries of a job in
its running list than there were in the beginning and executions of the job are in flight. Callers and user code may do what they like. -/
theorem C90_places (L : E.Lawful) (hg : b.Good s.w.s) (hk : (b.snap E name s).Keyed) (ht : s.tasks = []) (ops : List (Op D O)) :
    let v := b.snap E name (Sys.runOps E name b.B clk s ops).1
    v.alive = true →
    (∀ id, (v.lists .running).count id ≤ ((b.snap E name s).lists .running).count id + v.inFlight.count id) ∧
    (v.lists .running).length ≤ ((b.snap E name s).lists .running).length + v.inFlight.length := by
  intro v ha
  have h := slots_run (clk := clk) L hg hk (.start ht) ops
  exact ⟨h.room ha, h.length ha⟩

/-- C90: if all executions end and the capacity exceeds the number of entries that earlier processes have left in the running list, ticks
find free capacity again and again. -/
theorem C90_free (L : E.Lawful) (hg : b.Good s.w.s) (hk : (b.snap E name s).Keyed) (ht : s.tasks = [])
    (H : Sys.Roomy b E name clk ((b.snap E name s).lists .running).length s ops) (m : Nat) :
    ∃ n, m ≤ n ∧ ops n = .tick ∧ (Sys.after E name b.B clk s ops n).alive = true ∧ 1 ≤ (b.snap E name (Sys.after E name b.B clk s ops n)).free :=
  H.free L hg hk (.start ht) (Nat.le_refl _) m

/-- C90: the bound is sharp. If the capacity never exceeds the number of entries that earlier processes have left in the running list, then
no job is ever executed, whatever happens. -/
theorem C90_starved (L : E.Lawful) (hg : b.Good s.w.s) (hk : (b.snap E name s).Keyed) (ht : s.tasks = [])
    (hcap : s.cfg.maxProcessingJobs ≤ ((b.snap E name s).lists .running).length)
    (hset : ∀ n c, ops n = .config c → c.maxProcessingJobs ≤ ((b.snap E name s).lists .running).length) (n : Nat) :
    let v := b.snap E name (Sys.after E name b.B clk s ops n)
    v.inFlight = [] ∧ (v.alive = true → v.lists .running = (b.snap E name s).lists .running) := by
  obtain ⟨h1, h2⟩ := stuck_after (clk := clk) (ops := ops) L hg hk ht (fun n _ => capacity_after hcap hset n) n
  refine ⟨?_, h2⟩
  show (Sys.after E name b.B clk s ops n).tasks.map _ = []
  rw [h1]; rfl

/-- C90: `C83_fair` without careful callers and user code: a job that is not a cron job, with a bounded number of retries or without retry
policy, reaches Finished or Failed, if time passes, all executions end, ticks never cease, there is capacity for a job, and nobody
submits or cancels the job; only the job itself has to be left serialisable by its code. -/
theorem C90_ends (L : E.Lawful) (hs : Reach (O := O) b E name clk (Orderly k) s) (H : Sys.Roomy b E name clk 0 s ops)
    (hclk : Elapses clk) (h1 : ∀ n, NoSubmit k (ops n)) (h2 : ∀ n, ops n ≠ .cancel k)
    (h3 : ∀ n, CarefulFor E k (b.snap E name (Sys.after E name b.B clk s ops n)) (ops n))
    (h4 : Sys.Brief b E name clk s ops)
    {job : Job D} (hj : (b.snap E name s).job k = some job) (hty : NonCron job) (hst : job.context.jobStatus ≠ .canceled)
    (hr : ∀ r, job.context.retry = some r → IsI32 r.retriedTimes ∧ ∃ n, r.maxRetries = some n ∧ IsI32 n)
    (hx : (∀ n, DefaultRetry k (b.snap E name (Sys.after E name b.B clk s ops n)) (ops n)) ∨ job.context.retry = none) :
    ∃ n, (b.snap E name (Sys.after E name b.B clk s ops n)).Ended k := by
  have hS : Slots [] (b.snap E name s) := by
    clear H hj h3 h4 hx
    induction hs with
    | start =>
      have h : Slots ((b.snap E name (Sys.init b.B b.empty : Sys D b.B)).lists .running) (b.snap E name (Sys.init b.B b.empty)) := .start rfl
      have e : (b.snap E name (Sys.init b.B b.empty : Sys D b.B)).lists .running = [] := by
        rw [Impl.snap_eq Impl.rs_init]; rfl
      rw [e] at h
      exact h
    | step op hr _ ih => exact (ih.step_any L hr.good (tidy_reach L hr).keyed op).1
  exact C83_ends L hs ⟨h1, h2, h3, fun n => H.ends n k, H.free L hs.good (tidy_reach L hs).keyed hS (Nat.le_refl _), h4⟩ hclk hj hty hst hr hx

end

/-! ## Later processes -/

section
variable {D O : Type} {E : Nat → Env D} {clk : Nat → Nat → Time} {N : Nat → Str} {kind : Str → Nat}
variable (hN : ∀ a b, N a = N b → a = b) (b : Impl) (L : ∀ ty, (E ty).Lawful) (before : List (BootIn D O)) (hfit : ∀ l ∈ before, l.Fit kind N)
  (h1 : BootIn.Lone E b.B (fun _ => b.empty) before) (ha : BootIn.Ample E b (fun _ => b.empty) before)
  (ops : Nat → WeaveOp D O × Nat) (k : Str) (β : Nat) (job : Job D)
include hN L hfit h1 ha

/-- C90, whole processes: in a process, begun on what earlier processes have left, whose work queues interleave call by call and whose
ticks make the calls of the code alone, a work queue that is alive and not inside a turn has no more entries of a job in its running
list than there were in the beginning and executions of the job are in flight. -/
theorem C90_site_places :
    let s := BootIn.leave E b.B (fun _ => b.empty) before
    let φ := Weave.afterIn E b.B clk (Weave.init b.B s : Weave D O b.B) ops
    (∀ n, (φ n).Ample E b (ops n)) → (∀ n d req, (ops n).1 = .site (.begin d req) → req.On kind ∧ req.Named N) →
    (∀ n, (φ n).site.hub.engines.length ≤ 1) →
    ∀ n q a, (φ n).site.hub.queues[q]? = some a → (φ n).inside q = none →
    let v := (φ n).site.snap b E q a
    let v0 := Boot.found E b (s a.backend) a.ty (N a.ty)
    v.alive = true →
    (∀ id, (v.lists .running).count id ≤ (v0.lists .running).count id + v.inFlight.count id) ∧
    (v.lists .running).length ≤ (v0.lists .running).length + v.inFlight.length := by
  intro s φ hr hon hone n q a hq hi v v0 hal
  obtain ⟨before', g1, g2, g3, hist, idx, h⟩ := later_in hN L before hfit h1 ha ops hr hon hone
  obtain ⟨S, hok, hS⟩ := Boot.base_of (Boot.first L hN before' g1 g2)
  have e0 : v0 = _ := g3 a.backend a.ty (N a.ty)
  rw [e0]
  clear e0 v0
  generalize Boot.leave E SpecB (fun _ => Spec.empty) before' = s' at *
  have hon' : ∀ m d req, hist m = .site (.begin d req) → req.On kind ∧ req.Named N := fun m d req e => by
    obtain ⟨n, -, e'⟩ := h.said e
    exact hon n d req e'
  have hone' : ∀ m, (Weave.after E SpecB clk (Weave.init SpecB s') hist m).site.hub.engines.length ≤ 1 := fun m => by
    obtain ⟨n, hs, -⟩ := h.back m
    rw [← hs.hub]; exact hone n
  have hnm := named_after (B := SpecB) (E := E) (clk := clk) (s := s') hon'
  have hA := Weave.pairFrom_after (ops := hist) L (Weave.pairFrom_init (O := O) (E := E) (clk := clk) fun a ha => (hS a ha).part)
    (fun m d req e => (hon' m d req e).1) hone' fun n a hm => (hok a).2 (hnm n a hm)
  have hq' : (Weave.after E SpecB clk (Weave.init SpecB s') hist (idx n)).site.hub.queues[q]? = some a := by rw [← (h.site n).hub]; exact hq
  have ha' : a.name = N a.ty := hnm (idx n) a (List.mem_of_getElem? hq')
  have hSa := hS a ((hok a).2 ha')
  have hpl := Weave.places_calm hA L (tidy_iff.1 (hSa.tidy L)).keyed hq' ((h.none_iff n q).1 hi)
  have e : v = Site.snap Impl.spec E (Weave.after E SpecB clk (Weave.init SpecB s') hist (idx n)).site q a := Site.snap_rel (h.site n) q a
  rw [← e] at hpl
  have hp := (Boot.found_part (E := E) hSa.part).1
  rw [← ha', hp]
  exact ⟨hpl.room hal, hpl.length hal⟩

/-- C90: what a process inherits from those before it resumes, if its work queues are treated fairly and their capacity exceeds the
number of entries left in the running list. -/
theorem C90_resumes :
    let s := BootIn.leave E b.B (fun _ => b.empty) before
    let φ := Weave.afterIn E b.B clk (Weave.init b.B s : Weave D O b.B) ops
    let ψ := fun n => (ops n).1
    (∀ n, (φ n).Ample E b (ops n)) →
    Weave.InheritsOn b E kind N k (kind k) β ((Boot.found E b (s β) (kind k) (N (kind k))).lists .running).length φ ψ →
    Weave.ResumesOn b E kind N k (kind k) β φ ψ := by
  intro s φ ψ hr H
  refine ⟨H.fits, H.spares, H.one, H.up, fun n q a hq hty hβ => ?_⟩
  have HF := H.fair n q a hq hty hβ
  obtain ⟨before', g1, g2, g3, hist, idx, h⟩ := later_in hN L before hfit h1 ha ops hr H.fits H.one
  obtain ⟨S, hok, hS⟩ := Boot.base_of (Boot.first L hN before' g1 g2)
  rw [g3] at HF
  generalize Boot.leave E SpecB (fun _ => Spec.empty) before' = s' at *
  have hon' : ∀ m d req, hist m = .site (.begin d req) → req.On kind ∧ req.Named N := fun m d req e => by
    obtain ⟨n, -, e'⟩ := h.said e
    exact H.fits n d req e'
  have hone' : ∀ m, (Weave.after E SpecB clk (Weave.init SpecB s') hist m).site.hub.engines.length ≤ 1 := fun m => by
    obtain ⟨n, hs, -⟩ := h.back m
    rw [← hs.hub]; exact H.one n
  have hnm := named_after (B := SpecB) (E := E) (clk := clk) (s := s') hon'
  have hA := Weave.pairFrom_after (ops := hist) L (Weave.pairFrom_init (O := O) (E := E) (clk := clk) fun a ha => (hS a ha).part)
    (fun m d req e => (hon' m d req e).1) hone' fun n a hm => (hok a).2 (hnm n a hm)
  have hq' : (Weave.after E SpecB clk (Weave.init SpecB s') hist (idx n)).site.hub.queues[q]? = some a := by rw [← (h.site n).hub]; exact hq
  have ha' : a.name = N a.ty := hnm (idx n) a (List.mem_of_getElem? hq')
  have hSa := hS a ((hok a).2 ha')
  have hp := (Boot.found_part (E := E) hSa.part).1
  rw [← hty, ← ha', ← hβ, hp] at HF
  exact h.serves_back ((h.fair HF).serves hA (fun _ => rfl) (fun m => by rw [← (hA m).serial.face.hub]; exact hone' m) hq' L
    (tidy_iff.1 (hSa.tidy L)).keyed (Nat.le_refl _) rfl)

/-- C90: a job that waits in a backend when processes have died, and that is not a cron job, with a bounded number of retries or
without retry policy, reaches Finished or Failed in a later process, in every endless history in which time passes, a work queue of
its type comes up, no request touches the job, and the work queues of its type are treated fairly and have more capacity than the earlier
processes have lost.

Missing: as in `C82_lives_partial`; that a work queue of the type comes up, which takes a submission of another job of the type
(`C82_unregistered`). -/
theorem C90_resumed_ends_partial :
    let s := BootIn.leave E b.B (fun _ => b.empty) before
    let φ := Weave.afterIn E b.B clk (Weave.init b.B s : Weave D O b.B) ops
    let ψ := fun n => (ops n).1
    (∀ n, (φ n).Ample E b (ops n)) → (Boot.found E b (s β) (kind k) (N (kind k))).Waiting k job →
    Weave.InheritsOn b E kind N k (kind k) β ((Boot.found E b (s β) (kind k) (N (kind k))).lists .running).length φ ψ →
    (∀ q, Elapses (clk q)) → NonCron job →
    (∀ r, job.context.retry = some r → IsI32 r.retriedTimes ∧ ∃ n, r.maxRetries = some n ∧ IsI32 n) →
    ((∀ q a, a.ty = kind k → Weave.EachRunOn b E k q a φ ψ fun x _ => x.retryAt = none) ∨ job.context.retry = none) →
    ∃ n q a, (φ n).site.hub.queues[q]? = some a ∧ a.ty = kind k ∧ a.backend = β ∧ ((φ n).site.snap b E q a).Ended k :=
  fun hr hw H => C88_resumed_ends_partial hN b L before hfit h1 ha ops k β job hr hw (C90_resumes hN b L before hfit h1 ha ops k β hr H)

/-- C90, cron jobs: in the same setting, a waiting cron job without limit and without end runs any number of times in the later
process, if its expression is valid and none of its runs is retried.

Missing: as in `C90_resumed_ends_partial`. -/
theorem C90_resumed_forever_partial (e : Str) (at_ : Time) (t : Int) (c : CronContext) (R : Nat) :
    let s := BootIn.leave E b.B (fun _ => b.empty) before
    let φ := Weave.afterIn E b.B clk (Weave.init b.B s : Weave D O b.B) ops
    let ψ := fun n => (ops n).1
    (∀ n, (φ n).Ample E b (ops n)) → (Boot.found E b (s β) (kind k) (N (kind k))).Waiting k job →
    Weave.InheritsOn b E kind N k (kind k) β ((Boot.found E b (s β) (kind k) (N (kind k))).lists .running).length φ ψ →
    (∀ q, Elapses (clk q)) → job.context.jobType = .cron e at_ t c → ((E (kind k)).cron e).isSome = true → c.maxRepeat = none → c.endAt = none →
    ((∀ q a, a.ty = kind k → Weave.EachRunOn b E k q a φ ψ fun x _ => x.retryAt = none) ∨ job.context.retry = none) →
    (∀ q a, a.ty = kind k → Weave.EachRunOn b E k q a φ ψ Unretried) →
    ∃ n q a, (φ n).site.hub.queues[q]? = some a ∧ a.ty = kind k ∧ a.backend = β ∧ R ≤ (((φ n).site.snap b E q a).runs k).length :=
  fun hr hw H => C88_resumed_forever_partial hN b L before hfit h1 ha ops k β job e at_ t c R hr hw
    (C90_resumes hN b L before hfit h1 ha ops k β hr H)

/-- C90, cron jobs with a limit: in the same setting, a waiting cron job with `max_repeat = M` runs at least as often as it should.

Missing: as in `C90_resumed_ends_partial`. -/
theorem C90_resumed_max_repeat_partial (e : Str) (at_ : Time) (t M : Int) (c : CronContext) :
    let s := BootIn.leave E b.B (fun _ => b.empty) before
    let φ := Weave.afterIn E b.B clk (Weave.init b.B s : Weave D O b.B) ops
    let ψ := fun n => (ops n).1
    (∀ n, (φ n).Ample E b (ops n)) → (Boot.found E b (s β) (kind k) (N (kind k))).Waiting k job →
    Weave.InheritsOn b E kind N k (kind k) β ((Boot.found E b (s β) (kind k) (N (kind k))).lists .running).length φ ψ →
    (∀ q, Elapses (clk q)) → job.context.jobType = .cron e at_ t c → ((E (kind k)).cron e).isSome = true → c.maxRepeat = some M → c.endAt = none →
    IsI32 t → IsI32 (M + 1) →
    ((∀ q a, a.ty = kind k → Weave.EachRunOn b E k q a φ ψ fun x _ => x.retryAt = none) ∨ job.context.retry = none) →
    (∀ q a, a.ty = kind k → Weave.EachRunOn b E k q a φ ψ Unretried) →
    ∃ n q a, (φ n).site.hub.queues[q]? = some a ∧ a.ty = kind k ∧ a.backend = β ∧
      (M + 1 - t).toNat ≤ (((φ n).site.snap b E q a).runs k).length :=
  fun hr hw H => C88_resumed_max_repeat_partial hN b L before hfit h1 ha ops k β job e at_ t M c hr hw
    (C90_resumes hN b L before hfit h1 ha ops k β hr H)

end

/-! ## Concrete histories -/

section
open Demo

/-- A process has died, and the next one begins with capacity `m`. -/
def nextOne (m : Nat) (s : Sys Int InMem) : Sys Int InMem := { Sys.init InMem s.w.s with cfg := { maxProcessingJobs := m } }

theorem nextOne_good {m : Nat} {s : Sys Int InMem} (h : Reach (O := Unit) Impl.memory E c!"print" clk (Careful E) s) :
    Impl.memory.Good (nextOne m s).w.s := h.good
theorem nextOne_keyed {m : Nat} {s : Sys Int InMem} (h : Reach (O := Unit) Impl.memory E c!"print" clk (Careful E) s) :
    (Impl.memory.snap E c!"print" (nextOne m s)).Keyed := (tidy_reach lawful h).keyed

/-- A process executes `b`, one job at a time. -/
def engaged : List (Op Int Unit) := [.config { maxProcessingJobs := 1 }, .enqueue (job c!"b") .newReRun, .tick, .start 0]

theorem engaged_reach : Reach (O := Unit) Impl.memory E c!"print" clk (Careful E) (after engaged) := fine.reach (by decide +kernel)

/-- It dies. In the next process a caller submits `c`, and then once more as if it had ended; and the code of `c` fails. -/
def careless : List (Op Int Unit) :=
  [.enqueue (job c!"c") .newReRun, .enqueue ⟨{ JobContext.new c!"c" 0 with jobStatus := .finished }, 1⟩ .newReRun, .tick, .start 0, .finish 0 bad, .tick]

theorem careless_alive : (Impl.memory.snap E c!"print" (Sys.runOps E c!"print" Impl.memory.B clk (nextOne 2 (after engaged)) careless).1).alive = true := by
  decide +kernel

/-- `C90_places` applies. -/
example := C90_places (b := Impl.memory) (clk := clk) (s := nextOne 2 (after engaged)) lawful (nextOne_good engaged_reach) (nextOne_keyed engaged_reach) rfl careless
  careless_alive

/-- The lost place, and a place for the second job. -/
example : (Impl.memory.snap E c!"print" (nextOne 2 (after engaged))).lists .running = [c!"b"] ∧
    (Impl.memory.snap E c!"print" (Sys.runOps E c!"print" InMem clk (nextOne 2 (after engaged)) (careless.take 3)).1).lists .running = [c!"c", c!"b"] ∧
    (Impl.memory.snap E c!"print" (Sys.runOps E c!"print" InMem clk (nextOne 2 (after engaged)) (careless.take 3)).1).inFlight = [c!"c"] := by
  decide +kernel

/-- Nothing executes and nothing waits. -/
structure Idle (s : Sys Int InMem) : Prop where
  good : Impl.memory.Good s.w.s
  keyed : (Impl.memory.snap E c!"print" s).Keyed
  alive : s.alive = true
  cap : s.cfg.maxProcessingJobs = 2
  tasks : s.tasks = []
  queued : (Impl.memory.snap E c!"print" s).lists .queued = []

/-- A tick that finds nothing to do. -/
theorem Idle.step {s : Sys Int InMem} (h : Idle s) : Idle (Sys.step E c!"print" InMem clk s (.tick : Op Int Unit)).1 := by
  rcases tick_facts_any (O := Unit) (clk := clk) Impl.memory lawful s h.good h.keyed h.alive with ⟨st, g, ga⟩ | ⟨_, g, _⟩
  swap
  · cases g
  have hq := g.ticked.queued
  rw [h.queued] at hq
  have hq := List.append_eq_nil_iff.1 (List.Perm.eq_nil hq)
  have hst : st = [] := List.map_eq_nil_iff.1 hq.2
  subst hst
  obtain ⟨-, hk, -⟩ := Slots.step_any (b := Impl.memory) (clk := clk) lawful h.good h.keyed (.start h.tasks) (.tick : Op Int Unit)
  refine ⟨good_step (b := Impl.memory) h.good .tick, hk, ga, ?_, ?_, hq.1⟩
  · exact (congrArg WorkQueueConfig.maxProcessingJobs g.ticked.cfg).trans h.cap
  · have : (Sys.step E c!"print" InMem clk s (.tick : Op Int Unit)).1.tasks = s.tasks ++ _ := g.ticked.tasks
    rw [this, h.tasks]; rfl

theorem idle_after {s : Sys Int InMem} (h : Idle s) (n : Nat) : Idle (Sys.after E c!"print" InMem clk s (fun _ => (.tick : Op Int Unit)) n) := by
  induction n with
  | zero => exact h
  | succ n ih => exact ih.step

theorem idle_roomy {s : Sys Int InMem} (h : Idle s) : Sys.Roomy (O := Unit) Impl.memory E c!"print" clk 1 s fun _ => .tick where
  ends n id hid := by
    have hid : id ∈ (Sys.after E c!"print" InMem clk s (fun _ => (.tick : Op Int Unit)) n).tasks.map (·.orig.id) := hid
    rw [(idle_after h n).tasks] at hid
    cases hid
  ticks m := ⟨m, Nat.le_refl _, rfl, (idle_after h m).alive⟩
  capacity n _ := by
    show 1 < (Sys.after E c!"print" InMem clk s (fun _ => (.tick : Op Int Unit)) n).cfg.maxProcessingJobs
    rw [(idle_after h n).cap]; decide

/-- `C90_free` applies: with room for two jobs, the place lost with the process before does not keep the next one from executing a job. -/
example (m : Nat) : ∃ n, m ≤ n ∧ 1 ≤ (Impl.memory.snap E c!"print" (Sys.after E c!"print" InMem clk (nextOne 2 (after engaged)) (fun _ => (.tick : Op Int Unit)) n)).free := by
  have hr : ((Impl.memory.snap E c!"print" (nextOne 2 (after engaged))).lists .running).length = 1 := by decide +kernel
  have hi : Idle (nextOne 2 (after engaged)) := ⟨nextOne_good engaged_reach, nextOne_keyed engaged_reach, rfl, rfl, rfl, by decide +kernel⟩
  obtain ⟨n, h1, -, -, h2⟩ := C90_free (b := Impl.memory) (clk := clk) lawful (nextOne_good engaged_reach) (nextOne_keyed engaged_reach) rfl
    (hr ▸ idle_roomy hi) m
  exact ⟨n, h1, h2⟩

/-- `C90_starved` applies: with room for one job, the next process never executes a job, although one is submitted and ticks go on. -/
example (n : Nat) : (Impl.memory.snap E c!"print" (Sys.after E c!"print" InMem clk (nextOne 1 (after engaged)) (first (.enqueue (job c!"c") .newReRun) works) n)).inFlight = [] := by
  have hr : ((Impl.memory.snap E c!"print" (nextOne 1 (after engaged))).lists .running).length = 1 := by decide +kernel
  refine (C90_starved (b := Impl.memory) (clk := clk) lawful (nextOne_good engaged_reach) (nextOne_keyed engaged_reach) rfl ?_ ?_ n).1
  · rw [hr]; exact Nat.le_refl _
  · intro n c h
    cases n with
    | zero => cases h
    | succ n =>
      replace h : works n = .config c := h
      unfold works at h
      split at h <;> cases h

/-- A shop in which somebody submits `b` with a status that contradicts the stored one, before `a` is submitted. -/
def messy : List (Op Int Unit) :=
  [.config { maxProcessingJobs := 1 }, .enqueue (job c!"b") .newReRun, .enqueue ⟨{ JobContext.new c!"b" 0 with jobStatus := .canceled }, 1⟩ .newReRun,
   .enqueue (job c!"a") .newReRun]

theorem messy_reach : Reach (O := Unit) Impl.memory E c!"print" clk (CarefulFor E c!"a") (after messy) :=
  (allTurns.later (chk := ok c!"a") (ops := []) (ops' := messy) (by decide +kernel) fun _ _ h => ok.careful h).reach (b := Impl.memory) .start fun _ _ h => h

theorem messy_fair : Sys.Fair Impl.memory E c!"print" clk (after messy) works :=
  works_fair ⟨⟨messy_reach.good, tidy_reach lawful messy_reach⟩, by decide +kernel, by decide +kernel, .inl ⟨by decide +kernel, by decide +kernel, by decide +kernel⟩⟩

def messyJob : Job Int := ((see messy).job c!"a").getD (job [])

/-- `C90_ends` applies, where `C83_fair` does not. -/
example : allTurns fine [] messy = false ∧
    ∃ n, (Impl.memory.snap E c!"print" (Sys.after E c!"print" InMem clk (after messy) works n)).Ended c!"a" := by
  refine ⟨by decide +kernel, C90_ends (b := Impl.memory) (job := messyJob) lawful (messy_reach.orderly lawful) ⟨messy_fair.ends, messy_fair.ticks, messy_fair.capacity⟩ clk_passes
    (fun n => (works_calm _ n).1) (fun n => (works_calm _ n).2.1) (fun n => (messy_fair.careful n).of _) messy_fair.short ?_ ?_ ?_ ?_ (.inr ?_)⟩
  · show (see messy).job c!"a" = some messyJob
    decide +kernel
  · have : messyJob.context.jobType = .normal := by decide +kernel
    intro e n m c h
    rw [this] at h; cases h
  · decide +kernel
  · have : messyJob.context.retry = none := by decide +kernel
    intro r h
    rw [this] at h; cases h
  · decide +kernel

/-! ### A later process -/

variable {J : Job Int} {x : Executable Int Unit}

/-- What is checked of the first 96 steps, and of what the process before has left. -/
abbrev Ready (J : Job Int) (x : Executable Int Unit) : Prop :=
  ((List.range (reopened x).length).all fun n => wide 0 (sofar (begun J) (reopened x) n) (((reopened x)[n]?).getD (.go 0))) = true

theorem revived_inherits (H : Revives J x) (hJ : Ready J x) (b : Impl) :
    Weave.InheritsOn b (fun _ => E) (fun _ => 5) signs c!"a" 5 7 0 (Weave.afterIn (fun _ => E) b.B (fun _ => clk) (begunIn b J) (revivedIn J x))
      fun n => (revivedIn J x n).1 := by
  obtain ⟨h1, h2, h3, h4, -⟩ := (revived_in H b).2
  refine ⟨h1, h2, h3, h4, fun n q a hq hty hβ => ?_⟩
  have h := (revived_stretch H b).2
  rw [(h.site n).hub] at hq
  obtain ⟨s0, g1, g2⟩ := revived_steady H
  obtain ⟨rfl, rfl⟩ := lasting_queues begun_calm.1 g1 hq
  exact h.fair_back (lasting_fair begun_calm.1 begun_calm.2 g1 g2 (lasting_serves begun_calm.1 begun_calm.2 g1 g2 H.turns) hJ)

/-- The process before has left nothing in the running list. -/
theorem accept_running (h : ((Boot.found (fun _ => E) .spec (Boot.leave (fun _ => E) SpecB (fun _ => Spec.empty) [accept J] 7) 5 c!"print").lists .running).length = 0)
    (b : Impl) : ((Boot.found (fun _ => E) b (BootIn.leave (fun _ => E) b.B (fun _ => b.empty) [acceptIn J] 7) 5 c!"print").lists .running).length = 0 := by
  rw [acceptIn_leave, found_left]
  exact h

theorem flaky_ready : Ready (flaky (.newIntervalRetry (some 2) nsPerSec)) bad := by decide +kernel
theorem seconds_ready : Ready (cronJob c!"* * * * * *" 3 {}) good := by decide +kernel
theorem two_ready : Ready (cronJob c!"* * * * * *" 3 { maxRepeat := some 2 }) good := by decide +kernel

/-- `C90_resumed_ends_partial` applies, on every backend. -/
example (b : Impl) : ∃ n q a,
    (Weave.afterIn (fun _ => E) b.B (fun _ => clk) (begunIn b (flaky (.newIntervalRetry (some 2) nsPerSec))) (revivedIn (flaky (.newIntervalRetry (some 2) nsPerSec)) bad) n).site.hub.queues[q]? = some a ∧ a.ty = 5 ∧ a.backend = 7 ∧
    ((Weave.afterIn (fun _ => E) b.B (fun _ => clk) (begunIn b (flaky (.newIntervalRetry (some 2) nsPerSec))) (revivedIn (flaky (.newIntervalRetry (some 2) nsPerSec)) bad) n).site.snap b (fun _ => E) q a).Ended c!"a" := by
  refine C90_resumed_ends_partial (kind := fun _ => 5) signs_inj b (fun _ => lawful) [acceptIn _]
    (fun l hl => by rw [List.mem_singleton.1 hl]; exact acceptIn_fit) (acceptIn_lone flaky_revives b) (acceptIn_ample b) _ c!"a" 7 (leftOf (flaky (.newIntervalRetry (some 2) nsPerSec)))
    (revived_in flaky_revives b).1 (waits.waitingIn (by decide +kernel) b) ?_ (fun _ => clk_passes) ?_ ?_ (.inl ?_)
  · have e := accept_running (J := flaky (.newIntervalRetry (some 2) nsPerSec)) (by decide +kernel) b
    have h := revived_inherits flaky_revives flaky_ready b
    rw [← e] at h
    exact h
  · have h : (match (leftOf (flaky (.newIntervalRetry (some 2) nsPerSec))).context.jobType with
      | .cron _ _ _ _ => false
      | _ => true) = true := by decide +kernel
    intro e n m c hc
    rw [hc] at h
    cases h
  · have h : (match (leftOf (flaky (.newIntervalRetry (some 2) nsPerSec))).context.retry with
      | some r => decide (r.retriedTimes = 0 ∧ r.maxRetries = some 2)
      | none => true) = true := by decide +kernel
    intro r hr
    rw [hr] at h
    obtain ⟨h1, h2⟩ := of_decide_eq_true h
    exact ⟨by rw [h1]; constructor <;> decide, 2, h2, by constructor <;> decide⟩
  · intro q a _ n i y orig j h _ _ _
    rcases revivedIn_finish h with rfl | rfl <;> rfl

/-- An every-second job that has been left runs a thousand times in the next process, on every backend. -/
example (b : Impl) : ∃ n q a,
    (Weave.afterIn (fun _ => E) b.B (fun _ => clk) (begunIn b (cronJob c!"* * * * * *" 3 {})) (revivedIn (cronJob c!"* * * * * *" 3 {}) good) n).site.hub.queues[q]? =
      some a ∧ a.ty = 5 ∧ a.backend = 7 ∧
    1000 ≤ (((Weave.afterIn (fun _ => E) b.B (fun _ => clk) (begunIn b (cronJob c!"* * * * * *" 3 {})) (revivedIn (cronJob c!"* * * * * *" 3 {}) good) n).site.snap b
      (fun _ => E) q a).runs c!"a").length := by
  obtain ⟨u, c, h1, h2, h3, h4⟩ := leftCron.eq (M := none) (J := (cronJob c!"* * * * * *" 3 {})) (by decide +kernel)
  refine C90_resumed_forever_partial (kind := fun _ => 5) signs_inj b (fun _ => lawful) [acceptIn _]
    (fun l hl => by rw [List.mem_singleton.1 hl]; exact acceptIn_fit) (acceptIn_lone seconds_revives b) (acceptIn_ample b) _ c!"a" 7 (leftOf (cronJob c!"* * * * * *" 3 {}))
    _ u 1 c 1000 (revived_in seconds_revives b).1 (waits.waitingIn (by decide +kernel) b) ?_ (fun _ => clk_passes) h1 rfl h2 h3
    (.inr h4) ?_
  · have e := accept_running (J := cronJob c!"* * * * * *" 3 {}) (by decide +kernel) b
    have h := revived_inherits seconds_revives seconds_ready b
    rw [← e] at h
    exact h
  · intro q a _ n i y orig j h _ _ _
    rcases revivedIn_finish h with rfl | rfl <;> exact .inl rfl

/-- One with `max_repeat = 2` runs twice. -/
example (b : Impl) : ∃ n q a,
    (Weave.afterIn (fun _ => E) b.B (fun _ => clk) (begunIn b (cronJob c!"* * * * * *" 3 { maxRepeat := some 2 }))
      (revivedIn (cronJob c!"* * * * * *" 3 { maxRepeat := some 2 }) good) n).site.hub.queues[q]? = some a ∧ a.ty = 5 ∧ a.backend = 7 ∧
    2 ≤ (((Weave.afterIn (fun _ => E) b.B (fun _ => clk) (begunIn b (cronJob c!"* * * * * *" 3 { maxRepeat := some 2 }))
      (revivedIn (cronJob c!"* * * * * *" 3 { maxRepeat := some 2 }) good) n).site.snap b (fun _ => E) q a).runs c!"a").length := by
  obtain ⟨u, c, h1, h2, h3, h4⟩ := leftCron.eq (M := some 2) (J := (cronJob c!"* * * * * *" 3 { maxRepeat := some 2 })) (by decide +kernel)
  refine C90_resumed_max_repeat_partial (kind := fun _ => 5) signs_inj b (fun _ => lawful) [acceptIn _]
    (fun l hl => by rw [List.mem_singleton.1 hl]; exact acceptIn_fit) (acceptIn_lone two_revives b) (acceptIn_ample b) _ c!"a" 7 (leftOf (cronJob c!"* * * * * *" 3 { maxRepeat := some 2 }))
    _ u 1 2 c (revived_in two_revives b).1 (waits.waitingIn (by decide +kernel) b) ?_ (fun _ => clk_passes) h1 rfl h2 h3
    (by constructor <;> decide) (by constructor <;> decide) (.inr h4) ?_
  · have e := accept_running (J := cronJob c!"* * * * * *" 3 { maxRepeat := some 2 }) (by decide +kernel) b
    have h := revived_inherits two_revives two_ready b
    rw [← e] at h
    exact h
  · intro q a _ n i y orig j h _ _ _
    rcases revivedIn_finish h with rfl | rfl <;> exact .inl rfl

/-- `C90_site_places` applies. -/
example (b : Impl) := C90_site_places (E := fun _ => E) (clk := fun _ => clk) (kind := fun _ => 5) signs_inj b (fun _ => lawful) [acceptIn (cronJob c!"* * * * * *" 3 {})]
  (fun l hl => by rw [List.mem_singleton.1 hl]; exact acceptIn_fit) (acceptIn_lone seconds_revives b) (acceptIn_ample b) (revivedIn (cronJob c!"* * * * * *" 3 {}) good)
  (revived_in seconds_revives b).1 (revived_in seconds_revives b).2.fits (revived_in seconds_revives b).2.one

end
end AJ.Props
