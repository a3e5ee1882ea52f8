import Verif.Proofs.Hooked
import Verif.Props.Plugin

/-!
# Executions that suspend (C69, C70)

Other turns of the actor come between the parts of an execution: while it waits for the plugin centre, and while
`is_failed_output` and `retry_at` are suspended.
-/

namespace AJ.Props
open Demo

section
variable {D O : Type} {E : Env D} {name : Str} {clk : Nat → Time} {b : Impl} {k : Str} {ty : Nat}
  {P : Snap D → Op D O → Prop}

/-! ## C69 -/

/-- The conditions on callers and user code in other claims do not look at the messages about runs. -/
theorem C69_orderly : Deaf (Orderly (D := D) (O := O) k) := orderly_deaf

theorem C69_careful_for : Deaf (CarefulFor (D := D) (O := O) E k) := by
  intro v v' op h hp
  cases op with
  | enqueue job cfg => intro hid; exact ⟨(hp hid).1, fun ex hex => (hp hid).2 ex (by rw [h.job]; exact hex)⟩
  | finish i x => intro orig job ht hid; exact hp orig job (by rw [h.tasks]; exact ht) hid
  | _ => trivial

theorem C69_careful : Deaf (Careful (D := D) (O := O) E) := by
  intro v v' op h hp
  cases op with
  | enqueue job cfg => exact ⟨hp.1, fun ex hex => hp.2 ex (by rw [h.job]; exact hex)⟩
  | finish i x => intro orig job ht; exact hp orig job (by rw [h.tasks]; exact ht)
  | _ => trivial

/-- C69: a history of a work queue whose executions suspend is like the history of `System.lean` with the same requests
and ticks, where an execution starts when its user code is entered and ends when its last piece of user code has
returned: the same lists, stored jobs, executions, configuration, statuses sent and runs of user code. -/
theorem C69_history (as : List (AOp D O)) :
    let f0 : Async D b.B := Async.init b.B b.empty
    (b.asnap E name (Async.run E name b.B clk f0 as)).Like
      (b.snap E name (Sys.runOps E name b.B clk (Sys.init b.B b.empty) (Async.coarsen E name b.B clk f0 as)).1) := by
  have key : ∀ (as : List (AOp D O)) (f : Async D b.B) (s : Sys D b.B), f.Inv → f.sys.Like s →
      (Async.run E name b.B clk f as).sys.Like (Sys.runOps E name b.B clk s (Async.coarsen E name b.B clk f as)).1 := by
    intro as
    induction as with
    | nil => intro f s _ h; exact h
    | cons a as ih =>
      intro f s hi hl
      have h := (Async.sim_step (E := E) (name := name) (clk := clk) hi a).1
      have hi' := hi.step (E := E) (name := name) (clk := clk) a
      show (Async.run E name b.B clk (Async.step E name b.B clk f a).1 as).sys.Like
        (Sys.runOps E name b.B clk s ((a.coarse f).toList ++ Async.coarsen E name b.B clk (Async.step E name b.B clk f a).1 as)).1
      cases ho : a.coarse f with
      | none =>
        rw [ho] at h
        exact ih _ _ hi' (Sys.Like.trans h hl)
      | some op =>
        rw [ho] at h
        exact ih _ _ hi' (Sys.Like.trans h (hl.step op).1)
  exact (key as _ _ (.init _) (.refl _)).snap

/-- C69, turn by turn, under any condition of the other claims: a state is like one of `System.lean`, and the next turn is
like one turn there that meets the condition, or like none. -/
theorem C69_step (hP : Deaf P) {f : Async D b.B} (hf : AReach (O := O) b E name clk P f) (a : AOp D O)
    (ha : ∀ op, a.coarse f = some op → P (b.asnap E name f) op) :
    ∃ s, Reach (O := O) b E name clk P s ∧ (b.asnap E name f).Like (b.snap E name s) ∧
      ((b.asnap E name (Async.step E name b.B clk f a).1).Like (b.snap E name s) ∨
       ∃ op, P (b.snap E name s) op ∧
        (b.asnap E name (Async.step E name b.B clk f a).1).Like (b.snap E name (Sys.step E name b.B clk s op).1)) := by
  obtain ⟨s, hs, hl⟩ := areach_sim hP hf
  refine ⟨s, hs, hl.snap, ?_⟩
  rcases sim_one hP hf.inv hl a ha with h | ⟨op, _, h1, h2⟩
  · exact .inl h.snap
  · exact .inr ⟨op, h1, h2.snap⟩

/-- C69: requests get the same answers. -/
theorem C69_answer (hP : Deaf P) {f : Async D b.B} (hf : AReach (O := O) b E name clk P f) (op : Op D O)
    (ho : (∀ i, op ≠ .start i) ∧ (∀ i x, op ≠ .finish i x) ∧ ∀ i, op ≠ .userPanic i) :
    ∃ s, Reach (O := O) b E name clk P s ∧ (b.asnap E name f).Like (b.snap E name s) ∧
      (Async.step E name b.B clk f (.turn op)).2 = (Sys.step E name b.B clk s op).2 := by
  obtain ⟨s, hs, hl⟩ := areach_sim hP hf
  refine ⟨s, hs, hl.snap, ?_⟩
  rw [← (hl.step op).2, Sys.step_bare f.sys (fun h => by
    show f.tasks.map _ = []
    rw [hf.inv.dead h]; rfl) op ho]
  rfl

/-- C69: nothing is lost. Every history of `System.lean` is one in which executions happen not to be interrupted. -/
theorem C69_includes (hP : Deaf P) {s : Sys D b.B} (hs : Reach (O := O) b E name clk P s) :
    ∃ f, AReach (O := O) b E name clk P f ∧ f.sys = s :=
  (reach_async hP hs).imp fun _ h => ⟨h.1, h.2.2⟩

/-- What holds of all observations and does not look at the messages about runs holds when executions suspend. -/
theorem C69_transfer (hP : Deaf P) {Q : Snap D → Prop} (hQ : ∀ v v', v.Like v' → Q v' → Q v)
    (h : ∀ s : Sys D b.B, Reach (O := O) b E name clk P s → Q (b.snap E name s)) {f : Async D b.B}
    (hf : AReach (O := O) b E name clk P f) : Q (b.asnap E name f) := by
  obtain ⟨s, hs, hl⟩ := areach_sim hP hf
  exact hQ _ _ hl.snap (h s hs)

/-- For instance, lists and stored jobs agree (C38). -/
theorem C69_consistent (L : E.Lawful) {f : Async D b.B} (hf : AReach (O := O) b E name clk (Careful E) f) :
    (b.asnap E name f).Consistent := by
  refine C69_transfer C69_careful (Q := Snap.Consistent) (fun v v' hl h => ?_) (fun s hs => C38_consistent L hs) hf
  obtain ⟨l, j, t, c, a, r, g⟩ := v
  obtain ⟨l', j', t', c', a', r', g'⟩ := v'
  cases (hl.lists : l = l'); cases (hl.job : j = j'); cases (hl.tasks : t = t'); cases (hl.alive : a = a')
  exact ⟨h.1, h.2, h.3, h.4, h.5⟩

/-- For instance, no job has two executions (C25), also when some of them are suspended. -/
theorem C69_one_execution_partial (L : E.Lawful) {f : Async D b.B} (hf : AReach (O := O) b E name clk (Orderly k) f) :
    (f.own k).length ≤ 1 := own_one L hf

/-- C44 when executions suspend: the executions of `k` follow one another, each with a message, its user code, and a
message; the one in flight has come as far as its phase says. -/
theorem C69_around_partial (L : E.Lawful) {f : Async D b.B} (hf : AReach (O := O) b E name clk (Orderly k) f)
    (ha : f.alive = true) :
    ∃ n, (b.asnap E name f).parts k =
      (List.replicate n [.hook true, .code, .hook true]).flatten ++ (f.own k).flatMap (·.phase.parts) := by
  obtain ⟨n, h⟩ := async_parts L hf ha
  exact ⟨n, (parts_eq _).trans h⟩

/-! ## C70 -/

/-- C70, before a run: when the user code of a job is entered, the centre has got the message this execution sent, and, unless a
hook has panicked, all hooks this message should lead to have been called. -/
theorem C70_before_partial {h : Hooked D b.B} (hh : HReach (O := O) b E name clk ty P h) {i m : Nat} {orig : Job D}
    (ht : h.q.tasks[i]? = some ⟨orig, .before m⟩) (ha : h.allows (.enter i : AOp D O) = true) :
    ∃ r, h.got[m]? = some r ∧ (mail h.centre)[r]? = some (.runHook ty orig.id true) ∧ (NoPanic h.centre → h.Served r) := by
  refine hh.inv.answered ht rfl ?_
  simpa only [Hooked.allows, ht] using ha

/-- C70, after a run: before the outcome of a run is stored, the centre has got the second message this execution sent, and,
unless a hook has panicked, all hooks it should lead to have been called. -/
theorem C70_after_partial {h : Hooked D b.B} (hh : HReach (O := O) b E name clk ty P h) {i m : Nat} {orig j : Job D}
    {x : Executable D O} (ht : h.q.tasks[i]? = some ⟨orig, .after m j⟩) (ha : h.allows (.settle i x) = true) :
    ∃ r, h.got[m]? = some r ∧ (mail h.centre)[r]? = some (.runHook ty orig.id true) ∧ (NoPanic h.centre → h.Served r) := by
  refine hh.inv.answered ht rfl ?_
  simpa only [Hooked.allows, ht] using ha

/-- C70: every execution waits for a message of its own. -/
theorem C70_own {h : Hooked D b.B} (hh : HReach (O := O) b E name clk ty P h) :
    (h.q.tasks.filterMap ATask.msg).Nodup ∧ h.got.Nodup :=
  ⟨hh.inv.mail.own, hh.inv.sorted.imp (fun h => Nat.ne_of_lt h)⟩

/-- C70: the centre gets the messages of a work queue in the order in which they were sent. -/
theorem C70_order {h : Hooked D b.B} (hh : HReach (O := O) b E name clk ty P h) :
    h.got.Pairwise (· < ·) ∧ h.got.map (fun r => (mail h.centre)[r]?) = ((h.outbox ty).take h.got.length).map some := by
  refine ⟨hh.inv.sorted, List.ext_getElem? fun i => ?_⟩
  rw [List.getElem?_map, List.getElem?_map]
  cases hr : h.got[i]? with
  | none =>
    rw [List.getElem?_eq_none]
    · rfl
    · have := List.getElem?_eq_none_iff.mp hr
      simp; omega
  | some r =>
    obtain ⟨m, h1, h2⟩ := hh.inv.got i r hr
    rw [List.getElem?_take_of_lt (List.getElem?_eq_some_iff.mp hr).1, h1]
    simp [h2]

/-- C70: nobody waits for ever for hooks that return. Once the centre has got all messages and no hook is suspended, every
execution may go on. -/
theorem C70_free {h : Hooked D b.B} (hh : HReach (O := O) b E name clk ty P h) (hall : h.got.length = (h.outbox ty).length)
    (hq : h.c.Quiet) (a : AOp D O) : h.allows a = true := by
  have key : ∀ {i m : Nat} {t : ATask D}, h.q.tasks[i]? = some t → t.msg = some m → h.answered m = true := by
    intro i m t ht hm
    have h1 := outbox_eq ty h (hh.inv.mail.box t (List.mem_of_getElem? ht) m hm)
    have h2 := (List.getElem?_eq_some_iff.mp h1).1
    unfold Hooked.answered
    rw [List.getElem?_eq_getElem (hall ▸ h2)]
    refine List.all_eq_true.mpr fun f hf => ?_
    rw [hq f hf]
    simp
  cases a with
  | enter i =>
    rcases ht : h.q.tasks[i]? with _ | ⟨orig, ph⟩
    · simp only [Hooked.allows, ht]
    · cases ph with
      | before m => simpa only [Hooked.allows, ht] using key ht rfl
      | _ => simp only [Hooked.allows, ht]
  | settle i x =>
    rcases ht : h.q.tasks[i]? with _ | ⟨orig, ph⟩
    · simp only [Hooked.allows, ht]
    · cases ph with
      | after m j => simpa only [Hooked.allows, ht] using key ht rfl
      | _ => simp only [Hooked.allows, ht]
  | _ => rfl

end

/-! ## Cases -/

/-- The in-memory work queue `print` after a history with suspensions. -/
def slowly (as : List (AOp Int Unit)) : Async Int Impl.memory.B := Async.run E c!"print" Impl.memory.B clk (Async.init Impl.memory.B Impl.memory.empty) as

/-- A check that a submission of `k` is orderly. -/
def tidy (k : Str) (v : Snap Int) : Op Int Unit → Bool
  | .enqueue job cfg => decide (job.id ≠ k) || ((v.job k).isSome || !(v.lists .queued).contains k) &&
      match v.job k with
      | some ex => !cfg.overrideData || ex.isRunning || (cfg.reRun && ex.isDone) ||
          decide (job.context.jobStatus = ex.context.jobStatus)
      | none => true
  | _ => true

theorem tidy.orderly {k : Str} {v : Snap Int} {op : Op Int Unit} (h : tidy k v op = true) : Orderly k v op := by
  rintro job cfg rfl hid
  unfold tidy at h
  simp only [hid, ne_eq, not_true_eq_false, decide_false, Bool.false_or, Bool.and_eq_true] at h
  refine ⟨fun hn => ?_, fun ex hex h1 h2 h3 => ?_⟩
  · have := h.1
    rw [hn] at this
    simpa using this
  · have := h.2
    rw [hex] at this
    simp only [h1, h2, h3] at this
    simpa using this

/-- A check of all turns of a history. -/
def tidyAll (k : Str) (f : Async Int Impl.memory.B) : List (AOp Int Unit) → Bool
  | [] => true
  | a :: as => (match a.coarse f with
      | some op => tidy k (Impl.memory.asnap E c!"print" f) op
      | none => true) && tidyAll k (Async.step E c!"print" Impl.memory.B clk f a).1 as

theorem tidyAll.reach {k : Str} {as : List (AOp Int Unit)} (h : tidyAll k (Async.init Impl.memory.B Impl.memory.empty) as = true) :
    AReach (O := Unit) Impl.memory E c!"print" clk (Orderly k) (slowly as) := by
  have key : ∀ (as : List (AOp Int Unit)) (f : Async Int Impl.memory.B),
      AReach (O := Unit) Impl.memory E c!"print" clk (Orderly k) f → tidyAll k f as = true →
      AReach (O := Unit) Impl.memory E c!"print" clk (Orderly k) (Async.run E c!"print" Impl.memory.B clk f as) := by
    intro as
    induction as with
    | nil => intro f h _; exact h
    | cons a as ih =>
      intro f hf h
      obtain ⟨h1, h2⟩ := Bool.and_eq_true_iff.mp h
      refine ih _ (.step a hf fun op ho => ?_) h2
      rw [ho] at h1
      exact tidy.orderly h1
  exact key as _ .start h

/-- Jobs `a` and `b` are picked by one tick; their executions wait for the centre; `b` enters its code first and leaves it;
a request to cancel `a` comes while both are inside. -/
def crossing : List (AOp Int Unit) :=
  [.turn (.enqueue (job c!"a") .newReRun), .turn (.enqueue (job c!"b") .newReRun), .turn .tick, .poll 0, .poll 1,
   .enter 1, .enter 0, .leave 1, .turn (.cancel c!"a"), .leave 0, .settle 1 good]

theorem crossing_parts :
    AReach (O := Unit) Impl.memory E c!"print" clk (Orderly c!"a") (slowly crossing) ∧ (slowly crossing).alive = true ∧
    (Impl.memory.asnap E c!"print" (slowly crossing)).parts c!"a" = [.hook true, .code, .hook true] ∧
    ((slowly crossing).own c!"a").length = 1 :=
  ⟨tidyAll.reach (by decide +kernel), by decide +kernel, by decide +kernel, by decide +kernel⟩

/-- `C69_history` there: `b` starts before `a`, and one turn is left of each part that only waits. -/
example :
    (Async.coarsen E c!"print" Impl.memory.B clk (Async.init Impl.memory.B Impl.memory.empty) crossing).length = 7 ∧
    (Impl.memory.asnap E c!"print" (slowly crossing)).Like
      (see (Async.coarsen E c!"print" Impl.memory.B clk (Async.init Impl.memory.B Impl.memory.empty) crossing)) ∧
    (slowly crossing).w.log ≠ (after (Async.coarsen E c!"print" Impl.memory.B clk (Async.init Impl.memory.B Impl.memory.empty) crossing)).w.log ∧
    (Impl.memory.asnap E c!"print" (slowly crossing)).status c!"a" = some .running ∧
    (Impl.memory.asnap E c!"print" (slowly crossing)).status c!"b" = some .finished :=
  ⟨by decide +kernel, C69_history (b := Impl.memory) crossing, by decide +kernel, by decide +kernel, by decide +kernel⟩

/-- `C69_around_partial` and `C69_one_execution_partial` there. -/
example : (∃ n, (Impl.memory.asnap E c!"print" (slowly crossing)).parts c!"a" =
      (List.replicate n [.hook true, .code, .hook true]).flatten ++ ((slowly crossing).own c!"a").flatMap (·.phase.parts)) ∧
    ((slowly crossing).own c!"a").length ≤ 1 :=
  ⟨C69_around_partial lawful crossing_parts.1 crossing_parts.2.1, C69_one_execution_partial lawful crossing_parts.1⟩

/-- `C69_step` there, for the turn in which `a` sends its second message. -/
example := C69_step (b := Impl.memory) (O := Unit) C69_orderly
  (tidyAll.reach (k := c!"a") (as := crossing.take 9) (by decide +kernel)) (.leave 0) (fun op ho => by cases ho)

/-- The work queue and the plugin centre after a history. -/
def both (ops : List (HOp Int Unit)) : Hooked Int Impl.memory.B :=
  Hooked.run E c!"print" Impl.memory.B clk 1 (Hooked.init Impl.memory.B Impl.memory.empty) ops

theorem both_reach (ops : List (HOp Int Unit)) :
    HReach (O := Unit) Impl.memory E c!"print" clk 1 (fun _ _ => True) (both ops) := by
  have key : ∀ (ops : List (HOp Int Unit)) (h : Hooked Int Impl.memory.B),
      HReach (O := Unit) Impl.memory E c!"print" clk 1 (fun _ _ => True) h →
      HReach (O := Unit) Impl.memory E c!"print" clk 1 (fun _ _ => True) (Hooked.run E c!"print" Impl.memory.B clk 1 h ops) := by
    intro ops
    induction ops with
    | nil => intro h hh; exact hh
    | cons op ops ih => intro h hh; exact ih _ (.step op hh fun _ _ _ _ => trivial)
  exact key ops _ .start

/-- Two plugins; job `a` is picked, and its first message is sent. -/
def asked : List (HOp Int Unit) :=
  [.other (.register ⟨[]⟩) 0, .other (.register ⟨[1]⟩) 0, .queue (.turn (.enqueue (job c!"a") .newReRun)),
   .queue (.turn .tick), .queue (.poll 0), .deliver 2, .deliver 2]

/-- The centre takes the message; the hook of the first plugin suspends, then the second one is called. -/
def answeredA : List (HOp Int Unit) := asked ++ [.deliver 1, .poll 2 1]

/-- The work queue may not go on before the second plugin has been called; then it may, and `C70_before_partial` applies. -/
example : (both asked).allows (.enter 0 : AOp Int Unit) = false ∧
    (both (asked ++ [.deliver 1])).allows (.enter 0 : AOp Int Unit) = false ∧
    (both answeredA).allows (.enter 0 : AOp Int Unit) = true ∧
    (both answeredA).q.tasks.map ATask.msg = [some 2] ∧ (both answeredA).got = [2, 3, 4] ∧
    (both answeredA).c.callsOf 4 = [(0, .beforeRun c!"a"), (1, .beforeRun c!"a")] := by decide +kernel

theorem answeredA_calm : NoPanic (both answeredA).centre := by
  have h : (both answeredA).centre.all (fun op => match op with | .panic _ => false | _ => true) = true := by decide +kernel
  intro i hi
  have := List.all_eq_true.mp h _ hi
  cases this

example (m : Nat) (orig : Job Int) (ht : (both answeredA).q.tasks[0]? = some ⟨orig, .before m⟩) :
    ∃ r, (both answeredA).got[m]? = some r ∧ (mail (both answeredA).centre)[r]? = some (.runHook 1 orig.id true) ∧
      (both answeredA).Served r := by
  obtain ⟨r, h1, h2, h3⟩ := C70_before_partial (b := Impl.memory) (both_reach answeredA) ht (by decide +kernel)
  exact ⟨r, h1, h2, h3 answeredA_calm⟩

/-- Through the run, to the second message. -/
def ending : List (HOp Int Unit) := answeredA ++ [.queue (.enter 0), .queue (.leave 0), .deliver 2]

example : (both (ending.take 11)).allows (.settle 0 good) = false ∧ (both ending).allows (.settle 0 good) = true ∧
    (both ending).c.callsOf 5 = [(0, .beforeRun c!"a"), (1, .beforeRun c!"a")] ∧
    (both ending).q.tasks.map ATask.msg = [some 3] ∧
    (both ending).got.length = ((both ending).outbox 1).length := by decide +kernel

/-- C70 is false when a hook panics: the work queue goes on and enters the user code, and the second plugin, which wants the
job, has not been told that it runs and will not be told. -/
theorem C70_refuted :
    let ops := asked ++ [.deliver 1, .panic 2]
    (mail (both ops).centre)[4]? = some (.runHook 1 c!"a" true) ∧
    (both ops).c.callsOf 4 = [(0, .beforeRun c!"a")] ∧
    expected (mail (both ops).centre) 4 = [(0, .beforeRun c!"a"), (1, .beforeRun c!"a")] ∧
    (both ops).allows (.enter 0 : AOp Int Unit) = true ∧
    (Impl.memory.asnap E c!"print" (both (ops ++ [.queue (.enter 0)])).q).executing c!"a" = true := by decide +kernel

end AJ.Props
