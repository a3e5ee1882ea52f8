import Verif.Proofs.Crew
import Verif.Props.Life
import Verif.Props.Tick

/-!
# Any number of processes that come and go (C76)

Processes run the same work queue on one backend, are started, die and are killed between turns, and take their turns
one after the other.
-/

namespace AJ.Props
open W

section
variable {D O : Type} {E : Env D} {name : Str} {clk : Nat → Time} {b : Impl} {k : Str}

private theorem flights {c : Crew D b.B} {m : Sys D b.B} {lost : List (Task D)} (hm : Merged c m lost) :
    (b.snap E name m).inFlight.Perm (c.inFlight ++ lost.map (·.orig.id)) := by
  refine (hm.tasks.map _).trans (.of_eq ?_)
  unfold Crew.inFlight
  rw [List.map_append, List.map_flatMap]

private theorem same_world {c : Crew D b.B} {m : Sys D b.B} {lost : List (Task D)} (hm : Merged c m lost) :
    (b.snap E name m).lists = (b.see E name c.w).lists ∧ (b.snap E name m).job = (b.see E name c.w).job := by
  unfold Impl.snap Impl.see
  rw [hm.w]
  exact ⟨rfl, rfl⟩

private theorem solo_flights {v : Snap D} (ha : v.alive = true) (h : Solo k v) :
    v.inFlight.count k = if v.status k = some .running then 1 else 0 := by
  rw [count_inFlight]
  split
  · next hr =>
    obtain ⟨j, hj, hst⟩ := status_some hr
    rcases h.busy ha j hj hst with h | h <;> rw [h] <;> rfl
  · next hr => rw [h.idle hr]; rfl

/-- C76: with orderly submissions of `k`, at most one execution of `k` is in flight in all processes together, and none
unless it is stored as Running. Missing for C76 as stated: turns that overlap (`C53_refuted_twice`), processes that are
killed inside a turn (`C76_crash_one_execution_partial`), and other submissions (`C25_refuted`). -/
theorem C76_one_execution_partial (L : E.Lawful) {c : Crew D b.B} (h : CrewReach (O := O) b E name clk (Orderly k) c) :
    c.inFlight.count k ≤ if (b.see E name c.w).status k = some .running then 1 else 0 := by
  obtain ⟨_, _, m, lost, hm, _, hi⟩ := crew_orderly L (fun _ _ h => h) h
  have hc := (flights (E := E) (name := name) hm).count_eq k
  have es : (b.snap E name m).status k = (b.see E name c.w).status k := by unfold Snap.status; rw [(same_world hm).2]
  rw [List.count_append] at hc
  rcases hi with hi | hi
  · have := solo_flights (show (b.snap E name m).alive = true from hm.alive) hi
    rw [es] at this
    omega
  · have : (b.snap E name m).inFlight.count k = 0 := by rw [count_inFlight, hi.own]; rfl
    omega

/-- C76: a stored job is in the queued list once when it is Queued, and not otherwise; likewise for the running list. -/
theorem C76_lists_partial (L : E.Lawful) {c : Crew D b.B} (h : CrewReach (O := O) b E name clk (Orderly k) c)
    {j : Job D} (hj : (b.see E name c.w).job k = some j) :
    ((b.see E name c.w).lists .queued).count k = (if j.context.jobStatus = .queued then 1 else 0) ∧
    ((b.see E name c.w).lists .running).count k = (if j.context.jobStatus = .running then 1 else 0) := by
  obtain ⟨_, _, m, lost, hm, _, hi⟩ := crew_orderly L (fun _ _ h => h) h
  obtain ⟨e1, e2⟩ := same_world (E := E) (name := name) hm
  rw [← e2] at hj
  rw [← e1]
  rcases hi with hi | hi
  · have h1 := hi.queued
    have h2 := hi.running
    unfold Snap.status at h1 h2
    rw [hj] at h1 h2
    simp only [Option.map_some, Option.some.injEq] at h1 h2
    exact ⟨h1, h2⟩
  · rw [hi.job] at hj; cases hj

/-- C76: as long as no process has died, a job that is stored as Running has its execution in one of the processes. -/
theorem C76_executed_partial (L : E.Lawful) {c : Crew D b.B} (h : CrewReach (O := O) b E name clk (Orderly k) c)
    (ha : ∀ p ∈ c.procs, p.alive = true) :
    c.inFlight.count k = if (b.see E name c.w).status k = some .running then 1 else 0 := by
  obtain ⟨_, _, m, lost, hm, _, hi⟩ := crew_orderly L (fun _ _ h => h) h
  have hc := (flights (E := E) (name := name) hm).count_eq k
  have es : (b.snap E name m).status k = (b.see E name c.w).status k := by unfold Snap.status; rw [(same_world hm).2]
  rw [hm.safe ha, List.map_nil, List.append_nil] at hc
  rw [← hc, ← es]
  rcases hi with hi | hi
  · exact solo_flights (show (b.snap E name m).alive = true from hm.alive) hi
  · rw [count_inFlight, hi.own, Snap.status, hi.job]; rfl

/-- C76: when every turn is orderly with all jobs and is taken by a process whose capacity is at most `M`, all processes
together have at most `M` executions in flight, however many processes there are. -/
theorem C76_capacity_partial (L : E.Lawful) {c : Crew D b.B} (M : Nat)
    (h : CrewReach (O := O) b E name clk (fun v op => (∀ k, Orderly k v op) ∧ v.cfg.maxProcessingJobs ≤ M) c) :
    c.inFlight.length ≤ M := by
  have := crew_kept (I := fun v => (v.alive = true → v.tasks.length ≤ M) ∧ ∀ k, Solo k v ∨ Lost k v) L
    ⟨fun _ => Nat.zero_le _, fun k => reach_orderly (O := O) (clk := clk) (P := Orderly k) L (fun _ _ h => h) .start⟩
    (fun v v' e1 e2 e3 e4 h => ⟨by rw [e3, e4]; exact h.1, fun k => solo_or_lost_same e1 e2 e3 e4 (h.2 k)⟩)
    (fun s m op op' hg hT ha hw hcfg hp hs _ hi => ⟨fun _ => ?_, fun k => ?_⟩) h
  · obtain ⟨_, _, m, lost, hm, _, hi⟩ := this
    have h1 := (flights (E := E) (name := name) hm).length_eq
    have h2 := hi.1 hm.alive
    unfold Snap.inFlight at h1
    rw [List.length_map, List.length_append] at h1
    omega
  · refine capacity_any L hg hT op' ?_ (hi.1 ha) fun k => ?_
    · show m.cfg.maxProcessingJobs ≤ M
      rw [hcfg]; exact hp.2
    · rcases hi.2 k with h | h
      · rw [solo_flights ha h, h.running]; exact Nat.le_refl _
      · rw [count_inFlight, h.own]; exact Nat.zero_le _
  · refine orderly_any L hg hT op' (hi.2 k) (hs.orderly ?_ ?_ (hp.1 k))
    · unfold Impl.snap; rw [hw]
    · unfold Impl.snap; rw [hw]

/-- C76: whoever of the crew ticks next uses its capacity for the jobs of all: it starts as many jobs as it has room for,
or every job in the queued list that is stored and due whenever it is looked at. -/
theorem C76_any_takes_over (L : E.Lawful) {P : Snap D → Op D O → Prop} {c : Crew D b.B} (h : CrewReach (O := O) b E name clk P c)
    {i : Nat} {p : Proc D} (hp : c.procs[i]? = some p) (ha : p.alive = true) (hlen : ((b.see E name c.w).lists .queued).length < 2 ^ 31) :
    let v := b.see E name c.w
    let c' := Crew.step E name b.B clk c (.turn i (.tick : Op D O))
    ∃ started : List (Job D), c'.procs[i]? = some ⟨p.cfg, p.tasks ++ started.map (fun j => ⟨j, none⟩), true⟩ ∧
      (∀ n, n ≠ i → c'.procs[n]? = c.procs[n]?) ∧
      (started.length = p.cfg.maxProcessingJobs - (v.lists .running).length ∨
        ∀ id ∈ v.lists .queued, ∀ job, v.job id = some job →
          (∀ n, c.w.t ≤ n → n < c'.w.t → job.Due (clk n)) → id ∈ started.map Job.id) := by
  intro v c'
  obtain ⟨hg, _, m, lost, hm, hT, _⟩ := crew_kept (I := fun _ => True) L trivial (fun _ _ _ _ _ _ _ => trivial) (fun _ _ _ _ _ _ _ _ _ _ _ _ _ => trivial) h
  have hk : (b.snap E name (p.sys c.w)).Keyed := by
    have := hT.keyed
    unfold Snap.Keyed at this ⊢
    rw [(same_world hm).2] at this
    exact this
  have e : c' = ⟨(Sys.step E name b.B clk (p.sys c.w) (.tick : Op D O)).1.w, c.procs.set i
      ⟨(Sys.step E name b.B clk (p.sys c.w) (.tick : Op D O)).1.cfg, (Sys.step E name b.B clk (p.sys c.w) (.tick : Op D O)).1.tasks,
        (Sys.step E name b.B clk (p.sys c.w) (.tick : Op D O)).1.alive⟩⟩ := by
    simp only [c', Crew.step, hp]
  have hi : i < c.procs.length := (List.getElem?_eq_some_iff.mp hp).1
  rw [e]
  rcases tick_facts_any (O := O) (clk := clk) b L (p.sys c.w) hg hk ha with ⟨st, hf, h1⟩ | ⟨_, _, h1⟩
  · refine ⟨st, ?_, fun n hn => List.getElem?_set_ne (Ne.symm hn), hf.all hlen⟩
    rw [List.getElem?_set_self hi, h1]
    have h2 : (Sys.step E name b.B clk (p.sys c.w) (.tick : Op D O)).1.cfg = p.cfg := hf.ticked.cfg
    have h3 : (Sys.step E name b.B clk (p.sys c.w) (.tick : Op D O)).1.tasks = p.tasks ++ _ := hf.ticked.tasks
    rw [h2, h3]
  · exact absurd hlen (by have : 2 ^ 31 ≤ ((b.see E name c.w).lists .queued).length := h1; omega)

/-- C76 is false of what a dead process leaves behind, for every such job. A job that is stored as Running while no process executes it (its process died)
stays as it is and keeps its place in the running list, and no process of the crew, old or new, ever executes it,
whatever they do: the others do not take over what was running. -/
theorem C76_refuted_orphan (L : E.Lawful) {c : Crew D b.B} (h : CrewReach (O := O) b E name clk (Orderly k) c)
    {j : Job D} (hj : (b.see E name c.w).job k = some j) (hr : j.context.jobStatus = .running) (ho : k ∉ c.inFlight)
    (ops : List (CrewOp D O)) :
    let c' := Crew.run E name b.B clk c ops
    (b.see E name c'.w).job k = some j ∧ ((b.see E name c'.w).lists .running).count k = 1 ∧
    k ∉ (b.see E name c'.w).lists .queued ∧ k ∉ c'.inFlight := by
  intro c'
  have hk := crew_orderly L (fun _ _ h => h) h
  obtain ⟨h1, h2⟩ := C76_lists_partial L h hj
  rw [hr] at h1 h2
  have key : ∀ {c : Crew D b.B}, k ∉ c.inFlight ↔ ∀ p ∈ c.procs, (b.snap E name (p.sys c.w)).own k = [] := by
    intro c
    refine ⟨fun h p hp => ?_, fun h hm => ?_⟩
    · refine List.filter_eq_nil_iff.mpr fun t ht e => h ?_
      exact List.mem_flatMap.mpr ⟨p, hp, List.mem_map.mpr ⟨t, ht, by simpa using e⟩⟩
    · obtain ⟨p, hp, hm⟩ := List.mem_flatMap.mp hm
      obtain ⟨t, ht, e⟩ := List.mem_map.mp hm
      have : t ∈ (b.snap E name (p.sys c.w)).own k := List.mem_filter.mpr ⟨ht, by simpa using e⟩
      rw [h p hp] at this
      cases this
  have hO : Orphan E name k j 1 c := by
    refine ⟨hk.good, hk.tidy, ?_, hj, List.count_eq_zero.mp h1, h2, key.mp ho⟩
    obtain ⟨_, _, m, lost, hm, hT, _⟩ := hk
    intro id j' hj'
    exact hT.keyed id j' (by rw [(same_world hm).2]; exact hj')
  have h3 := orphan_run (clk := clk) L hr hO ops
  exact ⟨h3.job, h3.running, h3.queued, key.mpr h3.own⟩

end

/-! ## Concrete cases -/

section
open Demo

/-- Three processes. The first one submits `a` and `b`, which the second one starts. -/
private def crew3 : List (CrewOp Int Unit) :=
  [.join, .join, .join, .turn 0 (.enqueue (job c!"a") .newReRun), .turn 0 (.enqueue (job c!"b") .newReRun), .turn 1 .tick]

/-- Then it is killed. The third one submits `d`, which the first one starts; a fourth one comes and looks for work. -/
private def crewKilled : List (CrewOp Int Unit) :=
  crew3 ++ [.kill 1, .turn 2 (.enqueue (job c!"d") .newReRun), .turn 0 .tick, .join, .turn 3 .tick]

private def crewOn (b : Impl) (ops : List (CrewOp Int Unit)) : Crew Int b.B := Crew.run E c!"print" b.B clk (Crew.init b.B b.empty) ops

/-- A check of one turn: new jobs only, and a process with at most `M` executions. -/
private def chk (M : Nat) (v : Snap Int) (op : Op Int Unit) : Bool :=
  decide (v.cfg.maxProcessingJobs ≤ M) && match op with
    | .enqueue j _ => (v.job j.id).isNone && !(v.lists .queued).contains j.id
    | _ => true

private theorem chk.ok {M : Nat} {v : Snap Int} {op : Op Int Unit} (h : chk M v op = true) :
    (∀ k, Orderly k v op) ∧ v.cfg.maxProcessingJobs ≤ M := by
  unfold chk at h
  rw [Bool.and_eq_true] at h
  refine ⟨?_, of_decide_eq_true h.1⟩
  rintro k j c rfl rfl
  have h := h.2
  simp only [Bool.and_eq_true, Option.isNone_iff_eq_none, Bool.not_eq_true', List.contains_eq_mem, decide_eq_false_iff_not] at h
  exact ⟨fun _ => h.2, fun ex hex => by rw [h.1] at hex; cases hex⟩

/-- The check of all turns of a history. -/
private def chkAll (b : Impl) (M : Nat) : Crew Int b.B → List (CrewOp Int Unit) → Bool
  | _, [] => true
  | c, op :: ops => (match op with
      | .turn i op => match c.procs[i]? with
        | some p => chk M (b.snap E c!"print" (p.sys c.w)) op
        | none => true
      | _ => true) && chkAll b M (Crew.step E c!"print" b.B clk c op) ops

private theorem chkAll.reach {b : Impl} {M : Nat} {ops : List (CrewOp Int Unit)} {c : Crew Int b.B}
    (hc : CrewReach (O := Unit) b E c!"print" clk (fun v op => (∀ k, Orderly k v op) ∧ v.cfg.maxProcessingJobs ≤ M) c)
    (h : chkAll b M c ops = true) :
    CrewReach (O := Unit) b E c!"print" clk (fun v op => (∀ k, Orderly k v op) ∧ v.cfg.maxProcessingJobs ≤ M)
      (Crew.run E c!"print" b.B clk c ops) := by
  induction ops generalizing c with
  | nil => exact hc
  | cons op ops ih =>
    unfold chkAll at h
    rw [Bool.and_eq_true] at h
    refine ih (.step op hc ?_) h.2
    rintro i op' p rfl hp
    have := h.1
    simp only [hp] at this
    exact chk.ok this

/-- The hypotheses of `C76_capacity_partial`, on Redis and in memory: the history with the killed process. -/
example : CrewReach (O := Unit) Impl.redis E c!"print" clk (fun v op => (∀ k, Orderly k v op) ∧ v.cfg.maxProcessingJobs ≤ 20)
    (crewOn Impl.redis crewKilled) ∧
    CrewReach (O := Unit) Impl.memory E c!"print" clk (fun v op => (∀ k, Orderly k v op) ∧ v.cfg.maxProcessingJobs ≤ 20)
    (crewOn Impl.memory crewKilled) :=
  ⟨chkAll.reach .start (by decide +kernel), chkAll.reach .start (by decide +kernel)⟩

/-- `C76_one_execution_partial`, `C76_executed_partial`, `C76_lists_partial`: while all live, the second process executes
both jobs, and nobody else does. -/
example : (crewOn Impl.redis crew3).procs.map (fun p => p.tasks.map (·.orig.id)) = [[], [c!"a", c!"b"], []] ∧
    (∀ p ∈ (crewOn Impl.redis crew3).procs, p.alive = true) ∧
    (Impl.redis.see E c!"print" (crewOn Impl.redis crew3).w).status c!"a" = some .running ∧
    (Impl.redis.see E c!"print" (crewOn Impl.redis crew3).w).lists .running = [c!"b", c!"a"] := by
  decide +kernel

/-- `C76_any_takes_over`: after the second process was killed, the first one starts what the third one submitted. -/
example : (crewOn Impl.redis crewKilled).procs.map (fun p => (p.tasks.map (·.orig.id), p.alive)) =
      [([c!"d"], true), ([], false), ([], true), ([], true)] := by
  decide +kernel

/-- `C76_refuted_orphan`: job `a` is still stored as Running, but nobody executes it. -/
example : (Impl.redis.see E c!"print" (crewOn Impl.redis crewKilled).w).status c!"a" = some .running ∧
    c!"a" ∉ (crewOn Impl.redis crewKilled).inFlight ∧
    ((Impl.redis.see E c!"print" (crewOn Impl.redis crewKilled).w).lists .running).count c!"a" = 1 := by
  decide +kernel

end

end AJ.Props
