import Verif.Proofs.Many
import Verif.Proofs.Ops
import Verif.Props.Demo

/-!
# Job types that share a backend (C45, C46)
-/

namespace AJ.Props
open Prog

/-! ## C45 -/

section
variable {ι : Type} [DecidableEq ι] (b : Impl) {D O : ι → Type} {E : ∀ i, Env (D i)} (L : ∀ i, (E i).Lawful) {name : ι → Str}
  {K : ι → Str → Prop} (clk : ι → Nat → Time) {ops : ∀ i, List (Op (D i) (O i))} (hname : ∀ i j, name i = name j → i = j)
  (hK : ∀ i j k, K i k → K j k → i = j) (hops : ∀ i, ∀ op ∈ ops i, op.On (K i))

omit [DecidableEq ι] in
private theorem rel_start : Many.Rel b (Many.start b.B E name ops b.empty) (Many.start SpecB E name ops Spec.empty) :=
  ⟨b.empty_rel, rfl, rfl, rfl, fun i => (aj_history (E i) (name i) {} (ops i)).mono (b.okAj (name i))⟩

include L hops in
omit [DecidableEq ι] in
private theorem fits_start (i : ι) : Many.Fits E name K (Many.start SpecB E name ops Spec.empty) i :=
  ⟨keeps_history (L i) (fun _ h => by cases h) (hops i), ⟨fun _ _ h => (by cases h), fun _ _ _ h => (by cases h)⟩⟩

include L hname hK hops

/-- C45, at every moment: any number of work queues with different names, each going through any history of turns about
ids of its own, on one backend, their steps interleaved in any way. At every moment, no work queue can tell the
difference from the same situation without the steps of all the others: it is at the same point with the same
intermediate values, it has read its clock as often, sent the same messages, and its lists and its stored jobs are the
same. -/
theorem C45_moments (sched : List ι) (i : ι) :
    Many.Alike b i (name i) (K i) ((Many.start b.B E name ops b.empty).run b.B clk sched)
      ((Many.start b.B E name ops b.empty).run b.B clk (sched.filter (· = i))) := by
  have h0 := rel_start b (E := E) (name := name) (ops := ops)
  have h1 := h0.run (clk := clk) sched
  have h2 := h0.run (clk := clk) (sched.filter (· = i))
  have h3 := Many.same_run (clk := clk) (i := i) hname hK (fits_start L hops) ⟨rfl, rfl, rfl, .refl _⟩ sched
  refine ⟨by rw [h1.prog, h2.prog]; exact h3.prog, by rw [h1.t, h2.t]; exact h3.reads, by rw [h1.log, h2.log]; exact h3.log,
    fun st => ?_, fun k hk => ?_⟩
  · rw [b.list_eq _ _ _ _ h1.s, b.list_eq _ _ _ _ h2.s]; exact h3.part.lists st
  · rw [b.stored_eq _ _ _ h1.s, b.stored_eq _ _ _ h2.s]; exact h3.part.stored k hk

/-- C45, results and effects: every work queue gets through its history once it has had enough steps, whatever the
others do in between. Then its answers, its tasks and configuration, its messages, its lists and its stored jobs are
those of the history run alone. -/
theorem C45_results (i : ι) : ∃ n, ∀ sched : List ι, n ≤ sched.count i →
    let m := (Many.start b.B E name ops b.empty).run b.B clk sched
    let r := Sys.runOps (E i) (name i) b.B (clk i) (Sys.init b.B b.empty) (ops i)
    m.prog i = .ret (⟨r.1.cfg, r.1.tasks, r.1.alive⟩, r.2) ∧ m.t i = r.1.w.t ∧ m.log i = r.1.w.log ∧
      (∀ st, b.list m.s (formatQueueName (name i) st) = b.list r.1.w.s (formatQueueName (name i) st)) ∧
      ∀ k, K i k → b.stored m.s k = b.stored r.1.w.s k := by
  have h0 := rel_start b (E := E) (name := name) (ops := ops)
  have hr := run_history (E := E i) (name := name i) (clk := clk i) (Sys.init SpecB Spec.empty) (ops i)
  obtain ⟨n, hn⟩ := stepN_run _ _ hr
  refine ⟨n, fun sched hs => ?_⟩
  have h1 := h0.run (clk := clk) sched
  have h3 := Many.same_run (clk := clk) (i := i) hname hK (fits_start L hops) ⟨rfl, rfl, rfl, .refl _⟩ sched
  have hf : sched.filter (· = i) = List.replicate (sched.count i) i := by
    clear hs h1 h3
    induction sched with
    | nil => rfl
    | cons j sched ih =>
      by_cases e : j = i
      · subst e; simp [ih, List.replicate_succ]
      · simp [ih, e]
  rw [hf] at h3
  obtain ⟨h4, h5⟩ := Many.run_alone (B := SpecB) (clk := clk) (Many.start SpecB E name ops Spec.empty) i (sched.count i)
  have hst : ∀ (m : Nat) (x : Prog (Proc (D i) × List (Resp (D i))) × World SpecB) a w', stepN SpecB (clk i) m x = (.ret a, w') →
      ∀ m', m ≤ m' → stepN SpecB (clk i) m' x = (.ret a, w') := by
    intro m
    induction m with
    | zero =>
      intro x a w' hx m' _
      have hx : x = (.ret a, w') := hx
      subst hx
      induction m' with
      | zero => rfl
      | succ m' ih => exact ih (by omega)
    | succ m ih =>
      intro x a w' hx m' hm
      obtain ⟨k, rfl⟩ : ∃ k, m' = k + 1 := ⟨m' - 1, by omega⟩
      exact ih _ _ _ hx k (by omega)
  have h6 := hst n _ _ _ hn _ hs
  have h7 : stepN SpecB (clk i) (sched.count i) ((Many.start SpecB E name ops Spec.empty).prog i,
    (Many.start SpecB E name ops Spec.empty).world i) = _ := h6
  rw [h7] at h4 h5
  obtain ⟨r1, r2⟩ := b.sim.runOps (E i) (name i) (b.okAj (name i)) (clk i) (ops i) (Sys.init b.B b.empty) (Sys.init SpecB Spec.empty)
    Impl.rs_init
  refine ⟨?_, ?_, ?_, fun st => ?_, fun k hk => ?_⟩
  · rw [h1.prog, h3.prog, h4]
    simp only [Sys.proc, r1, r2.cfg, r2.tasks, r2.alive]
  · rw [h1.t, h3.reads, r2.w.t]
    exact congrArg World.t h5
  · rw [h1.log, h3.log, r2.w.log]
    exact congrArg World.log h5
  · rw [b.list_eq _ _ _ _ h1.s, b.list_eq _ _ _ _ r2.w.s, h3.part.lists st]
    exact congrArg (fun w : World SpecB => w.s.q (formatQueueName (name i) st)) h5
  · rw [b.stored_eq _ _ _ h1.s, b.stored_eq _ _ _ r2.w.s, h3.part.stored k hk]
    exact congrArg (fun w : World SpecB => w.s.st STORAGE_HASH k) h5

end

/-! ### A concrete case -/

namespace Demo
open AJ.Demo

/-- Two job types of the same data, `mail` and `print`, each with two jobs, one of which fails; ids begin with the
name of the type. -/
def twoNames (i : Bool) : Str := if i then c!"mail" else c!"print"
def twoIds (i : Bool) (k : Str) : Prop := k.head? = if i then some 'm' else some 'p'
def twoOps (i : Bool) : List (Op Int Unit) :=
  let a := if i then c!"m1" else c!"p1"
  let c := if i then c!"m2" else c!"p2"
  [.enqueue (job a) .newReRun, .enqueue (job c 7) .newReRun, .tick, .start 0, .start 0, .start 1, .finish 1 bad, .finish 0 good,
    .get a, .retry c, .tick, .cancel a]

example : (∀ i j, twoNames i = twoNames j → i = j) ∧ (∀ i j k, twoIds i k → twoIds j k → i = j) ∧
    ∀ i, ∀ op ∈ twoOps i, op.On (twoIds i) := by
  refine ⟨by decide, fun i j k h1 h2 => ?_, fun i op h => ?_⟩
  · have := h1.symm.trans h2
    cases i <;> cases j <;> simp at this ⊢
  · cases i <;> simp only [twoOps, List.mem_cons, List.not_mem_nil, or_false] at h <;>
      rcases h with rfl | rfl | rfl | rfl | rfl | rfl | rfl | rfl | rfl | rfl | rfl | rfl <;> trivial

def twoRun : Many Bool SpecB fun _ => Proc Int × List (Resp Int) :=
  (Many.start SpecB (fun _ => E) twoNames twoOps Spec.empty).run SpecB (fun _ => clk) (List.replicate 200 [true, false]).flatten

def through (i : Bool) : Bool := match twoRun.prog i with
  | .ret _ => true
  | _ => false

/-- Strictly alternating, both get through, and each has its two jobs in its own lists. -/
example : through true = true ∧ through false = true ∧
      twoRun.s.q c!"mail:queue:Running" = [c!"m2"] ∧ twoRun.s.q c!"mail:queue:Finished" = [c!"m1"] ∧
      twoRun.s.q c!"print:queue:Finished" = [c!"p1"] ∧ twoRun.s.q c!"print:queue:Running" = [c!"p2"] := by
  decide +kernel

end Demo

/-! ## C46 -/

namespace W46
open W
variable {D' : Type} {E' : Env D'} {name name' : Str} {clk : Nat → Time}

theorem stored_enq (j : Job D') (w : W) (k : Str) : (enq E' name' clk j w).s.st STORAGE_HASH k =
    if k = j.id then some ((E'.codec.enc (j.asQueued (clk w.t / nsPerMs))).getD []) else w.s.st STORAGE_HASH k := by
  simp only [enq, put, say, upsert, tick, setL, upd, Job.id_asQueued, if_true]

theorem stored_upsert (k' : Str) (j : Job D') (w : W) (k : Str) : (upsert E' k' j w).s.st STORAGE_HASH k =
    if k = k' then some ((E'.codec.enc j).getD []) else w.s.st STORAGE_HASH k := by
  simp only [upsert, upd, if_true]

theorem lists_enq (hn : name' ≠ name) (j : Job D') (w : W) (st : JobStatus) :
    lst name (enq E' name' clk j w) st = lst name w st := by
  have : formatQueueName name st ≠ formatQueueName name' .queued := fun e => hn (formatQueueName_injective e).1.symm
  simp only [lst, enq, put, say, upsert, tick, setL, upd, if_neg this]

theorem lists_submit (hn : name' ≠ name) (j : Job D') (c : EnqueueConfig) (w : W) (st : JobStatus) :
    lst name (submit E' name' clk j c w) st = lst name w st := by
  unfold submit
  split
  · dsimp only
    split
    · rw [lists_enq hn]; split <;> rfl
    · split <;> rfl
  · exact lists_enq hn _ _ _

theorem stored_submit (j : Job D') (c : EnqueueConfig) (w : W) {k : Str} (hk : k ≠ j.id) :
    (submit E' name' clk j c w).s.st STORAGE_HASH k = w.s.st STORAGE_HASH k := by
  unfold submit
  split
  · dsimp only
    split
    · rw [stored_enq, if_neg hk]; split
      · rw [stored_upsert, if_neg hk]
      · rfl
    · split
      · rw [stored_upsert, if_neg hk]
      · rfl
  · rw [stored_enq, if_neg hk]

end W46

section
variable {b : Impl} {D O D' O' : Type} {E : Env D} {E' : Env D'} {name name' : Str} {clk clk' : Nat → Time}
  {s : Sys D b.B} {t : Sys D' b.B}

/-- What work queue A sees after B, which shares its backend, has taken a submission. -/
def seenBy (b : Impl) (E : Env D) (name : Str) (s : Sys D b.B) (E' : Env D') (name' : Str) (clk' : Nat → Time) (t : Sys D' b.B)
    (j : Job D') (c : EnqueueConfig) : Snap D :=
  b.snap E name (s.on (Sys.step E' name' b.B clk' t (.enqueue j c : Op D' Unit)).1.w.s)

private theorem after_submit (hg : b.Good t.w.s) (ha : t.alive = true) (j : Job D') (c : EnqueueConfig) :
    ∃ w : W, b.sim.RW t.w w ∧
      b.sim.RW (Sys.step E' name' b.B clk' t (.enqueue j c : Op D' Unit)).1.w (W.submit E' name' clk' j c w) := by
  obtain ⟨u, hu⟩ := Impl.rs_of_good hg
  have h := (Impl.rs_step (E := E') (name := name') (clk := clk') hu (.enqueue j c : Op D' Unit)).2
  have hs := Sys.step_cases (E := E') (name := name') (clk := clk') u (hu.alive ▸ ha) (.enqueue j c : Op D' Unit)
  generalize Sys.step E' name' SpecB clk' u (.enqueue j c : Op D' Unit) = p at hs h
  cases hs
  exact ⟨u.w, hu.w, h.w⟩

variable (hg : b.Good s.w.s) (hst : t.w.s = s.w.s) (ha : t.alive = true) (hname : name' ≠ name) (j : Job D') (c : EnqueueConfig)
include hg hst ha hname

private theorem seen_lists : (seenBy b E name s E' name' clk' t j c).lists = (b.snap E name s).lists := by
  obtain ⟨w, h1, h2⟩ := after_submit (E' := E') (name' := name') (clk' := clk') (hst ▸ hg) ha j c
  funext st
  refine (b.list_eq _ _ _ _ h2.s).trans ((W46.lists_submit hname j c w st).trans ?_)
  refine (b.list_eq _ _ name st h1.s).symm.trans ?_
  show b.list t.w.s _ = b.list s.w.s _
  rw [hst]

omit hname in
private theorem seen_jobs {k : Str} (hk : k ≠ j.id) : (seenBy b E name s E' name' clk' t j c).job k = (b.snap E name s).job k := by
  obtain ⟨w, h1, h2⟩ := after_submit (E' := E') (name' := name') (clk' := clk') (hst ▸ hg) ha j c
  show (b.stored _ k).bind _ = (b.stored _ k).bind _
  congr 1
  refine (b.stored_eq _ _ _ h2.s).trans ((W46.stored_submit j c w hk).trans ?_)
  rw [← b.stored_eq _ _ k h1.s, hst]

/-- C46, what does hold: the lists of A and its jobs with other ids are left alone, and the job with that id as well if
B can read A's job and takes it for one that it must not touch.
Missing: the job with that id in all other cases; see the refutations below. -/
theorem C46_partial :
    (seenBy b E name s E' name' clk' t j c).lists = (b.snap E name s).lists ∧
    (∀ k, k ≠ j.id → (seenBy b E name s E' name' clk' t j c).job k = (b.snap E name s).job k) ∧
    ∀ ex, (b.snap E' name' t).job j.id = some ex → c.overrideData = false ∨ ex.context.jobStatus = .running →
      ¬ (c.reRun = true ∧ ex.context.jobStatus.Done) →
      (seenBy b E name s E' name' clk' t j c).job j.id = (b.snap E name s).job j.id := by
  refine ⟨seen_lists hg hst ha hname j c, fun k => seen_jobs hg hst ha j c, fun ex hex h1 h2 => ?_⟩
  obtain ⟨w, r1, r2⟩ := after_submit (E' := E') (name' := name') (clk' := clk') (hst ▸ hg) ha j c
  have hv : W.view E' w j.id = some ex := by
    rw [← hex]
    show Option.bind _ _ = Option.bind _ _
    rw [b.stored_eq _ _ _ r1.s]
  have hsub : W.submit E' name' clk' j c w = w := by
    unfold W.submit
    rw [hv]
    dsimp only
    rw [if_neg (c := (c.overrideData && !ex.isRunning) = true), if_neg]
    · rw [Bool.and_eq_true, Job.done_iff]; exact h2
    · rcases h1 with h | h
      · simp [h]
      · simp [Job.isRunning_iff.mpr h]
  rw [hsub] at r2
  show (b.stored _ _).bind _ = (b.stored _ _).bind _
  congr 1
  rw [← hst, b.stored_eq _ _ _ r1.s]
  exact b.stored_eq _ _ _ r2.s

/-- C46 fails for types whose jobs cannot be read as one another: B takes the id for a new one and stores its job over
A's. A's job is gone. Its id stays in A's lists; A answers that there is no such job, and can neither cancel nor retry
it. -/
theorem C46_refuted_lost (L : E.Lawful) (hsa : s.alive = true) (hk : (b.snap E name s).Keyed) (hu : E.Unreadable E')
    (hB : (b.snap E' name' t).job j.id = none) :
    let s' := s.on (Sys.step E' name' b.B clk' t (.enqueue j c : Op D' Unit)).1.w.s
    (b.snap E name s').job j.id = none ∧ (b.snap E name s').lists = (b.snap E name s).lists ∧
      (Sys.step E name b.B clk s' (.get j.id : Op D O)).2 = .job none ∧
      b.snap E name (Sys.step E name b.B clk s' (.cancel j.id : Op D O)).1 = b.snap E name s' ∧
      (Sys.step E name b.B clk s' (.retry j.id : Op D O)).2 = .bool (.ok false) := by
  intro s'
  obtain ⟨w, r1, r2⟩ := after_submit (E' := E') (name' := name') (clk' := clk') (hst ▸ hg) ha j c
  have hv : W.view E' w j.id = none := by
    rw [← hB]
    show Option.bind _ _ = Option.bind _ _
    rw [b.stored_eq _ _ _ r1.s]
  have hnone : (b.snap E name s').job j.id = none := by
    show (b.stored _ _).bind _ = _
    rw [show b.stored s'.w.s j.id = _ from b.stored_eq _ _ _ r2.s]
    unfold W.submit
    rw [hv]
    dsimp only
    rw [W46.stored_enq, if_pos rfl]
    exact hu _
  have hkeyed : (b.snap E name s').Keyed := by
    intro id x hx
    by_cases e : id = j.id
    · subst e; rw [hnone] at hx; cases hx
    · exact hk id x ((seen_jobs (E := E) (name := name) hg hst ha j c e).symm.trans hx)
  have hg' : b.Good s'.w.s := ⟨_, r2.s⟩
  refine ⟨hnone, seen_lists hg hst ha hname j c, ?_, ?_, ?_⟩
  · rw [(get_any (E := E) (name := name) (clk := clk) (O := O) hg' hsa j.id).1, hnone]
  · exact (cancel_any L hg' hkeyed hsa j.id).2.2.2 (fun x hx => by rw [hnone] at hx; cases hx)
  · exact ((retry_any L hg' hkeyed hsa j.id).2.2 (fun x hx => by rw [hnone] at hx; cases hx)).1

end

/-- C46 fails for types with the same data as well: if A's job waits, or is done, and B takes the submission with
override for a change of an existing job, A's job is replaced by B's, and B has nothing to run. -/
theorem C46_refuted_mixed {b : Impl} {D : Type} {E : Env D} (L : E.Lawful) {name name' : Str} {clk' : Nat → Time} {s t : Sys D b.B}
    (hg : b.Good s.w.s) (hst : t.w.s = s.w.s) (ha : t.alive = true) (hname : name' ≠ name) (j : Job D) (c : EnqueueConfig)
    (he : E.Encodable j) {a : Job D} (hA : (b.snap E name s).job j.id = some a) (hr : a.context.jobStatus ≠ .running)
    (ho : c.overrideData = true) (hd : ¬ (c.reRun = true ∧ a.context.jobStatus.Done)) :
    (seenBy b E name s E name' clk' t j c).job j.id = some (j.norm L.normD) ∧
    (seenBy b E name s E name' clk' t j c).lists = (b.snap E name s).lists ∧
    (b.snap E name' (Sys.step E name' b.B clk' t (.enqueue j c : Op D Unit)).1).lists = (b.snap E name' t).lists := by
  have h := submit_any (E := E) (name := name') (clk := clk') (O := Unit) L (hst ▸ hg) ha j c
  have hB : (b.snap E name' t).job j.id = some a := by
    rw [← hA]; show (b.stored _ _).bind _ = (b.stored _ _).bind _; rw [hst]
  obtain ⟨h1, h2, h3, h4, h5⟩ := h.2.2.2 a hB (fun h => hd h.symm)
  exact ⟨h5 ho hr he, seen_lists hg hst ha hname j c, h1⟩

/-- Types whose data cannot be read as one another. -/
theorem unreadable_json {D D' : Type} {dc : DataCodec D} {dc' : DataCodec D'} (L' : dc'.Lawful)
    (h : ∀ d js, dc'.enc d = some js → dc.dec js = none) (cron cron' : Str → Option (Time → Option Time)) (dbg dbg' : Bool) :
    Env.Unreadable ⟨jsonCodec dc, cron, dbg⟩ ⟨jsonCodec dc', cron', dbg'⟩ := by
  intro j'
  show (Json.parse (((encJob dc' j').map Json.print).getD [])).bind (decJob dc) = none
  cases e : encJob dc' j' with
  | none => rfl
  | some js =>
    obtain ⟨h1, h2⟩ := WF_encJob dc' L' e
    show (Json.parse (Json.print js)).bind (decJob dc) = none
    rw [Json.parse_print js h1 h2]
    simp only [encJob, Option.bind_eq_bind, Option.bind_eq_some_iff] at e
    obtain ⟨c, hc, d, hd, e⟩ := e
    cases e
    rw [Option.bind_some]
    simp only [decJob, Option.bind_eq_bind]
    cases hq : Json.req [(c!"context", c), (c!"data", d)] c!"data" with
    | none => simp
    | some d' =>
      have : d' = d := by
        have := hq.symm.trans (by rfl : Json.req [(c!"context", c), (c!"data", d)] c!"data" = some d)
        exact Option.some.inj this
      subst this
      simp [h _ _ hd]

/-! ### Concrete cases -/

namespace Demo
open AJ.Demo

/-- A data format like `struct Label { text: String }`. -/
def label : DataCodec Str where
  enc t := some (.obj [(c!"text", .str t)])
  dec
    | .obj l => (Json.req l c!"text").bind Json.asStr
    | _ => none

def labelLawful : label.Lawful where
  norm n := n
  wf d j h := by cases h; exact ⟨trivial, trivial⟩
  depth d j h := by cases h; simp [Json.depth, Json.depthm]
  roundtrip d j h := by cases h; rfl
  decoded_norm _ _ _ := rfl
  decoded_enc _ _ _ := rfl

def Elabel : Env Str := ⟨jsonCodec label, cron, false⟩

/-- Jobs of neither type can be read as jobs of the other. -/
theorem unreadable : E.Unreadable Elabel :=
  unreadable_json labelLawful (fun d js h => by cases h; rfl) _ _ _ _

/-- The work queue `label` on the backend of `print`. -/
def labels (ops : List (Op Int Unit)) : Sys Str InMem := Sys.init InMem (after ops).w.s

/-- A print job with id `x` waits; a label with id `x` is submitted: nothing is left of the print job but its id in the
queue. -/
example : (see [.enqueue (job c!"x") .newReRun]).job c!"x" = some ((job c!"x").asQueued 0) ∧
    (Impl.memory.snap Elabel c!"label" (labels [.enqueue (job c!"x") .newReRun])).job c!"x" = none ∧
    (seenBy Impl.memory E c!"print" (after [.enqueue (job c!"x") .newReRun]) Elabel c!"label" clk
      (labels [.enqueue (job c!"x") .newReRun]) ⟨JobContext.new c!"x" 0, c!"hello"⟩ .newReRun).job c!"x" = none ∧
    (seenBy Impl.memory E c!"print" (after [.enqueue (job c!"x") .newReRun]) Elabel c!"label" clk
      (labels [.enqueue (job c!"x") .newReRun]) ⟨JobContext.new c!"x" 0, c!"hello"⟩ .newReRun).lists .queued = [c!"x"] := by
  decide +kernel

/-- A print job with number 1 waits; a job with number 7 and the same id is submitted to `mail`, whose jobs look the
same. `print` now has number 7, and `mail` nothing. -/
example : let s := after [.enqueue (job c!"x") .newReRun]
    let t : Sys Int InMem := Sys.init InMem s.w.s
    (seenBy Impl.memory E c!"print" s E c!"mail" clk t (job c!"x" 7) .newReRun).job c!"x" = some (job c!"x" 7) ∧
    (Impl.memory.snap E c!"mail" (Sys.step E c!"mail" InMem clk t (.enqueue (job c!"x" 7) .newReRun : Op Int Unit)).1).lists .queued
      = [] := by
  decide +kernel

end Demo
end AJ.Props
