import Verif.Proofs.Overlap
import Verif.Props.Demo

/-!
# Processes whose turns overlap (C77)

Most claims about a work queue fail when processes interleave call by call (`C53_refuted_twice`, `C76_refuted_*`). These hold
for every interleaving, for processes that die anywhere and for calls that fail.
-/

namespace AJ.Props
open Prog

section
variable {ι D O : Type} [DecidableEq ι] {b : Impl} {E : Env D} (L : E.Lawful) {name : ι → Str} {ops : ι → List (Op D O × Nat)}
  {script : Nat → Fate} {clk : ι → Nat → Time} (hq : ∀ n, (script n).env = []) (sched : List ι)

omit [DecidableEq ι] in
private theorem seen_job {p : Job D → Prop} {m : Many ι (Faulty b.B script) fun _ => Proc D × List (Resp D)} (h : m.AllFit b E name clk p)
    (q k : Str) (j : Job D) (hj : (b.shared E q m).job k = some j) : j.id = k ∧ p j := by
  obtain ⟨t, hR, hF⟩ := h.state
  have e : (b.shared E q m).job k = (b.stored m.s.1 k).bind E.codec.dec := rfl
  rw [e, b.stored_eq _ _ _ hR] at hj
  obtain ⟨v, hv, hd⟩ := Option.bind_eq_some_iff.mp hj
  exact hF.jobs k v j hv hd

omit [DecidableEq ι] in
private theorem seen_list {p : Job D → Prop} {m : Many ι (Faulty b.B script) fun _ => Proc D × List (Resp D)} (h : m.AllFit b E name clk p)
    (q : Str) (st : JobStatus) (k : Str) (hk : k ∈ (b.shared E q m).lists st) : ∃ j, p j ∧ j.id = k := by
  obtain ⟨t, hR, hF⟩ := h.state
  have e : (b.shared E q m).lists st = b.list m.s.1 (formatQueueName q st) := rfl
  rw [e, b.list_eq _ _ _ _ hR] at hk
  exact hF.lists q st k hk

omit [DecidableEq ι] in
private theorem seen_done {p : Job D → Prop} {m : Many ι (Faulty b.B script) fun _ => Proc D × List (Resp D)} (h : m.AllFit b E name clk p)
    {i : ι} {q : Proc D} {answers : List (Resp D)} (hd : m.Done i q answers) :
    q.Fit p (m.Times clk i) ∧ ∀ a ∈ answers, a.Fit p := by
  have := h.prog i
  rw [show m.prog i = _ from hd] at this
  exact this

include L hq

/-- C77, for any condition `p` on jobs that submitted jobs satisfy and AJ and the user code keep: at every moment of every
interleaving, whatever is stored is stored under its own id and satisfies `p`, and so do the tasks of a process, with the
jobs they are executing, and the answers a process got. -/
theorem C77_condition {p : Job D → Prop} (S : Steady L (Executes ops) p) (hsub : ∀ j, Submitted ops j → p j) :
    (∀ q k j, (b.shared E q (b.overlapped E name ops script clk sched)).job k = some j → j.id = k ∧ p j) ∧
    ∀ i q answers, (b.overlapped E name ops script clk sched).Done i q answers →
      (∀ t ∈ q.tasks, p t.orig ∧ ∀ j, t.executing = some j → p j) ∧ ∀ j, Resp.job (some j) ∈ answers → p j := by
  have h := overlap_fits (b := b) (name := name) (clk := clk) L S hsub hq sched
  refine ⟨fun q k j => seen_job h q k j, fun i q answers hd => ?_⟩
  obtain ⟨h1, h2⟩ := seen_done h hd
  exact ⟨fun t ht => ⟨(h1 t ht).1.1, (h1 t ht).2⟩, fun j hj => h2 _ hj⟩

/-- C77, data: what is stored, executed and answered carries data that could be there: a condition on id and data which all
submissions satisfy and the user code keeps, as does writing and reading the data, is never broken, and no job is found
under the id of another. -/
theorem C77_data {d : Str → D → Prop} (hsub : ∀ j, Submitted ops j → d j.id j.data) (hn : ∀ k x, d k x → d k (L.normD x))
    (hx : ∀ x (j : Job D), Executes ops x → d j.id j.data → d j.id (WorkQueue.runUserCode x j).1.data) :
    (∀ q k j, (b.shared E q (b.overlapped E name ops script clk sched)).job k = some j → j.id = k ∧ d k j.data) ∧
    ∀ i q answers, (b.overlapped E name ops script clk sched).Done i q answers →
      (∀ t ∈ q.tasks, d t.orig.id t.orig.data ∧ ∀ j, t.executing = some j → d j.id j.data) ∧
      ∀ j, Resp.job (some j) ∈ answers → d j.id j.data := by
  have S : Steady L (Executes ops) (fun j => d j.id j.data) := by
    refine ⟨fun j j' h h1 h2 _ => ?_, fun j h => hn _ _ h, fun x j hx' h => ?_, fun _ _ _ _ _ _ _ h _ _ _ _ => h, fun _ _ _ _ _ _ _ h _ _ => h⟩
    · rw [h1, h2]; exact h
    · exact hx x j hx' h
  obtain ⟨h1, h2⟩ := C77_condition (b := b) (name := name) (script := script) (clk := clk) L hq sched S hsub
  refine ⟨fun q k j hj => ?_, h2⟩
  obtain ⟨rfl, h⟩ := h1 q k j hj
  exact ⟨rfl, h⟩

/-- C77, ids: no id is ever listed in a queue of any name, stored, taken up by a process or named in a message (about a
status, a hook or an execution) that was not submitted. -/
theorem C77_submitted :
    (∀ q st k, k ∈ (b.shared E q (b.overlapped E name ops script clk sched)).lists st → ∃ j, Submitted ops j ∧ j.id = k) ∧
    (∀ q k j, (b.shared E q (b.overlapped E name ops script clk sched)).job k = some j → ∃ j, Submitted ops j ∧ j.id = k) ∧
    (∀ i, ∀ e ∈ (b.overlapped E name ops script clk sched).log i, ∃ j, Submitted ops j ∧ j.id = e.id) ∧
    ∀ i q answers, (b.overlapped E name ops script clk sched).Done i q answers → ∀ t ∈ q.tasks, ∃ j, Submitted ops j ∧ j.id = t.orig.id := by
  have S : Steady L (Executes ops) (fun j' => ∃ j, Submitted ops j ∧ j.id = j'.id) :=
    ⟨fun j j' h h1 _ _ => by rw [h1]; exact h, fun _ h => h, fun _ _ _ h => h, fun _ _ _ _ _ _ _ h _ _ _ _ => h, fun _ _ _ _ _ _ _ h _ _ => h⟩
  have h := overlap_fits (b := b) (name := name) (clk := clk) L S (fun j hj => ⟨j, hj, rfl⟩) hq sched
  refine ⟨fun q st k hk => ?_, fun q k j hj => ?_, fun i e he => ?_, fun i q answers hd t ht => ((seen_done h hd).1 t ht).1.1⟩
  · obtain ⟨j, h1, rfl⟩ := seen_list h q st k hk; exact h1
  · obtain ⟨rfl, h1⟩ := seen_job h q k j hj; exact h1
  · have := h.log i e he
    cases e with
    | ran c => obtain ⟨j, rfl, h1, _⟩ := this; exact h1
    | _ => obtain ⟨j, ⟨j', h1, h2⟩, h3⟩ := this; exact ⟨j', h1, h2.trans h3⟩

/-- C77, schedule: whenever a process has begun to execute a job, the job was due at a time that this process had read from
its clock by then, however the processes interleave. -/
theorem C77_due (i : ι) (c : JobContext) (hc : Event.ran c ∈ (b.overlapped E name ops script clk sched).log i) :
    ∃ n, n < (b.overlapped E name ops script clk sched).t i ∧ ∀ x : D, (⟨c, x⟩ : Job D).Due (clk i n) := by
  have S : Steady L (Executes ops) (fun _ => True) :=
    ⟨fun _ _ _ _ _ _ => trivial, fun _ _ => trivial, fun _ _ _ _ => trivial, fun _ _ _ _ _ _ _ _ _ _ _ _ => trivial, fun _ _ _ _ _ _ _ _ _ _ => trivial⟩
  have h := overlap_fits (b := b) (name := name) (clk := clk) L S (fun j hj => trivial) hq sched
  obtain ⟨j, rfl, _, t, ⟨n, hn, rfl⟩, hd⟩ := h.log i _ hc
  exact ⟨n, hn, fun _ => hd⟩

omit [DecidableEq ι] L hq in
private theorem retry_times {chk : Bool} {r r' : Retry} {now t : Time} (h : r.retryAt chk now = some (r', t)) :
    r'.maxRetries = r.maxRetries ∧ r'.strategy = r.strategy ∧ addI32 chk r.retriedTimes 1 = some r'.retriedTimes := by
  unfold Retry.retryAt at h
  cases ha : addI32 chk r.retriedTimes 1 with
  | none => rw [ha] at h; cases h
  | some times =>
    rw [ha] at h
    simp only [Option.bind_eq_bind, Option.bind_some] at h
    split at h
    · obtain ⟨u, _, h⟩ := Option.bind_eq_some_iff.mp h
      cases h; exact ⟨rfl, rfl, rfl⟩
    · obtain ⟨u, _, h⟩ := Option.bind_eq_some_iff.mp h
      obtain ⟨v, _, h⟩ := Option.bind_eq_some_iff.mp h
      obtain ⟨w, _, h⟩ := Option.bind_eq_some_iff.mp h
      cases h; exact ⟨rfl, rfl, rfl⟩

/-- C77, retries: with the default `retry_at`, no job that is stored or executed or answered ever counts more retries than
its maximum, even when several processes execute the job and retry it at once. -/
theorem C77_retries (hx : ∀ x, Executes ops x → x.retryAt = none)
    (hsub : ∀ j r m, Submitted ops j → j.context.retry = some r → r.maxRetries = some m → 0 ≤ r.retriedTimes ∧ r.retriedTimes ≤ m ∧ m < 2 ^ 31) :
    (∀ q k j r m, (b.shared E q (b.overlapped E name ops script clk sched)).job k = some j → j.context.retry = some r →
      r.maxRetries = some m → 0 ≤ r.retriedTimes ∧ r.retriedTimes ≤ m) ∧
    ∀ i q answers j r m, (b.overlapped E name ops script clk sched).Done i q answers →
      ((∃ t ∈ q.tasks, t.orig = j ∨ t.executing = some j) ∨ Resp.job (some j) ∈ answers) → j.context.retry = some r →
      r.maxRetries = some m → 0 ≤ r.retriedTimes ∧ r.retriedTimes ≤ m := by
  let p : Job D → Prop := fun j => ∀ r m, j.context.retry = some r → r.maxRetries = some m →
    0 ≤ r.retriedTimes ∧ r.retriedTimes ≤ m ∧ m < 2 ^ 31
  have S : Steady L (Executes ops) p := by
    refine ⟨fun j j' h _ _ h3 r m hr => h r m (h3 ▸ hr), fun j h r m hr hm => ?_, fun x j _ h => h, ?_, ?_⟩
    · cases hj : j.context.retry with
      | none => simp [Job.norm, JobContext.norm, hj] at hr
      | some r0 =>
        have : r = r0.norm := by simpa [Job.norm, JobContext.norm, hj, eq_comm] using hr
        subst this
        exact h r0 m hj hm
    · intro x j r now r' t _ h hr _ hs hat r1 m h1 hm
      obtain ⟨e1, _, e2⟩ := retry_times hat
      cases h1
      rw [e1] at hm
      obtain ⟨a1, a2, a3⟩ := h r m hr hm
      have hlt : r.retriedTimes < m := by simpa [Retry.shouldRetry, hm] using hs
      have hf : fitsI32 (r.retriedTimes + 1) = true := by
        simp only [fitsI32, Bool.and_eq_true, decide_eq_true_eq]; omega
      rw [addI32, if_pos hf] at e2
      have e2 := Option.some.inj e2
      omega
    · intro x f j r now o hx' _ _ hf
      rw [hx x hx'] at hf; cases hf
  obtain ⟨h1, h2⟩ := C77_condition (b := b) (name := name) (script := script) (clk := clk) L hq sched S fun j hj r m => hsub j r m hj
  refine ⟨fun q k j r m hj hr hm => ?_, fun i q answers j r m hd hj hr hm => ?_⟩
  · have := (h1 q k j hj).2 r m hr hm; exact ⟨this.1, this.2.1⟩
  · have hp : p j := by
      rcases hj with ⟨t, ht, rfl | h⟩ | h
      · exact ((h2 i q answers hd).1 t ht).1
      · exact ((h2 i q answers hd).1 t ht).2 j h
      · exact (h2 i q answers hd).2 j h
    have := hp r m hr hm
    exact ⟨this.1, this.2.1⟩

/-- C77, durability: when submitted jobs can be serialised and the user code keeps them so, a job that can be read at some
moment can be read at every later moment: overlapping processes, deaths and failing calls change what is stored but lose
no job. -/
theorem C77_readable (hsub : ∀ j, Submitted ops j → E.Encodable j)
    (hx : ∀ x j, Executes ops x → E.Encodable j → E.Encodable (WorkQueue.runUserCode x j).1)
    (hr : ∀ x f (j : Job D) r now o, Executes ops x → E.Encodable j → j.context.retry = some r → x.retryAt = some f →
      E.Encodable { j with context := { j.context with retry := some (f j.data r o now).1 } }) (later : List ι) (q q' k : Str)
    (h : ((b.shared E q (b.overlapped E name ops script clk sched)).job k).isSome = true) :
    ((b.shared E q' (b.overlapped E name ops script clk (sched ++ later))).job k).isSome = true := by
  have S : Steady L (Executes ops) E.Encodable := by
    refine ⟨fun j j' h _ h2 h3 => L.congr j j' (by rw [h3]) h2.symm h, fun j h => ?_, hx, ?_, fun x f j r now o => hr x f j r now o⟩
    · obtain ⟨v, hv⟩ := Option.isSome_iff_exists.mp h
      exact L.decoded_enc v _ (L.roundtrip j v hv)
    · intro x j r now r' t _ h hj _ _ hat
      refine L.congr j _ ?_ rfl h
      simp only [hj, Option.map_some, (retry_times hat).2.1]
  have hf := overlap_fits (b := b) (name := name) (clk := clk) L S hsub hq sched
  have e : (b.overlapped E name ops script clk (sched ++ later)) =
      (b.overlapped E name ops script clk sched).run (Faulty b.B script) clk later := by
    unfold Impl.overlapped Many.run; rw [List.foldl_append]
  rw [e]
  unfold Impl.overlapped at h ⊢
  revert hf h
  generalize (Many.overlap (Faulty b.B script) E name ops (b.empty, 0)).run (Faulty b.B script) clk sched = m
  intro h hf
  change ((b.stored m.s.1 k).bind E.codec.dec).isSome = true at h
  change ((b.stored (m.run (Faulty b.B script) clk later).s.1 k).bind E.codec.dec).isSome = true
  clear e
  induction later generalizing m with
  | nil => exact h
  | cons i is ih => exact ih _ (hf.step L S.stored hq i) (readable_step L (fun _ h => h) hq hf i h)

end

/-! ## Concrete cases -/

namespace Demo
open AJ.Demo

/-- User code that counts up and fails. -/
def bump : Executable Int Unit where
  execute d _ := (d + 1, ())
  isFailedOutput _ _ := true

/-- The fourth call is carried out but its answer is lost. -/
def lostReply (n : Nat) : Fate := if n = 3 then { env := [], fault := .after } else { env := [], fault := .none }

/-- One process submits a job that may be retried once, and two processes of the same queue execute what they find. -/
def rivals (i : Bool) : List (Op Int Unit × Nat) :=
  if i then [(.enqueue (flaky ⟨0, some 1, .interval 0⟩) .newReRun, 0), (.tick, 3), (.start 0, 0), (.finish 0 bump, 0), (.tick, 3), (.start 0, 0),
    (.finish 0 bump, 0)]
  else [(.tick, 3), (.tick, 3), (.tick, 3), (.start 0, 0), (.finish 0 bump, 0), (.get c!"a", 0), (.tick, 3), (.start 0, 0), (.finish 0 bump, 0)]

/-- They take steps in turn. -/
def rivalry (b : Impl) (n : Nat) : Many Bool (Faulty b.B lostReply) fun _ => Proc Int × List (Resp Int) :=
  b.overlapped E (fun _ => c!"print") rivals lostReply (fun _ => clk) (List.replicate n [true, false]).flatten

def runs {B : Backend} (m : Many Bool B fun _ => Proc Int × List (Resp Int)) (i : Bool) : List Nat :=
  (m.log i).filterMap fun | .ran c => some c.runCount | _ => none

/-- Both execute the job twice, which makes four executions where the policy allows two; the job ends up with number 9 though
each execution added one to 7, twice in the list of failed jobs, and with one retry used of one. -/
example : runs (rivalry Impl.memory 50) true = [1, 2] ∧ runs (rivalry Impl.memory 50) false = [1, 2] ∧
    (Impl.memory.shared E c!"print" (rivalry Impl.memory 50)).lists .failed = [c!"a", c!"a"] ∧
    ((Impl.memory.shared E c!"print" (rivalry Impl.memory 50)).job c!"a").map (fun j => (j.data, j.context.retry.map (·.retriedTimes))) =
      some (9, some 1) := by
  decide +kernel

example : runs (rivalry Impl.redis 50) true = [1, 2] ∧ runs (rivalry Impl.redis 50) false = [1, 2] ∧
    (Impl.redis.shared E c!"print" (rivalry Impl.redis 50)).lists .failed = [c!"a", c!"a"] ∧
    ((Impl.redis.shared E c!"print" (rivalry Impl.redis 50)).job c!"a").map (fun j => (j.data, j.context.retry.map (·.retriedTimes))) =
      some (9, some 1) := by
  decide +kernel

/-- Both got through their turns, and the answer to `get_job` was the job with number 8. -/
example : ∃ q answers, (rivalry Impl.memory 50).Done false q answers ∧ answers.any (fun | .job (some j) => j.data == 8 | _ => false) = true := by
  have h : (match (rivalry Impl.memory 50).prog false with
      | .ret a => a.2.any (fun | .job (some j) => j.data == 8 | _ => false)
      | _ => false) = true := by decide +kernel
  cases hp : (rivalry Impl.memory 50).prog false with
  | ret a => rw [hp] at h; exact ⟨a.1, a.2, hp, h⟩
  | _ => rw [hp] at h; cases h

theorem lostReply_quiet (n : Nat) : (lostReply n).env = [] := by unfold lostReply; split <;> rfl

theorem rivals_submit {j : Job Int} (h : Submitted rivals j) : j = flaky ⟨0, some 1, .interval 0⟩ := by
  obtain ⟨cfg, i, n, h⟩ := h
  cases i <;> simp [rivals] at h
  exact h.1.1

theorem rivals_run {x : Executable Int Unit} (h : Executes rivals x) : x = bump := by
  obtain ⟨k, i, n, h⟩ := h
  cases i <;> simp only [rivals, if_true, Bool.false_eq_true, if_false, List.mem_cons, Prod.mk.injEq, Op.finish.injEq, reduceCtorEq, false_and,
    false_or, or_false, List.not_mem_nil] at h <;> rcases h with h | h <;> exact h.1.2

theorem rivals_data : (∀ j, Submitted rivals j → 7 ≤ j.data) ∧ (∀ x : Int, 7 ≤ x → 7 ≤ lawful.normD x) ∧
    ∀ x (j : Job Int), Executes rivals x → 7 ≤ j.data → 7 ≤ (WorkQueue.runUserCode x j).1.data := by
  refine ⟨fun j h => ?_, fun x h => h, fun x j hx h => ?_⟩
  · rw [rivals_submit h]; decide
  · rw [rivals_run hx]; exact Int.le_trans h (Int.le_add_one (Int.le_refl _))

/-- The number never falls below 7, at any moment of this or any other interleaving. -/
example (b : Impl) (sched : List Bool) (j : Job Int)
    (h : (b.shared E c!"print" (b.overlapped E (fun _ => c!"print") rivals lostReply (fun _ => clk) sched)).job c!"a" = some j) : 7 ≤ j.data :=
  ((C77_data (d := fun _ x => 7 ≤ x) lawful lostReply_quiet sched rivals_data.1 (fun _ => rivals_data.2.1) rivals_data.2.2).1 _ _ _ h).2

example : (∀ x, Executes rivals x → x.retryAt = none) ∧
    ∀ j r m, Submitted rivals j → j.context.retry = some r → r.maxRetries = some m → 0 ≤ r.retriedTimes ∧ r.retriedTimes ≤ m ∧ m < 2 ^ 31 := by
  refine ⟨fun x h => by rw [rivals_run h]; rfl, fun j r m h hr hm => ?_⟩
  rw [rivals_submit h] at hr
  cases hr; cases hm
  decide

theorem rivals_enc : (∀ j, Submitted rivals j → E.Encodable j) ∧
    (∀ x j, Executes rivals x → E.Encodable j → E.Encodable (WorkQueue.runUserCode x j).1) ∧
    ∀ x f (j : Job Int) r now o, Executes rivals x → E.Encodable j → j.context.retry = some r → x.retryAt = some f →
      E.Encodable { j with context := { j.context with retry := some (f j.data r o now).1 } } := by
  refine ⟨fun j h => ?_, fun x j hx h => ?_, fun x f j r now o hx _ _ hf => ?_⟩
  · rw [rivals_submit h]; decide +kernel
  · rw [rivals_run hx]
    unfold Env.Encodable at h ⊢
    change ((encJob data j).map _).isSome = true at h
    change ((encJob data _).map _).isSome = true
    rw [Option.isSome_map] at h ⊢
    unfold encJob at h ⊢
    change ((encContext j.context).bind _).isSome = true at h
    change ((encContext j.context).bind _).isSome = true
    cases hc : encContext j.context with
    | none => rw [hc] at h; cases h
    | some c => rfl
  · rw [rivals_run hx] at hf; cases hf

/-- From the fourth round on the job can be read, in this and all later moments of every interleaving that begins like this. -/
example (later : List Bool) :
    ((Impl.memory.shared E c!"print" (rivalry Impl.memory 3)).job c!"a").isSome = false ∧
    ((Impl.memory.shared E c!"print" (Impl.memory.overlapped E (fun _ => c!"print") rivals lostReply (fun _ => clk)
      ((List.replicate 4 [true, false]).flatten ++ later))).job c!"a").isSome = true :=
  ⟨by decide +kernel, C77_readable lawful lostReply_quiet _ rivals_enc.1 rivals_enc.2.1 rivals_enc.2.2 later c!"print" c!"print" c!"a" (by decide +kernel)⟩

end Demo
end AJ.Props
