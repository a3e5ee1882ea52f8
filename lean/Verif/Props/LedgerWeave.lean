import Verif.Props.Ledger
import Verif.Proofs.ProcessJobs

/-!
# The lists of the jobs that are done, in a process (C94)

The theorems of C94 for every work queue of a whole process, whose work queues interleave call by call, between its turns.
-/

namespace AJ.Props

section
variable {D O : Type} {E : Nat → Env D} {clk : Nat → Nat → Time} {kind : Str → Nat} {ops : List (WeaveOp D O)}

/-- C94, in a process: between its turns every work queue has an empty list of Canceled jobs; a job is in its lists of Finished and Failed jobs at most as often
as the work queue announced it, and exactly as often if no client retries it. -/
theorem C94_process_lists (b : Impl) (L : ∀ ty, (E ty).Lawful) (hops : ∀ c req, .site (.begin c req) ∈ ops → req.On kind) :
    let f := (Weave.init b.B fun _ => b.empty).run E b.B clk ops
    f.site.hub.engines.length ≤ 1 → ∀ (q : Nat) (a : QueueActor), f.site.hub.queues[q]? = some a → f.inside q = none →
      let v := f.site.snap b E q a
      v.lists .canceled = [] ∧ ∀ k st, st = .finished ∨ st = .failed → (v.lists st).count k ≤ (v.sent k).count st ∧
        ((∀ d ty, .site (.begin d (.retry ty k)) ∉ ops) → (v.lists st).count k = (v.sent k).count st) := by
  intro f h1 q a ha hi v
  obtain ⟨s, hr, hA⟩ := process_reach (P := fun _ => True) b L hops h1 q a ha hi (fun _ _ _ => trivial) fun _ _ _ _ _ _ => trivial
  have hsent : ∀ {v v' : Snap D} {K : Str → Prop} (k : Str), v.Alike K v' → v.sent k = v'.sent k := fun k h => by
    unfold Snap.sent Snap.mine; rw [h.log]
  have hl : v.lists = _ := hA.lists
  refine ⟨by rw [hl]; exact C94_canceled (L a.ty) hr, fun k st hst => ⟨by rw [hl, hsent k hA]; exact C94_bound (L a.ty) hr hst, fun hre => ?_⟩⟩
  obtain ⟨s', hr', hA'⟩ := process_reach (P := fun op => op ≠ .retry k) b L hops h1 q a ha hi (fun op _ ho e => by subst e; exact ho)
    (fun d req op hm hs _ e => by
      subst e
      rcases hs with hs | ⟨_, _, _, _, _, _, -, hs⟩
      · cases req <;> cases hs
        exact hre _ _ hm
      · cases hs)
  have hl' : v.lists = _ := hA'.lists
  rw [hl', hsent k hA']
  exact C94_announced (L a.ty) hr' hst

/-- C94, in a process: between the turns of its work queue, a Finished job is in the list of the Finished jobs and a Failed job in that of the Failed jobs.
Asked is that all submissions of the job can be serialised, are Queued, and replace stored data only if they also run again a job that is done; that no
job of its type is updated; and that the user code leaves it serialisable. -/
theorem C94_process_listed (b : Impl) (L : ∀ ty, (E ty).Lawful) (hops : ∀ c req, .site (.begin c req) ∈ ops → req.On kind) (k : Str)
    (hsub : ∀ d ty nm job cfg, .site (.begin d (.submit ty nm job cfg)) ∈ ops → job.id = k →
      (E ty).Encodable job ∧ job.context.jobStatus = .queued ∧ (cfg.overrideData = true → cfg.reRun = true))
    (hupd : ∀ d nm id data x, .site (.begin d (.update (kind k) nm id data x)) ∉ ops)
    (hcode : ∀ q i x, .site (.turn q (.finish i x)) ∈ ops → ∀ job, job.id = k → (E (kind k)).Encodable job → x.Serialisable (E (kind k)) job) :
    let f := (Weave.init b.B fun _ => b.empty).run E b.B clk ops
    f.site.hub.engines.length ≤ 1 → ∀ (q : Nat) (a : QueueActor), f.site.hub.queues[q]? = some a → f.inside q = none → kind k = a.ty →
      ∀ st, st = .finished ∨ st = .failed → (f.site.snap b E q a).status k = some st → k ∈ (f.site.snap b E q a).lists st := by
  intro f h1 q a ha hi hk st hst h
  have hown : ∀ (op : Op D O), .site (.turn q op) ∈ ops → op.Own → Neat (E a.ty) k op := fun op hm ho => by
    cases op with
    | enqueue => exact ho.elim
    | finish i x => intro job; rw [← hk]; exact hcode q i x hm job
    | _ => trivial
  have hreq : ∀ (d : Nat) (req : Req D) (op : Op D O), .site (.begin d req) ∈ ops → req.Sends op → req.call.ty? = some a.ty →
      Neat (E a.ty) k op := fun d req op hm hs hty => by
    rcases hs with hs | ⟨ty, n, id, data, x, j, rfl, rfl⟩
    · cases req with
      | submit ty nm job cfg =>
        cases hs
        intro hid
        cases hty
        exact hsub d _ nm job cfg hm hid
      | _ => cases hs <;> trivial
    · cases hty
      rw [← hk] at hm
      exact (hupd _ _ _ _ _ hm).elim
  obtain ⟨s, hr, hA⟩ := process_reach b L hops h1 q a ha hi hown hreq
  have hr' := (Neat.reach (L a.ty) (fun _ h => h) hr).mono fun _ _ h => h.1
  rw [hA.lists]
  refine C94_listed (L a.ty) hr' hst ?_
  unfold Snap.status at h ⊢
  rw [← hA.job k hk]
  exact h

end

open Demo

/-- A check of a request: no retry, no update of a job of type `5`, and a submission as `C94_process_listed` asks for. -/
def plainReq : SiteOp Int Unit → Bool
  | .begin _ (.retry _ _) => false
  | .begin _ (.update ty _ _ _ _) => ty != 5
  | .begin _ (.submit _ _ job cfg) => decide (E.Encodable job) && decide (job.context.jobStatus = .queued) && cfg.reRun
  | _ => true

theorem slow_begin {c : Nat} {req : Req Int} (h : .site (.begin c req) ∈ slow) : plainReq (.begin c req) = true :=
  List.all_eq_true.1 (show busy.all plainReq = true by decide +kernel) _ (mem_drawn h)

theorem slow_finish {q i : Nat} {x : Executable Int Unit} (h : .site (.turn q (.finish i x)) ∈ slow) : x = good := by
  have h : SiteOp.turn q (.finish i x) ∈ busy := mem_drawn h
  simp only [busy, List.mem_cons, SiteOp.turn.injEq, Op.finish.injEq, reduceCtorEq, List.not_mem_nil, or_false, false_or, and_false] at h
  exact h.2.2

theorem slow_status : ((weave .memory slow).site.snap .memory (fun _ => E) 0 printer).status c!"b" = some .finished := by decide +kernel
theorem slow_sent : (((weave .memory slow).site.snap .memory (fun _ => E) 0 printer).sent c!"b").count .finished = 1 := by decide +kernel

attribute [local irreducible] slow

/-- `C94_process_lists` applies: job `b` is in the list of the Finished jobs once, as often as its work queue announced it. -/
example : (((weave .memory slow).site.snap .memory (fun _ => E) 0 printer).lists .finished).count c!"b" = 1 := by
  have h1 := slow_engines .memory
  have h2 := slow_printer .memory
  have h3 := slow_idle
  have h := C94_process_lists (E := fun _ => E) (clk := fun _ => clk) .memory (fun _ => lawful) slow_on h1 0 printer h2 h3
  have h := (h.2 c!"b" .finished (.inl rfl)).2 (fun d ty hm => nomatch slow_begin hm)
  have h4 := slow_sent
  rw [show ((Weave.init Impl.memory.B fun _ => Impl.memory.empty).run (fun _ => E) Impl.memory.B (fun _ => clk) slow) = weave .memory slow from rfl, h4] at h
  exact h

/-- `C94_process_listed` applies: job `b` is Finished, so it is in the list. -/
example : c!"b" ∈ ((weave .memory slow).site.snap .memory (fun _ => E) 0 printer).lists .finished := by
  have h1 := slow_engines .memory
  have h2 := slow_printer .memory
  have h3 := slow_idle
  have h4 := slow_status
  refine C94_process_listed (E := fun _ => E) (clk := fun _ => clk) (kind := kindOf) .memory (fun _ => lawful) slow_on c!"b" (fun d ty nm job cfg hm _ => ?_)
    (fun d nm id data x hm => nomatch slow_begin hm) (fun q i x hm job _ hj => ?_) h1 0 printer h2 h3 rfl _ (.inl rfl) h4
  · have g := slow_begin hm
    simp only [plainReq, Bool.and_eq_true, decide_eq_true_eq] at g
    exact ⟨g.1.1, g.1.2, fun _ => g.2⟩
  · rw [slow_finish hm]
    exact serialisable hj rfl

end AJ.Props
