import Verif.Proofs.Fair
import Verif.Props.Grant

/-!
# Work queues that are treated fairly serve every job (C89)

The theorems of C86 and C88 assume that ticks find free capacity. Here that is proved, from fair treatment of the work queue.
-/

namespace AJ.Props

section
variable {D O : Type} {E : Nat → Env D} {clk : Nat → Nat → Time} {N : Nat → Str} {kind : Str → Nat}

/-- C89: in a process whose engine was started by one client alone, whose work queues interleave call by call and whose ticks make the
calls of the code alone, on any backend: if all executions of a work queue end, then its ticks find free capacity again and again, however
many jobs there are and whatever their code does. So a work queue that is treated fairly serves the job. -/
theorem C89_serves (hN : ∀ a b, N a = N b → a = b) (b : Impl) (L : ∀ ty, (E ty).Lawful) (c0 b0 : Nat) (ops : Nat → WeaveOp D O × Nat) :
    let s := (Weave.init b.B fun _ => b.empty).run E b.B clk ((Site.starting c0 b0).map .site)
    let φ := Weave.afterIn E b.B clk s ops
    let ψ := fun n => (ops n).1
    (∀ n, (φ n).Ample E b (ops n)) → (∀ n o, ψ n = .site o → o.Polite N (φ n).site) → (∀ n d req, ψ n = .site (.begin d req) → req.On kind) →
    ∀ m q a k, (φ m).site.hub.queues[q]? = some a → Weave.FairOn b E k 0 q a φ ψ → Weave.ServesOn b E k q a φ ψ := by
  intro s φ ψ hr hp hon m q a k ha H
  obtain ⟨hist, idx, h⟩ := longer (kind := kind) hN b L c0 b0 ops hr hp hon
  obtain ⟨ho, hEnd, -, -⟩ := started_site (O := O) (E := E) (clk := clk) (kind := kind) (N := N) L c0 b0 []
  obtain ⟨g4, h0, hP⟩ := started_woven (O := O) (E := E) (clk := clk) (kind := kind) L c0 b0
  have hs : turnsOf q ((Site.init SpecB fun _ => Spec.empty : Site D O SpecB).run E SpecB clk (Site.starting c0 b0)).trace = [] := by
    refine (hEnd.alone.fresh q ?_).2.2.2
    rw [starting_hub, started]
    exact Nat.zero_le _
  generalize (Site.init SpecB fun _ => Spec.empty).run E SpecB clk (Site.starting c0 b0) = t at *
  generalize (Weave.init SpecB fun _ => Spec.empty).run E SpecB clk ((Site.starting c0 b0).map .site) = f at *
  have hA := fun n => Weave.pair_after (ops := hist) hN L hP (by rw [g4]; exact ho)
    (fun m o hm => by
      obtain ⟨n, rfl, e⟩ := h.said hm
      exact (h.polite n o).1 (hp n o e))
    (fun m d req hm => by
      obtain ⟨n, rfl, e⟩ := h.said hm
      exact hon n d req e) n
  have ha' : (Weave.after E SpecB clk f hist (idx m)).site.hub.queues[q]? = some a := by rw [← (h.site m).hub]; exact ha
  refine h.serves_back ((h.fair H).serves (fun n => (hA n).1) h0 (fun n => ?_) ha' L (fun i j h => by cases h) (Nat.zero_le _) hs)
  obtain ⟨h1, G, h2⟩ := hA n
  rw [← h1.serial.face.hub, h2.engines]
  simp

/-- A job that is offered to work queues that are treated fairly gets its chance. -/
theorem C89_chance (hN : ∀ a b, N a = N b → a = b) (b : Impl) (L : ∀ ty, (E ty).Lawful) (c0 b0 : Nat) (ops : Nat → WeaveOp D O × Nat) (c ty : Nat)
    (nm : Str) (job : Job D) (cfg : EnqueueConfig) (n0 : Nat) :
    let s := (Weave.init b.B fun _ => b.empty).run E b.B clk ((Site.starting c0 b0).map .site)
    let φ := Weave.afterIn E b.B clk s ops
    let ψ := fun n => (ops n).1
    (∀ n, (φ n).Ample E b (ops n)) → Weave.OfferOn b E kind N c ty nm job cfg n0 φ ψ → Weave.ChanceOn b E kind N c ty nm job cfg n0 φ ψ := by
  intro s φ ψ hr H
  exact ⟨H.polite, H.on, H.call, H.free, H.sole, H.moves, fun n q a h1 h2 =>
    C89_serves hN b L c0 b0 ops hr H.polite H.on n q a job.id h1 (H.fair n q a h1 h2)⟩

/-- C89: in such a process a job that one request submits and no other request touches, and that is not a cron job, with a bounded
number of retries or without retry policy, reaches Finished or Failed, if time passes, nobody stands still and the work queues of its
type are treated fairly.

Missing: as in `C85_ends_partial`. -/
theorem C89_ends_partial (hN : ∀ a b, N a = N b → a = b) (b : Impl) (L : ∀ ty, (E ty).Lawful) (c0 b0 : Nat) (ops : Nat → WeaveOp D O × Nat) (c ty : Nat)
    (nm : Str) (job : Job D) (cfg : EnqueueConfig) (n0 : Nat) :
    let s := (Weave.init b.B fun _ => b.empty).run E b.B clk ((Site.starting c0 b0).map .site)
    let φ := Weave.afterIn E b.B clk s ops
    let ψ := fun n => (ops n).1
    (∀ n, (φ n).Ample E b (ops n)) → Weave.OfferOn b E kind N c ty nm job cfg n0 φ ψ → (∀ q, Elapses (clk q)) → (E ty).Encodable job → NonCron job →
    (∀ r, job.context.retry = some r → IsI32 r.retriedTimes ∧ ∃ n, r.maxRetries = some n ∧ IsI32 n) →
    ((∀ q a, a.ty = ty → Weave.EachRunOn b E job.id q a φ ψ fun x _ => x.retryAt = none) ∨ job.context.retry = none) →
    ∃ n q a, n0 < n ∧ (φ n).site.hub.queues[q]? = some a ∧ a.ty = ty ∧ a.name = nm ∧ ((φ n).site.snap b E q a).Ended job.id :=
  fun hr H => C88_ends_partial hN b L c0 b0 ops c ty nm job cfg n0 hr (C89_chance hN b L c0 b0 ops c ty nm job cfg n0 hr H)

/-- C89, cron jobs: in the same setting, a cron job without limit and without end runs any number of times, if its expression is valid
and none of its runs is retried.

Missing: as in `C85_ends_partial`. -/
theorem C89_forever_partial (hN : ∀ a b, N a = N b → a = b) (b : Impl) (L : ∀ ty, (E ty).Lawful) (c0 b0 : Nat) (ops : Nat → WeaveOp D O × Nat)
    (c ty : Nat) (nm : Str) (job : Job D) (cfg : EnqueueConfig) (n0 : Nat) (e : Str) (at_ : Time) (t : Int) (x : CronContext) (R : Nat) :
    let s := (Weave.init b.B fun _ => b.empty).run E b.B clk ((Site.starting c0 b0).map .site)
    let φ := Weave.afterIn E b.B clk s ops
    let ψ := fun n => (ops n).1
    (∀ n, (φ n).Ample E b (ops n)) → Weave.OfferOn b E kind N c ty nm job cfg n0 φ ψ → (∀ q, Elapses (clk q)) → (E ty).Encodable job →
    job.context.jobType = .cron e at_ t x → ((E ty).cron e).isSome = true → x.maxRepeat = none → x.endAt = none →
    ((∀ q a, a.ty = ty → Weave.EachRunOn b E job.id q a φ ψ fun x _ => x.retryAt = none) ∨ job.context.retry = none) →
    (∀ q a, a.ty = ty → Weave.EachRunOn b E job.id q a φ ψ Unretried) →
    ∃ n q a, n0 < n ∧ (φ n).site.hub.queues[q]? = some a ∧ a.ty = ty ∧ a.name = nm ∧ R ≤ (((φ n).site.snap b E q a).runs job.id).length :=
  fun hr H => C88_forever_partial hN b L c0 b0 ops c ty nm job cfg n0 e at_ t x R hr (C89_chance hN b L c0 b0 ops c ty nm job cfg n0 hr H)

/-- C89, cron jobs with a limit: in the same setting, a cron job with `max_repeat = M` runs at least as often as it should.

Missing: as in `C85_ends_partial`. -/
theorem C89_max_repeat_partial (hN : ∀ a b, N a = N b → a = b) (b : Impl) (L : ∀ ty, (E ty).Lawful) (c0 b0 : Nat) (ops : Nat → WeaveOp D O × Nat)
    (c ty : Nat) (nm : Str) (job : Job D) (cfg : EnqueueConfig) (n0 : Nat) (e : Str) (at_ : Time) (t M : Int) (x : CronContext) :
    let s := (Weave.init b.B fun _ => b.empty).run E b.B clk ((Site.starting c0 b0).map .site)
    let φ := Weave.afterIn E b.B clk s ops
    let ψ := fun n => (ops n).1
    (∀ n, (φ n).Ample E b (ops n)) → Weave.OfferOn b E kind N c ty nm job cfg n0 φ ψ → (∀ q, Elapses (clk q)) → (E ty).Encodable job →
    job.context.jobType = .cron e at_ t x → ((E ty).cron e).isSome = true → x.maxRepeat = some M → x.endAt = none → IsI32 t → IsI32 (M + 1) →
    ((∀ q a, a.ty = ty → Weave.EachRunOn b E job.id q a φ ψ fun x _ => x.retryAt = none) ∨ job.context.retry = none) →
    (∀ q a, a.ty = ty → Weave.EachRunOn b E job.id q a φ ψ Unretried) →
    ∃ n q a, n0 < n ∧ (φ n).site.hub.queues[q]? = some a ∧ a.ty = ty ∧ a.name = nm ∧
      (M + 1 - t).toNat ≤ (((φ n).site.snap b E q a).runs job.id).length :=
  fun hr H => C88_max_repeat_partial hN b L c0 b0 ops c ty nm job cfg n0 e at_ t M x hr (C89_chance hN b L c0 b0 ops c ty nm job cfg n0 hr H)

end

/-! ## The endless histories of C86 and C88 are fair -/

section
open Demo

/-- What is checked of a step: a tick finds more than `lost` capacity. -/
def wide (lost : Nat) (g : Weave Int Unit SpecB) (o : WeaveOp Int Unit) : Bool :=
  !g.ticks 0 o || decide (lost < (g.site.snap .spec (fun _ => E) 0 printer).cfg.maxProcessingJobs)

section
variable {f : Weave Int Unit SpecB} {pro : List (WeaveOp Int Unit)} {s0 : SpecState}

local notation "φ" n:max => Weave.after (fun _ => E) SpecB (fun _ => clk) f (lasting f pro) n

theorem lasting_fair {k : Str} (ht : Weave.Tidy f) (h0 : ∀ q, f.inside q = none)
    (hs : (sofar f pro pro.length).inside 0 = none ∧ Steady s0 0 (sofar f pro pro.length).site)
    (ha : ∀ n, (φ n).site.hub.queues = [printer] → Alike s0 (φ n)) (H : Weave.Serves .spec (fun _ => E) (fun _ => clk) k 0 printer f (lasting f pro))
    (hroom : ((List.range pro.length).all fun n => wide 0 (sofar f pro n) ((pro[n]?).getD (.go 0))) = true) :
    Weave.FairOn .spec (fun _ => E) k 0 0 printer (Weave.after (fun _ => E) SpecB (fun _ => clk) f (lasting f pro)) (lasting f pro) := by
  refine ⟨H.code, ⟨fun n id _ => ?_, fun m => ?_, fun n hn => ?_⟩, H.short⟩
  · obtain ⟨m, k1, k2, k3, hst⟩ := lasting_takes ht h0 hs (7 * n)
    refine ⟨pro.length + m, by omega, fun hk => ?_⟩
    have hk : id ∈ ((φ (pro.length + m)).site.snap .spec (fun _ => E) 0 printer).inFlight := hk
    unfold Snap.inFlight at hk
    rw [(ha _ hst.queues).1] at hk
    have hw := hst.work
    rw [show 7 * n % 7 = 0 by omega] at hw
    obtain ⟨_, _, _, ⟨ht, _⟩ | ⟨_, h0, _⟩⟩ := hw
    · have ht : (Impl.spec.snap E c!"print" ((φ (pro.length + m)).site.played s0)).tasks = [] := ht
      rw [ht] at hk
      cases hk
    · exact absurd rfl h0
  · obtain ⟨n, h1, h2, h3, -⟩ := H.ticks m
    exact ⟨n, h1, h2, h3⟩
  · by_cases h : n < pro.length
    · have := List.all_eq_true.1 hroom n (List.mem_range.2 h)
      rw [lasting_some (f := f) h, ← lasting_early (Nat.le_of_lt h)] at this
      have hn : (φ n).ticks 0 (lasting f pro n) = true := hn
      simpa [wide, hn] using this
    · obtain ⟨m, rfl⟩ : ∃ m, n = pro.length + m := ⟨n - pro.length, by omega⟩
      have hi := Weave.ticks_idle hn
      have hst : ∃ p, Steady s0 p (φ (pro.length + m)).site := by
        have hi : (φ (pro.length + m)).inside 0 = none := hi
        rw [lasting_course] at hi ⊢
        rcases going ht hs m with ⟨-, g⟩ | ⟨y, _, _, g, -⟩
        · exact ⟨_, g⟩
        · rw [hi] at g; cases g
      obtain ⟨p, hst⟩ := hst
      obtain ⟨-, e2, -⟩ := (ha _ hst.queues).2 hi
      show 0 < ((φ (pro.length + m)).site.snap .spec (fun _ => E) 0 printer).cfg.maxProcessingJobs
      rw [e2]
      obtain ⟨_, _, hc, _⟩ := hst.work
      exact Nat.lt_of_lt_of_eq Nat.zero_lt_one hc.symm

end

variable {J : Job Int} {x : Executable Int Unit}

/-- What is checked of the first 89 steps. -/
abbrev Just (J : Job Int) (x : Executable Int Unit) : Prop :=
  ((List.range (hall J x).length).all fun n => wide 0 (sofar openedW (hall J x) n) (((hall J x)[n]?).getD (.go 0))) = true

theorem woven_offer (H : Enters J x) (hJ : Just J x) (b : Impl) {m : Nat} (hm : m = 12) :
    Weave.OfferOn b (fun _ => E) (fun _ => 5) signs 2 5 c!"print" J .newReRun m
      (Weave.afterIn (fun _ => E) b.B (fun _ => clk) (openedWeave b) (wovenIn J x)) fun n => (wovenIn J x n).1 := by
  obtain ⟨h1, h2, h3, h4, h5, h6, -⟩ := woven_in_chance H b hm
  refine ⟨h1, h2, h3, h4, h5, h6, fun n q a hq _ => ?_⟩
  have h := (woven_in H b).2
  rw [(h.site n).hub] at hq
  obtain ⟨rfl, rfl⟩ := woven_queues H hq
  exact h.fair_back (lasting_fair openedW_pair.2.2.tidy openedW_pair.2.1 (woven_steady H) (woven_snap H) (H.id ▸ woven_serves H) hJ)

theorem flaky_just : Just (flaky (.newIntervalRetry (some 2) nsPerSec)) bad := by decide +kernel
theorem seconds_just : Just (cronJob c!"* * * * * *" 3 {}) good := by decide +kernel
theorem two_just : Just (cronJob c!"* * * * * *" 3 { maxRepeat := some 2 }) good := by decide +kernel

/-- `C89_ends_partial` applies, on every backend: job `a` ends, although its first run fails. -/
example (b : Impl) : ∃ n q a, 12 < n ∧
    (Weave.afterIn (fun _ => E) b.B (fun _ => clk) (openedWeave b) (wovenIn (flaky (.newIntervalRetry (some 2) nsPerSec)) bad) n).site.hub.queues[q]? = some a ∧ a.ty = 5 ∧ a.name = c!"print" ∧
    ((Weave.afterIn (fun _ => E) b.B (fun _ => clk) (openedWeave b) (wovenIn (flaky (.newIntervalRetry (some 2) nsPerSec)) bad) n).site.snap b (fun _ => E) q a).Ended c!"a" := by
  refine C89_ends_partial signs_inj b (fun _ => lawful) 0 7 _ 2 5 c!"print" (flaky (.newIntervalRetry (some 2) nsPerSec)) .newReRun 12
    (woven_in flaky_enters b).1 (woven_offer flaky_enters flaky_just b rfl) (fun _ => clk_passes) (by decide +kernel) (by intro e n m c h; cases h) ?_ (.inl ?_)
  · intro r h
    cases h
    exact ⟨by constructor <;> decide, 2, rfl, by constructor <;> decide⟩
  · intro q a _ n i y orig j h _ _ _
    rcases wovenIn_finish h with rfl | rfl <;> rfl

/-- An every-second job runs a thousand times, on every backend. -/
example (b : Impl) : ∃ n q a, 12 < n ∧
    (Weave.afterIn (fun _ => E) b.B (fun _ => clk) (openedWeave b) (wovenIn (cronJob c!"* * * * * *" 3 {}) good) n).site.hub.queues[q]? = some a ∧
    a.ty = 5 ∧ a.name = c!"print" ∧
    1000 ≤ (((Weave.afterIn (fun _ => E) b.B (fun _ => clk) (openedWeave b) (wovenIn (cronJob c!"* * * * * *" 3 {}) good) n).site.snap b (fun _ => E) q
      a).runs c!"a").length := by
  refine C89_forever_partial signs_inj b (fun _ => lawful) 0 7 _ 2 5 c!"print" (cronJob c!"* * * * * *" 3 {}) .newReRun 12 c!"* * * * * *" _ 1 {} 1000
    (woven_in seconds_enters b).1 (woven_offer seconds_enters seconds_just b rfl) (fun _ => clk_passes) (by decide +kernel) rfl rfl rfl rfl (.inr rfl) ?_
  intro q a _ n i y orig j h _ _ _
  rcases wovenIn_finish h with rfl | rfl <;> exact .inl rfl

/-- One with `max_repeat = 2` runs twice. -/
example (b : Impl) : ∃ n q a, 12 < n ∧
    (Weave.afterIn (fun _ => E) b.B (fun _ => clk) (openedWeave b) (wovenIn (cronJob c!"* * * * * *" 3 { maxRepeat := some 2 }) good) n).site.hub.queues[q]? =
      some a ∧ a.ty = 5 ∧ a.name = c!"print" ∧
    2 ≤ (((Weave.afterIn (fun _ => E) b.B (fun _ => clk) (openedWeave b) (wovenIn (cronJob c!"* * * * * *" 3 { maxRepeat := some 2 }) good) n).site.snap b
      (fun _ => E) q a).runs c!"a").length := by
  refine C89_max_repeat_partial signs_inj b (fun _ => lawful) 0 7 _ 2 5 c!"print" (cronJob c!"* * * * * *" 3 { maxRepeat := some 2 }) .newReRun 12
    c!"* * * * * *" _ 1 2 { maxRepeat := some 2 } (woven_in two_enters b).1 (woven_offer two_enters two_just b rfl) (fun _ => clk_passes) (by decide +kernel)
    rfl rfl rfl rfl (by constructor <;> decide) (by constructor <;> decide) (.inr rfl) ?_
  intro q a _ n i y orig j h _ _ _
  rcases wovenIn_finish h with rfl | rfl <;> exact .inl rfl

end
end AJ.Props
