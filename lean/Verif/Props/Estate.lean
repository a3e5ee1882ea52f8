import Verif.Proofs.EstateWeave
import Verif.Props.DrainWeave
import Verif.Props.Slots

/-!
# Processes that take over what others have left come to rest (C93)

C91 and C92 let work queues come to rest that have begun with nothing. Here a work queue begins on what others have left when they died: jobs
that wait, and jobs that have gone astray (they are in no list of waiting jobs, and their entries in the running list take up capacity). The
first come to an end; the second stay as they are, for ever.
-/

namespace AJ.Props

section
variable {D O : Type} {b : Impl} {E : Env D} {name : Str} {clk : Nat → Time} {k : Str} {s : Sys D b.B} {ops : Nat → Op D O}

/-- C93: a work queue alone, on what others have left, where every queued id is that of a waiting job: once nobody submits or retries jobs, it comes to rest
if it has capacity for one more job than there are entries left in the running list. Every job that waited is Finished, Failed or Canceled (Finished or
Failed if nobody cancels it); and the running list has the entries it had in the beginning. -/
theorem C93_alone (L : E.Lawful) (hg : b.Good s.w.s) (hk : (b.snap E name s).Keyed) (ht : s.tasks = [])
    (h1 : ∀ n j c, ops n ≠ .enqueue j c) (h2 : ∀ n id, ops n ≠ .retry id) (h3 : ∀ n id, (b.snap E name s).Astray id → ops n ≠ .cancel id)
    (hc : ∀ n, Careful E (b.snap E name (Sys.after E name b.B clk s ops n)) (ops n))
    (hR : Sys.Roomy b E name clk ((b.snap E name s).lists .running).length s ops)
    (hsm : ((b.snap E name s).lists .queued).length + ((b.snap E name s).lists .running).length < 2 ^ 31) (hclk : Elapses clk)
    (hw : ∀ k ∈ (b.snap E name s).lists .queued, ∃ job, (b.snap E name s).Waiting k job ∧ NonCron job ∧
      (∀ r, job.context.retry = some r → IsI32 r.retriedTimes ∧ ∃ n, r.maxRetries = some n ∧ IsI32 n) ∧
      ((∀ n, DefaultRetry k (b.snap E name (Sys.after E name b.B clk s ops n)) (ops n)) ∨ job.context.retry = none)) :
    ∃ N, ∀ n, N ≤ n →
      let v := b.snap E name (Sys.after E name b.B clk s ops n)
      v.lists .queued = [] ∧ (v.lists .running).Perm ((b.snap E name s).lists .running) ∧ v.tasks = [] ∧
      (∀ k, (b.snap E name s).Astray k → v.job k = (b.snap E name s).job k) ∧
      ∀ k ∈ (b.snap E name s).lists .queued, (v.Ended k ∨ v.status k = some .canceled) ∧ ((∀ m, ops m ≠ .cancel k) → v.Ended k) := by
  have hown : ∀ k, (b.snap E name s).own k = [] := fun k => by
    show s.tasks.filter _ = []
    rw [ht]; rfl
  have htid : (b.snap E name s).Tidy := ⟨hk, fun t h => (by
    have h : t ∈ s.tasks := h
    rw [ht] at h
    cases h), fun _ => ht⟩
  have hA := estate_found (v0 := b.snap E name s) (K := fun _ => True) htid hown rfl (fun _ _ => rfl) (fun _ _ _ => trivial)
    fun k hk => (hw k hk).imp fun _ h => h.1
  have key : ∀ k, ¬ (¬ True ∨ (b.snap E name s).Astray k) ↔ ¬ (b.snap E name s).Astray k := fun k => by simp
  have H : Sys.Heirs b E name clk (fun k => ¬ True ∨ (b.snap E name s).Astray k) ((b.snap E name s).lists .running) s ops :=
    ⟨hg, hA, h1, h2, fun n k hk => ⟨fun j c e _ => h1 n j c e, h3 n k (hk.resolve_left (by simp)), h2 n k⟩, hc, hR, by
      have : (b.snap E name s).inFlight = [] := by
        show s.tasks.map _ = []
        rw [ht]; rfl
      rw [this]
      exact hsm⟩
  have hlist : ∀ k job, ¬ (b.snap E name s).Astray k → (b.snap E name s).job k = some job →
      job.context.jobStatus = .queued ∨ job.context.jobStatus = .running → k ∈ (b.snap E name s).lists .queued := by
    intro k job hA hj hst
    by_contra hq
    refine hA ⟨hq, ?_⟩
    rw [status_of hj]
    rcases hst with h | h <;> rw [h] <;> simp
  obtain ⟨N, h⟩ := H.rests L hclk fun k job hA hj hst => by
    obtain ⟨job', h1, h2, h3, h4⟩ := hw k (hlist k job ((key k).1 hA) hj hst)
    cases hj.symm.trans h1.job
    exact ⟨h2, h3, h4.imp (fun h n => (h n).mild) id⟩
  refine ⟨N, fun n hn => ?_⟩
  obtain ⟨r1, r2, r3, r4⟩ := h n hn
  refine ⟨r1, r2, r3, fun k hk => estate_kept L hg hA hc (fun n => H.about n) n (.inr hk), fun k hk => ?_⟩
  obtain ⟨job, hw, -⟩ := hw k hk
  have hst : (b.snap E name s).status k = some .queued := by rw [status_of hw.job, hw.status]
  obtain ⟨⟨g1, g2⟩, g3, g4⟩ := r4 k ((key k).2 fun h => h.1 hk)
  have e0 : Sys.after E name b.B clk s ops 0 = s := rfl
  rw [e0, hst] at g3 g4
  have g3 := g3 (by simp)
  have g4 := fun h => g4 ⟨h, by simp⟩
  generalize b.snap E name (Sys.after E name b.B clk s ops n) = v at *
  have g5 : v.Ended k ∨ v.status k = some .canceled := by
    unfold Snap.Ended
    clear r1 r2 r3 r4 g4
    generalize v.status k = w at *
    rcases w with _ | _ | _ | _ | _ | _
    · exact absurd rfl g3
    · exact absurd rfl g1
    · exact absurd rfl g2
    · exact .inl (.inl rfl)
    · exact .inl (.inr rfl)
    · exact .inr rfl
  exact ⟨g5, fun h => g5.resolve_right (g4 h)⟩

end

section
variable {D O : Type} {E : Nat → Env D} {clk : Nat → Nat → Time} {N : Nat → Str} {kind : Str → Nat}
variable (hN : ∀ a b, N a = N b → a = b) (b : Impl) (L : ∀ ty, (E ty).Lawful) (before : List (BootIn D O)) (hfit : ∀ l ∈ before, l.Fit kind N)
  (h1 : BootIn.Lone E b.B (fun _ => b.empty) before) (ha : BootIn.Ample E b (fun _ => b.empty) before)
  (ops : Nat → WeaveOp D O × Nat)
include hN L hfit h1 ha

/-- What is proved of both theorems at once. -/
private theorem inherited :
    let s := BootIn.leave E b.B (fun _ => b.empty) before
    let φ := Weave.afterIn E b.B clk (Weave.init b.B s : Weave D O b.B) ops
    let ψ := fun n => (ops n).1
    (∀ n, (φ n).Ample E b (ops n)) → (∀ n d req, ψ n = .site (.begin d req) → req.On kind ∧ req.Named N) →
    (∀ n, (φ n).site.hub.engines.length ≤ 1) →
    ∀ n0 m q a, (φ m).site.hub.queues[q]? = some a → Elapses (clk q) →
    let v0 := Boot.found E b (s a.backend) a.ty (N a.ty)
    v0.InOrder → Weave.HeirsOn b E kind v0 n0 q a φ ψ →
    ∃ n1, ∀ n, n1 ≤ n → (φ n).inside q = none →
      let v := (φ n).site.snap b E q a
      v.lists .queued = [] ∧ (v.lists .running).Perm (v0.lists .running) ∧ v.tasks = [] ∧
      (∀ k, kind k = a.ty → v0.Astray k → v.job k = v0.job k) ∧
      ∀ k, (kind k = a.ty ∧ ¬ v0.Astray k ∧ (v0.status k ≠ none ∨
            ∃ i, i ≤ n ∧ (φ i).site.hub.queues[q]? = some a ∧ (φ i).inside q = none ∧ ((φ i).site.snap b E q a).status k ≠ none) ∨
          ∃ d nm job cfg r, .ret d (.submit a.ty nm job cfg) (.answer r) ∈ (φ n).site.trace ∧ job.id = k) →
        (v.Ended k ∨ v.status k = some .canceled) ∧ ((∀ j d ty, ψ j ≠ .site (.begin d (.cancel ty k))) → v0.status k ≠ some .canceled → v.Ended k) := by
  intro s φ ψ hr hon hone n0 m q a hq hclk v0 hV H
  obtain ⟨before', g1, g2, g3, hist, idx, h⟩ := later_in hN L before hfit h1 ha ops hr hon hone
  obtain ⟨S, hok, hS⟩ := Boot.base_of (Boot.first L hN before' g1 g2)
  have e0 : v0 = _ := g3 a.backend a.ty (N a.ty)
  generalize Boot.leave E SpecB (fun _ => Spec.empty) before' = s' at *
  have hon' : ∀ m d req, hist m = .site (.begin d req) → req.On kind ∧ req.Named N := fun m d req e => by
    obtain ⟨n, -, e'⟩ := h.said e
    exact hon n d req e'
  have hone' : ∀ m, (Weave.after E SpecB clk (Weave.init SpecB s') hist m).site.hub.engines.length ≤ 1 := fun m => by
    obtain ⟨n, hs, -⟩ := h.back m
    rw [← hs.hub]; exact hone n
  have hnm := named_after (B := SpecB) (E := E) (clk := clk) (s := s') hon'
  have hA := Weave.pairFrom_after (ops := hist) L (Weave.pairFrom_init (O := O) (E := E) (clk := clk) fun a ha => (hS a ha).part)
    (fun m d req e => (hon' m d req e).1) hone' fun n a hm => (hok a).2 (hnm n a hm)
  have hq' : (Weave.after E SpecB clk (Weave.init SpecB s') hist (idx m)).site.hub.queues[q]? = some a := by rw [← (h.site m).hub]; exact hq
  have ha' : a.name = N a.ty := hnm (idx m) a (List.mem_of_getElem? hq')
  have hSa := hS a ((hok a).2 ha')
  have hp := Boot.found_part (E := E) hSa.part
  rw [ha', ← e0] at hp
  rw [← ha'] at hp
  obtain ⟨n1, hn1⟩ := (h.heirs H).rests hA (fun _ => rfl) (fun m => by rw [← (hA m).serial.face.hub]; exact hone' m) hq' L rfl hclk
    (fun _ _ _ _ => trivial) ⟨0, fun _ _ => rfl⟩ ((hok a).2 ha') (hSa.tidy L) hp.1 hp.2 hV
  have es : ∀ n, (φ n).site.snap b E q a = Site.snap Impl.spec E (Weave.after E SpecB clk (Weave.init SpecB s') hist (idx n)).site q a :=
    fun n => Site.snap_rel (h.site n) q a
  refine ⟨n1 + m, fun n hn hi => ?_⟩
  obtain ⟨r1, r2, r3, r5, r6, r4⟩ := hn1 (idx n) (Nat.le_trans (by omega) (h.le n)) ((h.none_iff n q).1 hi)
  simp only [es]
  refine ⟨r1, r2, r3, r6, fun k hk => ?_⟩
  have hk : kind k = a.ty ∧ ¬ v0.Astray k ∧ (Site.snap Impl.spec E (Weave.after E SpecB clk (Weave.init SpecB s') hist (idx n)).site q a).status k ≠ none := by
    rcases hk with ⟨hk, hk2, hst | ⟨i, hin, hqi, hii, hst⟩⟩ | ⟨d, nm, job, cfg, r, hret, rfl⟩
    · exact ⟨hk, hk2, (r4 k hk hk2).2.1 hst⟩
    · exact ⟨hk, hk2, (r4 k hk hk2).2.2.1 (idx i) (h.mono hin) (by rw [← (h.site i).hub]; exact hqi) ((h.none_iff i q).1 hii) hst⟩
    · have hret : .ret d (.submit a.ty nm job cfg) (.answer r) ∈ (φ n).site.trace := hret
      have hP := hA (idx n)
      rw [(h.site n).trace, hP.serial.face.trace] at hret
      obtain ⟨q', a', k1, k2, k3⟩ := Site.history_turn (hP.links.tale d).history (List.mem_filter.2 ⟨hret, by simp [SiteEvent.of]⟩)
      have k4 := (hP.single.queue q' a' k1).1
      have k5 := (hP.single.queue q a (by
        rw [← hP.serial.face.hub]
        exact Weave.after_queues (hA 0).tidy (h.mono (by omega)) hq')).1
      rw [k2, k5] at k4
      cases k4
      exact r5 (some d) job cfg r (by rw [hP.serial.face.trace]; exact (List.mem_filter.1 k3).1)
  obtain ⟨hk, hk2, u3⟩ := hk
  obtain ⟨⟨u1, u2⟩, -, -, u4⟩ := r4 k hk hk2
  have u4 : (∀ j d ty, ψ j ≠ .site (.begin d (.cancel ty k))) → _ := fun hc => u4 fun j d ty e => by
    obtain ⟨j', -, e'⟩ := h.said e
    exact hc j' d ty e'
  unfold Snap.Ended
  generalize (Site.snap Impl.spec E (Weave.after E SpecB clk (Weave.init SpecB s') hist (idx n)).site q a).status k = w at *
  cases w with
  | none => exact absurd rfl u3
  | some w => cases w with
    | queued => exact absurd rfl u1
    | running => exact absurd rfl u2
    | finished => exact ⟨.inl (.inl rfl), fun _ _ => .inl rfl⟩
    | failed => exact ⟨.inl (.inr rfl), fun _ _ => .inr rfl⟩
    | canceled => exact ⟨.inr rfl, fun hc h0 => absurd rfl (u4 hc h0)⟩

/-- C93: in a process that begins on what earlier processes have left, whose work queues interleave call by call and whose ticks make the
calls of the code alone, on any backend: if what a work queue finds is in order, and it is treated fairly, with more capacity than there are entries in the
running list it finds, then once nobody submits or retries jobs any more it comes to rest, and stays so. Nothing is queued and nothing executes. Every
job of its type that it found or ever knew, and that had not gone astray, is Finished, Failed or Canceled; those that no request cancels are Finished or
Failed. Jobs that had gone astray are as they were, and so is the running list, up to order. -/
theorem C93_takes_over :
    let s := BootIn.leave E b.B (fun _ => b.empty) before
    let φ := Weave.afterIn E b.B clk (Weave.init b.B s : Weave D O b.B) ops
    let ψ := fun n => (ops n).1
    (∀ n, (φ n).Ample E b (ops n)) → (∀ n d req, ψ n = .site (.begin d req) → req.On kind ∧ req.Named N) →
    (∀ n, (φ n).site.hub.engines.length ≤ 1) →
    ∀ n0 m q a, (φ m).site.hub.queues[q]? = some a → Elapses (clk q) →
    let v0 := Boot.found E b (s a.backend) a.ty (N a.ty)
    v0.InOrder → Weave.HeirsOn b E kind v0 n0 q a φ ψ →
    ∃ n1, ∀ n, n1 ≤ n → (φ n).inside q = none →
      let v := (φ n).site.snap b E q a
      v.lists .queued = [] ∧ (v.lists .running).Perm (v0.lists .running) ∧ v.tasks = [] ∧
      (∀ k, kind k = a.ty → v0.Astray k → v.job k = v0.job k) ∧
      ∀ k, kind k = a.ty → ¬ v0.Astray k → (v0.status k ≠ none ∨
          ∃ i, i ≤ n ∧ (φ i).site.hub.queues[q]? = some a ∧ (φ i).inside q = none ∧ ((φ i).site.snap b E q a).status k ≠ none) →
        (v.Ended k ∨ v.status k = some .canceled) ∧ ((∀ j d ty, ψ j ≠ .site (.begin d (.cancel ty k))) → v0.status k ≠ some .canceled → v.Ended k) := by
  intro s φ ψ hr hon hone n0 m q a hq hclk v0 hV H
  obtain ⟨n1, h⟩ := inherited hN b L before hfit h1 ha ops hr hon hone n0 m q a hq hclk hV H
  refine ⟨n1, fun n hn hi => ?_⟩
  obtain ⟨r1, r2, r3, r4, r5⟩ := h n hn hi
  exact ⟨r1, r2, r3, r4, fun k hk hk2 hst => r5 k (.inl ⟨hk, hk2, hst⟩)⟩

/-- C93, as clients see it: in the same setting, every `add_job` of the type of the work queue that has returned with an answer of the work queue has its
job end, however many places earlier processes have lost, as long as there is capacity for one more job. -/
theorem C93_submitted :
    let s := BootIn.leave E b.B (fun _ => b.empty) before
    let φ := Weave.afterIn E b.B clk (Weave.init b.B s : Weave D O b.B) ops
    let ψ := fun n => (ops n).1
    (∀ n, (φ n).Ample E b (ops n)) → (∀ n d req, ψ n = .site (.begin d req) → req.On kind ∧ req.Named N) →
    (∀ n, (φ n).site.hub.engines.length ≤ 1) →
    ∀ n0 m q a, (φ m).site.hub.queues[q]? = some a → Elapses (clk q) →
    let v0 := Boot.found E b (s a.backend) a.ty (N a.ty)
    v0.InOrder → Weave.HeirsOn b E kind v0 n0 q a φ ψ →
    ∃ n1, ∀ n, n1 ≤ n → (φ n).inside q = none → ∀ d nm job cfg r, .ret d (.submit a.ty nm job cfg) (.answer r) ∈ (φ n).site.trace →
      let v := (φ n).site.snap b E q a
      (v.Ended job.id ∨ v.status job.id = some .canceled) ∧
      ((∀ j d ty, ψ j ≠ .site (.begin d (.cancel ty job.id))) → v0.status job.id ≠ some .canceled → v.Ended job.id) := by
  intro s φ ψ hr hon hone n0 m q a hq hclk v0 hV H
  obtain ⟨n1, h⟩ := inherited hN b L before hfit h1 ha ops hr hon hone n0 m q a hq hclk hV H
  exact ⟨n1, fun n hn hi d nm job cfg r hret => (h n hn hi).2.2.2.2 job.id (.inr ⟨d, nm, job, cfg, r, hret, rfl⟩)⟩

end

/-! ## A work queue alone -/

section
open Demo

/-- A process executes `b`, one job at a time, while `c` waits; it dies. -/
def relay : List (Op Int Unit) := engaged ++ [.enqueue (job c!"c") .newReRun]

theorem relay_reach : Reach (O := Unit) Impl.memory E c!"print" clk (Careful E) (after relay) := fine.reach (by decide +kernel)

/-- The next process takes over. -/
def heirs : Nat → Op Int Unit
  | 1 => .start 0
  | 2 => .finish 0 good
  | _ => .tick

theorem heirs_after (s : Sys Int InMem) (n : Nat) : Sys.after E c!"print" InMem clk s heirs (3 + n) =
    Sys.after E c!"print" InMem clk (Sys.after E c!"print" InMem clk s heirs 3) (fun _ => (.tick : Op Int Unit)) n := by
  induction n with
  | zero => rfl
  | succ n ih =>
    have : heirs (3 + n) = .tick := by
      rw [Nat.add_comm]; rfl
    show (Sys.step E c!"print" InMem clk (Sys.after E c!"print" InMem clk s heirs (3 + n)) (heirs (3 + n))).1 = _
    rw [this, ih]
    rfl

theorem heirs_late : Idle (Sys.after E c!"print" InMem clk (nextOne 2 (after relay)) heirs 3) := by
  have h : ∀ n, Impl.memory.Good (Sys.after E c!"print" InMem clk (nextOne 2 (after relay)) heirs n).w.s ∧
      (Impl.memory.snap E c!"print" (Sys.after E c!"print" InMem clk (nextOne 2 (after relay)) heirs n)).Tidy := by
    intro n
    induction n with
    | zero => exact ⟨nextOne_good relay_reach, nextOne_keyed relay_reach, (fun t h => by cases h), fun _ => rfl⟩
    | succ n ih => exact ⟨good_step (b := Impl.memory) ih.1 _, tidy_step (b := Impl.memory) lawful ih.1 ih.2 _⟩
  exact ⟨(h 3).1, (h 3).2.keyed, by decide +kernel, by decide +kernel, by
    have : (Sys.after E c!"print" InMem clk (nextOne 2 (after relay)) heirs 3).tasks.isEmpty = true := by decide +kernel
    exact List.isEmpty_iff.1 this, by decide +kernel⟩

theorem heirs_idle {n : Nat} (hn : 3 ≤ n) : Idle (Sys.after E c!"print" InMem clk (nextOne 2 (after relay)) heirs n) := by
  rw [show n = 3 + (n - 3) by omega, heirs_after]
  exact idle_after heirs_late _

theorem heirs_roomy : Sys.Roomy (O := Unit) Impl.memory E c!"print" clk 1 (nextOne 2 (after relay)) heirs where
  ends n id _ := by
    refine ⟨n + 3, by omega, fun h => ?_⟩
    have h : id ∈ (Sys.after E c!"print" InMem clk (nextOne 2 (after relay)) heirs (n + 3)).tasks.map (·.orig.id) := h
    rw [(heirs_idle (by omega)).tasks] at h
    cases h
  ticks m := ⟨m + 3, by omega, rfl, (heirs_idle (by omega)).alive⟩
  capacity n _ := by
    show 1 < (Sys.after E c!"print" InMem clk (nextOne 2 (after relay)) heirs n).cfg.maxProcessingJobs
    match n with
    | 0 => decide +kernel
    | 1 => decide +kernel
    | 2 => decide +kernel
    | n + 3 => rw [(heirs_idle (by omega)).cap]; decide

theorem heirs_careful : Careful E (Impl.memory.snap E c!"print" (Sys.after E c!"print" InMem clk (nextOne 2 (after relay)) heirs 2)) (heirs 2) :=
  fine.careful (by decide +kernel)

/-- What the next process finds. -/
abbrev relayed : Snap Int := Impl.memory.snap E c!"print" (nextOne 2 (after relay))

theorem relayed_lists : relayed.lists .queued = [c!"c"] ∧ relayed.lists .running = [c!"b"] ∧ relayed.status c!"b" = some .running := by decide +kernel

def relayedJob : Job Int := (relayed.job c!"c").getD (job [])

/-- `C93_alone` applies: with room for two jobs, `c` ends, `b` stays Running for ever, and its entry takes up a place. -/
example : relayed.Astray c!"b" ∧ ∃ N, ∀ n, N ≤ n →
    let v := Impl.memory.snap E c!"print" (Sys.after E c!"print" InMem clk (nextOne 2 (after relay)) heirs n)
    v.lists .queued = [] ∧ v.lists .running = [c!"b"] ∧ v.tasks = [] ∧ v.Ended c!"c" ∧ v.status c!"b" = some .running := by
  have hb : relayed.Astray c!"b" := ⟨by rw [relayed_lists.1]; decide, .inr (.inl relayed_lists.2.2)⟩
  refine ⟨hb, ?_⟩
  have nc : ∀ n id, heirs n ≠ .cancel id := fun n id e => by
    unfold heirs at e
    split at e <;> cases e
  have hw : relayed.Waiting c!"c" relayedJob := by
    have h : (relayed.job c!"c").isSome = true := by decide +kernel
    refine ⟨?_, by decide +kernel, by rw [relayed_lists.1]; decide, by rw [relayed_lists.2.1]; decide⟩
    obtain ⟨j, hj⟩ := Option.isSome_iff_exists.1 h
    unfold relayedJob
    rw [hj]; rfl
  have hty : relayedJob.context.jobType = .normal ∧ relayedJob.context.retry = none := by decide +kernel
  obtain ⟨N, h⟩ := C93_alone (b := Impl.memory) (clk := clk) (ops := heirs) lawful (nextOne_good relay_reach) (nextOne_keyed relay_reach) rfl
    (fun n j c e => by unfold heirs at e; split at e <;> cases e) (fun n id e => by unfold heirs at e; split at e <;> cases e) (fun n id _ => nc n id)
    (fun n => by
      match n with
      | 0 => trivial
      | 1 => trivial
      | 2 => exact heirs_careful
      | n + 3 => trivial)
    (by rw [relayed_lists.2.1]; exact heirs_roomy) (by rw [relayed_lists.1, relayed_lists.2.1]; decide) clk_passes
    (fun k hk => by
      rw [relayed_lists.1, List.mem_singleton] at hk
      subst hk
      exact ⟨relayedJob, hw, (fun _ _ _ _ h => by rw [hty.1] at h; cases h), (fun r h => by rw [hty.2] at h; cases h), .inr hty.2⟩)
  refine ⟨N, fun n hn => ?_⟩
  obtain ⟨r1, r2, r3, r4, r5⟩ := h n hn
  rw [relayed_lists.2.1] at r2
  refine ⟨r1, List.perm_singleton.1 r2, r3, (r5 c!"c" (by rw [relayed_lists.1]; decide)).2 fun m => nc m _, ?_⟩
  exact (congrArg (Option.map fun j : Job Int => j.context.jobStatus) (r4 c!"b" hb)).trans relayed_lists.2.2

/-! ## A whole process -/

variable {J : Job Int} {x : Executable Int Unit}

/-- The ticks after the first 96 steps see at most 20 jobs. -/
theorem revived_small (H : Revives J x) {n : Nat} (hn : 96 ≤ n)
    (hi : (Weave.after (fun _ => E) SpecB (fun _ => clk) (begun J) (revived J x) n).inside 0 = none) :
    let v := (Weave.after (fun _ => E) SpecB (fun _ => clk) (begun J) (revived J x) n).site.snap .spec (fun _ => E) 0 printer
    (v.lists .queued).length + v.inFlight.length ≤ 20 := by
  obtain ⟨s0, g1, g2⟩ := revived_steady H
  obtain ⟨m, rfl⟩ : ∃ m, n = (reopened x).length + m := ⟨n - 96, by rw [reopened_length]; omega⟩
  have hst : ∃ p, Steady s0 p (Weave.after (fun _ => E) SpecB (fun _ => clk) (begun J) (revived J x) ((reopened x).length + m)).site := by
    unfold revived at hi ⊢
    rw [lasting_course] at hi ⊢
    rcases going begun_calm.1 g1 m with ⟨-, g⟩ | ⟨y, _, _, g, -⟩
    · exact ⟨_, g⟩
    · rw [hi] at g; cases g
  obtain ⟨p, hst⟩ := hst
  obtain ⟨e1, e2⟩ := g2 _ hst.queues
  obtain ⟨e2, -, -⟩ := e2 hi
  intro v
  unfold Snap.inFlight
  show (v.lists .queued).length + (v.tasks.map _).length ≤ 20
  rw [e1, e2]
  obtain ⟨-, -, -, ⟨ht, -, hq⟩ | ⟨j, -, ht, -, -, -, hq⟩⟩ := hst.work
  · rw [show (Impl.spec.snap E c!"print" (Site.played s0 _)).tasks = _ from ht]
    exact hq
  · rw [show (Impl.spec.snap E c!"print" (Site.played s0 _)).tasks = _ from ht]
    exact hq

theorem revived_serves_all (H : Revives J x) (k : Str) :
    Weave.Serves .spec (fun _ => E) (fun _ => clk) k 0 printer (begun J) (revived J x) := by
  obtain ⟨s0, g1, g2⟩ := revived_steady H
  refine lasting_serves begun_calm.1 begun_calm.2 g1 g2 (List.all_eq_true.2 fun n hn => ?_)
  have h1 := List.all_eq_true.1 H.turns n hn
  have h2 : (reopened x).all (fun o => match o with
    | .site (.turn _ (.enqueue ..)) => false
    | _ => true) = true := rfl
  cases e : (reopened x)[n]? with
  | none => rfl
  | some o =>
    have h2 := List.all_eq_true.1 h2 o (List.mem_of_getElem? e)
    rw [e] at h1
    cases o with
    | go q => rfl
    | site o => cases o with
      | turn q op => cases q with
        | zero => cases op with
          | enqueue j c => cases h2
          | _ => exact h1
        | succ q => rfl
      | _ => rfl

/-- What the process finds that begins after `accept`. -/
abbrev bequest (b : Impl) (J : Job Int) : Snap Int := Boot.found (fun _ => E) b (BootIn.leave (fun _ => E) b.B (fun _ => b.empty) [acceptIn J] 7) 5 c!"print"

theorem bequest_eq (b : Impl) (J : Job Int) : bequest b J = Boot.found (fun _ => E) .spec (Boot.leave (fun _ => E) SpecB (fun _ => Spec.empty) [accept J] 7) 5 c!"print" := by
  unfold bequest
  rw [acceptIn_leave, found_left]

/-- A job that waits alone. -/
def sole (J : Job Int) : Bool :=
  let v := Boot.found (fun _ => E) .spec (Boot.leave (fun _ => E) SpecB (fun _ => Spec.empty) [accept J] 7) 5 c!"print"
  v.lists .queued == [c!"a"] && v.lists .running == [] && v.status c!"b" == none && v.status c!"c" == none && v.status c!"a" == some .queued

theorem sole.of (h : sole J = true) (b : Impl) : (bequest b J).lists .queued = [c!"a"] ∧ (bequest b J).lists .running = [] ∧ (bequest b J).status c!"b" = none ∧
    (bequest b J).status c!"c" = none ∧ (bequest b J).status c!"a" = some .queued := by
  rw [bequest_eq]
  simp only [sole, Bool.and_eq_true, beq_iff_eq] at h
  obtain ⟨⟨⟨⟨h1, h2⟩, h3⟩, h4⟩, h5⟩ := h
  exact ⟨h1, h2, h3, h4, h5⟩

theorem shaky_sole : sole shaky = true := by decide +kernel

theorem revived_heirs (H : Revives J x) (hJ : Ready J x) (hs : sole J = true) (hx : x.retryAt = none) (b : Impl) :
    Weave.HeirsOn b (fun _ => E) (fun _ => 5) (bequest b J) 96 0 printer (Weave.afterIn (fun _ => E) b.B (fun _ => clk) (begunIn b J) (revivedIn J x))
      fun n => (revivedIn J x n).1 := by
  have h := (revived_stretch H b).2
  obtain ⟨q1, q2, q3, q4, -⟩ := sole.of hs b
  have nb : ¬ (bequest b J).Astray c!"b" := fun ⟨_, h⟩ => by
    rw [q2, q3] at h
    simp at h
  have nc : ¬ (bequest b J).Astray c!"c" := fun ⟨_, h⟩ => by
    rw [q2, q4] at h
    simp at h
  have tame : ∀ i, (job i).Tame := fun i => ⟨(fun _ _ _ _ h => by cases h), fun r h => by cases h⟩
  refine ⟨fun n d req e => ?_, fun n d req hn e => ?_, fun n d req k e _ hk hc => ?_, fun n d ty k j e => ?_, fun k => ?_, ?_, fun n hn ht => ?_⟩
  · rcases revived_begin e with ⟨-, rfl⟩ | ⟨-, -, rfl⟩ | ⟨-, -, rfl⟩ | ⟨-, -, rfl⟩
    · trivial
    · exact ⟨by decide +kernel, rfl, fun _ => rfl, tame _⟩
    · trivial
    · exact ⟨by decide +kernel, rfl, fun _ => rfl, tame _⟩
  · have hle := Nat.le_trans hn (h.le n)
    rcases revived_begin e with ⟨e, -⟩ | ⟨e, -⟩ | ⟨e, -⟩ | ⟨e, -⟩ <;> omega
  · rcases revived_begin e with ⟨-, rfl⟩ | ⟨-, -, rfl⟩ | ⟨-, -, rfl⟩ | ⟨-, -, rfl⟩
    · rcases hc with h | ⟨_, h⟩ <;> cases h
    · rcases hc with h | ⟨_, h⟩
      · cases h; exact nb hk
      · cases h
    · rcases hc with h | ⟨_, h⟩ <;> cases h
    · rcases hc with h | ⟨_, h⟩
      · cases h; exact nc hk
      · cases h
  · rcases revived_begin e with ⟨-, e⟩ | ⟨-, -, e⟩ | ⟨-, -, e⟩ | ⟨-, -, e⟩ <;> cases e
  · have := h.runs_back (revived_serves_all H k).code
    exact fun n i y orig j e hi ht hid => ⟨this n i y orig j e hi ht hid, .inl (by
      rcases revivedIn_finish e with h | h
      · rw [h]; rfl
      · rw [h]; exact hx)⟩
  · rw [q2]
    obtain ⟨s0, g1, g2⟩ := revived_steady H
    exact (h.fair_back (lasting_fair begun_calm.1 begun_calm.2 g1 g2 (revived_serves_all H []) hJ)).room
  · have e : Site.snap b (fun _ => E) (Weave.afterIn (fun _ => E) b.B (fun _ => clk) (begunIn b J) (revivedIn J x) n).site 0 printer = _ :=
      Site.snap_rel (h.site n) 0 printer
    rw [e, q2]
    rw [h.ticks_eq] at ht
    exact Nat.lt_of_le_of_lt (revived_small H (Nat.le_trans hn (h.le n)) (Weave.ticks_idle ht)) (by decide)

theorem revived_printer : (sofar (begun shaky) (reopened bad) 96).site.hub.queues[0]? = some printer := by decide +kernel

/-- `C93_takes_over` applies, on every backend: job `a`, which the first process has left, ends in the next one, although its first run fails there;
and the work queue comes to rest. -/
example (b : Impl) : ∃ n1, ∀ n, n1 ≤ n → (Weave.afterIn (fun _ => E) b.B (fun _ => clk) (begunIn b shaky) (revivedIn shaky bad) n).inside 0 = none →
    let v := (Weave.afterIn (fun _ => E) b.B (fun _ => clk) (begunIn b shaky) (revivedIn shaky bad) n).site.snap b (fun _ => E) 0 printer
    v.lists .queued = [] ∧ v.lists .running = [] ∧ v.Ended c!"a" := by
  have hR : Revives shaky bad := flaky_revives
  have h := (revived_stretch hR b).2
  obtain ⟨q1, q2, q3, q4, q5⟩ := sole.of shaky_sole b
  obtain ⟨m, hq⟩ : ∃ m, (Weave.afterIn (fun _ => E) b.B (fun _ => clk) (begunIn b shaky) (revivedIn shaky bad) m).site.hub.queues[0]? = some printer := by
    refine ⟨96, ?_⟩
    rw [(h.site 96).hub]
    refine Weave.after_queues begun_calm.1 (h.le 96) ?_
    rw [revived_early (Nat.le_refl _)]
    exact revived_printer
  have hw := waits.waitingIn (J := shaky) (by decide +kernel) b
  have hin : (bequest b shaky).InOrder := by
    intro k hk
    rw [q1, List.mem_singleton] at hk
    subst hk
    refine ⟨_, hw, ?_, ?_⟩
    · have h : (match (leftOf shaky).context.jobType with
        | .cron _ _ _ _ => false
        | _ => true) = true := by decide +kernel
      intro e n m c hc
      rw [hc] at h
      cases h
    · have h : (match (leftOf shaky).context.retry with
        | some r => decide (r.retriedTimes = 0 ∧ r.maxRetries = some 2)
        | none => true) = true := by decide +kernel
      intro r hr
      rw [hr] at h
      obtain ⟨h1, h2⟩ := of_decide_eq_true h
      exact ⟨by rw [h1]; constructor <;> decide, 2, h2, by constructor <;> decide⟩
  obtain ⟨n1, hn1⟩ := C93_takes_over (E := fun _ => E) (clk := fun _ => clk) (kind := fun _ => 5) signs_inj b (fun _ => lawful) [acceptIn shaky]
    (fun l hl => by rw [List.mem_singleton.1 hl]; exact acceptIn_fit) (acceptIn_lone hR b) (acceptIn_ample b) (revivedIn shaky bad)
    (revived_in hR b).1 (revived_in hR b).2.fits (revived_in hR b).2.one 96 m 0 printer hq clk_passes hin (revived_heirs hR flaky_ready shaky_sole rfl b)
  refine ⟨n1, fun n hn hi => ?_⟩
  obtain ⟨r1, r2, -, -, r5⟩ := hn1 n hn hi
  have r2 : List.Perm _ ((bequest b shaky).lists .running) := r2
  rw [q2] at r2
  refine ⟨r1, r2.eq_nil, (r5 c!"a" rfl (fun h => h.1 ?_) (.inl ?_)).2 ?_ ?_⟩
  · show c!"a" ∈ (bequest b shaky).lists .queued
    rw [q1]; decide
  · show (bequest b shaky).status c!"a" ≠ none
    rw [q5]; simp
  · intro j d ty e
    rcases revived_begin e with ⟨-, e⟩ | ⟨-, -, e⟩ | ⟨-, -, e⟩ | ⟨-, -, e⟩ <;> cases e
  · show (bequest b shaky).status c!"a" ≠ some .canceled
    rw [q5]; simp

end
end AJ.Props
