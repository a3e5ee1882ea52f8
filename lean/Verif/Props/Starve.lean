import Verif.Proofs.Order
import Verif.Props.Tick
import Verif.Proofs.InHand

/-!
# Starvation (C31)
-/

namespace AJ.Props

section
variable {D O : Type} {E : Env D} {name : Str} {clk : Nat → Time} {b : Impl} {k : Str}

/-- A job that waits and is not started stays as it is. -/
theorem wait_keeps (L : E.Lawful) {s : Sys D b.B} (hs : InHand b E name k s) (op : Op D O) (he : NoSubmit k op) (hc : op ≠ .cancel k)
    {job : Job D} (hj : (b.snap E name s).job k = some job) (hq : job.context.jobStatus = .queued)
    (hno : (b.snap E name (Sys.step E name b.B clk s op).1).own k = []) :
    (b.snap E name (Sys.step E name b.B clk s op).1).job k = some job ∧
      ((b.snap E name s).alive = false → (b.snap E name (Sys.step E name b.B clk s op).1).alive = false) := by
  have hsolo := hs.solo hj
  have hlife := ((hs.orderly_life L hsolo op (clk := clk) (NoSubmit.orderly he)).resolve_right (by
  rintro ⟨_, _, h⟩
  obtain ⟨j, h1, h2, _⟩ := h he
  rw [hj] at h1; cases h1; rw [hq] at h2; cases h2)).2
  cases hlife with
  | same _ h1 _ _ h2 => exact ⟨h1.trans hj, fun h => h2.trans h⟩
  | submit j c hid => exact absurd hid (he j c rfl)
  | replace j c _ hid => exact absurd hid (he j c rfl)
  | cancel => exact absurd rfl hc
  | retry j hold hd => rw [hj] at hold; cases hold; simp [Job.isDone, hq] at hd
  | pick j i _ _ _ _ _ _ _ ho' => rw [hno] at ho'; cases ho'
  | run j i hold hr => rw [hj] at hold; cases hold; rw [hq] at hr; cases hr
  | finish j j' i x w w' hold hr => rw [hj] at hold; cases hold; rw [hq] at hr; cases hr
  | died _ h1 _ _ h2 h3 => exact ⟨h1.trans hj, fun h => h3⟩

/-- One turn of an endless history in which `k` stays queued. -/
theorem wait_step (L : E.Lawful) {s : Sys D b.B} (hs : InHand b E name k s) (op : Op D O)
    (he : ∀ j c, op = .enqueue j c → j.id ≠ k) (hc : op ≠ .cancel k)
    (hlen : op = .tick → ((b.snap E name s).lists .queued).length ≤ 20)
    {job : Job D} (hj : (b.snap E name s).job k = some job) (hq : job.context.jobStatus = .queued)
    (hno : (b.snap E name (Sys.step E name b.B clk s op).1).own k = []) :
    let v := b.snap E name s
    let v' := b.snap E name (Sys.step E name b.B clk s op).1
    v'.job k = some job ∧ v.reads ≤ v'.reads ∧ (v.alive = false → v'.alive = false) ∧
    v'.fifo.idxOf k ≤ v.fifo.idxOf k ∧
    (op = .tick → v.alive = true → 1 ≤ v.free → (∀ i, v.reads ≤ i → i < v'.reads → job.Due (clk i)) →
      v'.fifo.idxOf k < v.fifo.idxOf k) := by
  intro v v'
  have hsolo := hs.solo hj
  have hst : v.status k = some .queued := by show Option.map _ (v.job k) = _; rw [show v.job k = _ from hj]; simp [hq]
  have h1 : (v.lists .queued).count k = 1 := by have := hsolo.queued; rwa [if_pos hst] at this
  have hjob : v'.job k = some job ∧ (v.alive = false → v'.alive = false) := wait_keeps L hs op he hc hj hq hno
  have hreads := hs.reads L op (clk := clk)
  refine ⟨hjob.1, hreads, hjob.2, ?_⟩
  by_cases hop' : op = .tick
  · subst hop'
    have hlen := hlen rfl
    by_cases ha : s.alive = true
    · rcases tick_facts_any (O := O) (clk := clk) b L s hs.good hs.keyed ha with ⟨st, h, _⟩ | ⟨_, _, h⟩
      · obtain ⟨f1, f2, f3⟩ := h.fifo hlen
        have hst' : v'.status k = some .queued := by
          show Option.map _ (v'.job k) = _; rw [hjob.1]; simp [hq]
        have h2 := ((hs.step L .tick (NoSubmit.orderly he)).solo hjob.1).queued
        rw [if_pos hst'] at h2
        have h2 : (v'.lists .queued).count k = 1 := h2
        have hm : k ∈ v'.fifo := by
          unfold Snap.fifo; rw [List.mem_reverse, ← List.count_pos_iff]; show 0 < (v'.lists .queued).count k; omega
        have hc1 : v.fifo.count k = 1 := by unfold Snap.fifo; rw [List.count_reverse]; exact h1
        refine ⟨idxOf_sublist f2 hm hc1, fun _ _ hfree hdue => ?_⟩
        have hnk : k ∉ st.map Job.id := by
          intro hin
          have := h.ticked.queued.count_eq k
          rw [List.count_append] at this
          have h3 : 0 < (st.map Job.id).count k := List.count_pos_iff.mpr hin
          have h4 : (v'.lists .queued).count k + (st.map Job.id).count k = (v.lists .queued).count k := this
          have h5 : (v'.lists .queued).count k = 1 := h2
          omega
        obtain ⟨a, c, e1, e2⟩ := List.eq_append_cons_of_mem (f2.subset hm)
        rcases h.wait hlen a k c e1 e2 job hj hdue with hw | ⟨u, hu, hul⟩
        · exact absurd hw hnk
        · have hku : k ∉ u := by
            intro hin
            have h6 : v'.fifo.count k = 1 := by unfold Snap.fifo; rw [List.count_reverse]; exact h2
            have h7 : v'.fifo = u ++ k :: c := hu
            rw [h7, List.count_append, List.count_cons_self] at h6
            have : 0 < u.count k := List.count_pos_iff.mpr hin
            omega
          have h7 : v'.fifo = u ++ k :: c := hu
          have h8 : v.fifo = a ++ k :: c := e1
          rw [h7, h8, List.idxOf_append_of_notMem hku, List.idxOf_append_of_notMem e2]
          have h9 : u.length + v.free = a.length := hul
          simp only [List.idxOf_cons_self, Nat.add_zero]
          omega
      · omega
    · have e : v' = v := by
        show b.snap E name (Sys.step E name b.B clk s .tick).1 = b.snap E name s
        have : s.alive = false := by simpa using ha
        simp [Sys.step, this]
      rw [e]
      exact ⟨Nat.le_refl _, fun _ h => absurd h ha⟩
  · refine ⟨?_, fun h => absurd h hop'⟩
    exact hs.lift_step (Q := fun v op _ v' => Solo k v → v.status k = some .queued → op ≠ .tick →
        (∀ j c, op = .enqueue j c → j.id ≠ k) → op ≠ .cancel k → v'.fifo.idxOf k ≤ v.fifo.idxOf k)
      (fun t op ht _ h0 h1 h2 h3 h4 => step_place ht h0 op h1 h2 h3 h4) op hsolo hst hop' he hc

/-- C31, when no tick finds more than 20 queued entries: a job that is queued and due from now on is started
in every endless history with infinitely many ticks that have free capacity, whatever else happens, unless it
is cancelled or submitted again. Missing for C31 as stated: longer queues, for which the claim is false
(`C31_refuted`). -/
theorem C31_no_starvation_partial (L : E.Lawful) {s : Sys D b.B}
    (hs : Reach (O := O) b E name clk (Orderly k) s) (ops : Nat → Op D O)
    (he : ∀ n j c, ops n = .enqueue j c → j.id ≠ k) (hc : ∀ n, ops n ≠ .cancel k)
    (hlen : ∀ n, ops n = .tick → ((b.snap E name (Sys.after E name b.B clk s ops n)).lists .queued).length ≤ 20)
    (hticks : ∀ m, ∃ n, m ≤ n ∧ ops n = .tick ∧ (Sys.after E name b.B clk s ops n).alive = true ∧
      1 ≤ (b.snap E name (Sys.after E name b.B clk s ops n)).free)
    (job : Job D) (hj : (b.snap E name s).job k = some job) (hq : job.context.jobStatus = .queued)
    (hdue : ∀ i, s.w.t ≤ i → job.Due (clk i)) :
    ∃ n, k ∈ (b.snap E name (Sys.after E name b.B clk s ops n)).inFlight := by
  by_contra hcon
  have hno : ∀ n, (b.snap E name (Sys.after E name b.B clk s ops n)).own k = [] := by
    intro n
    by_contra hne
    refine hcon ⟨n, ?_⟩
    obtain ⟨t, ht⟩ := List.exists_mem_of_ne_nil _ hne
    obtain ⟨h1, h2⟩ := List.mem_filter.mp ht
    exact List.mem_map.mpr ⟨t, h1, by simpa using h2⟩
  have hreach : ∀ n, Reach (O := O) b E name clk (Orderly k) (Sys.after E name b.B clk s ops n) := by
    intro n
    induction n with
    | zero => exact hs
    | succ n ih => exact .step (ops n) ih (NoSubmit.orderly (he n))
  have hjob : ∀ n, (b.snap E name (Sys.after E name b.B clk s ops n)).job k = some job ∧
      s.w.t ≤ (b.snap E name (Sys.after E name b.B clk s ops n)).reads := by
    intro n
    induction n with
    | zero => exact ⟨hj, Nat.le_refl _⟩
    | succ n ih =>
      obtain ⟨h1, h2, _⟩ := wait_step L ((hreach n).inHand L) (ops n) (he n) (hc n) (hlen n) ih.1 hq (hno (n + 1))
      exact ⟨h1, Nat.le_trans ih.2 h2⟩
  have hstep := fun n => wait_step L ((hreach n).inHand L) (ops n) (he n) (hc n) (hlen n) (hjob n).1 hq (hno (n + 1))
  have hmono : ∀ n m, n ≤ m → (b.snap E name (Sys.after E name b.B clk s ops m)).fifo.idxOf k ≤
      (b.snap E name (Sys.after E name b.B clk s ops n)).fifo.idxOf k := by
    intro n m hnm
    induction hnm with
    | refl => exact Nat.le_refl _
    | step _ ih => exact Nat.le_trans (hstep _).2.2.2.1 ih
  have hdesc : ∀ p n, (b.snap E name (Sys.after E name b.B clk s ops n)).fifo.idxOf k = p → False := by
    intro p
    induction p using Nat.strongRecOn with
    | _ p ih =>
      intro n hn
      obtain ⟨m, h1, h2, h3, h4⟩ := hticks n
      have hlt := (hstep m).2.2.2.2 h2 h3 h4 (fun i hi _ => hdue i (Nat.le_trans (hjob m).2 hi))
      exact ih _ (Nat.lt_of_lt_of_le hlt (by rw [← hn]; exact hmono n m h1)) (m + 1) rfl
  exact hdesc _ 0 rfl

end

section
open Demo W

/-- Ids of the jobs that keep arriving. -/
def fresh (n : Nat) : Str := List.replicate n 'b'

/-- One round: a tick, the started job runs and ends, and another job is submitted. -/
def rounds (n : Nat) : Op Int Unit :=
  match n % 4 with
  | 0 => .tick
  | 1 => .start 0
  | 2 => .finish 0 good
  | _ => .enqueue (job (fresh (40 + n / 4))) .newReRun

/-- Forty-one submissions; `x` is the second one. Capacity is 1. -/
def crowd : List (Op Int Unit) :=
  .config { maxProcessingJobs := 1 } :: .enqueue (job (fresh 0)) .newReRun :: .enqueue (job c!"x") .newReRun ::
    (List.range 39).map fun i => .enqueue (job (fresh (i + 1))) .newReRun

/-- `x` waits. -/
structure Waits (s : Sys Int SpecB) : Prop where
  job : ∃ j, view E s.w c!"x" = some j ∧ j.context.jobType = .normal ∧ j.context.jobStatus = .queued
  tasks : ∀ t ∈ s.tasks, t.orig.id ≠ c!"x"
  log : ∀ c, .ran c ∈ s.w.log → c.jobId ≠ c!"x"
  alive : s.alive = true

/-- A waiting job that may be started at any time. -/
def Plain (w : W) (id : Str) : Prop :=
  ∃ j : Job Int, view E w id = some j ∧ j.context.jobType = .normal ∧ j.context.retry = none ∧ j.context.jobStatus = .queued

/-- The state at the beginning of round `m`. -/
structure Hungry (m : Nat) (s : Sys Int SpecB) : Prop where
  waits : Waits s
  idle : s.tasks = []
  cfg : s.cfg.maxProcessingJobs = 1
  running : lst c!"print" s.w .running = []
  keyed : Keyed E s.w
  fresh : ∀ i, 40 + m ≤ i → view E s.w (fresh i) = none
  plain : ∀ id ∈ lst c!"print" s.w .queued, Plain s.w id
  nodup : (lst c!"print" s.w .queued).Nodup
  len : (lst c!"print" s.w .queued).length = 41
  place : (lst c!"print" s.w .queued).reverse[1]? = some c!"x" ∨ (lst c!"print" s.w .queued).reverse[21]? = some c!"x"

private theorem hungry_round (m : Nat) (s : Sys Int SpecB) (h : Hungry m s) :
    ∃ s1 s2 s3 s4, (Sys.step E c!"print" SpecB clk s (.tick : Op Int Unit)).1 = s1 ∧
      (Sys.step E c!"print" SpecB clk s1 (.start 0 : Op Int Unit)).1 = s2 ∧
      (Sys.step E c!"print" SpecB clk s2 (.finish 0 good : Op Int Unit)).1 = s3 ∧
      (Sys.step E c!"print" SpecB clk s3 (.enqueue (Demo.job (Props.fresh (40 + m))) .newReRun : Op Int Unit)).1 = s4 ∧
      Waits s1 ∧ Waits s2 ∧ Waits s3 ∧ Hungry (m + 1) s4 := by
  obtain ⟨f0, ids, rest, hF, hids, hrest⟩ : ∃ f0 ids rest, (lst c!"print" s.w .queued).reverse = f0 :: (ids ++ rest) ∧
      ids.length = 19 ∧ rest.length = 21 := by
    have hl : (lst c!"print" s.w .queued).reverse.length = 41 := by rw [List.length_reverse]; exact h.len
    rcases hF : (lst c!"print" s.w .queued).reverse with _ | ⟨f0, l⟩
    · rw [hF] at hl; cases hl
    · rw [hF] at hl
      refine ⟨f0, l.take 19, l.drop 19, by rw [List.take_append_drop], ?_, ?_⟩ <;> simp at hl ⊢ <;> omega
  have hnd : (f0 :: (ids ++ rest)).Nodup := by rw [← hF]; exact (List.reverse_perm _).nodup_iff.mpr h.nodup
  have hmem : ∀ id, id ∈ f0 :: (ids ++ rest) ↔ id ∈ lst c!"print" s.w .queued := by
    intro id; rw [← hF, List.mem_reverse]
  have hx : c!"x" ∈ ids ++ rest ∧ f0 ≠ c!"x" ∧ (ids[0]? = some c!"x" ∨ rest[1]? = some c!"x") := by
    have hp := h.place
    rw [hF] at hp
    have : ids[0]? = some c!"x" ∨ rest[1]? = some c!"x" := by
      rcases hp with hp | hp
      · left; rw [List.getElem?_cons_succ, List.getElem?_append_left (by omega)] at hp; exact hp
      · right; rw [List.getElem?_cons_succ, List.getElem?_append_right (by omega), hids] at hp; exact hp
    have hin : c!"x" ∈ ids ++ rest := by
      rcases this with h | h
      · exact List.mem_append_left _ (List.mem_of_getElem? h)
      · exact List.mem_append_right _ (List.mem_of_getElem? h)
    refine ⟨hin, ?_, this⟩
    rintro rfl
    exact (List.nodup_cons.mp hnd).1 hin
  obtain ⟨hxm, hx0, hxi⟩ := hx
  obtain ⟨j0, hv0, ht0, hr0, hs0⟩ := h.plain f0 ((hmem f0).mp List.mem_cons_self)
  have hid0 : j0.id = f0 := h.keyed f0 j0 hv0
  have hfree : free c!"print" s.cfg s.w = 1 := by unfold free; rw [h.cfg, h.running]; rfl
  -- the tick
  have hturn : turn E c!"print" clk 1 (s.w, []) =
      (toRunning c!"print" f0 (ids ++ rest) (put E (j0.asRunning (clk (s.w.t + 1) / nsPerMs)) (W.tick (W.tick s.w))),
        [j0.asRunning (clk (s.w.t + 1) / nsPerMs)]) := by
    have hc := turn_cases E c!"print" clk 1 f0 (ids ++ rest) s.w [] hF
    generalize turn E c!"print" clk 1 (s.w, []) = q at hc
    cases hc with
    | gone hv => rw [hv] at hv0; cases hv0
    | skip j hv ht => rw [hv] at hv0; cases hv0; simp [takes, Job.readyAt, ht0] at ht
    | pick j hv ht => rw [hv] at hv0; cases hv0; rfl
  generalize hj1 : j0.asRunning (clk (s.w.t + 1) / nsPerMs) = j1 at hturn
  have hj1c : j1.context.jobType = .normal ∧ j1.context.retry = none ∧ j1.context.jobStatus = .running := by
    subst hj1; exact ⟨ht0, hr0, rfl⟩
  have hj1id : j1.id = f0 := by subst hj1; exact hid0
  have hst1 : lawful.Stored j1 := by subst hj1; exact (Env.Lawful.stored_view hv0).asRunning _
  generalize hwa : toRunning c!"print" f0 (ids ++ rest) (put E j1 (W.tick (W.tick s.w))) = wa at hturn
  have hqa : (lst c!"print" wa .queued).reverse = ids ++ rest := by subst hwa; simp
  have hra : lst c!"print" wa .running = [f0] := by subst hwa; simp [h.running]
  have hva : view E wa = upd (view E s.w) f0 (some j1) := by
    subst hwa; simp [hst1.encdec, hj1id]
  have hla : wa.log = s.w.log ++ [.statusMsg f0 .running] := by subst hwa; simp [hj1id, hj1c.2.2]
  obtain ⟨e1, e2, e3, e4, e5⟩ := W.turns_full (E := E) (name := c!"print") (clk := clk) (total := 1) ids rest wa [j1]
    (Nat.le_refl _) hqa
  have h20 : turns E c!"print" clk 1 20 (s.w, []) = turns E c!"print" clk 1 ids.length (wa, [j1]) := by
    rw [hids]; show turns E c!"print" clk 1 19 (turn E c!"print" clk 1 (s.w, [])) = _; rw [hturn]
  generalize hwb : (turns E c!"print" clk 1 ids.length (wa, [j1])).1 = wb at e2 e3 e4 e5
  have hpick := W.run_pick_batch (E := E) (name := c!"print") (clk := clk) (lst c!"print" s.w .queued).length s.cfg s.w
    (by rw [h.len]; decide) (by rw [h.len]; decide) (by rw [hfree]; exact Nat.le_refl _)
    (by rw [hfree, h20, e1]; exact Nat.le_refl _)
  rw [hfree, h20, e1, hwb] at hpick
  have hs1 : (Sys.step E c!"print" SpecB clk s (.tick : Op Int Unit)).1 = { s with w := wb, tasks := [⟨j1, none⟩] } := by
    unfold Sys.step
    rw [if_pos h.waits.alive]
    simp only [Sys.tickFuel_spec, hpick, h.idle]
    rfl
  -- the start
  have hnc : j1.isCancelled = false := by simp [Job.isCancelled, hj1c.2.2]
  generalize hs1' : ({ s with w := wb, tasks := [⟨j1, none⟩] } : Sys Int SpecB) = s1 at hs1
  have hs2 : (Sys.step E c!"print" SpecB clk s1 (.start 0 : Op Int Unit)).1 =
      { s with w := say (.ran j1.counted.context) (say (.hookMsg j1.id true) wb), tasks := [⟨j1, some j1.counted⟩] } := by
    have hs := Sys.step_cases (E := E) (name := c!"print") (clk := clk) s1 (by subst hs1'; exact h.waits.alive)
      (.start 0 : Op Int Unit)
    generalize Sys.step E c!"print" SpecB clk s1 (.start 0 : Op Int Unit) = p at hs
    subst hs1'
    cases hs with
    | started _ orig ho hc => cases ho; rfl
    | startCancelled _ orig ho hc => cases ho; rw [hnc] at hc; cases hc
    | noStart _ ho => exact absurd rfl (ho j1)
  generalize hw2 : say (.ran j1.counted.context) (say (.hookMsg j1.id true) wb) = w2 at hs2
  generalize hs2' : ({ s with w := w2, tasks := [⟨j1, some j1.counted⟩] } : Sys Int SpecB) = s2 at hs2
  -- the end
  have hs3 : (Sys.step E c!"print" SpecB clk s2 (.finish 0 good : Op Int Unit)).1 =
      { s with w := fin E c!"print" clk j1.counted (W.tick (say (.hookMsg j1.id true) w2)), tasks := [] } := by
    have hs := Sys.step_cases (E := E) (name := c!"print") (clk := clk) s2 (by subst hs2'; exact h.waits.alive)
      (.finish 0 good : Op Int Unit)
    generalize Sys.step E c!"print" SpecB clk s2 (.finish 0 good : Op Int Unit) = p at hs
    subst hs2'
    cases hs with
    | finished _ _ orig job w ho hf =>
      cases ho
      have := hf.plain hj1c.2.1 (by intro _ _ _ _ e; rw [show j1.counted.context.jobType = _ from hj1c.1] at e; cases e)
      cases this; rfl
    | finishPanic _ _ orig job w ho hf =>
      cases ho
      have := hf.plain hj1c.2.1 (by intro _ _ _ _ e; rw [show j1.counted.context.jobType = _ from hj1c.1] at e; cases e)
      cases this
    | noFinish _ _ ho => exact absurd rfl (ho j1 j1.counted)
  generalize hw3 : fin E c!"print" clk j1.counted (W.tick (say (.hookMsg j1.id true) w2)) = w3 at hs3
  generalize hs3' : ({ s with w := w3, tasks := [] } : Sys Int SpecB) = s3 at hs3
  have hstf : lawful.Stored (j1.counted.asFinished (clk (w2.t + 1) / nsPerMs)) := hst1.of rfl rfl rfl
  have hvf : view E w3 = upd (view E s.w) f0 (some (j1.counted.asFinished (clk (w2.t + 1) / nsPerMs))) := by
    have hv2 : view E w2 = view E wb := by subst hw2; rfl
    subst hw3
    simp only [fin, view_setL, view_put, view_tick, view_say, hv2, e3, hva, t_tick, t_say, hstf.encdec]
    simp [hj1id, upd_upd]
  have hq3 : (lst c!"print" w3 .queued).reverse = rest ++ ids := by
    subst hw3 hw2
    simp [fin, e2, lst_setL]
  have hr3 : lst c!"print" w3 .running = [] := by
    subst hw3 hw2
    simp [fin, lst_setL, e5 .running (by simp), hra, hj1id]
  have hlb : ∀ c, .ran c ∈ wb.log → c.jobId ≠ c!"x" := by
    intro c hc
    rw [e4, hla] at hc
    simp at hc
    exact h.waits.log c hc
  have hl2 : ∀ c, .ran c ∈ w2.log → c.jobId ≠ c!"x" := by
    intro c hc
    subst hw2
    simp only [log_say, List.append_assoc, List.mem_append, List.mem_cons, List.not_mem_nil, or_false, reduceCtorEq,
      false_or] at hc
    rcases hc with hc | hc
    · exact hlb c hc
    · cases hc; rw [show j1.counted.context.jobId = f0 from hj1id]; exact hx0
  have hl3 : ∀ c, .ran c ∈ w3.log → c.jobId ≠ c!"x" := by
    intro c hc
    subst hw3
    simp [fin] at hc
    exact hl2 c hc
  have hvx : ∀ id, id ≠ f0 → view E w3 id = view E s.w id := by intro id hi; rw [hvf, upd_ne _ _ hi]
  have hjx := h.waits.job
  have hfr : Props.fresh (40 + m) ≠ f0 := by
    intro e; have := h.fresh (40 + m) (Nat.le_refl _); rw [e, hv0] at this; cases this
  have hnone : view E w3 (Props.fresh (40 + m)) = none := by rw [hvx _ hfr]; exact h.fresh _ (Nat.le_refl _)
  have hs4 : (Sys.step E c!"print" SpecB clk s3 (.enqueue (Demo.job (Props.fresh (40 + m))) .newReRun : Op Int Unit)).1 =
      { s with w := enq E c!"print" clk (Demo.job (Props.fresh (40 + m))) w3, tasks := [] } := by
    have hs := Sys.step_cases (E := E) (name := c!"print") (clk := clk) s3 (by subst hs3'; exact h.waits.alive)
      (.enqueue (Demo.job (Props.fresh (40 + m))) .newReRun : Op Int Unit)
    generalize Sys.step E c!"print" SpecB clk s3 (.enqueue (Demo.job (Props.fresh (40 + m))) .newReRun : Op Int Unit) = p at hs
    subst hs3'
    cases hs with
    | enqueue =>
      have : submit E c!"print" clk (Demo.job (Props.fresh (40 + m))) .newReRun w3 =
          enq E c!"print" clk (Demo.job (Props.fresh (40 + m))) w3 := by
        unfold submit
        rw [show (Demo.job (Props.fresh (40 + m))).id = Props.fresh (40 + m) from rfl, hnone]
      show ({ s with w := submit _ _ _ _ _ w3, tasks := [] } : Sys Int SpecB) = _
      rw [this]
  refine ⟨_, _, _, _, hs1, hs2, hs3, hs4, ?_⟩
  subst hs1' hs2' hs3'
  have hxid : c!"x" ≠ f0 := Ne.symm hx0
  have hjf0 : j1.id ≠ c!"x" := by rw [hj1id]; exact hx0
  have hvb : view E wb c!"x" = view E s.w c!"x" := by rw [e3, hva, upd_ne _ _ hxid]
  refine ⟨⟨?_, ?_, hlb, h.waits.alive⟩, ⟨?_, ?_, hl2, h.waits.alive⟩, ⟨?_, ?_, hl3, h.waits.alive⟩, ?_⟩
  · show ∃ j, view E wb _ = _ ∧ _; rw [hvb]; exact hjx
  · simpa using hjf0
  · show ∃ j, view E w2 _ = _ ∧ _
    rw [← hw2]; show ∃ j, view E wb _ = _ ∧ _; rw [hvb]; exact hjx
  · simpa using hjf0
  · show ∃ j, view E w3 _ = _ ∧ _; rw [hvx _ hxid]; exact hjx
  · intro t ht; cases ht
  · generalize hfj : Props.fresh (40 + m) = fr at *
    have hst4 : E.encdec ((Demo.job fr).asQueued (clk w3.t / nsPerMs)) = some ((Demo.job fr).asQueued (clk w3.t / nsPerMs)) :=
      Env.Lawful.encdec_enc (L := lawful) rfl
    have hv4 : view E (enq E c!"print" clk (Demo.job fr) w3) = upd (view E w3) fr
        (some ((Demo.job fr).asQueued (clk w3.t / nsPerMs))) := by
      simp only [enq, view_put, view_tick, view_setL, hst4]; rfl
    have hq4 : lst c!"print" (enq E c!"print" clk (Demo.job fr) w3) .queued = fr :: lst c!"print" w3 .queued := by
      simp [enq]; rfl
    have hfx : c!"x" ≠ fr := by
      intro e; rw [← e] at hnone; rw [hvx _ hxid] at hnone
      obtain ⟨j, hj, _⟩ := hjx; rw [hj] at hnone; cases hnone
    have hq3' : lst c!"print" w3 .queued = (rest ++ ids).reverse := by rw [← hq3, List.reverse_reverse]
    have hold : ∀ id ∈ rest ++ ids, id ≠ f0 ∧ id ≠ fr ∧ Plain s.w id := by
      intro id hid
      have hid' : id ∈ ids ++ rest := by
        rcases List.mem_append.mp hid with h | h
        · exact List.mem_append_right _ h
        · exact List.mem_append_left _ h
      have hp := h.plain id ((hmem id).mp (List.mem_cons_of_mem _ hid'))
      have h0 : id ≠ f0 := by rintro rfl; exact (List.nodup_cons.mp hnd).1 hid'
      refine ⟨h0, ?_, hp⟩
      rintro rfl
      rw [hvx _ h0] at hnone
      obtain ⟨j, hj, _⟩ := hp; rw [hj] at hnone; cases hnone
    refine ⟨⟨?_, (by intro t ht; cases ht), ?_, h.waits.alive⟩, rfl, h.cfg, ?_, ?_, ?_, ?_, ?_, ?_, ?_⟩
    · show ∃ j, view E (enq E c!"print" clk (Demo.job fr) w3) _ = _ ∧ _
      rw [hv4, upd_ne _ _ hfx, hvx _ hxid]; exact hjx
    · intro c hc
      have hc : Event.ran c ∈ (enq E c!"print" clk (Demo.job fr) w3).log := hc
      simp [enq] at hc
      exact hl3 c hc
    · show lst c!"print" (enq E c!"print" clk (Demo.job fr) w3) .running = []
      simp [enq, lst_setL, hr3]
    · show Keyed E (enq E c!"print" clk (Demo.job fr) w3)
      refine W.Keyed.enq lawful (fun id j hj => ?_) _
      rw [hvf] at hj
      by_cases hi : id = f0
      · subst hi; rw [upd_same] at hj; cases hj; exact hj1id
      · rw [upd_ne _ _ hi] at hj; exact h.keyed id j hj
    · intro i hi
      show view E (enq E c!"print" clk (Demo.job fr) w3) _ = none
      have h1 : Props.fresh i ≠ fr := by
        rw [← hfj]; intro e
        have := congrArg List.length e
        simp [Props.fresh] at this
        omega
      have h2 : Props.fresh i ≠ f0 := by
        intro e; have := h.fresh i (by omega); rw [e, hv0] at this; cases this
      rw [hv4, upd_ne _ _ h1, hvx _ h2]
      exact h.fresh i (by omega)
    · intro id hid
      have hid : id ∈ lst c!"print" (enq E c!"print" clk (Demo.job fr) w3) .queued := hid
      show Plain (enq E c!"print" clk (Demo.job fr) w3) id
      unfold Plain
      rw [hv4]
      rw [hq4, List.mem_cons, hq3', List.mem_reverse] at hid
      rcases hid with rfl | hid
      · rw [upd_same]; exact ⟨_, rfl, rfl, rfl, rfl⟩
      · obtain ⟨a, b, c⟩ := hold id hid
        rw [upd_ne _ _ b, hvx _ a]; exact c
    · show (lst c!"print" (enq E c!"print" clk (Demo.job fr) w3) .queued).Nodup
      rw [hq4, List.nodup_cons, hq3', List.mem_reverse]
      refine ⟨fun hin => (hold fr hin).2.1 rfl, (List.reverse_perm _).nodup_iff.mpr ?_⟩
      exact (List.perm_append_comm.nodup_iff).mpr (List.nodup_cons.mp hnd).2
    · show (lst c!"print" (enq E c!"print" clk (Demo.job fr) w3) .queued).length = 41
      rw [hq4, hq3']; simp [hids, hrest]
    · show (lst c!"print" (enq E c!"print" clk (Demo.job fr) w3) .queued).reverse[1]? = _ ∨
        (lst c!"print" (enq E c!"print" clk (Demo.job fr) w3) .queued).reverse[21]? = _
      rw [hq4, List.reverse_cons, hq3', List.reverse_reverse, List.append_assoc]
      rcases hxi with hi | hi
      · right; rw [List.getElem?_append_right (by omega), hrest, List.getElem?_append_left (by omega)]; exact hi
      · left; rw [List.getElem?_append_left (by omega)]; exact hi

private theorem view_after (k : Str) (ops : List (Op Int Unit))
    (h : ∀ op ∈ ops, (∃ c, op = .config c) ∨ ∃ j c, op = .enqueue j c ∧ j.id ≠ k) (s : Sys Int SpecB) :
    view E (Sys.runOps E c!"print" SpecB clk s ops).1.w k = view E s.w k := by
  induction ops generalizing s with
  | nil => rfl
  | cons op ops ih =>
    have h1 : (Sys.runOps E c!"print" SpecB clk s (op :: ops)).1 =
        (Sys.runOps E c!"print" SpecB clk (Sys.step E c!"print" SpecB clk s op).1 ops).1 := rfl
    rw [h1, ih (fun o ho => h o (List.mem_cons_of_mem _ ho))]
    by_cases ha : s.alive = true
    swap
    · rw [Sys.step_dead s (by simpa using ha)]
    have hs := Sys.step_cases (E := E) (name := c!"print") (clk := clk) s ha op
    have hop := h op List.mem_cons_self
    generalize Sys.step E c!"print" SpecB clk s op = p at hs
    rcases hop with ⟨c, rfl⟩ | ⟨j, c, rfl, hj⟩
    · cases hs; rfl
    · cases hs with
      | enqueue => exact (Touch.submit (E := E) (name := c!"print") (clk := clk) j c s.w).view k (Ne.symm hj)

private theorem crowd_hungry :
    Hungry 0 (Sys.runOps E c!"print" SpecB clk (Sys.init SpecB Spec.empty) crowd).1 := by
  have hkey : Keyed E (Sys.runOps E c!"print" SpecB clk (Sys.init SpecB Spec.empty) crowd).1.w := by
    have : ∀ (ops : List (Op Int Unit)) (s : Sys Int SpecB), Tidy E s →
        Tidy E (Sys.runOps E c!"print" SpecB clk s ops).1 := by
      intro ops
      induction ops with
      | nil => exact fun _ h => h
      | cons op ops ih => exact fun s h => ih _ (h.step lawful op)
    exact (this crowd _ Tidy.init).keyed
  have hfresh : ∀ i, 40 + 0 ≤ i →
      view E (Sys.runOps E c!"print" SpecB clk (Sys.init SpecB Spec.empty) crowd).1.w (Props.fresh i) = none := by
    intro i hi
    rw [view_after]
    · rfl
    · intro op hop
      simp only [crowd, List.mem_cons, List.mem_map, List.mem_range] at hop
      rcases hop with rfl | rfl | rfl | ⟨n, hn, rfl⟩
      · exact .inl ⟨_, rfl⟩
      · refine .inr ⟨_, _, rfl, fun e => ?_⟩
        have := congrArg List.length e
        simp [Props.fresh, Demo.job, Job.id, JobContext.new] at this
        omega
      · refine .inr ⟨_, _, rfl, fun e => ?_⟩
        have := congrArg List.length e
        simp [Props.fresh, Demo.job, Job.id, JobContext.new] at this
        omega
      · refine .inr ⟨_, _, rfl, fun e => ?_⟩
        have := congrArg List.length e
        simp [Props.fresh, Demo.job, Job.id, JobContext.new] at this
        omega
  have hplain : ∀ id ∈ lst c!"print" (Sys.runOps E c!"print" SpecB clk (Sys.init SpecB Spec.empty) crowd).1.w .queued,
      (view E (Sys.runOps E c!"print" SpecB clk (Sys.init SpecB Spec.empty) crowd).1.w id).map
        (fun j => (j.context.jobType, j.context.retry, j.context.jobStatus)) = some (.normal, none, .queued) := by
    decide +kernel
  have hx : c!"x" ∈ lst c!"print" (Sys.runOps E c!"print" SpecB clk (Sys.init SpecB Spec.empty) crowd).1.w .queued := by
    decide +kernel
  have hlog : (Sys.runOps E c!"print" SpecB clk (Sys.init SpecB Spec.empty) crowd).1.w.log.all
      (fun e => match e with | .ran _ => false | _ => true) = true := by decide +kernel
  have hpl : ∀ id ∈ lst c!"print" (Sys.runOps E c!"print" SpecB clk (Sys.init SpecB Spec.empty) crowd).1.w .queued,
      Plain (Sys.runOps E c!"print" SpecB clk (Sys.init SpecB Spec.empty) crowd).1.w id := by
    intro id hid
    obtain ⟨j, h1, h2⟩ := Option.map_eq_some_iff.mp (hplain id hid)
    simp only [Prod.mk.injEq] at h2
    exact ⟨j, h1, h2.1, h2.2.1, h2.2.2⟩
  refine ⟨⟨?_, ?_, ?_, ?_⟩, ?_, ?_, ?_, hkey, hfresh, hpl, ?_, ?_, ?_⟩
  · obtain ⟨j, h1, h2, _, h3⟩ := hpl _ hx
    exact ⟨j, h1, h2, h3⟩
  · decide +kernel
  · intro c hc
    have := List.all_eq_true.mp hlog _ hc
    cases this
  all_goals decide +kernel

private theorem hungry_always (m : Nat) (s : Sys Int SpecB) (h : Hungry 0 s) :
    Hungry m (Sys.after E c!"print" SpecB clk s rounds (4 * m)) ∧
    ∀ i < 4, Waits (Sys.after E c!"print" SpecB clk s rounds (4 * m + i)) := by
  have key : ∀ m, Hungry m (Sys.after E c!"print" SpecB clk s rounds (4 * m)) →
      Hungry (m + 1) (Sys.after E c!"print" SpecB clk s rounds (4 * (m + 1))) ∧
      ∀ i < 4, Waits (Sys.after E c!"print" SpecB clk s rounds (4 * m + i)) := by
    intro m hm
    obtain ⟨s1, s2, s3, s4, h1, h2, h3, h4, w1, w2, w3, w4⟩ := hungry_round m _ hm
    have r0 : rounds (4 * m) = .tick := by simp [rounds]
    have r1 : rounds (4 * m + 1) = .start 0 := by simp [rounds, Nat.add_mod]
    have r2 : rounds (4 * m + 2) = .finish 0 good := by simp [rounds, Nat.add_mod]
    have r3 : rounds (4 * m + 3) = .enqueue (Demo.job (Props.fresh (40 + m))) .newReRun := by
      have : (4 * m + 3) / 4 = m := by omega
      simp [rounds, Nat.add_mod, this]
    have e1 : Sys.after E c!"print" SpecB clk s rounds (4 * m + 1) = s1 := by
      rw [Sys.after, r0, h1]
    have e2 : Sys.after E c!"print" SpecB clk s rounds (4 * m + 2) = s2 := by
      rw [Sys.after, e1, r1, h2]
    have e3 : Sys.after E c!"print" SpecB clk s rounds (4 * m + 3) = s3 := by
      rw [Sys.after, e2, r2, h3]
    have e4 : Sys.after E c!"print" SpecB clk s rounds (4 * (m + 1)) = s4 := by
      show Sys.after E c!"print" SpecB clk s rounds (4 * m + 3 + 1) = s4
      rw [Sys.after, e3, r3, h4]
    refine ⟨by rw [e4]; exact w4, fun i hi => ?_⟩
    obtain rfl | rfl | rfl | rfl : i = 0 ∨ i = 1 ∨ i = 2 ∨ i = 3 := by omega
    · exact hm.waits
    · rw [e1]; exact w1
    · rw [e2]; exact w2
    · rw [e3]; exact w3
  have all : ∀ m, Hungry m (Sys.after E c!"print" SpecB clk s rounds (4 * m)) := by
    intro m
    induction m with
    | zero => exact h
    | succ m ih => exact (key m ih).1
  exact ⟨all m, (key m (all m)).2⟩

/-- C31 is false as stated, on every backend: with 41 queued jobs and capacity 1, where every finished job is
followed by a new submission, the second job `x` is ready at all times, every tick has free capacity, and `x`
is never started. (A tick looks at 20 entries, starts the first and moves the other 19 behind the rest, so `x`
alternates between places 2 and 22.) -/
theorem C31_refuted (b : Impl) :
    let s := (Sys.runOps E c!"print" b.B clk (Sys.init b.B b.empty) crowd).1
    let v := fun n => b.snap E c!"print" (Sys.after E c!"print" b.B clk s rounds n)
    (∀ m, ∃ n, m ≤ n ∧ rounds n = .tick) ∧
    (∀ n, rounds n = .tick → (v n).alive = true ∧ 1 ≤ (v n).free) ∧
    ∀ n, (∃ j, (v n).job c!"x" = some j ∧ j.context.jobType = .normal ∧ j.context.jobStatus = .queued) ∧
      c!"x" ∉ (v n).inFlight ∧ (v n).runs c!"x" = [] := by
  intro s v
  obtain ⟨_, h0⟩ := Sim.runOps (D := Int) (O := Unit) E c!"print" b.sim (b.okAj _) clk crowd
    (Sys.init b.B b.empty) (Sys.init SpecB Spec.empty) Impl.rs_init
  have hr : ∀ n, b.sim.RS (Sys.after E c!"print" b.B clk s rounds n)
      (Sys.after E c!"print" SpecB clk (Sys.runOps E c!"print" SpecB clk (Sys.init SpecB Spec.empty) crowd).1 rounds n) := by
    intro n
    induction n with
    | zero => exact h0
    | succ n ih => exact (Impl.rs_step ih (rounds n)).2
  have hv : ∀ n, v n = Sys.obs E c!"print" (Sys.after E c!"print" SpecB clk
      (Sys.runOps E c!"print" SpecB clk (Sys.init SpecB Spec.empty) crowd).1 rounds n) := fun n => Impl.snap_eq (hr n)
  refine ⟨fun m => ⟨4 * m, by omega, by simp [rounds]⟩, fun n hn => ?_, fun n => ?_⟩
  · have h4 : n % 4 = 0 := by
      have : n % 4 < 4 := Nat.mod_lt _ (by decide)
      obtain h | h | h | h : n % 4 = 0 ∨ n % 4 = 1 ∨ n % 4 = 2 ∨ n % 4 = 3 := by omega
      · exact h
      all_goals simp [rounds, h] at hn
    obtain ⟨m, rfl⟩ : ∃ m, n = 4 * m := ⟨n / 4, by omega⟩
    have hh := (hungry_always m _ crowd_hungry).1
    rw [hv]
    refine ⟨hh.waits.alive, ?_⟩
    show 1 ≤ _ - (lst _ _ _).length
    rw [hh.running]
    exact Nat.le_of_eq hh.cfg.symm
  · have hw := (hungry_always (n / 4) _ crowd_hungry).2 (n % 4) (Nat.mod_lt _ (by decide))
    rw [Nat.div_add_mod] at hw
    rw [hv]
    refine ⟨hw.job, ?_, ?_⟩
    · intro hin
      obtain ⟨t, ht, e⟩ := List.mem_map.mp hin
      exact hw.tasks t ht e
    · unfold Snap.runs Snap.mine
      rw [List.filterMap_eq_nil_iff]
      intro e he
      obtain ⟨h1, h2⟩ := List.mem_filter.mp he
      cases e with
      | ran c => exact absurd (of_decide_eq_true h2 : c.jobId = c!"x") (hw.log c h1)
      | _ => rfl

/-- Two submitted jobs. -/
def two : List (Op Int Unit) := [.enqueue (job c!"a") .newReRun, .enqueue (job c!"b") .newReRun]

private theorem two_ticks (n : Nat) :
    Reach (O := Unit) Impl.memory E c!"print" clk (CarefulFor E c!"b")
      (Sys.after E c!"print" InMem clk (after two) (fun _ => (.tick : Op Int Unit)) n) ∧
    let v := Impl.memory.snap E c!"print" (Sys.after E c!"print" InMem clk (after two) (fun _ => (.tick : Op Int Unit)) n)
    v.alive = true ∧ v.cfg.maxProcessingJobs = 20 ∧ (v.lists .queued).length + (v.lists .running).length = 2 := by
  induction n with
  | zero =>
    refine ⟨?_, by decide +kernel⟩
    have h2 : E.Encodable (job c!"b") := by decide +kernel
    refine Obeys.reach (Obeys.snoc (ops := [.enqueue (job c!"a") .newReRun]) (Obeys.snoc (ops := []) .nil ?_) ?_)
    · intro h; cases h
    · refine fun _ => ⟨h2, fun ex h => ?_⟩
      have : (see [.enqueue (job c!"a") .newReRun]).job c!"b" = none := by
        decide +kernel
      exact nomatch this.symm.trans h
  | succ n ih =>
    obtain ⟨hr, ha, hm, hl⟩ := ih
    refine ⟨Reach.step (b := Impl.memory) .tick hr trivial, ?_⟩
    obtain ⟨hg, hk⟩ := reachable_good_keyed lawful hr
    rcases tick_facts_any (O := Unit) (clk := clk) Impl.memory lawful _ hg hk ha with ⟨st, h, h1⟩ | ⟨_, _, h⟩
    · have hc := C28_tick_conserves (O := Unit) (clk := clk) lawful _ hg hk
      have e := hc.1.length_eq
      rw [List.length_append, List.length_append] at e
      exact ⟨h1, (congrArg _ hc.2.2.1).trans hm, e.trans hl⟩
    · omega

/-- The hypotheses are met, and `b` is started, when nothing but ticks happens to them. -/
example : ∃ n, c!"b" ∈ (Impl.memory.snap E c!"print"
    (Sys.after E c!"print" InMem clk (after two) (fun _ => (.tick : Op Int Unit)) n)).inFlight := by
  refine C31_no_starvation_partial (b := Impl.memory) (O := Unit) (E := E) (clk := clk) lawful ((two_ticks 0).1.orderly lawful) (fun _ => .tick)
    (fun _ _ _ h => nomatch h) (fun _ h => nomatch h) (fun n _ => ?_) (fun m => ⟨m, Nat.le_refl _, rfl, (two_ticks m).2.1, ?_⟩)
    ((see two).job c!"b" |>.getD (job [])) (by decide +kernel) (by decide +kernel) (fun i _ => ?_)
  · have := (two_ticks n).2.2.2
    show (_ : List Str).length ≤ 20
    exact Nat.le_trans (Nat.le_trans (Nat.le_add_right _ _) (Nat.le_of_eq this)) (by decide)
  · obtain ⟨_, h2, h3⟩ := (two_ticks m).2
    unfold Snap.free
    have key : ∀ a q r : Nat, a = 20 → q + r = 2 → 1 ≤ a - r := by omega
    exact key _ _ _ h2 h3
  · have : ((see two).job c!"b" |>.getD (job [])).context.jobType = .normal := by decide +kernel
    unfold Job.Due
    rw [this]
    trivial

end
end AJ.Props
