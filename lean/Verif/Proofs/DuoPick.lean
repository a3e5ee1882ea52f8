import Verif.Proofs.Duo
import Mathlib.Data.List.Rotate

/-! # Two scans that meet -/

namespace AJ
open W Prog

variable {D : Type} {E : Env D} {name : Str} {clk : Nat → Time}

private theorem turn_pick {total : Nat} {k : Str} {F : List Str} {w : W} (hq : (lst name w .queued).reverse = k :: F) {j : Job D}
    (hj : view E w k = some j) (ht : takes total j (clk w.t) ([] : List (Job D)) = true) :
    turn E name clk total (w, []) =
      (toRunning name k F (put E (j.asRunning (clk (w.t + 1) / nsPerMs)) (tick (tick w))), [j.asRunning (clk (w.t + 1) / nsPerMs)]) := by
  unfold turn
  simp only [hq, hj, ht, if_true, List.nil_append]

private theorem takes_nil {total : Nat} {j : Job D} {now : Time} (h : j.readyAt now = true) (ht : 0 < total) :
    takes total j now ([] : List (Job D)) = true := by
  simp [takes, h, ht]

private theorem readyAt_asRunning (j : Job D) (ms : Int) (now : Time) : (j.asRunning ms).readyAt now = j.readyAt now := rfl

private theorem len_of_reverse {l : List Str} {k : Str} {F : List Str} (h : l.reverse = k :: F) : l.length = F.length + 1 := by
  rw [← List.length_reverse, h]; rfl

theorem blind_first {total : Nat} {id : Str} {w : W} {j : Job D} (hj : view E w id = some j) (hr : j.readyAt (clk w.t) = true) (ht : 0 < total) :
    blind E name clk total id (w, []) =
      (moveBack name .queued .running (put E (j.asRunning (clk (w.t + 1) / nsPerMs)) (tick (tick w))), [j.asRunning (clk (w.t + 1) / nsPerMs)]) := by
  unfold blind
  rw [hj]
  simp only
  rw [if_pos (takes_nil hr ht)]
  rfl

/-! ## The same job twice -/

theorem twice (L : E.Lawful) {w : W} (hk : Keyed E w) (fuelA fuelB : Nat) (cfgA cfgB : WorkQueueConfig) {k : Str} {F : List Str}
    (hq : (lst name w .queued).reverse = k :: F) (h20 : (lst name w .queued).length ≤ 20) {j : Job D} (hj : view E w k = some j)
    (hd : ∀ i, w.t ≤ i → j.readyAt (clk i) = true) (hA : 0 < free name cfgA w) (hB : 0 < free name cfgB w) :
    ∃ sched jobsA jobsB w2,
      (⟨WorkQueue.pickJobsToProcess E name (fuelA + 1) cfgA, WorkQueue.pickJobsToProcess E name (fuelB + 1) cfgB, w⟩ :
        Duo SpecB (List (Job D)) (List (Job D))).run SpecB clk sched = ⟨.ret jobsA, .ret jobsB, w2⟩ ∧
      k ∈ jobsA.map Job.id ∧ k ∈ jobsB.map Job.id := by
  obtain ⟨n, _, hn, hrB⟩ := run_pick_small (E := E) (name := name) (clk := clk) fuelB cfgB w h20
  have hn : n = F.length + 1 := by
    rcases hn with ⟨h, _⟩ | h
    · omega
    · rw [h, len_of_reverse hq]
  subst hn
  have h1 := turn_pick (clk := clk) hq hj (takes_nil (hd _ (Nat.le_refl _)) hB)
  obtain ⟨⟨l, hl⟩, _⟩ := turns_mono (E := E) (name := name) (clk := clk) (free name cfgB w) F.length (turn E name clk (free name cfgB w) (w, []))
  have hS := (Scan.init (E := E) (name := name) (clk := clk) (free name cfgB w) w).turns L hk (F.length + 1)
  have e : turns E name clk (free name cfgB w) (F.length + 1) (w, []) =
    turns E name clk (free name cfgB w) F.length (turn E name clk (free name cfgB w) (w, [])) := rfl
  rw [← e, h1] at hl
  have hjid : j.id = k := hk k j hj
  generalize turns E name clk (free name cfgB w) (F.length + 1) (w, []) = q at hrB hl hS
  obtain ⟨w1, jobsB⟩ := q
  have hl : jobsB = j.asRunning (clk (w.t + 1) / nsPerMs) :: l := hl
  obtain ⟨i, job, h2, h3, h4, h5, h6, h7⟩ := hS.started (j.asRunning (clk (w.t + 1) / nsPerMs)) (by show _ ∈ jobsB; rw [hl]; exact List.mem_cons_self)
  have hjr : (j.asRunning (clk (w.t + 1) / nsPerMs)).id = k := hjid
  rw [hjr, ((Env.Lawful.stored_view (L := L) hj).asRunning _).encdec] at h7
  have hrev : ((lst name w .queued).reverse.take 20) = k :: F := by
    rw [List.take_of_length_le (by rw [List.length_reverse]; exact h20), hq]
  have hA2 := run_afterFetch (E := E) (name := name) (clk := clk) (free name cfgA w) fuelA (lst name w .queued).length
    ((lst name w .queued).reverse.take 20) (by rw [hrev, len_of_reverse hq]; rfl) h20 w1
  obtain ⟨sched, hs⟩ := overtake fuelA cfgA w hA hrB hA2
  refine ⟨sched, _, _, _, hs, ?_, ?_⟩
  · rw [hrev, List.foldl_cons]
    obtain ⟨l', hl'⟩ := blind_mono (E := E) (name := name) (clk := clk) (free name cfgA w) F (blind E name clk (free name cfgA w) k (w1, []))
    rw [hl']
    have e2 := blind_first (name := name) (clk := clk) (total := free name cfgA w) h7 (by rw [readyAt_asRunning]; exact hd _ hS.time) hA
    rw [show blind E name clk (free name cfgA w) k (w1, []) = _ from e2, List.map_append]
    exact List.mem_append_left _ (by rw [← hjid]; exact List.mem_cons_self)
  · show k ∈ jobsB.map Job.id
    rw [hl, List.map_cons, hjr]
    exact List.mem_cons_self

/-! ## A job that gets lost -/

theorem rev_moveBack_same (w : W) :
    (lst name (moveBack name .queued .queued w) .queued).reverse = (lst name w .queued).reverse.rotate 1 := by
  rw [lst_moveBack_same, if_pos rfl]
  rw [List.reverse_append, List.reverse_reverse, List.reverse_reverse]
  generalize (lst name w .queued).reverse = l
  cases l with
  | nil => rfl
  | cons a l => simp

theorem rev_blinds_full (total : Nat) (ids : List Str) (p : W × List (Job D)) (h : total ≤ p.2.length) :
    (lst name (ids.foldl (fun p id => blind E name clk total id p) p).1 .queued).reverse = (lst name p.1 .queued).reverse.rotate ids.length := by
  induction ids generalizing p with
  | nil => simp
  | cons id ids ih =>
    rw [List.foldl_cons, ih _ (by rw [(blind_full (E := E) (name := name) (clk := clk) total id p h).1]; exact h)]
    have : (lst name (blind E name clk total id p).1 .queued).reverse = (lst name p.1 .queued).reverse.rotate 1 := by
      unfold blind
      split
      · next job hv =>
        rw [if_neg]
        · exact rev_moveBack_same (tick p.1)
        · unfold takes
          simp only [Bool.and_eq_true, decide_eq_true_eq]
          omega
      · exact rev_moveBack_same p.1
    rw [this, List.rotate_rotate, Nat.add_comm, List.length_cons]

/-- The first entry examined by a process with one free slot: the job is taken, and the oldest entry moved, whatever it is. -/
theorem blind_take {id : Str} {w : W} {j : Job D} (hj : view E w id = some j) (hr : j.readyAt (clk w.t) = true) {x : Str} {F : List Str}
    (hq : (lst name w .queued).reverse = x :: F) :
    let q := blind E name clk 1 id (w, [])
    q.2 = [j.asRunning (clk (w.t + 1) / nsPerMs)] ∧ (lst name q.1 .queued).reverse = F ∧ lst name q.1 .running = x :: lst name w .running ∧
    view E q.1 = upd (view E w) j.id (E.encdec (j.asRunning (clk (w.t + 1) / nsPerMs))) ∧ q.1.t = w.t + 2 := by
  intro q
  have e : q = _ := blind_first (name := name) (clk := clk) hj hr (by decide)
  rw [e]
  refine ⟨rfl, ?_, ?_, ?_, rfl⟩
  · unfold moveBack
    simp [lst_setL, hq]
  · unfold moveBack
    simp [lst_setL, hq]
  · unfold moveBack
    simp only [view_setL, view_put, view_tick]
    rfl

theorem blinds_t (total : Nat) (ids : List Str) (p : W × List (Job D)) :
    p.1.t ≤ (ids.foldl (fun p id => blind E name clk total id p) p).1.t := by
  induction ids generalizing p with
  | nil => exact Nat.le_refl _
  | cons id ids ih =>
    refine Nat.le_trans ?_ (ih _)
    show p.1.t ≤ (blind E name clk total id p).1.t
    unfold blind
    split
    · split
      · show p.1.t ≤ p.1.t + 2; omega
      · show p.1.t ≤ p.1.t + 1; omega
    · exact Nat.le_refl p.1.t

theorem run_fetch (fuel : Nat) (cfg : WorkQueueConfig) (w : W) (h : 0 < free name cfg w) :
    (WorkQueue.pickJobsToProcess E name (fuel + 1) cfg).run SpecB clk w =
      (afterFetch E name (free name cfg w) fuel (lst name w .queued).length ((lst name w .queued).reverse.take 20)).run SpecB clk w := by
  have h1 := step_fetch (E := E) (clk := clk) fuel cfg w h
  have h2 : ∀ (n : Nat) (p q : Prog (List (Job D))) (w w' : W), stepN SpecB clk n (p, w) = (q, w') → p.run SpecB clk w = q.run SpecB clk w' :=
    fun n p q w w' h => by rw [← stepN_keep n p w, h]
  exact h2 _ _ _ _ _ h1

theorem lost (L : E.Lawful) {w : W} (hk : Keyed E w) (fuelA fuelB : Nat) (cfgA cfgB : WorkQueueConfig) {k1 k2 : Str} {F : List Str}
    (hq : (lst name w .queued).reverse = k1 :: k2 :: F) (hne : k2 ≠ k1) (h20 : (lst name w .queued).length ≤ 20) {j : Job D}
    (hj : view E w k1 = some j) (hd : ∀ i, w.t ≤ i → j.readyAt (clk i) = true) (hA : free name cfgA w = 1) (hB : free name cfgB w = 1) :
    ∃ sched jobsA jobsB w2,
      (⟨WorkQueue.pickJobsToProcess E name (fuelA + 1) cfgA, WorkQueue.pickJobsToProcess E name (fuelB + 1) cfgB, w⟩ :
        Duo SpecB (List (Job D)) (List (Job D))).run SpecB clk sched = ⟨.ret jobsA, .ret jobsB, w2⟩ ∧
      jobsA.map Job.id = [k1] ∧ jobsB.map Job.id = [k1] ∧ view E w2 k2 = view E w k2 ∧
      (lst name w2 .queued).Perm F ∧ lst name w2 .running = k2 :: k1 :: lst name w .running := by
  have hjid : j.id = k1 := hk k1 j hj
  have hlen : (lst name w .queued).length = F.length + 2 := len_of_reverse hq
  have hrev : ((lst name w .queued).reverse.take 20) = k1 :: k2 :: F := by
    rw [List.take_of_length_le (by rw [List.length_reverse]; exact h20), hq]
  have hlen' : ((lst name w .queued).reverse.take 20).length = (lst name w .queued).length := by rw [hrev, hlen]; rfl
  -- the overtaking process
  have hB2 := run_afterFetch (E := E) (name := name) (clk := clk) (free name cfgB w) fuelB (lst name w .queued).length
    ((lst name w .queued).reverse.take 20) hlen' h20 w
  have hrB := (run_fetch fuelB cfgB w (by omega)).trans hB2
  rw [hrev, List.foldl_cons, hB] at hrB
  obtain ⟨b1, b2, b3, b4, b5⟩ := blind_take (name := name) (clk := clk) hj (hd _ (Nat.le_refl _)) hq
  generalize blind E name clk 1 k1 (w, []) = p0 at hrB b1 b2 b3 b4 b5
  have hfull : 1 ≤ p0.2.length := by rw [b1]; exact Nat.le_refl _
  obtain ⟨c1, c2, _, c4⟩ := blinds_full (E := E) (name := name) (clk := clk) 1 (k2 :: F) p0 hfull
  have c3 := rev_blinds_full (E := E) (name := name) (clk := clk) 1 (k2 :: F) p0 hfull
  have c5 := blinds_t (E := E) (name := name) (clk := clk) 1 (k2 :: F) p0
  generalize (k2 :: F).foldl (fun p id => blind E name clk 1 id p) p0 = p1 at hrB c1 c2 c3 c4 c5
  obtain ⟨w1, jobsB⟩ := p1
  rw [b2, List.rotate_length] at c3
  have c1 : jobsB = p0.2 := c1
  have c2 : view E w1 = view E p0.1 := c2
  -- the overtaken one
  have hA2 := run_afterFetch (E := E) (name := name) (clk := clk) (free name cfgA w) fuelA (lst name w .queued).length
    ((lst name w .queued).reverse.take 20) hlen' h20 w1
  obtain ⟨sched, hs⟩ := overtake fuelA cfgA w (by omega) hrB hA2
  rw [hrev, List.foldl_cons, hA] at hs
  have hv1 : view E w1 k1 = some (j.asRunning (clk (w.t + 1) / nsPerMs)) := by
    rw [c2, b4, hjid, upd_same, ((Env.Lawful.stored_view (L := L) hj).asRunning _).encdec]
  have ht1 : w.t ≤ w1.t := by
    have : p0.1.t ≤ w1.t := c5
    omega
  obtain ⟨d1, d2, d3, d4, d5⟩ := blind_take (name := name) (clk := clk) hv1 (by rw [readyAt_asRunning]; exact hd _ ht1) c3
  generalize blind E name clk 1 k1 (w1, []) = p2 at hs d1 d2 d3 d4 d5
  obtain ⟨e1, e2, e3, e4⟩ := blinds_full (E := E) (name := name) (clk := clk) 1 (k2 :: F) p2 (by rw [d1]; exact Nat.le_refl _)
  generalize (k2 :: F).foldl (fun p id => blind E name clk 1 id p) p2 = p3 at hs e1 e2 e3 e4
  refine ⟨sched, _, _, _, hs, ?_, ?_, ?_, ?_, ?_⟩
  · rw [e1, d1, ← hjid]; rfl
  · rw [c1, b1, ← hjid]; rfl
  · rw [e2, d4, upd_ne, c2, b4, upd_ne]
    · rw [hjid]; exact hne
    · show k2 ≠ j.id; rw [hjid]; exact hne
  · refine e3.trans ?_
    have := List.reverse_perm (lst name p2.1 .queued)
    rw [d2] at this
    exact this.symm
  · rw [e4 _ (by decide), d3]
    have := c4 .running (by decide)
    rw [show lst name w1 .running = _ from this, b3]

/-! ## A scan that does not end -/

theorem diverges (total fuel : Nat) (cursor : Int) (hc : 0 < cursor) (hc2 : cursor < 2 ^ 31) (rd : List (Job D)) (hr : rd.length < total) (w : W)
    (hq : lst name w .queued = []) : (WorkQueue.pickLoop E name total fuel cursor rd).run SpecB clk w = (.diverged, w) := by
  induction fuel with
  | zero => rfl
  | succ fuel ih =>
    rw [WorkQueue.pickLoop_succ]
    have e : (orFail (queueGet (formatQueueName name .queued) 20 .back)).run SpecB clk w = (.ok ((lst name w .queued).reverse.take 20), w) := rfl
    simp only [run_bind, e, contRun_ok, hq, List.reverse_nil, List.take_nil]
    have ha : addI32 E.overflowChecks cursor (-(([] : List Str).length : Int)) = some cursor := by
      simp only [addI32, fitsI32, List.length_nil]
      simp
      omega
    rw [ha]
    simp only [run_orPanic_some, contRun_ok, WorkQueue.pickBatch, pure_eq]
    show (if rd.length ≥ total then ret rd else if cursor ≤ 0 then ret rd else WorkQueue.pickLoop E name total fuel cursor rd).run SpecB clk w = _
    rw [if_neg (by omega), if_neg (by omega)]
    exact ih

theorem step_counts (fuel : Nat) (cfg : WorkQueueConfig) (w : W) (h : 0 < free name cfg w) :
    stepN SpecB clk 2 (WorkQueue.pickJobsToProcess E name fuel cfg, w) =
      (WorkQueue.pickLoop E name (free name cfg w) fuel (wrapI32 (lst name w .queued).length) [], w) := by
  have e : stepN SpecB clk 2 (WorkQueue.pickJobsToProcess E name fuel cfg, w) =
    stepN SpecB clk 1 (if (lst name w .running).length ≥ cfg.maxProcessingJobs then (ret [] : Prog (List (Job D)))
        else WorkQueue.tryPickSpecificReadyJobs E name fuel (free name cfg w), w) := rfl
  rw [e, if_neg (by unfold free at h; omega)]
  rfl

/-- A process that finds entries, and another one that takes them all before the first one fetches them. -/
theorem starve (cfgA : WorkQueueConfig) (w : W) (hA : 0 < free name cfgA w) (hq : 0 < (lst name w .queued).length)
    (hl : (lst name w .queued).length < 2 ^ 31) {β : Type} {p : Prog β} {r : β} {w1 : W} (hB : p.run SpecB clk w = (.ok r, w1))
    (h1 : lst name w1 .queued = []) :
    ∃ sched, ∀ fuel,
      let d := (⟨WorkQueue.pickJobsToProcess E name fuel cfgA, p, w⟩ : Duo SpecB (List (Job D)) β).run SpecB clk sched
      d.right = .ret r ∧ d.w = w1 ∧ d.left.run SpecB clk d.w = (.diverged, w1) := by
  obtain ⟨n, hn⟩ := stepN_run _ _ hB
  refine ⟨List.replicate 2 true ++ List.replicate n false, fun fuel => ?_⟩
  dsimp only
  rw [Duo.run_append, Duo.run_left, step_counts _ _ _ hA, Duo.run_right, hn]
  refine ⟨rfl, rfl, ?_⟩
  rw [WorkQueue.wrapI32_of_fits (by omega) (by omega)]
  exact diverges _ _ _ (by omega) (by omega) _ (by simpa using hA) _ h1

/-! ## A scan among others that take nothing -/

section
variable {script : Nat → Fate}

private theorem count_state (q : Str) (s : SpecState) (i : Nat) :
    ((Faulty SpecB script).exec (.queueCount q) (s, i)).2 = (SpecB.execAll (script i).env s, i + 1) := by
  unfold Faulty
  dsimp only
  cases (script i).fault <;> rfl

private theorem count_answer (q : Str) (s : SpecState) (i : Nat) {n : Nat}
    (h : ((Faulty SpecB script).exec (.queueCount q) (s, i)).1 = .ok n) : n = ((SpecB.execAll (script i).env s).q q).length := by
  unfold Faulty at h
  dsimp only at h
  cases hf : (script i).fault with
  | none => rw [hf] at h; injection h with h; exact h.symm
  | before => rw [hf] at h; cases h
  | after => rw [hf] at h; cases h

/-- The scan of a tick returns while others push jobs, as long as they take none. -/
theorem ends_gentle (hA : Gentle name script) (cfg : WorkQueueConfig) (w : W) (fuel : Nat)
    (hl : ((SpecB.execAll (script 1).env (SpecB.execAll (script 0).env w.s)).q (formatQueueName name .queued)).length < 2 ^ 31)
    (hf : ((SpecB.execAll (script 1).env (SpecB.execAll (script 0).env w.s)).q (formatQueueName name .queued)).length < fuel) :
    (∃ e, ((WorkQueue.pickJobsToProcess E name fuel cfg).run (Faulty SpecB script) clk (fw script w 0)).1 = .err e) ∨
    ∃ jobs w', (WorkQueue.pickJobsToProcess E name fuel cfg).run (Faulty SpecB script) clk (fw script w 0) = (.ok jobs, w') := by
  generalize hs1 : SpecB.execAll (script 0).env w.s = s1 at hl hf
  generalize hs2 : SpecB.execAll (script 1).env s1 = s2 at hl hf
  have key : Ends (Faulty SpecB script) clk (fun s => s = (w.s, 0)) (WorkQueue.pickJobsToProcess E name fuel cfg) fun _ _ => True := by
    refine Ends.bind (Ends.callV (op := .queueCount (formatQueueName name .running)) (post := fun _ (s : FS script) => s = (s1, 1)) fun s h => ?_) fun r => ?_
    · rw [h, count_state, hs1]
    refine Ends.ite (fun _ => Ends.ret fun _ _ => trivial) fun _ => ?_
    refine Ends.bind (Ends.callQ (op := .queueCount (formatQueueName name .queued))
      (post := fun (m : Nat) (s : FS script) => m = (s2.q (formatQueueName name .queued)).length ∧ s = (s2, 2)) fun s r h hr => ?_) fun m => ?_
    · rw [h] at hr
      have e := count_answer _ _ _ hr
      rw [hs2] at e
      refine ⟨e, ?_⟩
      rw [h, count_state, hs2]
    · generalize hn : (s2.q (formatQueueName name .queued)).length = n at hl hf
      by_cases hm : m = n
      swap
      · intro w hw; exact absurd hw.1 hm
      subst hm
      have hw : wrapI32 (m : Int) = m := WorkQueue.wrapI32_of_fits (by omega) (by omega)
      show Ends _ _ _ (WorkQueue.pickLoop E name _ fuel (wrapI32 (m : Int)) []) _
      rw [hw]
      refine (ends_pickLoop hA _ _ _ _ (by omega) (by omega) (by omega)).pre_mono fun s h => ?_
      rw [h.2]
      show (m : Int) ≤ ((s2.q (formatQueueName name .queued)).length : Int)
      omega
  rcases key (fw script w 0) rfl with h | ⟨a, w', h, _⟩
  · exact .inl h
  · exact .inr ⟨a, w', h⟩

end
end AJ
