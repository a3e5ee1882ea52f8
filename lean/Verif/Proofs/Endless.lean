import Verif.Proofs.Slack
import Verif.Proofs.Runs
import Verif.Spec.Endless

/-! # One job in an endless history: it is started, it runs, and the run ends -/

namespace AJ
open W

/-- Turn `m` of the history ends a run of the stored job `j` of `k`, and leaves it as `j'`. -/
structure Sys.Ends {D O : Type} {E : Env D} {b : Impl} (L : E.Lawful) (name : Str) (clk : Nat → Time) (k : Str)
    (s : Sys D b.B) (ops : Nat → Op D O) (m : Nat) (j j' : Job D) (x : Executable D O) : Prop where
  op : ∃ i, ops m = .finish i x ∧
    (b.snap E name (Sys.after E name b.B clk s ops m)).tasks[i]? = some ⟨j, some j.counted⟩
  job : (b.snap E name (Sys.after E name b.B clk s ops (m + 1))).job k = some j'
  ran : Ran E L clk x j.counted (b.snap E name (Sys.after E name b.B clk s ops m)).reads
    (b.snap E name (Sys.after E name b.B clk s ops (m + 1))).reads j'

section
variable {D O : Type} {E : Env D} {name : Str} {clk : Nat → Time} {b : Impl} {k : Str} {s : Sys D b.B}
  {ops : Nat → Op D O}

local notation "σ" n:max => b.snap E name (Sys.after E name b.B clk s ops n)

theorem after_add (n : Nat) : ∀ m, Sys.after E name b.B clk s ops (n + m) =
    Sys.after E name b.B clk (Sys.after E name b.B clk s ops n) (fun i => ops (n + i)) m
  | 0 => rfl
  | m + 1 => by
    show (Sys.step E name b.B clk (Sys.after E name b.B clk s ops (n + m)) (ops (n + m))).1 = _
    rw [after_add n m]; rfl

/-- A dead actor stays dead. -/
theorem after_dead {n m : Nat} (h : n ≤ m) (hd : (Sys.after E name b.B clk s ops n).alive = false) :
    (Sys.after E name b.B clk s ops m).alive = false := by
  induction h with
  | refl => exact hd
  | @step m _ ih =>
    show (Sys.step E name b.B clk (Sys.after E name b.B clk s ops m) (ops m)).1.alive = false
    unfold Sys.step
    rw [if_neg (by rw [ih]; decide)]
    exact ih

variable (L : E.Lawful) (hs : InHand b E name k s) (H : Sys.Serves b E name clk k s ops)

include L hs H in
theorem Sys.Serves.inHand (n : Nat) : InHand b E name k (Sys.after E name b.B clk s ops n) := by
  induction n with
  | zero => exact hs
  | succ n ih => exact ih.step L (ops n) (NoSubmit.orderly (H.submit n))

include H in
theorem Sys.Serves.alive (n : Nat) : (Sys.after E name b.B clk s ops n).alive = true := by
  by_contra h
  obtain ⟨m, h1, _, h2, _⟩ := H.ticks n
  rw [after_dead h1 (by simpa using h)] at h2
  cases h2

include L hs H in
theorem Sys.Serves.reads {n m : Nat} (h : n ≤ m) : (σ n).reads ≤ (σ m).reads := by
  induction h with
  | refl => exact Nat.le_refl _
  | step _ ih => exact Nat.le_trans ih ((H.inHand L hs _).reads L _)

include L hs H in
/-- A job that waits and will be due is started. -/
theorem Sys.Serves.picked {n : Nat} {j : Job D} (hj : (σ n).job k = some j) (hq : j.context.jobStatus = .queued)
    (hdue : ∃ i, ∀ i', i ≤ i' → j.Due (clk i')) :
    ∃ m t, n ≤ m ∧ (σ (m + 1)).job k = some (j.asRunning t) ∧ (σ (m + 1)).own k = [⟨j.asRunning t, none⟩] ∧
      (σ (m + 1)).runs k = (σ n).runs k := by
  by_contra hcon
  -- it waits forever
  have hw : ∀ m, n ≤ m → (σ m).job k = some j ∧ (σ m).own k = [] ∧ (σ m).runs k = (σ n).runs k := by
    intro m hm
    induction hm with
    | refl => exact ⟨hj, ((H.inHand L hs n).solo hj).idle' hj (by rw [hq]; decide), rfl⟩
    | @step m hm ih =>
      obtain ⟨h1, h2, h3⟩ := ih
      have hl := (H.inHand L hs m).careful_life L (clk := clk) h1 (ops m) (H.code m)
      change Life E L name clk k (σ m) (σ (m + 1)) (ops m) at hl
      generalize hop : ops m = op at hl
      cases hl with
      | same op g1 g2 g3 => exact ⟨g1.trans h1, g2.trans h2, (runs_same g3).trans h3⟩
      | submit j c hid => exact absurd hid (H.submit m j c hop)
      | replace j c ex hid => exact absurd hid (H.submit m j c hop)
      | cancel => exact absurd hop (H.cancel m)
      | retry j' hold hd =>
        rw [h1] at hold; cases hold
        simp [Job.isDone, hq] at hd
      | pick j' i hold _ _ _ _ g1 _ g2 g3 =>
        rw [h1] at hold; cases hold
        exact (hcon ⟨m, _, hm, g1, g2, (runs_msg g3).trans h3⟩).elim
      | run j' i hold hr => rw [h1] at hold; cases hold; rw [hq] at hr; cases hr
      | finish j' j'' i x w w' hold hr => rw [h1] at hold; cases hold; rw [hq] at hr; cases hr
      | died op _ _ _ _ ha =>
        have : (σ (m + 1)).alive = true := H.alive (m + 1)
        rw [this] at ha; cases ha
  rcases H.short with hshort | hslack
  swap
  · exact slack_starts L (fun m _ => H.inHand L hs m) (fun m hm => ⟨(hw m hm).1, (hw m hm).2.1⟩) hq hslack hdue
  have hstep := fun m (hm : n ≤ m) => Props.wait_step L (H.inHand L hs m) (ops m) (H.submit m) (H.cancel m) (hshort m)
    (hw m hm).1 hq (hw (m + 1) (Nat.le_succ_of_le hm)).2.1
  have hmono : ∀ p m, n ≤ p → p ≤ m → (σ m).fifo.idxOf k ≤ (σ p).fifo.idxOf k := by
    intro p m hp hm
    induction hm with
    | refl => exact Nat.le_refl _
    | step h ih => exact Nat.le_trans (hstep _ (Nat.le_trans hp h)).2.2.2.1 ih
  -- the clock is read again and again, or it moves up
  have hgrow : ∀ R p, (σ p).fifo.idxOf k = R → n ≤ p → ∃ m, p ≤ m ∧ (σ p).reads < (σ m).reads := by
    intro R
    induction R using Nat.strongRecOn with
    | _ R ih =>
      intro p hR hp
      by_contra hno
      obtain ⟨m, h1, h2, h3, h4⟩ := H.ticks p
      have hle : (σ (m + 1)).reads ≤ (σ p).reads := Nat.le_of_not_lt fun h => hno ⟨m + 1, by omega, h⟩
      have hge : (σ p).reads ≤ (σ m).reads := H.reads L hs h1
      have hlt := (hstep m (Nat.le_trans hp h1)).2.2.2.2 h2 h3 h4 (fun i hi hi' => by
        have hi' : i < (σ (m + 1)).reads := hi'
        exact absurd hi' (by omega))
      have hlt : (σ (m + 1)).fifo.idxOf k < R := Nat.lt_of_lt_of_le hlt (by rw [← hR]; exact hmono p m hp h1)
      obtain ⟨m', h5, h6⟩ := ih _ hlt (m + 1) rfl (by omega)
      exact hno ⟨m', by omega, Nat.lt_of_le_of_lt (Nat.le_trans hge (H.reads L hs (Nat.le_succ m))) h6⟩
  have hread : ∀ R, ∃ m, n ≤ m ∧ R ≤ (σ m).reads := by
    intro R
    induction R with
    | zero => exact ⟨n, Nat.le_refl _, Nat.zero_le _⟩
    | succ R ih =>
      obtain ⟨m, h1, h2⟩ := ih
      obtain ⟨m', h3, h4⟩ := hgrow _ m rfl h1
      exact ⟨m', by omega, by omega⟩
  obtain ⟨i0, hi0⟩ := hdue
  obtain ⟨p, hp, hpr⟩ := hread i0
  have hdesc : ∀ R m, p ≤ m → (σ m).fifo.idxOf k = R → False := by
    intro R
    induction R using Nat.strongRecOn with
    | _ R ih =>
      intro m hm hR
      obtain ⟨m', h1, h2, h3, h4⟩ := H.ticks m
      have hlt := (hstep m' (by omega)).2.2.2.2 h2 h3 h4 (fun i hi _ => hi0 i (by
        have h5 : (σ p).reads ≤ (σ m').reads := H.reads L hs (by omega)
        have hi : (σ m').reads ≤ i := hi
        omega))
      exact ih _ (Nat.lt_of_lt_of_le hlt (by rw [← hR]; exact hmono m m' (by omega) h1)) (m' + 1) (by omega) rfl
  exact hdesc _ p (Nat.le_refl _) rfl

include hs H in
/-- A run in progress ends. -/
theorem Sys.Serves.ended {n : Nat} {j : Job D} (hj : (σ n).job k = some j) (hr : j.context.jobStatus = .running)
    (hx : (∀ m, DefaultRetry k (σ m) (ops m)) ∨ j.context.retry = none) :
    ∃ m j' x, n ≤ m ∧ Sys.Ends L name clk k s ops m j j' x ∧
      ((σ n).own k = [⟨j, none⟩] → (σ (m + 1)).runs k = (σ n).runs k ++ [j.counted.context]) ∧
      ((σ n).own k = [⟨j, some j.counted⟩] → (σ (m + 1)).runs k = (σ n).runs k) := by
  have hid : j.id = k := (H.inHand L hs n).keyed k j hj
  have hstored := (H.inHand L hs n).stored L hj
  by_contra hcon
  have hw : ∀ m, n ≤ m → (σ m).job k = some j ∧
      ((σ m).own k = [⟨j, none⟩] ∧ (σ n).own k = [⟨j, none⟩] ∧ (σ m).runs k = (σ n).runs k ∨
        (σ m).own k = [⟨j, some j.counted⟩] ∧
        ((σ n).own k = [⟨j, none⟩] → (σ m).runs k = (σ n).runs k ++ [j.counted.context]) ∧
        ((σ n).own k = [⟨j, some j.counted⟩] → (σ m).runs k = (σ n).runs k)) := by
    intro m hm
    induction hm with
    | refl =>
      refine ⟨hj, ?_⟩
      rcases ((H.inHand L hs n).solo hj).busy (H.alive n) j hj hr with h | h
      · exact .inl ⟨h, h, rfl⟩
      · exact .inr ⟨h, (fun e => by rw [h] at e; cases e), fun _ => rfl⟩
    | @step m hm ih =>
      obtain ⟨h1, h2⟩ := ih
      have hl := (H.inHand L hs m).careful_life L (clk := clk) h1 (ops m) (H.code m)
      change Life E L name clk k (σ m) (σ (m + 1)) (ops m) at hl
      generalize hop : ops m = op at hl
      cases hl with
      | same op g1 g2 g3 => rw [g1, g2, runs_same g3]; exact ⟨h1, h2⟩
      | submit j c hid => exact absurd hid (H.submit m j c hop)
      | replace j c ex hid => exact absurd hid (H.submit m j c hop)
      | cancel => exact absurd hop (H.cancel m)
      | retry j' hold hd =>
        rw [h1] at hold; cases hold
        simp [Job.isDone, hr] at hd
      | pick j' i hold hq => rw [h1] at hold; cases hold; rw [hr] at hq; cases hq
      | run j' i hold _ _ ho g1 g2 g3 =>
        rw [h1] at hold; cases hold
        rcases h2 with ⟨_, h3, h4⟩ | ⟨h3, _⟩
        · exact ⟨g1, .inr ⟨g2, (fun _ => by rw [runs_run g3, h4]), (fun e => by rw [h3] at e; cases e)⟩⟩
        · rw [ho] at h3; cases h3
      | finish j1 j' i x w w' hold _ ht ho hw hw' hf he hen g1 g2 g3 =>
        rw [h1] at hold; cases hold
        refine (hcon ⟨m, j', x, hm, ⟨⟨i, hop, ht⟩, g1, ?_⟩, ?_⟩).elim
        · refine Life.ran L hstored hr hw hw' hf he hen ?_
          rcases hx with hx | hx
          · exact .inl (hx m i x _ _ hop ht hid)
          · exact .inr hx
        · rw [runs_end g3]
          rcases h2 with ⟨h3, _⟩ | ⟨_, h3⟩
          · rw [ho] at h3; cases h3
          · exact h3
      | died op _ _ _ _ ha =>
        have : (σ (m + 1)).alive = true := H.alive (m + 1)
        rw [this] at ha; cases ha
  have hin : ∀ m, n ≤ m → k ∈ (σ m).inFlight := by
    intro m hm
    by_contra h
    have h0 := own_of_not_inFlight h
    rcases (hw m hm).2 with ⟨h1, _⟩ | ⟨h1, _⟩ <;> rw [h0] at h1 <;> cases h1
  obtain ⟨m, h1, h2⟩ := H.ends n (hin n (Nat.le_refl _))
  exact h2 (hin m h1)

include hs H in
/-- A job that waits and will be due runs once more. -/
theorem Sys.Serves.round {n : Nat} {j : Job D} (hj : (σ n).job k = some j) (hq : j.context.jobStatus = .queued)
    (hdue : ∃ i, ∀ i', i ≤ i' → j.Due (clk i')) (hx : (∀ m, DefaultRetry k (σ m) (ops m)) ∨ j.context.retry = none) :
    ∃ m t j' x, n ≤ m ∧ Sys.Ends L name clk k s ops m (j.asRunning t) j' x ∧
      ((σ (m + 1)).runs k).length = ((σ n).runs k).length + 1 := by
  obtain ⟨m, t, h1, h2, h3, h4⟩ := H.picked L hs hj hq hdue
  obtain ⟨m', j', x, h5, h6, h7⟩ := H.ended L hs h2 rfl hx
  refine ⟨m', t, j', x, by omega, h6, ?_⟩
  rw [h7.1 h3, h4]
  simp

end

/-! ## Capacity comes back -/

section
variable {D O : Type} {E : Env D} {name : Str} {clk : Nat → Time} {b : Impl} {s : Sys D b.B} {ops : Nat → Op D O}

local notation "σ" n:max => b.snap E name (Sys.after E name b.B clk s ops n)

theorem Careful.of {v : Snap D} {op : Op D O} (h : Careful E v op) (k : Str) : CarefulFor E k v op := by
  cases op with
  | enqueue j c => exact fun _ => h
  | finish i x => exact fun orig job ht _ => h orig job ht
  | _ => trivial

variable (L : E.Lawful) (hs : Reach (O := O) b E name clk (Careful E) s) (H : Sys.Fair b E name clk s ops)

include hs H in
theorem Sys.Fair.reach (n : Nat) : Reach (O := O) b E name clk (Careful E) (Sys.after E name b.B clk s ops n) := by
  induction n with
  | zero => exact hs
  | succ n ih => exact .step (ops n) ih (H.careful n)

include H in
theorem Sys.Fair.alive (n : Nat) : (Sys.after E name b.B clk s ops n).alive = true := by
  by_contra h
  obtain ⟨m, h1, _, h2⟩ := H.ticks n
  rw [after_dead h1 (by simpa using h)] at h2
  cases h2

include L hs H in
/-- A turn that is no tick, or finds no capacity, puts no job on the running list. -/
theorem Sys.Fair.full {n : Nat} (hf : ops n = .tick → (σ n).free = 0) {id : Str} (h : id ∉ (σ n).lists .running) :
    id ∉ (σ (n + 1)).lists .running := by
  intro hin
  have hso := reach_solo L (k := id) (fun _ _ h => h.of id) (H.reach hs n)
  have hso' := reach_solo L (k := id) (fun _ _ h => h.of id) (H.reach hs (n + 1))
  by_cases ht : ops n = .tick
  · have hst : σ (n + 1) = b.snap E name (Sys.step E name b.B clk (Sys.after E name b.B clk s ops n) (.tick : Op D O)).1 := by
      rw [← ht]; rfl
    rcases tick_facts_any (O := O) (clk := clk) b L _ (H.reach hs n).good (reach_keyed L (H.reach hs n)) (H.alive n) with
      ⟨st, h1, _⟩ | ⟨h1, _⟩
    · have h2 : st = [] := List.eq_nil_of_length_eq_zero (Nat.le_zero.mp (hf ht ▸ h1.ticked.capacity))
      have h3 := h1.ticked.running
      rw [h2] at h3
      rw [hst, h3] at hin
      exact h (by simpa using hin)
    · rw [hst, h1] at hin
      exact h hin
  · have hno : (σ n).status id ≠ some .running := by
      intro e
      have := hso.running
      rw [if_pos e, List.count_eq_zero.mpr h] at this
      cases this
    have hyes : (σ (n + 1)).status id = some .running := by
      have := hso'.running
      by_contra e
      rw [if_neg e] at this
      exact List.count_eq_zero.mp this hin
    obtain ⟨j', hj', hr'⟩ := status_some hyes
    have hl := reach_life (k := id) L (fun _ _ h => h.of id) (H.reach hs n) (ops n) ((H.careful n).of id)
    change Life E L name clk id (σ n) (σ (n + 1)) (ops n) at hl
    have hold : ∀ j, (σ n).job id = some j → j.context.jobStatus ≠ .running := fun j hj e =>
      hno ((status_of hj).trans (by rw [e]))
    generalize hop : ops n = op at hl
    cases hl with
    | same op g1 => exact hold j' (g1.symm.trans hj') hr'
    | submit j c _ _ _ g1 => rw [hj'] at g1; cases g1; cases hr'
    | replace j c ex _ _ h1 _ _ _ h2 g1 =>
      rw [hj'] at g1; cases g1
      exact hold ex h1 (h2.symm.trans hr')
    | cancel j _ _ g1 => rw [hj'] at g1; cases g1; cases hr'
    | retry j _ _ g1 => rw [hj'] at g1; cases g1; cases hr'
    | pick => exact ht hop
    | run j i h1 h2 => exact hold j h1 h2
    | finish j _ _ _ _ _ h1 h2 => exact hold j h1 h2
    | died op g1 => exact hold j' (g1.symm.trans hj') hr'

include L hs H in
/-- Ticks with free capacity never cease. -/
theorem Sys.Fair.free (m : Nat) : ∃ n, m ≤ n ∧ ops n = .tick ∧ (Sys.after E name b.B clk s ops n).alive = true ∧
    1 ≤ (σ n).free := by
  by_contra hcon
  have hfull : ∀ n, m ≤ n → ops n = .tick → (σ n).free = 0 := by
    intro n hn ht
    by_contra h
    exact hcon ⟨n, hn, ht, H.alive n, by omega⟩
  have hstay : ∀ id n p, m ≤ n → n ≤ p → id ∉ (σ n).lists .running → id ∉ (σ p).lists .running := by
    intro id n p hn hp h
    induction hp with
    | refl => exact h
    | step hp ih => exact H.full L hs (hfull _ (Nat.le_trans hn hp)) ih
  have hone : ∀ id, ∃ n, m ≤ n ∧ id ∉ (σ n).lists .running := by
    intro id
    by_cases hin : id ∈ (σ m).lists .running
    swap
    · exact ⟨m, Nat.le_refl _, hin⟩
    have hrun : ∀ n, id ∈ (σ n).lists .running → id ∈ (σ n).inFlight := by
      intro n hin
      have hso := reach_solo L (k := id) (fun _ _ h => h.of id) (H.reach hs n)
      have : (σ n).status id = some .running := by
        by_contra e
        have := hso.running
        rw [if_neg e] at this
        exact List.count_eq_zero.mp this hin
      obtain ⟨j, hj, hr⟩ := status_some this
      by_contra h
      have h0 := own_of_not_inFlight h
      rcases hso.busy (H.alive n) j hj hr with h1 | h1 <;> rw [h0] at h1 <;> cases h1
    obtain ⟨n, h1, h2⟩ := H.ends m id (hrun m hin)
    exact ⟨n, h1, fun h => h2 (hrun n h)⟩
  have hall : ∀ l : List Str, ∃ n, m ≤ n ∧ ∀ id ∈ l, id ∉ (σ n).lists .running := by
    intro l
    induction l with
    | nil => exact ⟨m, Nat.le_refl _, by simp⟩
    | cons x l ih =>
      obtain ⟨n, h1, h2⟩ := ih
      obtain ⟨p, h3, h4⟩ := hone x
      refine ⟨max n p, by omega, fun id hid => ?_⟩
      rcases List.mem_cons.mp hid with rfl | hid
      · exact hstay _ p _ h3 (Nat.le_max_right _ _) h4
      · exact hstay _ n _ h1 (Nat.le_max_left _ _) (h2 id hid)
  obtain ⟨n, h1, h2⟩ := hall ((σ m).lists .running)
  obtain ⟨p, h3, h4, h5⟩ := H.ticks n
  refine hcon ⟨p, by omega, h4, h5, ?_⟩
  have h6 : (σ p).lists .running = [] := by
    refine List.eq_nil_iff_forall_not_mem.mpr fun id => ?_
    by_cases hin : id ∈ (σ m).lists .running
    · exact hstay id n p h1 h3 (h2 id hin)
    · exact hstay id m p (Nat.le_refl _) (by omega) hin
  have h7 : (σ p).free = (σ p).cfg.maxProcessingJobs := by unfold Snap.free; rw [h6]; rfl
  rw [h7]
  exact H.capacity p h4

include L hs H in
/-- Every job that is left alone is served. -/
theorem Sys.Fair.serves {k : Str} (h1 : ∀ n, NoSubmit k (ops n)) (h2 : ∀ n, ops n ≠ .cancel k) :
    Sys.Serves b E name clk k s ops :=
  ⟨h1, h2, fun n => (H.careful n).of k, fun n => H.ends n k, H.free L hs, H.short⟩

end

/-! ## The log only grows -/

section
variable {D O : Type} {E : Env D} {name : Str} {clk : Nat → Time} {b : Impl} {k : Str}

theorem step_log (L : E.Lawful) {s : Sys D SpecB} (hT : Tidy E s) (op : Op D O) :
    ∃ l, (Sys.step E name SpecB clk s op).1.w.log = s.w.log ++ l := by
  by_cases ha : s.alive = true
  swap
  · rw [Sys.step_dead s (by simpa using ha)]; exact ⟨[], by simp⟩
  have hs := Sys.step_cases (E := E) (name := name) (clk := clk) s ha op
  generalize Sys.step E name SpecB clk s op = p at hs
  have of : ∀ {k : Str} {w w' : W}, Touch E name k w w' → ∃ l, w'.log = w.log ++ l := fun h => ⟨h.log.choose, h.log.choose_spec.1⟩
  cases hs with
  | enqueue j c => exact of (Touch.submit (E := E) (name := name) (clk := clk) j c s.w)
  | cancel k => exact of (Touch.cancel (name := name) (clk := clk) hT.keyed k)
  | retry k => exact of (Touch.retry (name := name) (clk := clk) hT.keyed k)
  | tick n hk hk20 => exact ⟨_, ((Scan.init _ _).turns L hT.keyed n).log⟩
  | finished i x orig job w hi hf => exact of hf.touch
  | finishPanic i x orig job w hi hf => exact of hf.touch
  | started i orig hi hcan => exact ⟨[.hookMsg orig.id true, .ran orig.counted.context], by simp⟩
  | startCancelled => exact ⟨[], by simp⟩
  | _ => exact ⟨[], by simp⟩

theorem InHand.runs (L : E.Lawful) {s : Sys D b.B} (hs : InHand b E name k s) (op : Op D O) :
    ((b.snap E name s).runs k).length ≤ ((b.snap E name (Sys.step E name b.B clk s op).1).runs k).length :=
  hs.lift_step (Q := fun v _ _ v' => (v.runs k).length ≤ (v'.runs k).length) (fun t op ht _ => by
    obtain ⟨l, hl⟩ := step_log (name := name) (clk := clk) L ht op
    have : (Impl.spec.snap E name (Sys.step E name SpecB clk t op).1).mine k =
        (Impl.spec.snap E name t).mine k ++ l.filter (fun e => decide (e.id = k)) := by
      show List.filter _ (Sys.step E name SpecB clk t op).1.w.log = List.filter _ t.w.log ++ _
      rw [hl, List.filter_append]
    rw [runs_append this, List.length_append]
    exact Nat.le_add_right _ _) op

theorem reach_runs (L : E.Lawful) {P : Snap D → Op D O → Prop} {s : Sys D b.B} (hs : Reach b E name clk P s) (op : Op D O) :
    ((b.snap E name s).runs k).length ≤ ((b.snap E name (Sys.step E name b.B clk s op).1).runs k).length :=
  Reach.lift_step (Q := fun v _ _ v' => (v.runs k).length ≤ (v'.runs k).length) (fun t op ht => by
    obtain ⟨l, hl⟩ := step_log (name := name) (clk := clk) L (reach_tidy L ht) op
    have : (Impl.spec.snap E name (Sys.step E name SpecB clk t op).1).mine k =
        (Impl.spec.snap E name t).mine k ++ l.filter (fun e => decide (e.id = k)) := by
      show List.filter _ (Sys.step E name SpecB clk t op).1.w.log = List.filter _ t.w.log ++ _
      rw [hl, List.filter_append]
    rw [runs_append this, List.length_append]
    exact Nat.le_add_right _ _) hs op

end
end AJ
