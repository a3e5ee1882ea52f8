import Mathlib.Data.List.InsertIdx
import Mathlib.Data.List.Perm.Subperm
import Verif.Proofs.Endless
import Verif.Proofs.Ops
import Verif.Spec.Slots

/-! # Entries of the running list belong to executions in flight, or were there at the beginning -/

namespace AJ
open W

variable {D O : Type} {E : Env D} {name : Str} {clk : Nat → Time}

/-- Executions are those of jobs marked Running, and apart from `l` each entry of the running list belongs to one of them. -/
structure Slots (l : List Str) (v : Snap D) : Prop where
  orig : ∀ t ∈ v.tasks, t.orig.context.jobStatus = .running
  job : ∀ t ∈ v.tasks, ∀ j, t.executing = some j → j.id = t.orig.id ∧ j.context.jobStatus = .running
  room : v.alive = true → ∀ id, (v.lists .running).count id ≤ l.count id + v.inFlight.count id

theorem Slots.start {v : Snap D} (h : v.tasks = []) : Slots (v.lists .running) v :=
  ⟨fun t ht => (by rw [h] at ht; cases ht), fun t ht => (by rw [h] at ht; cases ht), fun _ _ => Nat.le_add_right _ _⟩

theorem Slots.dead {l : List Str} {v : Snap D} (h : v.tasks = []) (ha : v.alive = false) : Slots l v :=
  ⟨fun t ht => (by rw [h] at ht; cases ht), fun t ht => (by rw [h] at ht; cases ht), fun h => (by rw [ha] at h; cases h)⟩

/-- Nothing changed but the world, and there not the running list. -/
theorem Slots.same {l : List Str} {v v' : Snap D} (h : Slots l v) (h1 : v'.tasks = v.tasks) (h2 : v'.lists .running = v.lists .running)
    (h3 : v'.alive = v.alive) : Slots l v' := by
  refine ⟨by rw [h1]; exact h.orig, by rw [h1]; exact h.job, ?_⟩
  unfold Snap.inFlight
  rw [h1, h2, h3]
  exact h.room

theorem W.running_submit (j : Job D) (c : EnqueueConfig) (w : W) : lst name (submit E name clk j c w) .running = lst name w .running := by
  unfold submit
  split
  · dsimp only
    repeat' split
    all_goals simp [enq, lst_setL]
  · simp [enq, lst_setL]

theorem W.running_cancel (k : Str) (w : W) : lst name (W.cancel E name clk k w) .running = lst name w .running := by
  unfold W.cancel
  split
  · split
    · simp [canc, lst_setL]
    · rfl
  · rfl

theorem W.running_retry (k : Str) (w : W) : lst name (W.retry E name clk k w) .running = lst name w .running := by
  unfold W.retry
  split
  · split
    · next j _ hd =>
      have : j.context.jobStatus ≠ .running := by
        intro e
        unfold Job.isDone at hd
        simp [e] at hd
      simp [reEnq, lst_setL, Ne.symm this]
    · rfl
  · rfl

/-- The end of a run gives up the entries of its job. -/
theorem W.Fin.running {x : Executable D O} {job : Job D} {w w' : W} (h : Fin E name clk x job w (.ok (), w')) (hr : job.context.jobStatus = .running) :
    lst name w' .running = (lst name w .running).filter (· ≠ job.id) := by
  have ask : ∀ {j2 t w2}, Ask E clk x (WorkQueue.runUserCode x job).1 (WorkQueue.runUserCode x job).2
      (say (.hookMsg job.id true) w) j2 t w2 → j2.id = job.id ∧ j2.context.jobStatus = .running ∧ lst name w2 = lst name w := by
    intro j2 t w2 ha
    cases ha with
    | noPolicy => exact ⟨rfl, hr, rfl⟩
    | no => exact ⟨rfl, hr, rfl⟩
    | yes => exact ⟨rfl, hr, rfl⟩
    | custom => exact ⟨rfl, hr, rfl⟩
  have next : ∀ {j2 : Job D} {w2 w3 : W} {r}, Next E clk j2 w2 (.ok r, w3) →
      lst name w3 = lst name w2 ∧ ∀ j3, r = some j3 → j3.id = j2.id ∧ j3.context.jobStatus = j2.context.jobStatus := by
    intro j2 w2 w3 r hn
    cases hn with
    | other h => exact ⟨rfl, fun _ h => (by cases h)⟩
    | badExpr h => exact ⟨rfl, fun _ h => (by cases h)⟩
    | over h => exact ⟨rfl, fun _ h => (by cases h)⟩
    | slot h => exact ⟨rfl, fun _ h => (by cases h; exact ⟨rfl, rfl⟩)⟩
    | stuck h => exact ⟨rfl, fun _ h => (by cases h; exact ⟨rfl, rfl⟩)⟩
  have re : ∀ (j : Job D) (w2 : W), j.id = job.id → j.context.jobStatus = .running → lst name w2 = lst name w →
      lst name (reEnq E name clk j w2) .running = (lst name w .running).filter (· ≠ job.id) := by
    intro j w2 h1 h2 h3
    simp [reEnq, lst_setL, h1, h2, h3]
  cases h with
  | again ha =>
    obtain ⟨h1, h2, h3⟩ := ask ha
    exact re _ _ h1 h2 h3
  | next ha hn =>
    obtain ⟨h1, h2, h3⟩ := ask ha
    obtain ⟨h4, h5⟩ := next hn
    obtain ⟨h6, h7⟩ := h5 _ rfl
    exact re _ _ (h6.trans h1) (h7.trans h2) (h4.trans h3)
  | failed ha hn =>
    obtain ⟨h1, h2, h3⟩ := ask ha
    obtain ⟨h4, -⟩ := next hn
    simp [flunk, lst_setL, h1, h3, h4]
  | finished ha hn =>
    obtain ⟨h1, h2, h3⟩ := ask ha
    obtain ⟨h4, -⟩ := next hn
    simp [fin, lst_setL, h1, h3, h4]

/-- A turn keeps it so, whatever callers and user code do; and only a tick that finds free capacity begins executions. -/
theorem Slots.step (L : E.Lawful) {l : List Str} {s : Sys D SpecB} (hk : Keyed E s.w) (h : Slots l (s.obs E name)) (op : Op D O) :
    Slots l ((Sys.step E name SpecB clk s op).1.obs E name) ∧
    ((op = .tick → (s.obs E name).free = 0) → ((Sys.step E name SpecB clk s op).1.obs E name).inFlight.Sublist (s.obs E name).inFlight) := by
  cases ha : s.alive with
  | false => rw [Sys.step_dead s ha op]; exact ⟨h, fun _ => .refl _⟩
  | true =>
  have nil : ∀ w : W, (Snap.inFlight (Sys.obs E name { s with w := w, tasks := [], alive := false })).Sublist (s.obs E name).inFlight := fun w => List.nil_sublist _
  have erase : ∀ (w : W) (i : Nat), (Snap.inFlight (Sys.obs E name { s with w := w, tasks := s.tasks.eraseIdx i })).Sublist (s.obs E name).inFlight :=
    fun w i => (List.eraseIdx_sublist _ _).map _
  by_cases ht : op = .tick
  · subst ht
    rcases tick_facts (O := O) (clk := clk) (name := name) L s hk ha with ⟨st, h1, h2⟩ | ⟨h1, -⟩
    · generalize (Sys.step E name SpecB clk s (.tick : Op D O)).1 = s' at h1 h2 ⊢
      have htk := h1.ticked.tasks
      have hfl : (s'.obs E name).inFlight = (s.obs E name).inFlight ++ st.map Job.id := by
        unfold Snap.inFlight
        rw [htk, List.map_append, List.map_map]
        rfl
      refine ⟨⟨fun t hm => ?_, fun t hm j hj => ?_, fun _ id => ?_⟩, fun hf => ?_⟩
      · rw [htk] at hm
        rcases List.mem_append.1 hm with hm | hm
        · exact h.orig t hm
        · obtain ⟨j, hj, rfl⟩ := List.mem_map.1 hm
          obtain ⟨_, i, job, _, _, _, _, e⟩ := h1.ticked.each j hj
          show j.context.jobStatus = _
          rw [e]
      · rw [htk] at hm
        rcases List.mem_append.1 hm with hm | hm
        · exact h.job t hm j hj
        · obtain ⟨j', _, rfl⟩ := List.mem_map.1 hm
          cases hj
      · have := h.room ha id
        rw [hfl, h1.ticked.running, List.count_append, List.count_append, List.count_reverse]
        omega
      · have : st = [] := List.eq_nil_of_length_eq_zero (Nat.le_zero.mp (hf rfl ▸ h1.ticked.capacity))
        rw [hfl, this]
        simp
    · rw [h1]
      exact ⟨.dead rfl rfl, fun _ => List.nil_sublist _⟩
  · have hs := Sys.step_cases (E := E) (name := name) (clk := clk) s ha op
    generalize Sys.step E name SpecB clk s op = p at hs
    cases hs with
    | enqueue j c => exact ⟨h.same rfl (running_submit ..) rfl, fun _ => .refl _⟩
    | cancel k => exact ⟨h.same rfl (running_cancel ..) rfl, fun _ => .refl _⟩
    | get k => exact ⟨h, fun _ => .refl _⟩
    | retry k => exact ⟨h.same rfl (running_retry ..) rfl, fun _ => .refl _⟩
    | config c => exact ⟨h.same rfl rfl rfl, fun _ => .refl _⟩
    | tick => exact absurd rfl ht
    | tickPanic => exact absurd rfl ht
    | started i orig hi hc =>
      have hfl : ∀ w : W, (Snap.inFlight (Sys.obs E name { s with w := w, tasks := s.tasks.set i ⟨orig, some orig.counted⟩ })) = (s.obs E name).inFlight := by
        intro w
        show ((s.tasks.set i ⟨orig, some orig.counted⟩).map (·.orig.id)) = s.tasks.map (·.orig.id)
        rw [List.map_set]
        refine List.ext_getElem? fun j => ?_
        rw [List.getElem?_set]
        split
        · next e =>
          subst e
          split
          · rw [List.getElem?_map, hi]; rfl
          · next hlt => rw [List.getElem?_eq_none_iff.2 (by omega)]
        · rfl
      have hmem : (⟨orig, none⟩ : Task D) ∈ s.tasks := List.mem_of_getElem? hi
      refine ⟨⟨fun t hm => ?_, fun t hm j hj => ?_, fun _ id => ?_⟩, fun _ => ?_⟩
      · rcases List.mem_or_eq_of_mem_set hm with hm | rfl
        · exact h.orig t hm
        · exact h.orig ⟨orig, none⟩ hmem
      · rcases List.mem_or_eq_of_mem_set hm with hm | rfl
        · exact h.job t hm j hj
        · cases hj
          exact ⟨rfl, h.orig ⟨orig, none⟩ hmem⟩
      · rw [hfl]
        exact h.room ha id
      · rw [hfl]
    | startCancelled i orig hi hc =>
      have := h.orig ⟨orig, none⟩ (List.mem_of_getElem? hi)
      have this : orig.context.jobStatus = .running := this
      unfold Job.isCancelled at hc
      simp [this] at hc
    | noStart => exact ⟨h, fun _ => .refl _⟩
    | finished i x orig job w hi hf =>
      have hmem : (⟨orig, some job⟩ : Task D) ∈ s.tasks := List.mem_of_getElem? hi
      obtain ⟨e1, e2⟩ := h.job _ hmem job rfl
      have hsub : ∀ t ∈ s.tasks.eraseIdx i, t ∈ s.tasks := fun t ht => (List.eraseIdx_sublist _ _).subset ht
      refine ⟨⟨fun t hm => h.orig t (hsub t hm), fun t hm => h.job t (hsub t hm), fun _ id => ?_⟩, fun _ => erase w i⟩
      show (lst name w .running).count id ≤ _ + ((s.tasks.eraseIdx i).map (·.orig.id)).count id
      rw [hf.running e2]
      by_cases hid : id = job.id
      · subst hid
        rw [List.count_eq_zero.2 (by simp)]
        exact Nat.zero_le _
      · have e3 : ((lst name s.w .running).filter (· ≠ job.id)).count id = (lst name s.w .running).count id := by
          rw [List.count_filter]
          simp [hid]
        have e4 : ((s.tasks.eraseIdx i).map (·.orig.id)).count id = (s.tasks.map (·.orig.id)).count id := by
          rw [← List.eraseIdx_map, List.eraseIdx_eq_take_drop_succ]
          have hlt := (List.getElem?_eq_some_iff.1 hi).1
          conv => rhs; rw [← List.take_append_drop i (s.tasks.map (·.orig.id)), List.drop_eq_getElem_cons (by simpa using hlt)]
          rw [List.count_append, List.count_append, List.count_cons]
          have : (s.tasks.map (·.orig.id))[i]'(by simpa using hlt) = job.id := by
            rw [List.getElem_map, (List.getElem?_eq_some_iff.1 hi).2]
            exact e1.symm
          rw [this]
          simp [Ne.symm hid]
        rw [e3, e4]
        exact h.room ha id
    | finishPanic => exact ⟨.dead rfl rfl, fun _ => nil _⟩
    | noFinish => exact ⟨h, fun _ => .refl _⟩
    | userPanic => exact ⟨.dead rfl rfl, fun _ => nil _⟩
    | noUserPanic => exact ⟨h, fun _ => .refl _⟩

/-- Where nothing executes and ticks find no free capacity, the running list stays as it is. -/
theorem stuck_step (L : E.Lawful) {s : Sys D SpecB} (hk : Keyed E s.w) (ht : s.tasks = []) (op : Op D O) (hf : op = .tick → (s.obs E name).free = 0) :
    (Sys.step E name SpecB clk s op).1.tasks = [] ∧
    ((Sys.step E name SpecB clk s op).1.alive = true → s.alive = true ∧
      ((Sys.step E name SpecB clk s op).1.obs E name).lists .running = (s.obs E name).lists .running) := by
  cases ha : s.alive with
  | false => rw [Sys.step_dead s ha op]; exact ⟨ht, fun h => by rw [ha] at h; cases h⟩
  | true =>
  by_cases hop : op = .tick
  · subst hop
    rcases tick_facts (O := O) (clk := clk) (name := name) L s hk ha with ⟨st, h1, h2⟩ | ⟨h1, -⟩
    · generalize (Sys.step E name SpecB clk s (.tick : Op D O)).1 = s' at h1 h2 ⊢
      have hst : st = [] := List.eq_nil_of_length_eq_zero (Nat.le_zero.mp (hf rfl ▸ h1.ticked.capacity))
      subst hst
      refine ⟨?_, fun _ => ⟨rfl, ?_⟩⟩
      · have : s'.tasks = s.tasks ++ _ := h1.ticked.tasks
        rw [this, ht]; rfl
      · rw [h1.ticked.running]; rfl
    · rw [h1]
      exact ⟨rfl, fun h => by cases h⟩
  · have hs := Sys.step_cases (E := E) (name := name) (clk := clk) s ha op
    generalize Sys.step E name SpecB clk s op = p at hs
    cases hs with
    | enqueue j c => exact ⟨ht, fun _ => ⟨rfl, running_submit ..⟩⟩
    | cancel k => exact ⟨ht, fun _ => ⟨rfl, running_cancel ..⟩⟩
    | get k => exact ⟨ht, fun _ => ⟨rfl, rfl⟩⟩
    | retry k => exact ⟨ht, fun _ => ⟨rfl, running_retry ..⟩⟩
    | config c => exact ⟨ht, fun _ => ⟨rfl, rfl⟩⟩
    | tick => exact absurd rfl hop
    | tickPanic => exact absurd rfl hop
    | started i orig hi hc => rw [ht] at hi; cases hi
    | startCancelled i orig hi hc => rw [ht] at hi; cases hi
    | noStart => exact ⟨ht, fun _ => ⟨rfl, rfl⟩⟩
    | finished i x orig job w hi hf => rw [ht] at hi; cases hi
    | finishPanic => exact ⟨rfl, fun h => by cases h⟩
    | noFinish => exact ⟨ht, fun _ => ⟨rfl, rfl⟩⟩
    | userPanic => exact ⟨rfl, fun h => by cases h⟩
    | noUserPanic => exact ⟨ht, fun _ => ⟨rfl, rfl⟩⟩

/-- On any backend. -/
theorem Slots.step_any {b : Impl} (L : E.Lawful) {l : List Str} {s : Sys D b.B} (hg : b.Good s.w.s) (hk : (b.snap E name s).Keyed)
    (h : Slots l (b.snap E name s)) (op : Op D O) :
    Slots l (b.snap E name (Sys.step E name b.B clk s op).1) ∧ (b.snap E name (Sys.step E name b.B clk s op).1).Keyed ∧
    ((op = .tick → (b.snap E name s).free = 0) → (b.snap E name (Sys.step E name b.B clk s op).1).inFlight.Sublist (b.snap E name s).inFlight) := by
  obtain ⟨t, hr⟩ := Impl.rs_of_good hg
  obtain ⟨_, h2⟩ := Impl.rs_step (E := E) (name := name) (clk := clk) hr op
  rw [Impl.snap_eq hr] at hk h ⊢
  rw [Impl.snap_eq h2]
  obtain ⟨h3, h4⟩ := h.step (clk := clk) L hk op
  exact ⟨h3, Keyed.step L hk op, h4⟩

theorem Slots.length {l : List Str} {v : Snap D} (h : Slots l v) (ha : v.alive = true) : (v.lists .running).length ≤ l.length + v.inFlight.length := by
  have : (v.lists .running).Subperm (l ++ v.inFlight) := List.subperm_ext_iff.2 fun id _ => by
    rw [List.count_append]
    exact h.room ha id
  have := this.length_le
  rwa [List.length_append] at this

section
variable {b : Impl} {s : Sys D b.B}

theorem slots_run (L : E.Lawful) (hg : b.Good s.w.s) (hk : (b.snap E name s).Keyed) {l : List Str} (h : Slots l (b.snap E name s)) (ops : List (Op D O)) :
    Slots l (b.snap E name (Sys.runOps E name b.B clk s ops).1) := by
  induction ops generalizing s with
  | nil => exact h
  | cons op ops ih =>
    obtain ⟨h1, h2, -⟩ := h.step_any (clk := clk) L hg hk op
    exact ih (good_step hg op) h2 h1

variable {ops : Nat → Op D O}

local notation "σ" n:max => b.snap E name (Sys.after E name b.B clk s ops n)

theorem slots_after (L : E.Lawful) (hg : b.Good s.w.s) (hk : (b.snap E name s).Keyed) {l : List Str} (h : Slots l (b.snap E name s)) (n : Nat) :
    Slots l (σ n) ∧ (σ n).Keyed ∧ b.Good (Sys.after E name b.B clk s ops n).w.s := by
  induction n with
  | zero => exact ⟨h, hk, hg⟩
  | succ n ih =>
    obtain ⟨h1, h2, -⟩ := ih.1.step_any (clk := clk) L ih.2.2 ih.2.1 (ops n)
    exact ⟨h1, h2, good_step ih.2.2 (ops n)⟩

/-- The capacity changes by messages that set it. -/
theorem capacity_after {m : Nat} (h0 : s.cfg.maxProcessingJobs ≤ m) (h : ∀ n c, ops n = .config c → c.maxProcessingJobs ≤ m) (n : Nat) :
    (Sys.after E name b.B clk s ops n).cfg.maxProcessingJobs ≤ m := by
  induction n with
  | zero => exact h0
  | succ n ih =>
    show (Sys.step E name b.B clk (Sys.after E name b.B clk s ops n) (ops n)).1.cfg.maxProcessingJobs ≤ m
    generalize Sys.after E name b.B clk s ops n = t at ih
    have handle : ∀ {α : Type} (p : Prog α) (dead : Resp D) (f : Except Error α → Resp D), (Sys.handle b.B clk t p dead f).1.cfg.maxProcessingJobs ≤ m := by
      intro α p dead f
      unfold Sys.handle
      split <;> exact ih
    have e := h n
    generalize ops n = op at e
    unfold Sys.step
    split
    · cases op <;> dsimp only <;> first
        | exact e _ rfl
        | exact handle ..
        | (repeat' split
           all_goals exact ih)
    · exact ih

/-- Lost places that take up the whole capacity stop everything. -/
theorem stuck_after (L : E.Lawful) (hg : b.Good s.w.s) (hk : (b.snap E name s).Keyed) (ht : s.tasks = [])
    (hcap : ∀ n, ops n = .tick → (Sys.after E name b.B clk s ops n).cfg.maxProcessingJobs ≤ ((b.snap E name s).lists .running).length) (n : Nat) :
    (Sys.after E name b.B clk s ops n).tasks = [] ∧
    ((Sys.after E name b.B clk s ops n).alive = true → (σ n).lists .running = (b.snap E name s).lists .running) := by
  induction n with
  | zero => exact ⟨ht, fun _ => rfl⟩
  | succ n ih =>
    obtain ⟨-, h2, h3⟩ := slots_after (clk := clk) (ops := ops) L hg hk (l := (b.snap E name s).lists .running) (.start ht) n
    by_cases ha : (Sys.after E name b.B clk s ops n).alive = true
    · have hfree : ops n = .tick → (σ n).free = 0 := by
        intro e
        have h := hcap n e
        show (Sys.after E name b.B clk s ops n).cfg.maxProcessingJobs - ((σ n).lists .running).length = 0
        rw [ih.2 ha]
        omega
      obtain ⟨t, hr⟩ := Impl.rs_of_good h3
      obtain ⟨_, h4⟩ := Impl.rs_step (E := E) (name := name) (clk := clk) hr (ops n)
      have e := ih.2 ha
      rw [Impl.snap_eq hr] at h2 hfree e
      obtain ⟨g1, g2⟩ := stuck_step (clk := clk) L h2 (by rw [← hr.tasks]; exact ih.1) (ops n) hfree
      show (Sys.step E name b.B clk _ (ops n)).1.tasks = [] ∧ ((Sys.step E name b.B clk _ (ops n)).1.alive = true → (b.snap E name (Sys.step E name b.B clk _ (ops n)).1).lists .running = _)
      rw [Impl.snap_eq h4]
      exact ⟨h4.tasks.trans g1, fun h => ((g2 (by rw [← h4.alive]; exact h)).2.trans e)⟩
    · have ha : (Sys.after E name b.B clk s ops n).alive = false := by simpa using ha
      obtain ⟨t, hr⟩ := Impl.rs_of_good h3
      obtain ⟨_, h4⟩ := Impl.rs_step (E := E) (name := name) (clk := clk) hr (ops n)
      rw [Sys.step_dead t (by rw [← hr.alive]; exact ha)] at h4
      exact ⟨h4.tasks.trans (hr.tasks.symm.trans ih.1), fun h => by
        have h : (Sys.step E name b.B clk _ (ops n)).1.alive = true := h
        rw [h4.alive, ← hr.alive, ha] at h
        cases h⟩

theorem Sys.Roomy.alive {lost : Nat} (H : Sys.Roomy b E name clk lost s ops) (n : Nat) : (Sys.after E name b.B clk s ops n).alive = true := by
  by_contra h
  obtain ⟨m, h1, _, h2⟩ := H.ticks n
  rw [after_dead h1 (by simpa using h)] at h2
  cases h2

/-- Ticks with free capacity never cease. -/
theorem Sys.Roomy.free (L : E.Lawful) (hg : b.Good s.w.s) (hk : (b.snap E name s).Keyed) {l : List Str} (h : Slots l (b.snap E name s))
    {lost : Nat} (hl : l.length ≤ lost) (H : Sys.Roomy b E name clk lost s ops) (m : Nat) :
    ∃ n, m ≤ n ∧ ops n = .tick ∧ (Sys.after E name b.B clk s ops n).alive = true ∧ 1 ≤ (σ n).free := by
  by_contra hcon
  have hfull : ∀ n, m ≤ n → ops n = .tick → (σ n).free = 0 := by
    intro n hn ht
    by_contra h
    exact hcon ⟨n, hn, ht, H.alive n, by omega⟩
  have hS := fun n => slots_after (clk := clk) (ops := ops) L hg hk h n
  have hsub : ∀ n p, m ≤ n → n ≤ p → (σ p).inFlight.Sublist (σ n).inFlight := by
    intro n p hn hp
    induction hp with
    | refl => exact .refl _
    | @step p hp ih => exact ((hS p).1.step_any (clk := clk) L (hS p).2.2 (hS p).2.1 (ops p)).2.2 (hfull p (Nat.le_trans hn hp)) |>.trans ih
  have hall : ∀ l : List Str, ∃ n, m ≤ n ∧ ∀ id ∈ l, id ∉ (σ n).inFlight := by
    intro l
    induction l with
    | nil => exact ⟨m, Nat.le_refl _, by simp⟩
    | cons x l ih =>
      obtain ⟨n, h1, h2⟩ := ih
      have : ∃ p, n ≤ p ∧ x ∉ (σ p).inFlight := by
        by_cases hx : x ∈ (σ n).inFlight
        · exact H.ends n x hx
        · exact ⟨n, Nat.le_refl _, hx⟩
      obtain ⟨p, h3, h4⟩ := this
      refine ⟨p, by omega, fun id hid => ?_⟩
      rcases List.mem_cons.mp hid with rfl | hid
      · exact h4
      · exact fun hc => h2 id hid ((hsub n p h1 h3).subset hc)
  obtain ⟨n, h1, h2⟩ := hall (σ m).inFlight
  obtain ⟨p, h3, h4, h5⟩ := H.ticks n
  refine hcon ⟨p, by omega, h4, h5, ?_⟩
  have h6 : (σ p).inFlight = [] := List.eq_nil_iff_forall_not_mem.mpr fun id hid =>
    h2 id ((hsub m p (Nat.le_refl _) (by omega)).subset hid) ((hsub n p h1 h3).subset hid)
  have h7 := (hS p).1.length h5
  rw [h6] at h7
  have h8 := H.capacity p h4
  show 1 ≤ (Sys.after E name b.B clk s ops p).cfg.maxProcessingJobs - ((σ p).lists .running).length
  simp only [List.length_nil] at h7
  omega

end
end AJ
