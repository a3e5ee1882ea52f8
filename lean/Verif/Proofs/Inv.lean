import Verif.Proofs.Steps
import Verif.Spec.Queue

/-! # The invariant of careful histories -/

namespace AJ

namespace Env.Lawful
variable {D : Type} {E : Env D} (L : E.Lawful)

/-- A job as it may be stored. -/
def Stored (j : Job D) : Prop := j.norm L.normD = j ∧ E.Encodable j

variable {L}

theorem encdec_enc {j : Job D} (h : E.Encodable j) : E.encdec j = some (j.norm L.normD) := by
  obtain ⟨s, hs⟩ := Option.isSome_iff_exists.mp h
  simp [Env.encdec, hs, L.roundtrip j s hs]

theorem Stored.encdec {j : Job D} (h : L.Stored j) : E.encdec j = some j := by
  rw [encdec_enc (L := L) h.2, h.1]

theorem stored_view {w : W} {id : Str} {j : Job D} (h : W.view E w id = some j) : L.Stored j := by
  unfold W.view at h
  obtain ⟨s, _, hs⟩ := Option.bind_eq_some_iff.mp h
  exact ⟨L.decoded_norm s j hs, L.decoded_enc s j hs⟩

theorem congr' (L : E.Lawful) {j j' : Job D} (h1 : j.context.retry = j'.context.retry) (h2 : j.data = j'.data)
    (h : E.Encodable j) : E.Encodable j' := L.congr j j' (by rw [h1]) h2 h

theorem encdec_stored {j j' : Job D} (h : E.encdec j = some j') : L.Stored j' := by
  exact ⟨L.decoded_norm _ j' h, L.decoded_enc _ j' h⟩

theorem norm_iff {n : D → D} {j : Job D} : j.norm n = j ↔
    j.context.jobType.norm = j.context.jobType ∧ j.context.retry.map Retry.norm = j.context.retry ∧ n j.data = j.data := by
  rcases j with ⟨c, d⟩
  rcases c
  simp [Job.norm, JobContext.norm, and_assoc]

theorem Stored.of {j j' : Job D} (h : L.Stored j) (h1 : j'.context.jobType = j.context.jobType)
    (h2 : j'.context.retry = j.context.retry) (h3 : j'.data = j.data) : L.Stored j' :=
  ⟨norm_iff.mpr (by rw [h1, h2, h3]; exact norm_iff.mp h.1), congr' L h2.symm h3.symm h.2⟩

theorem Stored.asRunning {j : Job D} (h : L.Stored j) (ms : Int) : L.Stored (j.asRunning ms) := h.of rfl rfl rfl
theorem Stored.asQueued {j : Job D} (h : L.Stored j) (ms : Int) : L.Stored (j.asQueued ms) := h.of rfl rfl rfl
theorem Stored.asCanceled {j : Job D} (h : L.Stored j) (ms : Int) : L.Stored (j.asCanceled ms) := h.of rfl rfl rfl
theorem Stored.counted {j : Job D} (h : L.Stored j) : L.Stored j.counted := h.of rfl rfl rfl

end Env.Lawful

open W

/-- What the queued and running lists have to do with the stored jobs. -/
structure Agree {D : Type} (Q R : List Str) (V : Str → Option (Job D)) : Prop where
  qn : Q.Nodup
  rn : R.Nodup
  qi : ∀ id, id ∈ Q ↔ (V id).map (·.context.jobStatus) = some .queued
  ri : ∀ id, id ∈ R ↔ (V id).map (·.context.jobStatus) = some .running

theorem Agree.upd {D : Type} {Q R Q' R' : List Str} {V : Str → Option (Job D)} (h : Agree Q R V) (id : Str) (j : Job D)
    (hq : Q'.Nodup) (hr : R'.Nodup) (hQ : ∀ x, x ≠ id → (x ∈ Q' ↔ x ∈ Q)) (hR : ∀ x, x ≠ id → (x ∈ R' ↔ x ∈ R))
    (hQi : id ∈ Q' ↔ j.context.jobStatus = .queued) (hRi : id ∈ R' ↔ j.context.jobStatus = .running) :
    Agree Q' R' (upd V id (some j)) where
  qn := hq
  rn := hr
  qi x := by
    by_cases e : x = id
    · subst e; simp [hQi]
    · rw [hQ x e, h.qi x, upd_ne _ _ e]
  ri x := by
    by_cases e : x = id
    · subst e; simp [hRi]
    · rw [hR x e, h.ri x, upd_ne _ _ e]

theorem Agree.not_q {D : Type} {Q R : List Str} {V : Str → Option (Job D)} (h : Agree Q R V) {id : Str}
    (hv : (V id).map (·.context.jobStatus) ≠ some .queued) : id ∉ Q := fun hm => hv ((h.qi id).mp hm)
theorem Agree.not_r {D : Type} {Q R : List Str} {V : Str → Option (Job D)} (h : Agree Q R V) {id : Str}
    (hv : (V id).map (·.context.jobStatus) ≠ some .running) : id ∉ R := fun hm => hv ((h.ri id).mp hm)

/-- The invariant. -/
structure Inv {D : Type} (E : Env D) (name : Str) (s : Sys D SpecB) : Prop where
  keyed : Keyed E s.w
  agree : Agree (lst name s.w .queued) (lst name s.w .running) (view E s.w)
  flight : s.alive = true → (s.tasks.map (·.orig.id)).Perm (lst name s.w .running)
  task : ∀ t ∈ s.tasks, view E s.w t.orig.id = some t.orig ∧ ∀ j, t.executing = some j → j = t.orig.counted
  dead : s.alive = false → s.tasks = []

namespace Inv
variable {D O : Type} {E : Env D} {name : Str} {clk : Nat → Time} {s : Sys D SpecB}

theorem init : Inv E name (Sys.init SpecB Spec.empty : Sys D SpecB) where
  keyed id j h := by cases h
  agree := ⟨List.nodup_nil, List.nodup_nil, fun id => ⟨nofun, nofun⟩, fun id => ⟨nofun, nofun⟩⟩
  flight _ := List.Perm.refl _
  task t ht := by cases ht
  dead h := by cases h

theorem running (h : Inv E name s) (ha : s.alive = true) {t : Task D} (ht : t ∈ s.tasks) :
    t.orig.context.jobStatus = .running := by
  have hm : t.orig.id ∈ lst name s.w .running := (h.flight ha).mem_iff.mp (List.mem_map_of_mem (f := fun t : Task D => t.orig.id) ht)
  have := (h.agree.ri _).mp hm
  rw [(h.task t ht).1] at this
  simpa using this

theorem keyed_upd {V : Str → Option (Job D)} (hk : ∀ id j, V id = some j → j.id = id) {k : Str} {o : Option (Job D)}
    (ho : ∀ j, o = some j → j.id = k) : ∀ id j, upd V k o id = some j → j.id = id := by
  intro id j h
  by_cases e : id = k
  · subst e; simp at h; exact ho j h
  · rw [upd_ne _ _ e] at h; exact hk id j h

/-- Turns that only touch a job without an execution in flight. -/
theorem of_idle (h : Inv E name s) {w' : W} (k : Str) (j : Job D) (hj : j.id = k)
    (hv : view E w' = upd (view E s.w) k (some j))
    (hidle : (view E s.w k).map (·.context.jobStatus) ≠ some .running)
    (hr : lst name w' .running = lst name s.w .running)
    (hnr : j.context.jobStatus ≠ .running)
    (hq : (lst name w' .queued).Nodup)
    (hQ : ∀ x, x ≠ k → (x ∈ lst name w' .queued ↔ x ∈ lst name s.w .queued))
    (hQi : k ∈ lst name w' .queued ↔ j.context.jobStatus = .queued) :
    Inv E name { s with w := w' } where
  keyed := by
    have := keyed_upd h.keyed (k := k) (o := some j) (by intro j' e; cases e; exact hj)
    unfold Keyed; simp only [hv]; exact this
  agree := by
    simp only [hv, hr]
    refine h.agree.upd k j hq h.agree.rn hQ (fun _ _ => Iff.rfl) hQi ?_
    exact ⟨fun hm => absurd ((h.agree.ri k).mp hm) hidle, fun e => absurd e hnr⟩
  flight ha := by simp only [hr]; exact h.flight ha
  task t ht := by
    by_cases ha : s.alive = true
    · refine ⟨?_, (h.task t ht).2⟩
      simp only [hv]
      rw [upd_ne, (h.task t ht).1]
      intro e
      apply hidle
      rw [← e, (h.task t ht).1]
      simp [h.running ha ht]
    · rw [h.dead (by simpa using ha)] at ht; cases ht
  dead := h.dead

theorem enq_inv (h : Inv E name s) (L : E.Lawful) (j : Job D) (he : E.Encodable j)
    (hv : (view E s.w j.id).map (·.context.jobStatus) ≠ some .queued)
    (hv' : (view E s.w j.id).map (·.context.jobStatus) ≠ some .running) :
    Inv E name { s with w := enq E name clk j s.w } := by
  have hn : j.id ∉ lst name s.w .queued := h.agree.not_q hv
  have he' : E.encdec (j.asQueued (clk s.w.t / nsPerMs)) = some ((j.asQueued (clk s.w.t / nsPerMs)).norm L.normD) :=
    Env.Lawful.encdec_enc (Env.Lawful.congr' (j := j) L rfl rfl he)
  refine h.of_idle j.id ((j.asQueued (clk s.w.t / nsPerMs)).norm L.normD) rfl ?_ hv' ?_ ?_ ?_ ?_ ?_
  · simp [enq, he']
  · simp [enq, lst_setL]
  · simp [Job.norm, JobContext.norm]
  · simp [enq, hn, h.agree.qn]
  · intro x hx; simp [enq, hx]
  · simp [enq, Job.norm, JobContext.norm]

theorem upsert_inv (h : Inv E name s) (L : E.Lawful) (j ex : Job D) (he : E.Encodable j)
    (hv : view E s.w j.id = some ex) (hr : ex.context.jobStatus ≠ .running)
    (hs : j.context.jobStatus = ex.context.jobStatus) :
    Inv E name { s with w := upsert E j.id j s.w } := by
  refine h.of_idle j.id (j.norm L.normD) rfl ?_ ?_ rfl ?_ ?_ ?_ ?_
  · simp [Env.Lawful.encdec_enc (L := L) he]
  · simpa [hv] using hr
  · simpa [Job.norm, JobContext.norm, hs] using hr
  · simp [h.agree.qn]
  · simp
  · simp [Job.norm, JobContext.norm, h.agree.qi, hv, hs]

theorem submit_inv (h : Inv E name s) (L : E.Lawful) (j : Job D) (c : EnqueueConfig)
    (hd : Careful E (Impl.spec.snap E name s) (.enqueue j c : Op D O)) :
    Inv E name { s with w := submit E name clk j c s.w } := by
  obtain ⟨he, hd⟩ := hd
  unfold submit
  cases hv : view E s.w j.id with
  | none => exact h.enq_inv L j he (by simp [hv]) (by simp [hv])
  | some ex =>
    have hd' := hd ex hv
    simp only
    by_cases hdone : (c.reRun && ex.isDone) = true
    · rw [if_pos hdone]
      have hx : ex.isDone = true := by simp only [Bool.and_eq_true] at hdone; exact hdone.2
      have hnq : ex.context.jobStatus ≠ .queued := by rintro e; simp [Job.isDone, e] at hx
      have hnr : ex.context.jobStatus ≠ .running := by rintro e; simp [Job.isDone, e] at hx
      split
      · -- the stored job is replaced, then queued: the same as queuing
        have hone := h.enq_inv (clk := clk) L j he (by simpa [hv] using hnq) (by simpa [hv] using hnr)
        have hw : enq E name clk j (upsert E j.id j s.w) = enq E name clk j s.w := by
          simp [enq, put, upsert, tick, setL, say, lst, upd_upd]
        rw [hw]; exact hone
      · exact h.enq_inv L j he (by simpa [hv] using hnq) (by simpa [hv] using hnr)
    · rw [if_neg hdone]
      split
      · next ho =>
        simp only [Bool.and_eq_true, Bool.not_eq_true'] at ho
        have hs := hd' ho.1 ho.2 (by simpa using hdone)
        exact h.upsert_inv L j ex he hv (by simpa [Job.isRunning] using ho.2) hs
      · exact h

theorem cancel_inv (h : Inv E name s) (L : E.Lawful) (k : Str) :
    Inv E name { s with w := cancel E name clk k s.w } := by
  unfold cancel
  cases hv : view E s.w k with
  | none => exact h
  | some j =>
    simp only
    split
    · next hq =>
      have hs := (Env.Lawful.stored_view (L := L) hv).asCanceled (clk s.w.t / nsPerMs)
      have hid : j.id = k := h.keyed k j hv
      have hq' : j.context.jobStatus = .queued := by simpa [Job.isQueued] using hq
      refine h.of_idle k (j.asCanceled (clk s.w.t / nsPerMs)) hid ?_ (by simp [hv, hq']) ?_ (by simp) ?_ ?_ ?_
      · simp [canc, hs.encdec, hid]
      · simp [canc, lst_setL]
      · simp only [canc, lst_setL_same, lst_put, lst_tick]; exact h.agree.qn.filter _
      · intro x hx; simp [canc, hx]
      · simp [canc]
    · exact h

theorem retry_inv (h : Inv E name s) (L : E.Lawful) (k : Str) :
    Inv E name { s with w := W.retry E name clk k s.w } := by
  unfold W.retry
  cases hv : view E s.w k with
  | none => exact h
  | some j =>
    simp only
    split
    · next hd =>
      have hs := (Env.Lawful.stored_view (L := L) hv).asQueued (clk s.w.t / nsPerMs)
      have hid : j.id = k := h.keyed k j hv
      have hnq : j.context.jobStatus ≠ .queued := by rintro e; simp [Job.isDone, e] at hd
      have hnr : j.context.jobStatus ≠ .running := by rintro e; simp [Job.isDone, e] at hd
      have hnQ : k ∉ lst name s.w .queued := h.agree.not_q (by simpa [hv] using hnq)
      refine h.of_idle k (j.asQueued (clk s.w.t / nsPerMs)) hid ?_ (by simpa [hv] using hnr) ?_ (by simp) ?_ ?_ ?_
      · simp [reEnq, hs.encdec, hid]
      · simp [reEnq, lst_setL, hnr.symm]
      · simp [reEnq, lst_setL, hnq.symm, hid, hnQ, h.agree.qn]
      · intro x hx; simp [reEnq, lst_setL, hnq.symm, hid, hx]
      · simp [reEnq, hid]
    · exact h

/-- A scan keeps the invariant. -/
theorem scan_inv (h : Inv E name s) (L : E.Lawful) {total : Nat} {p : W × List (Job D)}
    (hp : Scan E name clk total s.w p) (ha : s.alive = true) :
    Inv E name { s with w := p.1, tasks := s.tasks ++ p.2.map fun j => ⟨j, none⟩ } := by
  rcases p with ⟨w, rd⟩
  have hview : ∀ j ∈ rd, view E w j.id = some j ∧ j.context.jobStatus = .running ∧ j.id ∈ lst name s.w .queued := by
    intro j hj
    obtain ⟨i, job, _, _, hv, _, e, hv'⟩ := hp.started j hj
    have hs := (Env.Lawful.stored_view (L := L) hv).asRunning (clk (i + 1) / nsPerMs)
    rw [← e] at hs
    refine ⟨by rw [hv', hs.encdec], by rw [e]; rfl, ?_⟩
    exact hp.queued.subset (List.mem_append_right _ (List.mem_map_of_mem (f := Job.id) hj))
  have hqn : (lst name w .queued ++ rd.map Job.id).Nodup := hp.queued.nodup_iff.mpr h.agree.qn
  have hqn' := List.nodup_append.mp hqn
  have hstq : ∀ id, id ∈ rd.map Job.id → (view E s.w id).map (·.context.jobStatus) = some .queued := by
    intro id hid
    obtain ⟨j, hj, rfl⟩ := List.mem_map.mp hid
    exact (h.agree.qi _).mp (hview j hj).2.2
  constructor
  · exact hp.keyed L h.keyed
  · have hr := hp.running
    simp only at hr
    refine ⟨hqn'.1, ?_, fun id => ?_, fun id => ?_⟩
    · simp only [hr]
      refine List.nodup_append.mpr ⟨by simpa [List.Nodup, List.pairwise_reverse, ne_comm] using hp.nodup, h.agree.rn, ?_⟩
      intro a ha b hb e
      subst e
      have h1 := hstq a (by simpa using ha)
      have h2 := (h.agree.ri a).mp hb
      rw [h1] at h2; cases h2
    · by_cases hm : id ∈ rd.map Job.id
      · obtain ⟨j, hj, rfl⟩ := List.mem_map.mp hm
        simp only [(hview j hj).1, Option.map_some, (hview j hj).2.1]
        constructor
        · intro hq; exact absurd rfl (hqn'.2.2 _ hq _ hm)
        · intro e; cases e
      · have hsame := hp.same id hm
        simp only at hsame ⊢
        rw [hsame, ← h.agree.qi id, ← hp.queued.mem_iff]
        simp [List.mem_append, hm]
    · by_cases hm : id ∈ rd.map Job.id
      · obtain ⟨j, hj, rfl⟩ := List.mem_map.mp hm
        simp only [hr, (hview j hj).1, Option.map_some, (hview j hj).2.1]
        simp [hm]
      · have hsame := hp.same id hm
        simp only at hsame ⊢
        rw [hsame, ← h.agree.ri id, hr]
        simp [hm]
  · intro _
    have hr := hp.running
    simp only at hr
    simp only [hr, List.map_append, List.map_map]
    refine (List.perm_append_comm.trans ?_)
    refine List.Perm.append ?_ (h.flight ha)
    exact (List.reverse_perm _).symm
  · intro t ht
    simp only [List.mem_append, List.mem_map] at ht
    rcases ht with ht | ⟨j, hj, rfl⟩
    · refine ⟨?_, (h.task t ht).2⟩
      have := hp.same t.orig.id (by
        intro hm
        have h1 := hstq _ hm
        rw [(h.task t ht).1] at h1
        simp [h.running ha ht] at h1)
      simp only at this ⊢
      rw [this]; exact (h.task t ht).1
    · exact ⟨(hview j hj).1, by simp⟩
  · intro hd; simp only at hd; rw [ha] at hd; cases hd

theorem dead_inv (h : Inv E name s) {w' : W} (hv : view E w' = view E s.w) (hl : lst name w' = lst name s.w) :
    Inv E name { s with w := w', tasks := [], alive := false } where
  keyed := by unfold Keyed; simp only [hv]; exact h.keyed
  agree := by simp only [hv, hl]; exact h.agree
  flight ha := by cases ha
  task t ht := by cases ht
  dead _ := rfl

/-- An execution ends. -/
theorem done_inv (h : Inv E name s) (ha : s.alive = true) {i : Nat} {orig : Job D} {ex : Option (Job D)}
    (hi : s.tasks[i]? = some ⟨orig, ex⟩) {w' : W} (j : Job D) (hj : j.id = orig.id)
    (hv : view E w' = upd (view E s.w) orig.id (some j)) (hnr : j.context.jobStatus ≠ .running)
    (hR : lst name w' .running = (lst name s.w .running).filter (· ≠ orig.id))
    (hQ : lst name w' .queued = if j.context.jobStatus = .queued then orig.id :: lst name s.w .queued
      else lst name s.w .queued) :
    Inv E name { s with w := w', tasks := s.tasks.eraseIdx i } := by
  have hmem : (⟨orig, ex⟩ : Task D) ∈ s.tasks := List.mem_of_getElem? hi
  have hrun := h.running ha hmem
  have hview := (h.task _ hmem).1
  simp only at hrun hview
  have hnq : orig.id ∉ lst name s.w .queued := h.agree.not_q (by simp [hview, hrun])
  have hperm := h.flight ha
  have hlt : i < s.tasks.length := by
    by_contra hc; rw [List.getElem?_eq_none (by omega)] at hi; cases hi
  have hget : s.tasks[i] = ⟨orig, ex⟩ := by
    rw [List.getElem?_eq_getElem hlt] at hi; exact Option.some.inj hi
  have hp2 : (s.tasks.map (·.orig.id)).Perm (orig.id :: (s.tasks.eraseIdx i).map (·.orig.id)) := by
    have := (List.getElem_cons_eraseIdx_perm hlt).symm.map (fun t : Task D => t.orig.id)
    rw [hget] at this
    exact this
  have hp3 : ((s.tasks.eraseIdx i).map (·.orig.id)).Perm (lst name w' .running) := by
    rw [hR]
    have h1 : (orig.id :: (s.tasks.eraseIdx i).map (·.orig.id)).Perm (lst name s.w .running) := hp2.symm.trans hperm
    have h2 := h1.erase orig.id
    simp only [List.erase_cons_head] at h2
    rw [h.agree.rn.erase_eq_filter] at h2
    refine h2.trans (List.Perm.of_eq ?_)
    congr 1
    funext x
    by_cases e : x = orig.id <;> simp [e]
  have hn : (orig.id :: (s.tasks.eraseIdx i).map (·.orig.id)).Nodup := by
    exact (hp2.symm.trans hperm).nodup_iff.mpr h.agree.rn
  constructor
  · have := keyed_upd h.keyed (k := orig.id) (o := some j) (by intro j' e; cases e; exact hj)
    unfold Keyed; simp only [hv]; exact this
  · simp only [hv]
    refine h.agree.upd orig.id j ?_ ?_ ?_ ?_ ?_ ?_
    · rw [hQ]; split
      · simp [hnq, h.agree.qn]
      · exact h.agree.qn
    · rw [hR]; exact h.agree.rn.filter _
    · intro x hx; rw [hQ]; split <;> simp [hx]
    · intro x hx; rw [hR]; simp [hx]
    · rw [hQ]; split <;> simp_all
    · rw [hR]; simp [hnr]
  · intro _; exact hp3
  · intro t ht
    have ht' : t ∈ s.tasks := List.mem_of_mem_eraseIdx ht
    refine ⟨?_, (h.task t ht').2⟩
    simp only [hv]
    rw [upd_ne]
    · exact (h.task t ht').1
    · intro e
      have := (List.nodup_cons.mp hn).1
      exact this (e ▸ List.mem_map_of_mem (f := fun t : Task D => t.orig.id) ht)
  · intro hd; simp only at hd; rw [ha] at hd; cases hd

theorem _root_.AJ.Retry.retryAt_strategy {chk : Bool} {r r' : Retry} {now t : Time} (h : r.retryAt chk now = some (r', t)) :
    r'.strategy = r.strategy ∧ r'.maxRetries = r.maxRetries := by
  unfold Retry.retryAt at h
  simp only [Option.bind_eq_bind, Option.bind_eq_some_iff] at h
  obtain ⟨n, _, h⟩ := h
  rcases r with ⟨a, b, c | c⟩
  · simp only [Option.bind_eq_some_iff, Option.pure_def, Option.some.injEq, Prod.mk.injEq] at h
    obtain ⟨_, _, rfl, _⟩ := h
    exact ⟨rfl, rfl⟩
  · simp only [Option.bind_eq_some_iff, Option.pure_def, Option.some.injEq, Prod.mk.injEq] at h
    obtain ⟨_, _, _, _, _, _, rfl, _⟩ := h
    exact ⟨rfl, rfl⟩

/-- What `retry_at` leaves alone. -/
theorem _root_.AJ.W.Ask.facts {x : Executable D O} {j j2 : Job D} {o : O} {w w2 : W} {t : Option Time}
    (h : Ask E clk x j o w j2 t w2) :
    j2.context = { j.context with retry := j2.context.retry } ∧ j2.data = j.data ∧ lst name w2 = lst name w ∧
    view E w2 = view E w ∧ w2.log = w.log ∧ w.t ≤ w2.t := by
  cases h <;> exact ⟨rfl, rfl, rfl, rfl, rfl, by simp⟩

/-- The job as user code and `retry_at`, called at `now`, leave it (up to what does not matter for storing it). -/
def _root_.AJ.Executable.leaves (x : Executable D O) (job : Job D) (now : Time) : Job D :=
  match x.retryAt, job.context.retry with
  | some f, some r => (WorkQueue.runUserCode x job).1.withRetry
      (f (WorkQueue.runUserCode x job).1.data r (WorkQueue.runUserCode x job).2 now).1
  | _, _ => (WorkQueue.runUserCode x job).1

theorem _root_.AJ.Executable.Serialisable.leaves {x : Executable D O} {job : Job D} (hs : x.Serialisable E job) (now : Time) :
    E.Encodable (x.leaves job now) := by
  unfold Executable.leaves
  split
  · next f r h1 h2 => exact hs.2 f r now h1 h2
  · exact hs.1

/-- What is stored after `retry_at` is as serialisable as what it left. -/
theorem _root_.AJ.W.Ask.leaves {x : Executable D O} {job j2 : Job D} {w w2 : W} {t : Option Time}
    (h : Ask E clk x (WorkQueue.runUserCode x job).1 (WorkQueue.runUserCode x job).2 w j2 t w2) :
    (x.leaves job (clk w.t)).context.retry.map Retry.strategy = j2.context.retry.map Retry.strategy ∧
    (x.leaves job (clk w.t)).data = j2.data := by
  unfold Executable.leaves
  cases h with
  | noPolicy h =>
    have h' : job.context.retry = none := h
    rw [h']; cases x.retryAt <;> exact ⟨rfl, rfl⟩
  | no h hx hc => rw [hx]; exact ⟨rfl, rfl⟩
  | yes h hx hf hsr hr =>
    rw [hx]
    refine ⟨?_, rfl⟩
    have h' : job.context.retry = some _ := h
    show job.context.retry.map _ = _
    rw [h']; simp [Job.withRetry, (Retry.retryAt_strategy hr).1]
  | custom h hx =>
    have h' : job.context.retry = some _ := h
    rw [h', hx]
    exact ⟨rfl, rfl⟩

theorem _root_.AJ.W.Ask.encodable (L : E.Lawful) {x : Executable D O} {job j2 : Job D} {w w2 : W} {t : Option Time}
    (h : Ask E clk x (WorkQueue.runUserCode x job).1 (WorkQueue.runUserCode x job).2 w j2 t w2)
    (hs : E.Encodable (x.leaves job (clk w.t))) : E.Encodable j2 :=
  L.congr _ _ h.leaves.1 h.leaves.2 hs

theorem _root_.AJ.W.Ask.not_encodable (L : E.Lawful) {x : Executable D O} {job j2 : Job D} {w w2 : W} {t : Option Time}
    (h : Ask E clk x (WorkQueue.runUserCode x job).1 (WorkQueue.runUserCode x job).2 w j2 t w2)
    (hs : ¬ E.Encodable (x.leaves job (clk w.t))) : ¬ E.Encodable j2 :=
  fun he => hs (L.congr _ _ h.leaves.1.symm h.leaves.2.symm he)

theorem _root_.AJ.W.Next.facts {j : Job D} {w : W} {p : Out (Option (Job D)) × W} (h : Next E clk j w p) :
    (∀ j3, p.1 = .ok (some j3) → ∃ ty, j3 = j.withType ty) ∧ lst name p.2 = lst name w ∧ view E p.2 = view E w ∧
    p.2.log = w.log ∧ w.t ≤ p.2.t := by
  cases h
  case slot => exact ⟨fun j3 e => by cases e; exact ⟨_, rfl⟩, rfl, rfl, rfl, by simp; omega⟩
  case stuck => exact ⟨fun j3 e => by cases e; exact ⟨_, rfl⟩, rfl, rfl, rfl, by simp; omega⟩
  case other => exact ⟨fun j3 e => by simp at e, rfl, rfl, rfl, by simp⟩
  case badExpr => exact ⟨fun j3 e => by simp at e, rfl, rfl, rfl, by simp⟩
  case over => exact ⟨fun j3 e => by simp at e, rfl, rfl, rfl, by simp; omega⟩
  case panic => exact ⟨fun j3 e => by simp at e, rfl, rfl, rfl, by simp; omega⟩

/-- How an execution that ends normally leaves the queue: it stores `j`, which is the executed job with a
new status, and moves the id accordingly. -/
structure Ends (E : Env D) (name : Str) (clk : Nat → Time) (L : E.Lawful) (job : Job D) (w w' : W) (j : Job D) : Prop where
  id : j.id = job.id
  runs : j.context.runCount = job.context.runCount
  runAt : j.context.runAt = job.context.runAt
  created : j.context.createdAt = job.context.createdAt
  view : view E w' = upd (view E w) job.id (some j)
  running : lst name w' .running = (lst name w .running).filter (· ≠ job.id)
  status : j.context.jobStatus = .queued ∨ j.context.jobStatus = .finished ∨ j.context.jobStatus = .failed
  target : lst name w' j.context.jobStatus = job.id :: lst name w j.context.jobStatus
  others : ∀ st, st ≠ .running → st ≠ j.context.jobStatus → lst name w' st = lst name w st
  log : w'.log = w.log ++ [.hookMsg job.id true, .statusMsg job.id j.context.jobStatus]
  time : w.t < w'.t
  stamp : if j.context.jobStatus = .queued then j.context.enqueueAt = some (clk (w'.t - 1) / nsPerMs)
    else j.context.completeAt = some (clk (w'.t - 1) / nsPerMs) ∧ j.context.enqueueAt = job.context.enqueueAt

theorem reEnq_ends (L : E.Lawful) {job j3 : Job D} {w w3 : W} (hctx : ∃ r ty, j3.context = { job.context with retry := r, jobType := ty })
    (he : E.Encodable j3) (hrun : job.context.jobStatus = .running) (hl : lst name w3 = lst name w)
    (hv : W.view E w3 = W.view E w) (hlog : w3.log = w.log ++ [.hookMsg job.id true]) (ht : w.t ≤ w3.t) :
    ∃ j, Ends E name clk L job w (reEnq E name clk j3 w3) j ∧ j.context.jobStatus = .queued ∧
      j = (j3.asQueued (clk w3.t / nsPerMs)).norm L.normD := by
  obtain ⟨r, ty, hctx⟩ := hctx
  have hid : j3.id = job.id := by simp [Job.id, hctx]
  have hst : j3.context.jobStatus = .running := by rw [hctx]; exact hrun
  have he' : E.encdec (j3.asQueued (clk w3.t / nsPerMs)) = some ((j3.asQueued (clk w3.t / nsPerMs)).norm L.normD) :=
    Env.Lawful.encdec_enc (Env.Lawful.congr' (j := j3) L rfl rfl he)
  refine ⟨(j3.asQueued (clk w3.t / nsPerMs)).norm L.normD, ⟨?_, ?_, ?_, ?_, ?_, ?_, ?_, ?_, ?_, ?_, ?_, ?_⟩, rfl, rfl⟩
  · exact hid
  · simp [Job.norm, JobContext.norm, Job.asQueued, hctx]
  · simp [Job.norm, JobContext.norm, Job.asQueued, hctx]
  · simp [Job.norm, JobContext.norm, Job.asQueued, hctx]
  · simp [reEnq, he', hv, hid]
  · simp [reEnq, lst_setL, hst, hl, hid]
  · exact .inl rfl
  · simp [Job.norm, JobContext.norm, reEnq, lst_setL, hst, hl, hid]
  · intro st h1 h2
    have h2' : st ≠ .queued := h2
    simp [reEnq, lst_setL, hst, hl, h1, h2']
  · simp [reEnq, hlog, hid, Job.norm, JobContext.norm]
  · simp [reEnq]; omega
  · simp [reEnq, Job.norm, JobContext.norm, Job.asQueued]

theorem fin_ends (L : E.Lawful) {job j3 : Job D} {w w3 : W} (hctx : ∃ r, j3.context = { job.context with retry := r })
    (he : E.Encodable j3) (hl : lst name w3 = lst name w)
    (hv : W.view E w3 = W.view E w) (hlog : w3.log = w.log ++ [.hookMsg job.id true]) (ht : w.t ≤ w3.t) :
    ∃ j, Ends E name clk L job w (fin E name clk j3 w3) j ∧ j.context.jobStatus = .finished ∧
      j = (j3.asFinished (clk w3.t / nsPerMs)).norm L.normD := by
  obtain ⟨r, hctx⟩ := hctx
  have hid : j3.id = job.id := by simp [Job.id, hctx]
  have he' : E.encdec (j3.asFinished (clk w3.t / nsPerMs)) = some ((j3.asFinished (clk w3.t / nsPerMs)).norm L.normD) :=
    Env.Lawful.encdec_enc (Env.Lawful.congr' (j := j3) L rfl rfl he)
  refine ⟨(j3.asFinished (clk w3.t / nsPerMs)).norm L.normD, ⟨?_, ?_, ?_, ?_, ?_, ?_, ?_, ?_, ?_, ?_, ?_, ?_⟩, rfl, rfl⟩
  · exact hid
  · simp [Job.norm, JobContext.norm, Job.asFinished, hctx]
  · simp [Job.norm, JobContext.norm, Job.asFinished, hctx]
  · simp [Job.norm, JobContext.norm, Job.asFinished, hctx]
  · simp [fin, he', hv, hid]
  · simp [fin, lst_setL, hl, hid]
  · exact .inr (.inl rfl)
  · simp [Job.norm, JobContext.norm, fin, lst_setL, hl, hid]
  · intro st h1 h2
    have h2' : st ≠ .finished := h2
    simp [fin, lst_setL, hl, h1, h2']
  · simp [fin, hlog, hid, Job.norm, JobContext.norm]
  · simp [fin]; omega
  · simp [fin, Job.norm, JobContext.norm, Job.asFinished, hctx]

theorem flunk_ends (L : E.Lawful) {job j3 : Job D} {w w3 : W} (hctx : ∃ r, j3.context = { job.context with retry := r })
    (he : E.Encodable j3) (hl : lst name w3 = lst name w)
    (hv : W.view E w3 = W.view E w) (hlog : w3.log = w.log ++ [.hookMsg job.id true]) (ht : w.t ≤ w3.t) :
    ∃ j, Ends E name clk L job w (flunk E name clk j3 w3) j ∧ j.context.jobStatus = .failed ∧
      j = (j3.asFailed (clk w3.t / nsPerMs)).norm L.normD := by
  obtain ⟨r, hctx⟩ := hctx
  have hid : j3.id = job.id := by simp [Job.id, hctx]
  have he' : E.encdec (j3.asFailed (clk w3.t / nsPerMs)) = some ((j3.asFailed (clk w3.t / nsPerMs)).norm L.normD) :=
    Env.Lawful.encdec_enc (Env.Lawful.congr' (j := j3) L rfl rfl he)
  refine ⟨(j3.asFailed (clk w3.t / nsPerMs)).norm L.normD, ⟨?_, ?_, ?_, ?_, ?_, ?_, ?_, ?_, ?_, ?_, ?_, ?_⟩, rfl, rfl⟩
  · exact hid
  · simp [Job.norm, JobContext.norm, Job.asFailed, hctx]
  · simp [Job.norm, JobContext.norm, Job.asFailed, hctx]
  · simp [Job.norm, JobContext.norm, Job.asFailed, hctx]
  · simp [flunk, he', hv, hid]
  · simp [flunk, lst_setL, hl, hid]
  · exact .inr (.inr rfl)
  · simp [Job.norm, JobContext.norm, flunk, lst_setL, hl, hid]
  · intro st h1 h2
    have h2' : st ≠ .failed := h2
    simp [flunk, lst_setL, hl, h1, h2']
  · simp [flunk, hlog, hid, Job.norm, JobContext.norm]
  · simp [flunk]; omega
  · simp [flunk, Job.norm, JobContext.norm, Job.asFailed, hctx]

/-- Every normal end of an execution. -/
theorem _root_.AJ.W.Fin.ends (L : E.Lawful) {x : Executable D O} {job : Job D} {w w' : W}
    (h : Fin E name clk x job w (.ok (), w')) (hs : E.Encodable (x.leaves job (clk w.t)))
    (hrun : job.context.jobStatus = .running) : ∃ j, Ends E name clk L job w w' j := by
  have hj1 : (WorkQueue.runUserCode x job).1.context = job.context := rfl
  cases h with
  | @again j2 t w2 ha =>
    obtain ⟨h1, h2, h3, h4, h5, h6⟩ := ha.facts (name := name)
    rw [hj1] at h1
    obtain ⟨j, hj, _⟩ := reEnq_ends (clk := clk) L (j3 := j2.withType (.scheduledAt t)) (job := job) (w := w) (w3 := w2)
      ⟨j2.context.retry, .scheduledAt t, by simp only [Job.withType]; rw [h1]⟩
      (Env.Lawful.congr' (j := j2) L rfl rfl (ha.encodable L hs)) hrun h3 h4 h5 h6
    exact ⟨j, hj⟩
  | @next j2 j3 w2 w3 ha hn =>
    obtain ⟨h1, h2, h3, h4, h5, h6⟩ := ha.facts (name := name)
    rw [hj1] at h1
    obtain ⟨k1, k2, k3, k4, k5⟩ := hn.facts (name := name)
    obtain ⟨ty, rfl⟩ := k1 j3 rfl
    obtain ⟨j, hj, _⟩ := reEnq_ends (clk := clk) L (j3 := j2.withType ty) (job := job) (w := w) (w3 := w3)
      ⟨j2.context.retry, ty, by simp only [Job.withType]; rw [h1]⟩
      (Env.Lawful.congr' (j := j2) L rfl rfl (ha.encodable L hs)) hrun (k2.trans h3) (k3.trans h4)
      (k4.trans h5) (Nat.le_trans h6 k5)
    exact ⟨j, hj⟩
  | @failed j2 w2 w3 ha hn hf =>
    obtain ⟨h1, h2, h3, h4, h5, h6⟩ := ha.facts (name := name)
    rw [hj1] at h1
    obtain ⟨k1, k2, k3, k4, k5⟩ := hn.facts (name := name)
    obtain ⟨j, hj, _⟩ := flunk_ends (clk := clk) L (j3 := j2) (job := job) (w := w) (w3 := w3)
      ⟨j2.context.retry, h1⟩ (ha.encodable L hs) (k2.trans h3) (k3.trans h4) (k4.trans h5) (Nat.le_trans h6 k5)
    exact ⟨j, hj⟩
  | @finished j2 w2 w3 ha hn hf =>
    obtain ⟨h1, h2, h3, h4, h5, h6⟩ := ha.facts (name := name)
    rw [hj1] at h1
    obtain ⟨k1, k2, k3, k4, k5⟩ := hn.facts (name := name)
    obtain ⟨j, hj, _⟩ := fin_ends (clk := clk) L (j3 := j2) (job := job) (w := w) (w3 := w3)
      ⟨j2.context.retry, h1⟩ (ha.encodable L hs) (k2.trans h3) (k3.trans h4) (k4.trans h5) (Nat.le_trans h6 k5)
    exact ⟨j, hj⟩

/-- How an execution that ends normally leaves the queue if what it stores cannot be serialised: the job is
unreadable, its id goes to the list of status `st`. -/
structure Drops (E : Env D) (name : Str) (job : Job D) (w w' : W) (st : JobStatus) : Prop where
  view : W.view E w' = upd (W.view E w) job.id none
  running : lst name w' .running = (lst name w .running).filter (· ≠ job.id)
  status : st = .queued ∨ st = .finished ∨ st = .failed
  target : lst name w' st = job.id :: lst name w st
  others : ∀ st', st' ≠ .running → st' ≠ st → lst name w' st' = lst name w st'
  log : w'.log = w.log ++ [.hookMsg job.id true, .statusMsg job.id st]
  time : w.t < w'.t

theorem encdec_none (L : E.Lawful) {j : Job D} (h : ¬ E.Encodable j) : E.encdec j = none := by
  unfold Env.Encodable at h
  have h' : E.codec.enc j = none := by simpa using h
  simp [Env.encdec, h', L.dec_empty]

theorem reEnq_drops (L : E.Lawful) {job j3 : Job D} {w w3 : W} (hctx : ∃ r ty, j3.context = { job.context with retry := r, jobType := ty })
    (he : ¬ E.Encodable j3) (hrun : job.context.jobStatus = .running) (hl : lst name w3 = lst name w)
    (hv : W.view E w3 = W.view E w) (hlog : w3.log = w.log ++ [.hookMsg job.id true]) (ht : w.t ≤ w3.t) :
    Drops E name job w (reEnq E name clk j3 w3) .queued := by
  obtain ⟨r, ty, hctx⟩ := hctx
  have hid : j3.id = job.id := by simp [Job.id, hctx]
  have hst : j3.context.jobStatus = .running := by rw [hctx]; exact hrun
  have he' : E.encdec (j3.asQueued (clk w3.t / nsPerMs)) = none :=
    encdec_none L (fun h => he (Env.Lawful.congr' (j := j3.asQueued (clk w3.t / nsPerMs)) L rfl rfl h))
  refine ⟨?_, ?_, .inl rfl, ?_, ?_, ?_, ?_⟩
  · simp [reEnq, he', hv, hid]
  · simp [reEnq, lst_setL, hst, hl, hid]
  · simp [reEnq, lst_setL, hst, hl, hid]
  · intro st h1 h2
    simp [reEnq, lst_setL, hst, hl, h1, h2]
  · simp [reEnq, hlog, hid]
  · simp [reEnq]; omega

theorem fin_drops (L : E.Lawful) {job j3 : Job D} {w w3 : W} (hctx : ∃ r, j3.context = { job.context with retry := r })
    (he : ¬ E.Encodable j3) (hl : lst name w3 = lst name w)
    (hv : W.view E w3 = W.view E w) (hlog : w3.log = w.log ++ [.hookMsg job.id true]) (ht : w.t ≤ w3.t) :
    Drops E name job w (fin E name clk j3 w3) .finished := by
  obtain ⟨r, hctx⟩ := hctx
  have hid : j3.id = job.id := by simp [Job.id, hctx]
  have he' : E.encdec (j3.asFinished (clk w3.t / nsPerMs)) = none :=
    encdec_none L (fun h => he (Env.Lawful.congr' (j := j3.asFinished (clk w3.t / nsPerMs)) L rfl rfl h))
  refine ⟨?_, ?_, .inr (.inl rfl), ?_, ?_, ?_, ?_⟩
  · simp [fin, he', hv, hid]
  · simp [fin, lst_setL, hl, hid]
  · simp [fin, lst_setL, hl, hid]
  · intro st h1 h2
    simp [fin, lst_setL, hl, h1, h2]
  · simp [fin, hlog, hid]
  · simp [fin]; omega

theorem flunk_drops (L : E.Lawful) {job j3 : Job D} {w w3 : W} (hctx : ∃ r, j3.context = { job.context with retry := r })
    (he : ¬ E.Encodable j3) (hl : lst name w3 = lst name w)
    (hv : W.view E w3 = W.view E w) (hlog : w3.log = w.log ++ [.hookMsg job.id true]) (ht : w.t ≤ w3.t) :
    Drops E name job w (flunk E name clk j3 w3) .failed := by
  obtain ⟨r, hctx⟩ := hctx
  have hid : j3.id = job.id := by simp [Job.id, hctx]
  have he' : E.encdec (j3.asFailed (clk w3.t / nsPerMs)) = none :=
    encdec_none L (fun h => he (Env.Lawful.congr' (j := j3.asFailed (clk w3.t / nsPerMs)) L rfl rfl h))
  refine ⟨?_, ?_, .inr (.inr rfl), ?_, ?_, ?_, ?_⟩
  · simp [flunk, he', hv, hid]
  · simp [flunk, lst_setL, hl, hid]
  · simp [flunk, lst_setL, hl, hid]
  · intro st h1 h2
    simp [flunk, lst_setL, hl, h1, h2]
  · simp [flunk, hlog, hid]
  · simp [flunk]; omega

/-- Every normal end of an execution that leaves something unserialisable. The status is that of the run. -/
theorem _root_.AJ.W.Fin.drops (L : E.Lawful) {x : Executable D O} {job : Job D} {w w' : W}
    (h : Fin E name clk x job w (.ok (), w')) (hs : ¬ E.Encodable (x.leaves job (clk w.t)))
    (hrun : job.context.jobStatus = .running) : ∃ st, Drops E name job w w' st := by
  have hj1 : (WorkQueue.runUserCode x job).1.context = job.context := rfl
  cases h with
  | @again j2 t w2 ha =>
    obtain ⟨h1, h2, h3, h4, h5, h6⟩ := ha.facts (name := name)
    rw [hj1] at h1
    exact ⟨_, reEnq_drops (clk := clk) L (j3 := j2.withType (.scheduledAt t)) (job := job) (w := w) (w3 := w2)
      ⟨j2.context.retry, .scheduledAt t, by simp only [Job.withType]; rw [h1]⟩
      (fun h => ha.not_encodable L hs (Env.Lawful.congr' (j := j2.withType (.scheduledAt t)) L rfl rfl h)) hrun h3 h4 h5 h6⟩
  | @next j2 j3 w2 w3 ha hn =>
    obtain ⟨h1, h2, h3, h4, h5, h6⟩ := ha.facts (name := name)
    rw [hj1] at h1
    obtain ⟨k1, k2, k3, k4, k5⟩ := hn.facts (name := name)
    obtain ⟨ty, rfl⟩ := k1 j3 rfl
    exact ⟨_, reEnq_drops (clk := clk) L (j3 := j2.withType ty) (job := job) (w := w) (w3 := w3)
      ⟨j2.context.retry, ty, by simp only [Job.withType]; rw [h1]⟩
      (fun h => ha.not_encodable L hs (Env.Lawful.congr' (j := j2.withType ty) L rfl rfl h)) hrun (k2.trans h3) (k3.trans h4)
      (k4.trans h5) (Nat.le_trans h6 k5)⟩
  | @failed j2 w2 w3 ha hn hf =>
    obtain ⟨h1, h2, h3, h4, h5, h6⟩ := ha.facts (name := name)
    rw [hj1] at h1
    obtain ⟨k1, k2, k3, k4, k5⟩ := hn.facts (name := name)
    exact ⟨_, flunk_drops (clk := clk) L (j3 := j2) (job := job) (w := w) (w3 := w3)
      ⟨j2.context.retry, h1⟩ (ha.not_encodable L hs) (k2.trans h3) (k3.trans h4) (k4.trans h5) (Nat.le_trans h6 k5)⟩
  | @finished j2 w2 w3 ha hn hf =>
    obtain ⟨h1, h2, h3, h4, h5, h6⟩ := ha.facts (name := name)
    rw [hj1] at h1
    obtain ⟨k1, k2, k3, k4, k5⟩ := hn.facts (name := name)
    exact ⟨_, fin_drops (clk := clk) L (j3 := j2) (job := job) (w := w) (w3 := w3)
      ⟨j2.context.retry, h1⟩ (ha.not_encodable L hs) (k2.trans h3) (k3.trans h4) (k4.trans h5) (Nat.le_trans h6 k5)⟩

theorem _root_.AJ.W.Fin.panic_same {x : Executable D O} {job : Job D} {w w' : W}
    (h : Fin E name clk x job w (.panicked, w')) : lst name w' = lst name w ∧ view E w' = view E w := by
  cases h with
  | retryPanic => exact ⟨rfl, rfl⟩
  | nextPanic ha hn =>
    obtain ⟨_, _, h3, h4, _, _⟩ := ha.facts (name := name)
    obtain ⟨_, k2, k3, _, _⟩ := hn.facts (name := name)
    exact ⟨k2.trans h3, k3.trans h4⟩

/-- The invariant survives every careful turn. -/
theorem step (L : E.Lawful) (h : Inv E name s) (op : Op D O) (hc : Careful E (Impl.spec.snap E name s) op) :
    Inv E name (Sys.step E name SpecB clk s op).1 := by
  by_cases ha : s.alive = true
  · have hs := Sys.step_cases (E := E) (name := name) (clk := clk) s ha op
    generalize Sys.step E name SpecB clk s op = p at hs
    cases hs with
    | enqueue j c => exact h.submit_inv L j c hc
    | cancel k => exact h.cancel_inv L k
    | get k => exact h
    | retry k => exact h.retry_inv L k
    | config c => exact ⟨h.keyed, h.agree, h.flight, h.task, h.dead⟩
    | tick k hk hk20 => exact h.scan_inv L ((Scan.init _ _).turns L h.keyed k) ha
    | tickPanic => exact h.dead_inv rfl rfl
    | started i orig hi hcan =>
      have hmem : (⟨orig, none⟩ : Task D) ∈ s.tasks := List.mem_of_getElem? hi
      have hmap : (s.tasks.set i ⟨orig, some orig.counted⟩).map (·.orig.id) = s.tasks.map (·.orig.id) := by
        rw [List.map_set]
        apply List.ext_getElem?
        intro n
        rw [List.getElem?_set]
        split
        · next e =>
          subst e
          split
          · simp [hi]
          · next hlt => rw [List.getElem?_eq_none (by simpa using hlt)]
        · rfl
      refine ⟨h.keyed, h.agree, fun ha => ?_, fun t ht => ?_, fun hd => by simp only at hd; rw [ha] at hd; cases hd⟩
      · simp only [hmap]; exact h.flight ha
      · rcases List.mem_or_eq_of_mem_set ht with ht | rfl
        · exact h.task t ht
        · exact ⟨(h.task _ hmem).1, by simp⟩
    | startCancelled i orig hi hcan =>
      have := h.running ha (List.mem_of_getElem? hi)
      simp only at this
      simp [Job.isCancelled, this] at hcan
    | noStart => exact h
    | finished i x orig job w hi hf =>
      have hmem : (⟨orig, some job⟩ : Task D) ∈ s.tasks := List.mem_of_getElem? hi
      have hjob : job = orig.counted := (h.task _ hmem).2 job rfl
      have hid : job.id = orig.id := by rw [hjob]; rfl
      have hrun := h.running ha hmem
      obtain ⟨j, hj⟩ := hf.ends L ((hc orig job hi).leaves _) (by rw [hjob]; exact hrun)
      have hnr : j.context.jobStatus ≠ .running := by rcases hj.status with e | e | e <;> simp [e]
      refine h.done_inv ha hi j (hj.id.trans hid) (by rw [← hid]; exact hj.view) hnr
        (by rw [← hid]; exact hj.running) ?_
      split
      · next e => have := hj.target; rw [e, hid] at this; exact this
      · next e => exact hj.others .queued (by simp) (fun e' => e e'.symm)
    | finishPanic i x orig job w hi hf => exact h.dead_inv hf.panic_same.2 hf.panic_same.1
    | noFinish => exact h
    | userPanic => exact h.dead_inv rfl rfl
    | noUserPanic => exact h
  · rw [Sys.step_dead s (by simpa using ha)]; exact h

end Inv

section
variable {D O : Type} {E : Env D} {name : Str} {clk : Nat → Time} {s : Sys D SpecB}

theorem readyAt_iff (j : Job D) (now : Time) : j.readyAt now = true ↔ j.Due now := by
  unfold Job.readyAt Job.Due
  cases j.context.jobType with
  | normal => simp
  | scheduledAt t => simp
  | cron e n k c =>
    simp only
    rcases c with ⟨_, m, e⟩
    cases m <;> cases e <;> simp

theorem W.Keyed.put (L : E.Lawful) {w : W} (h : Keyed E w) (j : Job D) {V : Str → Option (Job D)}
    (hV : V = upd (view E w) j.id (E.encdec j)) : ∀ id j, V id = some j → j.id = id := by
  subst hV
  exact Inv.keyed_upd h (fun j' e => encdec_id L e)

theorem W.Keyed.enq (L : E.Lawful) {w : W} (h : Keyed E w) (j : Job D) : Keyed E (enq E name clk j w) :=
  h.put L (j.asQueued (clk w.t / nsPerMs)) (by simp [W.enq])

theorem W.Keyed.reEnq (L : E.Lawful) {w : W} (h : Keyed E w) (j : Job D) : Keyed E (reEnq E name clk j w) :=
  h.put L (j.asQueued (clk w.t / nsPerMs)) (by simp [W.reEnq])

/-- Every turn keeps jobs under their own ids. -/
theorem W.Keyed.step (L : E.Lawful) (h : Keyed E s.w) (op : Op D O) :
    Keyed E (Sys.step E name SpecB clk s op).1.w := by
  by_cases ha : s.alive = true
  · have hs := Sys.step_cases (E := E) (name := name) (clk := clk) s ha op
    generalize Sys.step E name SpecB clk s op = p at hs
    have hups : ∀ j : Job D, Keyed E (upsert E j.id j s.w) := fun j => h.put L j (by simp)
    cases hs with
    | enqueue j c =>
      show Keyed E (submit E name clk j c s.w)
      unfold submit
      simp only
      split
      · next ex _ =>
        have hw : Keyed E (if c.overrideData && !ex.isRunning then upsert E j.id j s.w else s.w) := by
          split
          · exact hups j
          · exact h
        split
        · exact hw.enq L j
        · exact hw
      · exact h.enq L j
    | cancel k =>
      show Keyed E (cancel E name clk k s.w)
      unfold cancel
      split
      · next j hv =>
        split
        · exact h.put L (j.asCanceled (clk s.w.t / nsPerMs)) (by simp [canc])
        · exact h
      · exact h
    | retry k =>
      show Keyed E (W.retry E name clk k s.w)
      unfold W.retry
      split
      · split
        · exact h.reEnq L _
        · exact h
      · exact h
    | tick k hk hk20 => exact ((Scan.init _ _).turns L h k).keyed L h
    | finished i x orig job w hi hf =>
      have hctx : ∀ {j2 t w2}, Ask E clk x (WorkQueue.runUserCode x job).1 (WorkQueue.runUserCode x job).2
          (say (.hookMsg job.id true) s.w) j2 t w2 → Keyed E w2 := by
        intro j2 t w2 ha
        have := (ha.facts (name := name)).2.2.2.1
        unfold Keyed; rw [this]; exact h
      have hnx : ∀ {j2 w2 p}, Next E clk j2 w2 p → Keyed E w2 → Keyed E p.2 := by
        intro j2 w2 p hn hk
        have := (hn.facts (name := name)).2.2.1
        unfold Keyed; rw [this]; exact hk
      cases hf with
      | again ha => exact (hctx ha).reEnq L _
      | next ha hn => exact (hnx hn (hctx ha)).reEnq L _
      | @failed j2 w2 w3 ha hn => exact (hnx hn (hctx ha)).put L (j2.asFailed (clk w3.t / nsPerMs)) (by simp [flunk])
      | @finished j2 w2 w3 ha hn => exact (hnx hn (hctx ha)).put L (j2.asFinished (clk w3.t / nsPerMs)) (by simp [fin])
    | finishPanic i x orig job w hi hf => unfold Keyed; simp only [hf.panic_same.2]; exact h
    | _ => exact h
  · rw [Sys.step_dead s (by simpa using ha)]; exact h

end

/-- In every history jobs are stored under their own ids. -/
theorem reach_keyed {D O : Type} {b : Impl} {E : Env D} (L : E.Lawful) {name : Str} {clk : Nat → Time}
    {P : Snap D → Op D O → Prop} {s : Sys D b.B} (hs : Reach b E name clk P s) : (b.snap E name s).Keyed := by
  refine Reach.lift (Q := Snap.Keyed) (fun t ht => ?_) hs
  have : W.Keyed E t.w := by
    exact Reach.induct (b := Impl.spec) (Q := fun t : Sys D SpecB => W.Keyed E t.w) (fun id j h => by cases h)
      (fun t op _ _ ih => W.Keyed.step L ih op) ht
  exact this

/-- Careful histories keep the invariant. -/
theorem reach_inv {D O : Type} {E : Env D} (L : E.Lawful) {name : Str} {clk : Nat → Time}
    {P : Snap D → Op D O → Prop} (hP : ∀ v op, P v op → Careful E v op) {s : Sys D SpecB}
    (hs : Reach Impl.spec E name clk P s) : Inv E name s := by
  exact Reach.induct (b := Impl.spec) (Q := fun s : Sys D SpecB => Inv E name s) Inv.init
    (fun t op _ hp ih => ih.step L op (hP _ _ hp)) hs

end AJ
