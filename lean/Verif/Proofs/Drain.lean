import Verif.Proofs.Slots
import Verif.Proofs.Slack
import Verif.Spec.Drain
import Verif.Props.Endless

/-! # A work queue to which no jobs are submitted any more comes to rest -/

namespace AJ
open W Props

/-- A job that is not a cron job and can be retried at most `r` times (not at all, given `z`). -/
def Job.Left {D : Type} (z : Prop) (j : Job D) (r : Nat) : Prop :=
  NonCron j ∧ (z → j.context.retry = none) ∧ ∀ x, j.context.retry = some x → IsI32 x.retriedTimes ∧ ∃ N, x.maxRetries = some N ∧ IsI32 N ∧ (N - x.retriedTimes).toNat ≤ r

/-- A run of job `k` that ends in this turn is not retried, or when its policy says. -/
def Mild {D O : Type} (k : Str) (v : Snap D) (op : Op D O) : Prop :=
  ∀ i x orig job, op = .finish i x → v.tasks[i]? = some ⟨orig, some job⟩ → orig.id = k → x.retryAt = none ∨ job.context.retry = none

theorem DefaultRetry.mild {D O : Type} {k : Str} {v : Snap D} {op : Op D O} (h : DefaultRetry k v op) : Mild k v op :=
  fun i x orig job h1 h2 h3 => .inl (h i x orig job h1 h2 h3)

/-- Jobs that wait or are executing are no cron jobs and have a bounded number of retries. -/
def Bounds {D O : Type} (b : Impl) (E : Env D) (name : Str) (clk : Nat → Time) (s : Sys D b.B) (ops : Nat → Op D O) : Prop :=
  ∀ k job, (b.snap E name s).job k = some job → job.context.jobStatus = .queued ∨ job.context.jobStatus = .running →
    NonCron job ∧ (∀ r, job.context.retry = some r → IsI32 r.retriedTimes ∧ ∃ n, r.maxRetries = some n ∧ IsI32 n) ∧
    ((∀ n, Mild k (b.snap E name (Sys.after E name b.B clk s ops n)) (ops n)) ∨ job.context.retry = none)

/-- How much can still happen to job `k`. -/
inductive Ahead {D : Type} (k : Str) (p c z : Prop) (v : Snap D) : Nat → Prop where
  | over (ho : v.own k = []) (hs : v.status k ≠ some .queued ∧ v.status k ≠ some .running) (hp : p → v.status k ≠ none)
      (hc : c → v.status k ≠ some .canceled) : Ahead k p c z v 0
  | waits (j r) (hj : v.job k = some j) (hq : j.context.jobStatus = .queued) (ho : v.own k = []) (hl : j.Left z r) : Ahead k p c z v (3 * r + 3)
  | picked (j r) (hj : v.job k = some j) (hq : j.context.jobStatus = .running) (ho : v.own k = [⟨j, none⟩]) (hl : j.Left z r) : Ahead k p c z v (3 * r + 2)
  | runs (j r) (hj : v.job k = some j) (hq : j.context.jobStatus = .running) (ho : v.own k = [⟨j, some j.counted⟩]) (hl : j.Left z r) : Ahead k p c z v (3 * r + 1)

section
variable {D O : Type} {E : Env D} {name : Str} {clk : Nat → Time} {b : Impl} {k : Str} {s : Sys D b.B} {ops : Nat → Op D O}

local notation "σ" n:max => b.snap E name (Sys.after E name b.B clk s ops n)

theorem Ahead.step (L : E.Lawful) {p c z : Prop} {v v' : Snap D} {op : Op D O} {d : Nat} (h : Ahead k p c z v d) (hl : Life E L name clk k v v' op)
    (hst : ∀ j, v.job k = some j → L.Stored j) (hid : ∀ j, v.job k = some j → j.id = k)
    (h1 : ∀ j c, op ≠ .enqueue j c) (h2 : ∀ id, op ≠ .retry id) (ha : v'.alive = true)
    (hc : c → op ≠ .cancel k) (hx : Mild k v op ∨ z) :
    ∃ d', Ahead k p c z v' d' ∧ (d' < d ∨ d' = d ∧ v'.own k = v.own k ∧ v'.job k = v.job k) := by
  have same : v'.job k = v.job k → v'.own k = v.own k → Ahead k p c z v' d := by
    intro e1 e2
    have e3 : v'.status k = v.status k := by unfold Snap.status; rw [e1]
    cases h with
    | over ho hs hp hc => exact .over (e2.trans ho) (by rw [e3]; exact hs) (by rw [e3]; exact hp) (by rw [e3]; exact hc)
    | waits j r hj hq ho hl => exact .waits j r (e1.trans hj) hq (e2.trans ho) hl
    | picked j r hj hq ho hl => exact .picked j r (e1.trans hj) hq (e2.trans ho) hl
    | runs j r hj hq ho hl => exact .runs j r (e1.trans hj) hq (e2.trans ho) hl
  cases hl with
  | same op g1 g2 g3 g4 => exact ⟨d, same g1 g2, .inr ⟨rfl, g2, g1⟩⟩
  | submit j c => exact absurd rfl (h1 j c)
  | replace j c => exact absurd rfl (h1 j c)
  | retry j => exact absurd rfl (h2 k)
  | died op _ _ _ _ hd => rw [ha] at hd; cases hd
  | cancel j hold hq hj ho ho' =>
    refine ⟨0, .over ho' ?_ (fun _ => ?_) fun hcc => absurd rfl (hc hcc), .inl ?_⟩
    · rw [status_of hj]; exact ⟨by simp [Job.asCanceled], by simp [Job.asCanceled]⟩
    · rw [status_of hj]; simp
    · cases h with
      | over _ hs => exact absurd ((status_of hold).trans (by rw [hq])) hs.1
      | waits => omega
      | picked => omega
      | runs => omega
  | pick j i hold hq _ _ _ hj _ ho' =>
    cases h with
    | over _ hs => exact absurd ((status_of hold).trans (by rw [hq])) hs.1
    | waits j' r hj' _ _ hl =>
      rw [hold] at hj'; cases hj'
      exact ⟨3 * r + 2, .picked _ r hj rfl ho' hl, .inl (by omega)⟩
    | picked j' r hj' hq' => rw [hold] at hj'; cases hj'; rw [hq] at hq'; cases hq'
    | runs j' r hj' hq' => rw [hold] at hj'; cases hj'; rw [hq] at hq'; cases hq'
  | run j i hold hq _ ho hj ho' =>
    cases h with
    | over _ hs => exact absurd ((status_of hold).trans (by rw [hq])) hs.2
    | waits j' r hj' hq' => rw [hold] at hj'; cases hj'; rw [hq] at hq'; cases hq'
    | picked j' r hj' _ _ hl =>
      rw [hold] at hj'; cases hj'
      exact ⟨3 * r + 1, .runs _ r hj hq ho' hl, .inl (by omega)⟩
    | runs j' r hj' _ ho'' => rw [ho] at ho''; cases ho''
  | finish j j' i x w w' hold hq ht ho hw hw' hf he hen hj ho' =>
    cases h with
    | over _ hs => exact absurd ((status_of hold).trans (by rw [hq])) hs.2
    | waits j'' r hj' hq' => rw [hold] at hj'; cases hj'; rw [hq] at hq'; cases hq'
    | picked j'' r hj' _ ho'' => rw [ho] at ho''; cases ho''
    | runs j'' r hj' _ _ hl =>
      rw [hold] at hj'; cases hj'
      have hr := Life.ran (clk := clk) L (hst j hold) hq hw hw' hf he hen (by
        rcases hx with hx | hx
        · exact hx i x j j.counted rfl ht (hid j hold)
        · exact .inr (hl.2.1 hx))
      cases hr with
      | retry hq' hf' hsr hra =>
        obtain ⟨h0, N, h4, h5, h6⟩ := hl.2.2 _ hq'
        obtain ⟨c1, c2, c3⟩ := retryAt_count h4 hsr h0 h5 hra
        have := h0.1
        have := h5.2
        obtain ⟨r, rfl⟩ : ∃ r', r = r' + 1 := ⟨r - 1, by omega⟩
        refine ⟨3 * r + 3, .waits _ r hj rfl ho' ⟨(by intro a b c d e; cases e), (fun hz => by have := hl.2.1 hz; rw [show j.context.retry = _ from hq'] at this; cases this), fun y e => ?_⟩, .inl (by omega)⟩
        cases e
        exact ⟨⟨by omega, by omega⟩, N, c3, h5, by omega⟩
      | slot _ hc' => exact absurd hc' (hl.1 _ _ _ _)
      | stuck _ hc' => exact absurd hc' (hl.1 _ _ _ _)
      | failed =>
        refine ⟨0, .over ho' ?_ (fun _ => ?_) fun _ => ?_, .inl (by omega)⟩ <;> rw [status_of hj] <;> simp
      | finished =>
        refine ⟨0, .over ho' ?_ (fun _ => ?_) fun _ => ?_, .inl (by omega)⟩ <;> rw [status_of hj] <;> simp

variable (L : E.Lawful) (hs : Reach (O := O) b E name clk (Careful E) s) (H : Sys.Closes b E name clk s ops)

include hs H in
theorem Sys.Closes.reach (n : Nat) : Reach (O := O) b E name clk (Careful E) (Sys.after E name b.B clk s ops n) := by
  induction n with
  | zero => exact hs
  | succ n ih => exact .step (ops n) ih (H.careful n)

include H in
theorem Sys.Closes.alive (n : Nat) : (Sys.after E name b.B clk s ops n).alive = true := by
  by_contra h
  obtain ⟨m, h1, _, h2⟩ := H.room.ticks n
  rw [after_dead h1 (by simpa using h)] at h2
  cases h2

include L hs H in
theorem Sys.Closes.inHand (k : Str) (n : Nat) : InHand b E name k (Sys.after E name b.B clk s ops n) :=
  (((H.reach hs n).mono fun _ _ h => h.of k).orderly L).inHand L

include L hs H in
theorem Sys.Closes.solo (k : Str) (n : Nat) : Solo k (σ n) := reach_solo L (k := k) (fun _ _ h => h.of k) (H.reach hs n)

include L hs H in
theorem Sys.Closes.phase {p c z : Prop} (hc : c → ∀ n, ops n ≠ .cancel k) (hx : (∀ n, Mild k (σ n) (ops n)) ∨ z) {n d : Nat}
    (h : Ahead k p c z (σ n) d) :
    ∃ d', Ahead k p c z (σ (n + 1)) d' ∧ (d' < d ∨ d' = d ∧ (σ (n + 1)).own k = (σ n).own k ∧ (σ (n + 1)).job k = (σ n).job k) :=
  h.step L (reach_life (k := k) L (fun _ _ h => h.of k) (H.reach hs n) (ops n) ((H.careful n).of k)) (fun _ hj => (H.inHand L hs k n).stored L hj)
    (fun j hj => (H.inHand L hs k n).keyed k j hj) (H.submit n) (H.retry n) (H.alive (n + 1)) (fun hcc => hc hcc n)
    (hx.imp (fun h => h n) id)

include L hs H in
/-- From some point on nothing happens to the job any more. -/
theorem Sys.Closes.settles {p c z : Prop} (hc : c → ∀ n, ops n ≠ .cancel k) (hx : (∀ n, Mild k (σ n) (ops n)) ∨ z) :
    ∀ (d n : Nat), Ahead k p c z (σ n) d → ∃ N d', n ≤ N ∧ ∀ m, N ≤ m → Ahead k p c z (σ m) d' ∧ (σ m).own k = (σ N).own k ∧ (σ m).job k = (σ N).job k := by
  intro d
  induction d using Nat.strongRecOn with
  | _ d ih =>
    intro n h
    by_cases hl : ∃ m d', n ≤ m ∧ d' < d ∧ Ahead k p c z (σ m) d'
    · obtain ⟨m, d', h1, h2, h3⟩ := hl
      obtain ⟨N, d'', h4, h5⟩ := ih d' h2 m h3
      exact ⟨N, d'', Nat.le_trans h1 h4, h5⟩
    · refine ⟨n, d, Nat.le_refl _, fun m hm => ?_⟩
      induction hm with
      | refl => exact ⟨h, rfl, rfl⟩
      | @step m hm ih' =>
        obtain ⟨h1, h2, h3⟩ := ih'
        obtain ⟨d', h4, h5 | ⟨rfl, h6, h7⟩⟩ := H.phase L hs hc hx h1
        · exact absurd ⟨m + 1, d', Nat.le_succ_of_le hm, h5, h4⟩ hl
        · exact ⟨h4, h6.trans h2, h7.trans h3⟩

include L hs H in
theorem Sys.Closes.stays {p c z : Prop} (hc : c → ∀ n, ops n ≠ .cancel k) (hx : (∀ n, Mild k (σ n) (ops n)) ∨ z) {n : Nat}
    (h : Ahead k p c z (σ n) 0) {m : Nat} (hm : n ≤ m) : Ahead k p c z (σ m) 0 := by
  induction hm with
  | refl => exact h
  | step _ ih =>
    obtain ⟨d', h1, h2 | ⟨rfl, -⟩⟩ := H.phase L hs hc hx ih
    · omega
    · exact h1

theorem Ahead.over_inv {p c z : Prop} {v : Snap D} (h : Ahead k p c z v 0) :
    v.own k = [] ∧ (v.status k ≠ some .queued ∧ v.status k ≠ some .running) ∧ (p → v.status k ≠ none) ∧ (c → v.status k ≠ some .canceled) := by
  generalize hd : 0 = d at h
  cases h with
  | over h1 h2 h3 h4 => exact ⟨h1, h2, h3, h4⟩
  | waits => omega
  | picked => omega
  | runs => omega

theorem left_of {z : Prop} {j : Job D} (h1 : NonCron j) (h2 : ∀ r, j.context.retry = some r → IsI32 r.retriedTimes ∧ ∃ n, r.maxRetries = some n ∧ IsI32 n)
    (h3 : z → j.context.retry = none) : ∃ r, j.Left z r := by
  by_cases h0 : ∃ r N, j.context.retry = some r ∧ r.maxRetries = some N
  · obtain ⟨r, N, h4, h5⟩ := h0
    refine ⟨(N - r.retriedTimes).toNat, h1, h3, fun x hx => ?_⟩
    rw [h4] at hx; cases hx
    obtain ⟨h6, N', h7, h8⟩ := h2 r h4
    rw [h5] at h7; cases h7
    exact ⟨h6, N, h5, h8, Nat.le_refl _⟩
  · refine ⟨0, h1, h3, fun x hx => ?_⟩
    obtain ⟨_, N, h7, _⟩ := h2 x hx
    exact absurd ⟨x, N, hx, h7⟩ h0

include L hs H in
theorem Sys.Closes.begins (hB : Bounds b E name clk s ops) (k : Str) : ∃ (z : Prop) (d : Nat), ((∀ n, Mild k (σ n) (ops n)) ∨ z) ∧
    Ahead k ((σ 0).status k ≠ none) ((∀ n, ops n ≠ .cancel k) ∧ (σ 0).status k ≠ some .canceled) z (σ 0) d ∧
    ((σ 0).status k ≠ some .queued → (σ 0).status k ≠ some .running → d = 0) := by
  have hso := H.solo L hs k 0
  by_cases hq : (σ 0).status k = some .queued
  · obtain ⟨j, hj, hst⟩ := status_some hq
    obtain ⟨h1, h2, h3⟩ := hB k j hj (.inl hst)
    obtain ⟨r, hr⟩ := left_of (z := j.context.retry = none) h1 h2 id
    exact ⟨_, _, h3, .waits j r hj hst (hso.idle (by rw [hq]; decide)) hr, fun h => absurd hq h⟩
  by_cases hr : (σ 0).status k = some .running
  · obtain ⟨j, hj, hst⟩ := status_some hr
    obtain ⟨h1, h2, h3⟩ := hB k j hj (.inr hst)
    obtain ⟨r, hl⟩ := left_of (z := j.context.retry = none) h1 h2 id
    rcases hso.busy (H.alive 0) j hj hst with ho | ho
    · exact ⟨_, _, h3, .picked j r hj hst ho hl, fun _ h => absurd hr h⟩
    · exact ⟨_, _, h3, .runs j r hj hst ho hl, fun _ h => absurd hr h⟩
  · exact ⟨True, 0, .inr trivial, .over (hso.idle hr) ⟨hq, hr⟩ id fun h => h.2, fun _ _ => rfl⟩

theorem elapses_due (hclk : Elapses clk) {j : Job D} (hty : NonCron j) : ∃ i, ∀ i', i ≤ i' → j.Due (clk i') := by
  unfold Job.Due
  rcases hj : j.context.jobType with _ | t | ⟨e, n, m, c⟩
  · exact ⟨0, fun _ _ => trivial⟩
  · exact hclk t
  · exact absurd hj (hty _ _ _ _)

include L hs H in
/-- The work queue comes to rest. -/
theorem Sys.Closes.rests (hclk : Elapses clk) (hB : Bounds b E name clk s ops) :
    ∃ N, ∀ n, N ≤ n → (σ n).lists .queued = [] ∧ (σ n).lists .running = [] ∧ (σ n).tasks = [] ∧
      ∀ k, ((σ n).status k ≠ some .queued ∧ (σ n).status k ≠ some .running) ∧ ((σ 0).status k ≠ none → (σ n).status k ≠ none) ∧
        ((∀ n, ops n ≠ .cancel k) ∧ (σ 0).status k ≠ some .canceled → (σ n).status k ≠ some .canceled) := by
  choose z d hx hph h0 using fun k => H.begins L hs hB k
  -- each job comes to rest
  have hone : ∀ k, ∃ N d', ∀ m, N ≤ m → Ahead k ((σ 0).status k ≠ none) ((∀ n, ops n ≠ .cancel k) ∧ (σ 0).status k ≠ some .canceled) (z k) (σ m) d' ∧
      (σ m).own k = [] ∧ (σ m).job k = (σ N).job k := by
    intro k
    obtain ⟨N, d', -, h⟩ := H.settles L hs (k := k) (fun h => h.1) (hx k) (d k) 0 (hph k)
    refine ⟨N, d', fun m hm => ⟨(h m hm).1, ?_, (h m hm).2.2⟩⟩
    by_contra hne
    have hin : ∀ m, N ≤ m → k ∈ (σ m).inFlight := by
      intro m' hm'
      by_contra hno
      exact hne ((h m hm).2.1.trans ((h m' hm').2.1.symm.trans (own_of_not_inFlight hno)))
    obtain ⟨m', h1, h2⟩ := H.room.ends N k (hin N (Nat.le_refl _))
    exact h2 (hin m' h1)
  have hout : ∀ k, k ∉ (σ 0).lists .queued ++ (σ 0).inFlight → ∀ m,
      Ahead k ((σ 0).status k ≠ none) ((∀ n, ops n ≠ .cancel k) ∧ (σ 0).status k ≠ some .canceled) (z k) (σ m) 0 := by
    intro k hk m
    have hso := H.solo L hs k 0
    have hq : (σ 0).status k ≠ some .queued := fun e => by
      have := hso.queued
      rw [if_pos e] at this
      exact hk (List.mem_append_left _ (List.count_pos_iff.1 (by omega)))
    have hr : (σ 0).status k ≠ some .running := fun e => by
      obtain ⟨j, hj, hst⟩ := status_some e
      have hno := own_of_not_inFlight (fun h => hk (List.mem_append_right _ h))
      rcases hso.busy (H.alive 0) j hj hst with ho | ho <;> rw [hno] at ho <;> cases ho
    have h := hph k
    rw [h0 k hq hr] at h
    exact H.stays L hs (fun h => h.1) (hx k) h (Nat.zero_le m)
  have hall : ∀ l : List Str, ∃ N, ∀ k ∈ l, ∃ d', ∀ m, N ≤ m → Ahead k ((σ 0).status k ≠ none)
      ((∀ n, ops n ≠ .cancel k) ∧ (σ 0).status k ≠ some .canceled) (z k) (σ m) d' ∧ (σ m).own k = [] ∧ (σ m).job k = (σ N).job k := by
    intro l
    induction l with
    | nil => exact ⟨0, by simp⟩
    | cons x l ih =>
      obtain ⟨N, h1⟩ := ih
      obtain ⟨N', d', h2⟩ := hone x
      refine ⟨max N N', fun k hk => ?_⟩
      rcases List.mem_cons.1 hk with rfl | hk
      · exact ⟨d', fun m hm => ⟨(h2 m (by omega)).1, (h2 m (by omega)).2.1, (h2 m (by omega)).2.2.trans (h2 (max N N') (by omega)).2.2.symm⟩⟩
      · obtain ⟨d', h3⟩ := h1 k hk
        exact ⟨d', fun m hm => ⟨(h3 m (by omega)).1, (h3 m (by omega)).2.1, (h3 m (by omega)).2.2.trans (h3 (max N N') (by omega)).2.2.symm⟩⟩
  obtain ⟨N, hN⟩ := hall ((σ 0).lists .queued ++ (σ 0).inFlight)
  have hown : ∀ k m, N ≤ m → (σ m).own k = [] := by
    intro k m hm
    by_cases hk : k ∈ (σ 0).lists .queued ++ (σ 0).inFlight
    · obtain ⟨d', h⟩ := hN k hk
      exact (h m hm).2.1
    · exact (hout k hk m).over_inv.1
  have hnr : ∀ k m, N ≤ m → (σ m).status k ≠ some .running := by
    intro k m hm e
    obtain ⟨j, hj, hst⟩ := status_some e
    rcases (H.solo L hs k m).busy (H.alive m) j hj hst with ho | ho <;> rw [hown k m hm] at ho <;> cases ho
  have hrun : ∀ m, N ≤ m → (σ m).lists .running = [] := by
    intro m hm
    refine List.eq_nil_iff_forall_not_mem.2 fun id hid => ?_
    have := (H.solo L hs id m).running
    rw [if_neg (hnr id m hm)] at this
    exact List.count_eq_zero.1 this hid
  have htask : ∀ m, N ≤ m → (σ m).tasks = [] := by
    intro m hm
    refine List.eq_nil_iff_forall_not_mem.2 fun t ht => ?_
    have : t ∈ (σ m).own t.orig.id := List.mem_filter.2 ⟨ht, by simp⟩
    rw [hown _ m hm] at this
    cases this
  have hsub : ∀ m, ((σ m).lists .queued) ⊆ (σ 0).lists .queued ++ (σ 0).inFlight := by
    intro m id hid
    by_contra hk
    have h1 := (hout id hk m).over_inv.2.1.1
    have := (H.solo L hs id m).queued
    rw [if_neg h1] at this
    exact List.count_eq_zero.1 this hid
  have hnd : ∀ m, ((σ m).lists .queued).Nodup := by
    intro m
    refine List.nodup_iff_count.2 fun id => ?_
    rw [(H.solo L hs id m).queued]
    split <;> omega
  have hslack : ∀ m, ∃ i, m ≤ i ∧ ops i = .tick ∧ (σ (i + 1)).Slack := by
    intro m
    obtain ⟨i, h1, h2, h3⟩ := H.room.ticks (max m N)
    refine ⟨i, by omega, h2, H.alive (i + 1), ?_, ?_⟩
    · have hcap := H.room.capacity i h2
      have e : Sys.after E name b.B clk s ops (i + 1) = (Sys.step E name b.B clk (Sys.after E name b.B clk s ops i) (.tick : Op D O)).1 := by
        rw [← h2]; rfl
      have hcfg : (σ (i + 1)).cfg = (σ i).cfg := by
        rcases tick_facts_any (O := O) (clk := clk) b L _ (H.reach hs i).good (reach_keyed L (H.reach hs i)) h3 with ⟨st, g, _⟩ | ⟨g, _⟩
        · rw [e]; exact g.ticked.cfg
        · have := H.alive (i + 1)
          have h4 := congrArg Snap.alive g
          rw [← e] at h4
          rw [show (σ (i + 1)).alive = true from this] at h4
          cases h4
      unfold Snap.free
      rw [hrun (i + 1) (by omega), hcfg]
      have hcap : 0 < (σ i).cfg.maxProcessingJobs := hcap
      simp only [List.length_nil, Nat.sub_zero]
      exact hcap
    · rw [hrun (i + 1) (by omega)]
      have := ((hnd (i + 1)).subperm (hsub (i + 1))).length_le
      rw [List.length_append] at this
      have hsm := H.small
      have e0 : σ 0 = b.snap E name s := rfl
      rw [e0] at this
      simp only [List.length_nil]
      omega
  have hover : ∀ k m, N ≤ m → Ahead k ((σ 0).status k ≠ none) ((∀ n, ops n ≠ .cancel k) ∧ (σ 0).status k ≠ some .canceled) (z k) (σ m) 0 := by
    intro k m hm
    by_cases hk : k ∈ (σ 0).lists .queued ++ (σ 0).inFlight
    swap
    · exact hout k hk m
    obtain ⟨d', h⟩ := hN k hk
    have h1 := (h m hm).1
    cases h1 with
    | over a1 a2 a3 a4 => exact .over a1 a2 a3 a4
    | picked j r hj hq ho => rw [(h m hm).2.1] at ho; cases ho
    | runs j r hj hq ho => rw [(h m hm).2.1] at ho; cases ho
    | waits j r hj hq ho hl =>
      exfalso
      refine slack_starts (k := k) (n := m) (j := j) L (fun i _ => H.inHand L hs k i) (fun i hi => ⟨?_, hown k i (by omega)⟩) hq hslack (elapses_due hclk hl.1)
      rw [(h i (by omega)).2.2, ← (h m hm).2.2]
      exact hj
  refine ⟨N, fun n hn => ⟨?_, hrun n hn, htask n hn, fun k => ?_⟩⟩
  · refine List.eq_nil_iff_forall_not_mem.2 fun id hid => ?_
    have := (H.solo L hs id n).queued
    rw [if_neg (hover id n hn).over_inv.2.1.1] at this
    exact List.count_eq_zero.1 this hid
  · obtain ⟨-, h1, h2, h3⟩ := (hover k n hn).over_inv
    exact ⟨h1, h2, h3⟩

end
end AJ
