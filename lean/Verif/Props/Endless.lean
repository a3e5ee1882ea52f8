import Verif.Proofs.Adrift
import Verif.Proofs.Endless
import Verif.Props.Cron
import Verif.Proofs.RunEnd

/-!
# Every job gets there: endless histories (C83, C84)
-/

namespace AJ.Props
open W

section
variable {D O : Type} {E : Env D} {name : Str} {clk : Nat → Time} {b : Impl} {k : Str} {s : Sys D b.B}
  {ops : Nat → Op D O}

local notation "σ" n:max => b.snap E name (Sys.after E name b.B clk s ops n)

private theorem status_cases {st : JobStatus} (h : st ≠ .canceled) :
    (st = .queued ∨ st = .running) ∨ st = .finished ∨ st = .failed := by
  cases st <;> simp at h ⊢

private theorem due_later (hclk : Elapses clk) {j : Job D} (hty : NonCron j) : ∃ i, ∀ i', i ≤ i' → j.Due (clk i') := by
  unfold Job.Due
  rcases hj : j.context.jobType with _ | t | ⟨e, n, m, c⟩
  · exact ⟨0, fun _ _ => trivial⟩
  · exact hclk t
  · exact absurd hj (hty _ _ _ _)

/-- A job that is neither cron nor done: a run of it ends. -/
private theorem run_ends (L : E.Lawful) (hs : InHand b E name k s)
    (H : Sys.Serves b E name clk k s ops) (hclk : Elapses clk) {n : Nat} {j : Job D} (hj : (σ n).job k = some j)
    (hty : NonCron j) (hst : j.context.jobStatus = .queued ∨ j.context.jobStatus = .running)
    (hx : (∀ m, DefaultRetry k (σ m) (ops m)) ∨ j.context.retry = none) :
    ∃ m j1 j' x, n ≤ m ∧ Sys.Ends L name clk k s ops m j1 j' x ∧ NonCron j1 ∧ j1.context.retry = j.context.retry ∧
      j1.id = j.id := by
  rcases hst with hq | hr
  · obtain ⟨m, t, j', x, h1, h2, _⟩ := H.round L hs hj hq (due_later hclk hty) hx
    exact ⟨m, _, j', x, h1, h2, hty, rfl, rfl⟩
  · obtain ⟨m, j', x, h1, h2, _⟩ := H.ended L hs hj hr hx
    exact ⟨m, _, j', x, h1, h2, hty, rfl, rfl⟩

/-- `C83_ends` from any state in which the job is in order. -/
theorem ends_inHand (L : E.Lawful) (hs : InHand b E name k s)
    (H : Sys.Serves b E name clk k s ops) (hclk : Elapses clk) {job : Job D} (hj : (b.snap E name s).job k = some job)
    (hty : NonCron job) (hst : job.context.jobStatus ≠ .canceled)
    (hr : ∀ r, job.context.retry = some r → IsI32 r.retriedTimes ∧ ∃ n, r.maxRetries = some n ∧ IsI32 n)
    (hx : (∀ n, DefaultRetry k (b.snap E name (Sys.after E name b.B clk s ops n)) (ops n)) ∨ job.context.retry = none) :
    ∃ n, (b.snap E name (Sys.after E name b.B clk s ops n)).Ended k := by
  have key : ∀ (d : Nat) (n : Nat) (j : Job D), (σ n).job k = some j → NonCron j →
      (j.context.jobStatus = .queued ∨ j.context.jobStatus = .running) →
      (∀ r, j.context.retry = some r → IsI32 r.retriedTimes ∧
        ∃ N, r.maxRetries = some N ∧ IsI32 N ∧ (N - r.retriedTimes).toNat ≤ d) →
      ((∀ n, DefaultRetry k (σ n) (ops n)) ∨ j.context.retry = none) → ∃ n, Snap.Ended (σ n) k := by
    intro d
    induction d with
    | zero =>
      intro n j hj hty hst hr hx
      obtain ⟨m, j1, j', x, _, h2, hn, he, _⟩ := run_ends L hs H hclk hj hty hst hx
      have h3 := h2.job
      cases h2.ran with
      | retry hq hf hsr hra =>
        obtain ⟨_, N, h4, h5, h6⟩ := hr _ (he.symm.trans hq)
        simp [Retry.shouldRetry, h4] at hsr
        omega
      | slot _ hc => exact absurd hc (hn _ _ _ _)
      | stuck _ hc => exact absurd hc (hn _ _ _ _)
      | failed => exact ⟨m + 1, .inr (status_of h3)⟩
      | finished => exact ⟨m + 1, .inl (status_of h3)⟩
    | succ d ih =>
      intro n j hj hty hst hr hx
      obtain ⟨m, j1, j', x, _, h2, hn, he, _⟩ := run_ends L hs H hclk hj hty hst hx
      have h3 := h2.job
      cases h2.ran with
      | retry hq hf hsr hra =>
        obtain ⟨h0, N, h4, h5, h6⟩ := hr _ (he.symm.trans hq)
        obtain ⟨c1, c2, c3⟩ := retryAt_count h4 hsr h0 h5 hra
        refine ih (m + 1) _ h3 (by intro a b c d e; cases e) (.inl rfl) (fun r e => ?_) ?_
        · cases e
          have := h0.1
          have := h5.2
          exact ⟨⟨by omega, by omega⟩, N, c3, h5, by omega⟩
        · rcases hx with hx | hx
          · exact .inl hx
          · have := he.symm.trans hq
            rw [hx] at this; cases this
      | slot _ hc => exact absurd hc (hn _ _ _ _)
      | stuck _ hc => exact absurd hc (hn _ _ _ _)
      | failed => exact ⟨m + 1, .inr (status_of h3)⟩
      | finished => exact ⟨m + 1, .inl (status_of h3)⟩
  rcases status_cases hst with hq | h | h
  · by_cases h0 : ∃ r N, job.context.retry = some r ∧ r.maxRetries = some N
    · obtain ⟨r, N, h1, h2⟩ := h0
      refine key (N - r.retriedTimes).toNat 0 job hj hty hq (fun r' e => ?_) hx
      rw [h1] at e; cases e
      obtain ⟨h3, N', h4, h5⟩ := hr r h1
      rw [h2] at h4; cases h4
      exact ⟨h3, N, h2, h5, Nat.le_refl _⟩
    · refine key 0 0 job hj hty hq (fun r e => ?_) hx
      obtain ⟨_, N, h4, _⟩ := hr r e
      exact absurd ⟨r, N, e, h4⟩ h0
  · exact ⟨0, .inl ((status_of hj).trans (by rw [h]))⟩
  · exact ⟨0, .inr ((status_of hj).trans (by rw [h]))⟩

/-- C83: in every endless history that serves `k`, a job that is not a cron job and was not cancelled, with a bounded
number of retries or without retry policy, reaches Finished or Failed, whatever its runs return and whatever
happens to other jobs. -/
theorem C83_ends (L : E.Lawful) (hs : Reach (O := O) b E name clk (Orderly k) s)
    (H : Sys.Serves b E name clk k s ops) (hclk : Elapses clk) {job : Job D} (hj : (b.snap E name s).job k = some job)
    (hty : NonCron job) (hst : job.context.jobStatus ≠ .canceled)
    (hr : ∀ r, job.context.retry = some r → IsI32 r.retriedTimes ∧ ∃ n, r.maxRetries = some n ∧ IsI32 n)
    (hx : (∀ n, DefaultRetry k (b.snap E name (Sys.after E name b.B clk s ops n)) (ops n)) ∨ job.context.retry = none) :
    ∃ n, (b.snap E name (Sys.after E name b.B clk s ops n)).Ended k :=
  ends_inHand L (hs.inHand L) H hclk hj hty hst hr hx

/-- `C83_recovers` from any state in which the job is in order. -/
theorem recovers_inHand (L : E.Lawful) (hs : InHand b E name k s)
    (H : Sys.Serves b E name clk k s ops) (hclk : Elapses clk) {job : Job D} (hj : (b.snap E name s).job k = some job)
    (hty : NonCron job) (hst : job.context.jobStatus ≠ .canceled)
    (hx : (∀ n, DefaultRetry k (b.snap E name (Sys.after E name b.B clk s ops n)) (ops n)) ∨ job.context.retry = none)
    (M : Nat) (hok : ∀ n, M ≤ n → ∀ i x orig j, ops n = .finish i x →
      (Sys.after E name b.B clk s ops n).tasks[i]? = some ⟨orig, some j⟩ → orig.id = k → x.fails j = false) :
    ∃ n, (b.snap E name (Sys.after E name b.B clk s ops n)).Ended k := by
  by_contra hcon
  have hw : ∀ n, ∃ j, (σ n).job k = some j ∧ NonCron j ∧ j.context.jobStatus ≠ .canceled ∧
      ((∀ n, DefaultRetry k (σ n) (ops n)) ∨ j.context.retry = none) := by
    intro n
    induction n with
    | zero => exact ⟨job, hj, hty, hst, hx⟩
    | succ n ih =>
      obtain ⟨j, h1, h2, h3, h4⟩ := ih
      have hl := (H.inHand L hs n).careful_life L (clk := clk) h1 (ops n) (H.code n)
      change Life E L name clk k (σ n) (σ (n + 1)) (ops n) at hl
      generalize hop : ops n = op at hl
      cases hl with
      | same op g1 => exact ⟨j, g1.trans h1, h2, h3, h4⟩
      | submit j c hid => exact absurd hid (H.submit n j c hop)
      | replace j c ex hid => exact absurd hid (H.submit n j c hop)
      | cancel => exact absurd hop (H.cancel n)
      | retry j' hold hd g1 => rw [h1] at hold; cases hold; exact ⟨_, g1, h2, by simp [Job.asQueued], h4⟩
      | pick j' i hold _ _ _ _ g1 => rw [h1] at hold; cases hold; exact ⟨_, g1, h2, by simp [Job.asRunning], h4⟩
      | run j' i hold _ _ _ g1 => rw [h1] at hold; cases hold; exact ⟨_, g1, h2, h3, h4⟩
      | finish j1 j' i x w w' hold hr ht ho hw hw' hf he hen g1 =>
        rw [h1] at hold; cases hold
        have hid := (H.inHand L hs n).keyed k j h1
        have hran := Life.ran L (v := σ n) (v' := σ (n + 1)) ((H.inHand L hs n).stored L h1) hr hw hw' hf he hen (by
          rcases h4 with hx | hx
          · exact .inl (hx n i x _ _ hop ht hid)
          · exact .inr hx)
        cases hran with
        | retry hq =>
          refine ⟨_, g1, (by intro a b c d e; cases e), by simp, ?_⟩
          rcases h4 with hx | hx
          · exact .inl hx
          · have hq : j.context.retry = _ := hq
            rw [hx] at hq; cases hq
        | slot _ hc => exact absurd hc (h2 _ _ _ _)
        | stuck _ hc => exact absurd hc (h2 _ _ _ _)
        | failed => exact (hcon ⟨n + 1, .inr (status_of g1)⟩).elim
        | finished => exact (hcon ⟨n + 1, .inl (status_of g1)⟩).elim
      | died op _ _ _ _ ha =>
        have : (σ (n + 1)).alive = true := H.alive (n + 1)
        rw [this] at ha; cases ha
  obtain ⟨j, h1, h2, h3, h4⟩ := hw M
  have h5 : j.context.jobStatus = .queued ∨ j.context.jobStatus = .running := by
    rcases status_cases h3 with hq | h | h
    · exact hq
    · exact (hcon ⟨M, .inl ((status_of h1).trans (by rw [h]))⟩).elim
    · exact (hcon ⟨M, .inr ((status_of h1).trans (by rw [h]))⟩).elim
  obtain ⟨m, j1, j', x, h6, h7, hn, _, h8⟩ := run_ends L hs H hclk h1 h2 h5 h4
  obtain ⟨i, g1, g2⟩ := h7.op
  have hid : j1.id = k := h8.trans ((H.inHand L hs M).keyed k j h1)
  have hf := hok m h6 i x j1 _ g1 g2 hid
  have h9 := h7.job
  cases h7.ran with
  | retry _ hf' => rw [hf] at hf'; cases hf'
  | slot _ hc => exact absurd hc (hn _ _ _ _)
  | stuck _ hc => exact absurd hc (hn _ _ _ _)
  | failed _ _ hf' => rw [hf] at hf'; cases hf'
  | finished => exact hcon ⟨m + 1, .inl (status_of h9)⟩

/-- C83 with any retry policy, also an unlimited one: if no run of `k` that ends from turn `M` on fails, the job reaches
Finished, or Failed before. -/
theorem C83_recovers (L : E.Lawful) (hs : Reach (O := O) b E name clk (Orderly k) s)
    (H : Sys.Serves b E name clk k s ops) (hclk : Elapses clk) {job : Job D} (hj : (b.snap E name s).job k = some job)
    (hty : NonCron job) (hst : job.context.jobStatus ≠ .canceled)
    (hx : (∀ n, DefaultRetry k (b.snap E name (Sys.after E name b.B clk s ops n)) (ops n)) ∨ job.context.retry = none)
    (M : Nat) (hok : ∀ n, M ≤ n → ∀ i x orig j, ops n = .finish i x →
      (Sys.after E name b.B clk s ops n).tasks[i]? = some ⟨orig, some j⟩ → orig.id = k → x.fails j = false) :
    ∃ n, (b.snap E name (Sys.after E name b.B clk s ops n)).Ended k :=
  recovers_inHand L (hs.inHand L) H hclk hj hty hst hx M hok

/-- One more run of a cron job. -/
private theorem cron_round (L : E.Lawful) (hs : InHand b E name k s)
    (H : Sys.Serves b E name clk k s ops) (hclk : Elapses clk) {e : Str} {c : CronContext}
    (hc : (E.cron e).isSome = true) (hend : c.endAt = none)
    (hno : ∀ n i x orig j, ops n = .finish i x →
      (Sys.after E name b.B clk s ops n).tasks[i]? = some ⟨orig, some j⟩ → orig.id = k → Unretried x j)
    {n : Nat} {j : Job D} (hj : (σ n).job k = some j) (hq : j.context.jobStatus = .queued) {u : Time} {t : Int}
    (hty : j.context.jobType = .cron e u t c) (hM : ∀ M, c.maxRepeat = some M → t ≤ M)
    (hx : (∀ m, DefaultRetry k (σ m) (ops m)) ∨ j.context.retry = none) :
    ∃ m j' u' t', n ≤ m ∧ (σ m).job k = some j' ∧ j'.context.jobStatus = .queued ∧
      j'.context.jobType = .cron e u' t' c ∧ (t' = t ∨ addI32 E.overflowChecks t 1 = some t') ∧
      j'.context.retry = j.context.retry ∧ ((σ m).runs k).length = ((σ n).runs k).length + 1 := by
  have hdue : ∃ i, ∀ i', i ≤ i' → j.Due (clk i') := by
    obtain ⟨i, hi⟩ := hclk u
    refine ⟨i, fun i' h => ?_⟩
    unfold Job.Due
    rw [hty]
    exact ⟨Int.le_of_lt (hi i' h), hM, fun x hx => by rw [hend] at hx; cases hx⟩
  obtain ⟨m, τ, j', x, h1, h2, h3⟩ := H.round L hs hj hq hdue hx
  obtain ⟨i, g1, g2⟩ := h2.op
  have hid : (j.asRunning τ).id = k := (H.inHand L hs n).keyed k j hj
  have hun := hno m i x _ _ g1 g2 hid
  have h4 := h2.job
  have hover : ∀ now, c.over t now = false := by
    intro now
    rw [over_not]
    rintro (⟨M, h5, h6⟩ | ⟨M, h5, h6⟩)
    · exact absurd (hM M h5) (by omega)
    · rw [hend] at h5; cases h5
  cases h2.ran with
  | retry hr hf hsr => exact (retried_absurd hun hr hf hsr).elim
  | slot _ hty' hc' _ _ ha =>
    have e := hty.symm.trans hty'; cases e
    exact ⟨m + 1, _, _, _, by omega, h4, rfl, rfl, .inr ha, rfl, h3⟩
  | stuck _ hty' => exact ⟨m + 1, _, u, t, by omega, h4, rfl, hty, .inl rfl, rfl, h3⟩
  | failed _ hnx =>
    rcases hnx _ _ _ _ hty with h | h
    · rw [h] at hc; cases hc
    · rw [hover] at h; cases h
  | finished _ hnx =>
    rcases hnx _ _ _ _ hty with h | h
    · rw [h] at hc; cases hc
    · rw [hover] at h; cases h

/-- `C84_forever` from any state in which the job is in order. -/
theorem forever_inHand (L : E.Lawful) (hs : InHand b E name k s)
    (H : Sys.Serves b E name clk k s ops) (hclk : Elapses clk) {job : Job D} (hj : (b.snap E name s).job k = some job)
    (hq : job.context.jobStatus = .queued) {e : Str} {u : Time} {t : Int} {c : CronContext}
    (hty : job.context.jobType = .cron e u t c) (hc : (E.cron e).isSome = true) (hmax : c.maxRepeat = none)
    (hend : c.endAt = none)
    (hx : (∀ n, DefaultRetry k (b.snap E name (Sys.after E name b.B clk s ops n)) (ops n)) ∨ job.context.retry = none)
    (hno : ∀ n i x orig j, ops n = .finish i x →
      (Sys.after E name b.B clk s ops n).tasks[i]? = some ⟨orig, some j⟩ → orig.id = k → Unretried x j) (R : Nat) :
    ∃ n, R ≤ ((b.snap E name (Sys.after E name b.B clk s ops n)).runs k).length := by
  have key : ∀ R, ∃ n j u' t', (σ n).job k = some j ∧ j.context.jobStatus = .queued ∧
      j.context.jobType = .cron e u' t' c ∧ j.context.retry = job.context.retry ∧ R ≤ ((σ n).runs k).length := by
    intro R
    induction R with
    | zero => exact ⟨0, job, u, t, hj, hq, hty, rfl, Nat.zero_le _⟩
    | succ R ih =>
      obtain ⟨n, j, u', t', h1, h2, h3, h4, h5⟩ := ih
      obtain ⟨m, j', u2, t2, g1, g2, g3, g4, _, g6, g7⟩ := cron_round L hs H hclk hc hend hno h1 h2 h3
        (fun M h => by rw [hmax] at h; cases h) (by rw [h4]; exact hx)
      exact ⟨m, j', u2, t2, g2, g3, g4, g6.trans h4, by omega⟩
  obtain ⟨n, _, _, _, _, _, _, _, h⟩ := key R
  exact ⟨n, h⟩

/-- C84: in every endless history that serves `k`, a queued cron job without limits whose runs are not retried runs again
and again, forever: more often than any number. -/
theorem C84_forever (L : E.Lawful) (hs : Reach (O := O) b E name clk (Orderly k) s)
    (H : Sys.Serves b E name clk k s ops) (hclk : Elapses clk) {job : Job D} (hj : (b.snap E name s).job k = some job)
    (hq : job.context.jobStatus = .queued) {e : Str} {u : Time} {t : Int} {c : CronContext}
    (hty : job.context.jobType = .cron e u t c) (hc : (E.cron e).isSome = true) (hmax : c.maxRepeat = none)
    (hend : c.endAt = none)
    (hx : (∀ n, DefaultRetry k (b.snap E name (Sys.after E name b.B clk s ops n)) (ops n)) ∨ job.context.retry = none)
    (hno : ∀ n i x orig j, ops n = .finish i x →
      (Sys.after E name b.B clk s ops n).tasks[i]? = some ⟨orig, some j⟩ → orig.id = k → Unretried x j) (R : Nat) :
    ∃ n, R ≤ ((b.snap E name (Sys.after E name b.B clk s ops n)).runs k).length :=
  forever_inHand L (hs.inHand L) H hclk hj hq hty hc hmax hend hx hno R

/-- `C84_max_repeat` from any state in which the job is in order. -/
theorem max_repeat_inHand (L : E.Lawful) (hs : InHand b E name k s)
    (H : Sys.Serves b E name clk k s ops) (hclk : Elapses clk) {job : Job D} (hj : (b.snap E name s).job k = some job)
    (hq : job.context.jobStatus = .queued) {e : Str} {u : Time} {t M : Int} {c : CronContext}
    (hty : job.context.jobType = .cron e u t c) (hc : (E.cron e).isSome = true) (hmax : c.maxRepeat = some M)
    (hend : c.endAt = none) (ht : IsI32 t) (hM : IsI32 (M + 1))
    (hx : (∀ n, DefaultRetry k (b.snap E name (Sys.after E name b.B clk s ops n)) (ops n)) ∨ job.context.retry = none)
    (hno : ∀ n i x orig j, ops n = .finish i x →
      (Sys.after E name b.B clk s ops n).tasks[i]? = some ⟨orig, some j⟩ → orig.id = k → Unretried x j) :
    ∃ n, ((b.snap E name s).runs k).length + (M + 1 - t).toNat ≤
      ((b.snap E name (Sys.after E name b.B clk s ops n)).runs k).length := by
  have key : ∀ R : Nat, t + R ≤ M + 1 → ∃ n j u' t', (σ n).job k = some j ∧ j.context.jobStatus = .queued ∧
      j.context.jobType = .cron e u' t' c ∧ j.context.retry = job.context.retry ∧ t ≤ t' ∧ t' ≤ t + R ∧
      ((b.snap E name s).runs k).length + R ≤ ((σ n).runs k).length := by
    intro R
    induction R with
    | zero => exact fun _ => ⟨0, job, u, t, hj, hq, hty, rfl, Int.le_refl _, by omega, Nat.le_refl _⟩
    | succ R ih =>
      intro hR
      obtain ⟨n, j, u', t', h1, h2, h3, h4, h5, h6, h7⟩ := ih (by omega)
      obtain ⟨m, j', u2, t2, g1, g2, g3, g4, g5, g6, g7⟩ := cron_round L hs H hclk hc hend hno h1 h2 h3
        (fun M' h => by rw [hmax] at h; cases h; omega) (by rw [h4]; exact hx)
      have ht2 : t2 = t' ∨ t2 = t' + 1 := by
        rcases g5 with g5 | g5
        · exact .inl g5
        · refine .inr ?_
          have := ht.1
          have := hM.2
          have h8 : -(2 ^ 31) ≤ t' + 1 := by omega
          have h9 : t' + 1 < 2 ^ 31 := by omega
          unfold addI32 fitsI32 at g5
          simp only [h8, h9, decide_true, Bool.and_self, if_true] at g5
          exact (Option.some.inj g5).symm
      exact ⟨m, j', u2, t2, g2, g3, g4, g6.trans h4, by omega, by omega, by omega⟩
  by_cases h : t ≤ M + 1
  · obtain ⟨n, _, _, _, _, _, _, _, _, _, h⟩ := key (M + 1 - t).toNat (by omega)
    exact ⟨n, h⟩
  · exact ⟨0, by
      have : (M + 1 - t).toNat = 0 := by omega
      rw [this]; exact Nat.le_refl _⟩

/-- C84 with `max_repeat = M`: a job that has been given `t` slots runs at least `M + 1 - t` more times. With the bound
of `C21_max_repeat_partial`, exactly that many times (`C84_exactly`). -/
theorem C84_max_repeat (L : E.Lawful) (hs : Reach (O := O) b E name clk (Orderly k) s)
    (H : Sys.Serves b E name clk k s ops) (hclk : Elapses clk) {job : Job D} (hj : (b.snap E name s).job k = some job)
    (hq : job.context.jobStatus = .queued) {e : Str} {u : Time} {t M : Int} {c : CronContext}
    (hty : job.context.jobType = .cron e u t c) (hc : (E.cron e).isSome = true) (hmax : c.maxRepeat = some M)
    (hend : c.endAt = none) (ht : IsI32 t) (hM : IsI32 (M + 1))
    (hx : (∀ n, DefaultRetry k (b.snap E name (Sys.after E name b.B clk s ops n)) (ops n)) ∨ job.context.retry = none)
    (hno : ∀ n i x orig j, ops n = .finish i x →
      (Sys.after E name b.B clk s ops n).tasks[i]? = some ⟨orig, some j⟩ → orig.id = k → Unretried x j) :
    ∃ n, ((b.snap E name s).runs k).length + (M + 1 - t).toNat ≤
      ((b.snap E name (Sys.after E name b.B clk s ops n)).runs k).length :=
  max_repeat_inHand L (hs.inHand L) H hclk hj hq hty hc hmax hend ht hM hx hno

/-- C84, exactly: with a schedule that never ends and without retry policy, and as long as the job is not retried by hand,
there is a point from which on the job has run exactly `M + 1 - t` more times. -/
theorem C84_exactly (L : E.Lawful) (hs : Reach (O := O) b E name clk (Orderly k) s)
    (H : Sys.Serves b E name clk k s ops) (hclk : Elapses clk) {job : Job D} (hj : (b.snap E name s).job k = some job)
    (hq : job.context.jobStatus = .queued) {e : Str} {u : Time} {t M : Int} {c : CronContext} {f : Time → Option Time}
    (hty : job.context.jobType = .cron e u t c) (hc : E.cron e = some f) (hslot : ∀ t, (f t).isSome = true)
    (hmax : c.maxRepeat = some M) (hend : c.endAt = none) (ht : IsI32 t) (hM : IsI32 (M + 1))
    (hr : job.context.retry = none) (hhand : ∀ n, ops n ≠ .retry k)
    (hno : ∀ n i x orig j, ops n = .finish i x →
      (Sys.after E name b.B clk s ops n).tasks[i]? = some ⟨orig, some j⟩ → orig.id = k → Unretried x j) :
    ∃ n, ∀ m, n ≤ m → ((b.snap E name (Sys.after E name b.B clk s ops m)).runs k).length =
      ((b.snap E name s).runs k).length + (M + 1 - t).toNat := by
  obtain ⟨n, hn⟩ := C84_max_repeat L hs H hclk hj hq hty (by rw [hc]; rfl) hmax hend ht hM (.inr hr) hno
  refine ⟨n, fun m hm => Nat.le_antisymm ?_ ?_⟩
  · refine C21_max_repeat_partial L hs hj (by rw [hq]; decide) hty hr hmax ht hM hc hslot ?_
    clear hm
    induction m with
    | zero => exact .refl
    | succ m ih => exact .step (ops m) ih ⟨H.submit m, hhand m⟩
  · refine Nat.le_trans hn ?_
    induction hm with
    | refl => exact Nat.le_refl _
    | step _ ih => exact Nat.le_trans ih ((H.inHand L (hs.inHand L) _).runs L _)

/-- C83 for a whole queue: if callers and user code are careful, every execution comes to an end, ticks never cease and
there is capacity for one job, then every job that is left alone, is no cron job, was not cancelled, has a bounded number
of retries and uses the default `retry_at` reaches Finished or Failed. -/
theorem C83_fair (L : E.Lawful) (hs : Reach (O := O) b E name clk (Careful E) s) (H : Sys.Fair b E name clk s ops)
    (hclk : Elapses clk) (h1 : ∀ n, NoSubmit k (ops n)) (h2 : ∀ n, ops n ≠ .cancel k)
    {job : Job D} (hj : (b.snap E name s).job k = some job) (hty : NonCron job) (hst : job.context.jobStatus ≠ .canceled)
    (hr : ∀ r, job.context.retry = some r → IsI32 r.retriedTimes ∧ ∃ n, r.maxRetries = some n ∧ IsI32 n)
    (hx : (∀ n, DefaultRetry k (b.snap E name (Sys.after E name b.B clk s ops n)) (ops n)) ∨ job.context.retry = none) :
    ∃ n, (b.snap E name (Sys.after E name b.B clk s ops n)).Ended k :=
  C83_ends L ((hs.mono fun _ _ h => h.of k).orderly L) (H.serves L hs h1 h2) hclk hj hty hst hr hx

end

/-! ## Concrete endless histories -/

section
open Demo

/-- One turn before the others. -/
def first {D O : Type} (op : Op D O) (ops : Nat → Op D O) : Nat → Op D O
  | 0 => op
  | n + 1 => ops n

theorem after_first {D O : Type} {E : Env D} {name : Str} {B : Backend} {clk : Nat → Time} (s : Sys D B) (op : Op D O)
    (ops : Nat → Op D O) (n : Nat) : Sys.after E name B clk s (first op ops) (n + 1) =
      Sys.after E name B clk (Sys.step E name B clk s op).1 ops n := by
  induction n with
  | zero => rfl
  | succ n ih =>
    show (Sys.step E name B clk (Sys.after E name B clk s (first op ops) (n + 1)) (ops n)).1 = _
    rw [ih]; rfl

/-- Fairness does not depend on a first turn. -/
theorem Fair.first {D O : Type} {b : Impl} {E : Env D} {name : Str} {clk : Nat → Time} {s : Sys D b.B} {op : Op D O}
    {ops : Nat → Op D O} (H : Sys.Fair b E name clk (Sys.step E name b.B clk s op).1 ops)
    (h1 : Careful E (b.snap E name s) op)
    (h2 : op = .tick → 1 ≤ s.cfg.maxProcessingJobs ∧ ((b.snap E name s).lists .queued).length ≤ 20) :
    Sys.Fair b E name clk s (first op ops) where
  careful
    | 0 => h1
    | n + 1 => by rw [after_first]; exact H.careful n
  ends
    | 0, id, _ => by
      by_cases h : id ∈ (b.snap E name (Sys.step E name b.B clk s op).1).inFlight
      · obtain ⟨m, _, hm⟩ := H.ends 0 id h
        exact ⟨m + 1, Nat.zero_le _, by rw [after_first]; exact hm⟩
      · exact ⟨1, Nat.zero_le _, h⟩
    | n + 1, id, h => by
      rw [after_first] at h
      obtain ⟨m, hle, hm⟩ := H.ends n id h
      exact ⟨m + 1, by omega, by rw [after_first]; exact hm⟩
  ticks m := by
    obtain ⟨n, h3, h4, h5⟩ := H.ticks m
    exact ⟨n + 1, by omega, h4, by rw [after_first]; exact h5⟩
  capacity
    | 0, h => (h2 h).1
    | n + 1, h => by rw [after_first]; exact H.capacity n h
  short := by
    rcases H.short with h | h
    · refine .inl fun n hn => ?_
      cases n with
      | zero => exact (h2 hn).2
      | succ n => rw [after_first]; exact h n hn
    · refine .inr fun m => ?_
      obtain ⟨n, h3, h4, h5⟩ := h m
      exact ⟨n + 1, by omega, h4, by rw [after_first]; exact h5⟩

/-- A tick, the started job runs and ends; again and again. -/
def works (n : Nat) : Op Int Unit :=
  match n % 3 with
  | 0 => .tick
  | 1 => .start 0
  | _ => .finish 0 good

variable {b : Impl} {N : Nat}

/-- The execution there may be in round position `p`, with at most `N` jobs. -/
def WorkerOf (N : Nat) (b : Impl) (p : Nat) (s : Sys Int b.B) : Prop :=
  (b.Good s.w.s ∧ (b.snap E c!"print" s).Tidy) ∧ s.alive = true ∧ s.cfg.maxProcessingJobs = 1 ∧
  ((s.tasks = [] ∧ (b.snap E c!"print" s).lists .running = [] ∧ ((b.snap E c!"print" s).lists .queued).length ≤ N) ∨
    ∃ j : Job Int, p ≠ 0 ∧ s.tasks = [⟨j, if p = 1 then none else some j.counted⟩] ∧
      (b.snap E c!"print" s).job j.id = some j ∧ j.context.jobStatus = .running ∧
      (b.snap E c!"print" s).lists .running = [j.id] ∧ ((b.snap E c!"print" s).lists .queued).length + 1 ≤ N)

/-- At most 20 jobs. -/
abbrev Worker (b : Impl) (p : Nat) (s : Sys Int b.B) : Prop := WorkerOf 20 b p s

theorem fit_reach {s : Sys Int b.B} (h : Reach (O := Unit) b E c!"print" clk (Careful E) s) : b.Good s.w.s ∧ (b.snap E c!"print" s).Tidy :=
  ⟨h.good, tidy_reach lawful h⟩

theorem fit_step {s : Sys Int b.B} (h : b.Good s.w.s ∧ (b.snap E c!"print" s).Tidy) (op : Op Int Unit) :
    b.Good (Sys.step E c!"print" b.B clk s op).1.w.s ∧ (b.snap E c!"print" (Sys.step E c!"print" b.B clk s op).1).Tidy :=
  ⟨good_step h.1 op, tidy_step lawful h.1 h.2 op⟩

theorem stored_good {s : Sys Int b.B} (h : b.Good s.w.s) {id : Str} {j : Job Int} (hj : (b.snap E c!"print" s).job id = some j) : lawful.Stored j := by
  obtain ⟨u, hu⟩ := h
  rw [Impl.snap_eq (t := ⟨⟨u, s.w.t, s.w.log⟩, s.cfg, s.tasks, s.alive⟩) ⟨⟨hu, rfl, rfl⟩, rfl, rfl, rfl⟩] at hj
  exact Env.Lawful.stored_view (E := E) hj

theorem worker_tick {s : Sys Int b.B} (h : WorkerOf N b 0 s) :
    WorkerOf N b 1 (Sys.step E c!"print" b.B clk s (.tick : Op Int Unit)).1 := by
  obtain ⟨hr, ha, hm, ⟨ht, hrun, hq⟩ | ⟨_, h0, _⟩⟩ := h
  swap
  · exact absurd rfl h0
  rcases tick_facts_any (O := Unit) (clk := clk) b lawful _ hr.1 hr.2.keyed ha with ⟨st, h, h1⟩ | ⟨_, h, _⟩
  swap
  · cases h
  have hlen := h.ticked.queued.length_eq
  rw [List.length_append, List.length_map] at hlen
  have hfree : (b.snap E c!"print" s).free = 1 := by
    unfold Snap.free; rw [hrun]; show s.cfg.maxProcessingJobs - 0 = 1; rw [hm]
  have hcap := h.ticked.capacity
  rw [hfree] at hcap
  have htasks : (Sys.step E c!"print" b.B clk s (.tick : Op Int Unit)).1.tasks = s.tasks ++ st.map fun j => ⟨j, none⟩ := h.ticked.tasks
  have hrun' := h.ticked.running
  rw [hrun] at hrun'
  refine ⟨fit_step hr .tick, h1, (congrArg WorkQueueConfig.maxProcessingJobs h.ticked.cfg).trans hm, ?_⟩
  rcases st with _ | ⟨j, _ | ⟨j2, st⟩⟩
  · exact .inl ⟨by rw [htasks, ht]; rfl, hrun', by simp at hlen; omega⟩
  · obtain ⟨g1, i, job, _, _, _, _, g2⟩ := h.ticked.each j List.mem_cons_self
    refine .inr ⟨j, by decide, by rw [htasks, ht]; rfl, g1, by rw [g2], hrun', ?_⟩
    simp only [List.length_cons, List.length_nil] at hlen
    omega
  · simp at hcap

private theorem start_any (s : Sys Int b.B) (hg : b.Good s.w.s) (ha : s.alive = true) {i : Nat} {j : Job Int}
    (hi : s.tasks[i]? = some ⟨j, none⟩) (hc : j.isCancelled = false) :
    let v := b.snap E c!"print" s
    let v' := b.snap E c!"print" (Sys.step E c!"print" b.B clk s (.start i : Op Int Unit)).1
    v'.lists = v.lists ∧ v'.job = v.job ∧ v'.cfg = v.cfg ∧ v'.alive = true ∧ v'.tasks = v.tasks.set i ⟨j, some j.counted⟩ := by
  refine Impl.lift_any (b := b) (E := E) (name := c!"print") (clk := clk) (O := Unit)
    (Q := fun v op _ v' => op = .start i → v.alive = true → v.tasks[i]? = some ⟨j, none⟩ →
      v'.lists = v.lists ∧ v'.job = v.job ∧ v'.cfg = v.cfg ∧ v'.alive = true ∧ v'.tasks = v.tasks.set i ⟨j, some j.counted⟩)
    (fun t op => ?_) hg (.start i) rfl ha hi
  rintro rfl ha hi
  have hs := Sys.step_cases (E := E) (name := c!"print") (clk := clk) t ha (.start i : Op Int Unit)
  generalize Sys.step E c!"print" SpecB clk t (.start i : Op Int Unit) = p at hs
  cases hs with
  | started _ orig h1 h2 => cases h1.symm.trans hi; exact ⟨rfl, rfl, rfl, ha, rfl⟩
  | startCancelled _ orig h1 h2 => cases h1.symm.trans hi; rw [hc] at h2; cases h2
  | noStart _ h1 => exact absurd hi (h1 j)

theorem worker_start {s : Sys Int b.B} (h : WorkerOf N b 1 s) :
    WorkerOf N b 2 (Sys.step E c!"print" b.B clk s (.start 0 : Op Int Unit)).1 := by
  obtain ⟨hr, ha, hm, ⟨ht, hrun, hq⟩ | ⟨j, _, ht, hj, hst, hrun, hq⟩⟩ := h
  · have e : (Sys.step E c!"print" b.B clk s (.start 0 : Op Int Unit)).1 = s := by simp [Sys.step, ha, ht]
    rw [e]
    exact ⟨hr, ha, hm, .inl ⟨ht, hrun, hq⟩⟩
  · obtain ⟨g1, g2, g3, g4, g5⟩ := start_any s hr.1 ha (i := 0) (j := j) (by rw [ht]; rfl) (by simp [Job.isCancelled, hst])
    have g5 : (Sys.step E c!"print" b.B clk s (.start 0 : Op Int Unit)).1.tasks = s.tasks.set 0 ⟨j, some j.counted⟩ := g5
    refine ⟨fit_step hr (.start 0), g4, (congrArg WorkQueueConfig.maxProcessingJobs g3).trans hm,
      .inr ⟨j, by decide, by rw [g5, ht]; rfl, ?_, hst, ?_, ?_⟩⟩
    · rw [g2]; exact hj
    · rw [g1]; exact hrun
    · rw [g1]; exact hq

theorem good_careful {s : Sys Int b.B} (h : WorkerOf N b 2 s) :
    Careful E (b.snap E c!"print" s) (.finish 0 good : Op Int Unit) := by
  obtain ⟨hr, ha, hm, ⟨ht, hrun, hq⟩ | ⟨j, _, ht, hj, hst, hrun, hq⟩⟩ := h
  · intro orig job hi
    have hi : s.tasks[0]? = _ := hi
    rw [ht] at hi; cases hi
  · intro orig job hi
    have hi : s.tasks[0]? = _ := hi
    rw [ht] at hi; cases hi
    exact ⟨(stored_good hr.1 hj).counted.2, fun f r now hx => by cases hx⟩

theorem worker_finish {s : Sys Int b.B} (h : WorkerOf N b 2 s) :
    WorkerOf N b 0 (Sys.step E c!"print" b.B clk s (.finish 0 good : Op Int Unit)).1 := by
  have hcare := good_careful h
  obtain ⟨hr, ha, hm, ⟨ht, hrun, hq⟩ | ⟨j, _, ht, hj, hst, hrun, hq⟩⟩ := h
  · have e : (Sys.step E c!"print" b.B clk s (.finish 0 good : Op Int Unit)).1 = s := by simp [Sys.step, ha, ht]
    rw [e]
    exact ⟨hr, ha, hm, .inl ⟨ht, hrun, hq⟩⟩
  · have hi : s.tasks[0]? = some ⟨j, some j.counted⟩ := by rw [ht]; rfl
    rcases AJ.run_ends (E := E) (name := c!"print") (clk := clk) lawful s hr.1 ha (x := good) hi hst with
      ⟨_, h⟩ | ⟨_, j', h, _⟩ | ⟨h, _⟩
    · rcases h with ⟨r, _, hf, _⟩ | ⟨_, _, _, _, _, hf⟩
      · cases hf
      · unfold addI32 at hf
        split at hf
        · cases hf
        · cases hf
    · have g5 : (Sys.step E c!"print" b.B clk s (.finish 0 good : Op Int Unit)).1.tasks = s.tasks.eraseIdx 0 := h.tasks
      refine ⟨fit_step hr (.finish 0 good), h.alive, (congrArg WorkQueueConfig.maxProcessingJobs h.cfg).trans hm,
        .inl ⟨by rw [g5, ht]; rfl, ?_, ?_⟩⟩
      · rw [h.running, hrun]
        show [j.id].filter (· ≠ j.id) = []
        simp
      · by_cases e : j'.context.jobStatus = .queued
        · have := h.target
          rw [e] at this
          rw [this]
          exact hq
        · rw [h.lists .queued (by decide) (Ne.symm e)]
          omega
    · exact absurd ((hcare _ _ hi).leaves _) h

theorem worker_after {s : Sys Int b.B} (h : WorkerOf N b 0 s) (n : Nat) :
    WorkerOf N b (n % 3) (Sys.after E c!"print" b.B clk s works n) := by
  induction n with
  | zero => exact h
  | succ n ih =>
    show WorkerOf N b _ (Sys.step E c!"print" b.B clk (Sys.after E c!"print" b.B clk s works n) (works n)).1
    unfold works
    have : n % 3 = 0 ∨ n % 3 = 1 ∨ n % 3 = 2 := by omega
    rcases this with e | e | e
    · rw [e] at ih ⊢
      rw [show (n + 1) % 3 = 1 by omega]
      exact worker_tick ih
    · rw [e] at ih ⊢
      rw [show (n + 1) % 3 = 2 by omega]
      exact worker_start ih
    · rw [e] at ih ⊢
      rw [show (n + 1) % 3 = 0 by omega]
      exact worker_finish ih

theorem works_careful {s : Sys Int b.B} (h : WorkerOf N b 0 s) (n : Nat) :
    Careful E (b.snap E c!"print" (Sys.after E c!"print" b.B clk s works n)) (works n) := by
  have hw := worker_after h n
  have : n % 3 = 0 ∨ n % 3 = 1 ∨ n % 3 = 2 := by omega
  unfold works
  rcases this with e | e | e
  · rw [e]; trivial
  · rw [e]; trivial
  · rw [e] at hw ⊢; exact good_careful hw

theorem works_ends {s : Sys Int b.B} (h : WorkerOf N b 0 s) (n : Nat) (id : Str) :
    ∃ m, n ≤ m ∧ id ∉ (b.snap E c!"print" (Sys.after E c!"print" b.B clk s works m)).inFlight := by
  refine ⟨3 * n, by omega, fun hin => ?_⟩
  obtain ⟨_, _, _, ⟨ht, _⟩ | ⟨_, h0, _⟩⟩ := worker_after h (3 * n)
  · obtain ⟨t, h1, _⟩ := List.mem_map.mp hin
    have h1 : t ∈ (Sys.after E c!"print" b.B clk s works (3 * n)).tasks := h1
    rw [ht] at h1; cases h1
  · exact absurd (by omega) h0

theorem works_ticks {s : Sys Int b.B} (h : WorkerOf N b 0 s) (m : Nat) :
    ∃ n, m ≤ n ∧ works n = .tick ∧ (Sys.after E c!"print" b.B clk s works n).alive = true := by
  refine ⟨3 * m, by omega, ?_, (worker_after h (3 * m)).2.1⟩
  unfold works
  rw [show 3 * m % 3 = 0 by omega]
  rfl

/-- A worker that never stops is fair. -/
theorem works_fair {s : Sys Int b.B} (h : Worker b 0 s) : Sys.Fair b E c!"print" clk s works where
  careful := works_careful h
  ends n id _ := works_ends h n id
  ticks := works_ticks h
  capacity n _ := Nat.le_of_eq (worker_after h n).2.2.1.symm
  short := .inl fun n _ => by
    obtain ⟨_, _, _, ⟨_, _, hq⟩ | ⟨_, _, _, _, _, _, hq⟩⟩ := worker_after h n
    · exact hq
    · omega

theorem works_calm (k : Str) (n : Nat) : NoSubmit k (works n) ∧ works n ≠ .cancel k ∧ works n ≠ .retry k := by
  unfold works
  split <;> exact ⟨(fun _ _ h => nomatch h), (fun h => nomatch h), (fun h => nomatch h)⟩

theorem works_default (k : Str) (v : Snap Int) (n : Nat) : DefaultRetry k v (works n) := by
  intro i x orig job h
  unfold works at h
  split at h <;> cases h
  exact fun _ _ => rfl

theorem works_succeed {n i : Nat} {x : Executable Int Unit} (h : works n = .finish i x) (job : Job Int) : x.fails job = false := by
  unfold works at h
  split at h <;> cases h
  rfl

theorem clk_passes : Elapses clk := by
  intro (T : Int)
  refine ⟨T.toNat + 1, fun i hi => ?_⟩
  show (T : Int) < (i : Int) * nsPerSec
  have h1 : (T : Int) < (i : Int) := by omega
  have h2 : (i : Int) * 1 ≤ (i : Int) * nsPerSec := Int.mul_le_mul_of_nonneg_left (by decide) (by omega)
  omega

/-- A check that a turn is careful with all jobs. -/
def fine (v : Snap Int) : Op Int Unit → Bool
  | .enqueue j c => ok j.id v (.enqueue j c)
  | op => ok [] v op

theorem fine.careful {v : Snap Int} {op : Op Int Unit} (h : fine v op = true) : Careful E v op := by
  cases op with
  | enqueue j c => exact ok.careful (k := j.id) (op := .enqueue j c) h rfl
  | finish i x => exact fun orig job ht => ok.careful (k := orig.id) (op := .finish i x) h orig job ht rfl
  | _ => trivial

theorem fine.reach {ops : List (Op Int Unit)} (h : allTurns fine [] ops = true) :
    Reach (O := Unit) Impl.memory E c!"print" clk (Careful E) (after ops) :=
  (allTurns.later (ops := []) h fun _ _ h => fine.careful h).reach (b := Impl.memory) .start fun _ _ h => h

/-- A check of a turn before a fair history. -/
def roomy (v : Snap Int) (op : Op Int Unit) : Bool :=
  fine v op && match op with
    | .tick => 1 ≤ v.cfg.maxProcessingJobs && (v.lists .queued).length ≤ 20
    | _ => true

theorem fair_prefix (ops pre : List (Op Int Unit)) {rest : Nat → Op Int Unit} (h : allTurns roomy ops pre = true)
    (H : Sys.Fair Impl.memory E c!"print" clk (after (ops ++ pre)) rest) :
    Sys.Fair Impl.memory E c!"print" clk (after ops) (pre.foldr first rest) := by
  induction pre generalizing ops with
  | nil => rw [List.append_nil] at H; exact H
  | cons op pre ih =>
    have hall := List.all_eq_true.mp h
    have h0 := hall 0 (List.mem_range.mpr (by simp))
    simp only [List.getElem?_cons_zero, List.take_zero, List.append_nil, roomy, Bool.and_eq_true] at h0
    refine Fair.first (b := Impl.memory) ?_ (fine.careful h0.1) (fun e => ?_)
    · rw [after_snoc]
      refine ih (ops ++ [op]) ?_ (by rw [List.append_assoc]; exact H)
      refine List.all_eq_true.mpr fun i hi => ?_
      have := hall (i + 1) (List.mem_range.mpr (by have := List.mem_range.mp hi; simp; omega))
      simp only [List.getElem?_cons_succ, List.take_succ_cons] at this
      rw [List.append_assoc]
      exact this
    · subst e
      have := h0.2
      simp only [Bool.and_eq_true, decide_eq_true_eq] at this
      exact this

theorem first_all {P : Op Int Unit → Prop} {pre : List (Op Int Unit)} {rest : Nat → Op Int Unit} (h : ∀ op ∈ pre, P op)
    (hr : ∀ n, P (rest n)) (n : Nat) : P (pre.foldr first rest n) := by
  induction pre generalizing n with
  | nil => exact hr n
  | cons op pre ih =>
    cases n with
    | zero => exact h op List.mem_cons_self
    | succ n => exact ih (fun o ho => h o (List.mem_cons_of_mem _ ho)) n

/-- One job at a time; job `a` may be retried twice, after a second each time; `b` is a plain job. -/
def shop : List (Op Int Unit) :=
  [.config { maxProcessingJobs := 1 }, .enqueue (flaky (.newIntervalRetry (some 2) nsPerSec)) .newReRun,
    .enqueue (job c!"b") .newReRun]

/-- The first run of `a` fails. From then on all goes well. -/
def mishap : Nat → Op Int Unit := (round bad).foldr first works

theorem mishap_fair : Sys.Fair Impl.memory E c!"print" clk (after shop) mishap := by
  refine fair_prefix shop (round bad) (by decide +kernel) (works_fair ⟨fit_reach (fine.reach (by decide +kernel)), ?_, ?_, .inl ⟨?_, ?_, ?_⟩⟩)
  · decide +kernel
  · decide +kernel
  · decide +kernel
  · decide +kernel
  · decide +kernel

theorem mishap_calm (k : Str) (n : Nat) : NoSubmit k (mishap n) ∧ mishap n ≠ .cancel k ∧ mishap n ≠ .retry k := by
  refine first_all (P := fun op => NoSubmit k op ∧ op ≠ .cancel k ∧ op ≠ .retry k) (fun op h => ?_) (works_calm k) n
  simp only [round, List.mem_cons, List.not_mem_nil, or_false] at h
  rcases h with rfl | rfl | rfl <;> exact ⟨(fun _ _ h => nomatch h), (fun h => nomatch h), (fun h => nomatch h)⟩

theorem mishap_default (k : Str) (v : Snap Int) (n : Nat) : DefaultRetry k v (mishap n) := by
  refine first_all (P := fun op => DefaultRetry k v op) (fun op h => ?_) (works_default k v) n
  simp only [round, List.mem_cons, List.not_mem_nil, or_false] at h
  rcases h with rfl | rfl | rfl
  · intro i x orig job h; cases h
  · intro i x orig job h; cases h
  · intro i x orig job h _ _; cases h; rfl

def shopJob : Job Int := ((see shop).job c!"a").getD (job [])
theorem shop_reach : Reach (O := Unit) Impl.memory E c!"print" clk (Careful E) (after shop) := fine.reach (by decide +kernel)
theorem shop_job : (see shop).job c!"a" = some shopJob := by decide +kernel
theorem shop_type : NonCron shopJob := by
  have : shopJob.context.jobType = .normal := by decide +kernel
  intro e n m c h
  rw [this] at h; cases h
theorem shop_retry : shopJob.context.retry = some (.newIntervalRetry (some 2) nsPerSec) := by decide +kernel

/-- C83: `a` ends, although its first run fails. -/
example : ∃ n, (Impl.memory.snap E c!"print" (Sys.after E c!"print" InMem clk (after shop) mishap n)).Ended c!"a" :=
  C83_fair (b := Impl.memory) lawful shop_reach mishap_fair clk_passes (fun n => (mishap_calm _ n).1)
    (fun n => (mishap_calm _ n).2.1) shop_job shop_type (by decide +kernel)
    (fun r h => by rw [shop_retry] at h; cases h; exact ⟨by constructor <;> decide, 2, rfl, by constructor <;> decide⟩)
    (.inl fun n => mishap_default _ _ n)

theorem shop_serves : Sys.Serves Impl.memory E c!"print" clk c!"a" (after shop) mishap :=
  mishap_fair.serves lawful shop_reach (fun n => (mishap_calm _ n).1) (fun n => (mishap_calm _ n).2.1)
theorem shop_orderly : Reach (O := Unit) Impl.memory E c!"print" clk (Orderly c!"a") (after shop) :=
  (shop_reach.mono fun _ _ h => h.of _).orderly lawful

example := C83_ends (b := Impl.memory) lawful shop_orderly shop_serves clk_passes shop_job shop_type (by decide +kernel)
    (fun r h => by rw [shop_retry] at h; cases h; exact ⟨by constructor <;> decide, 2, rfl, by constructor <;> decide⟩)
    (.inl fun n => mishap_default _ _ n)

/-- The runs that end from turn 3 on do not fail. -/
example : ∃ n, (Impl.memory.snap E c!"print" (Sys.after E c!"print" InMem clk (after shop) mishap n)).Ended c!"a" :=
  C83_recovers (b := Impl.memory) lawful shop_orderly shop_serves clk_passes shop_job shop_type (by decide +kernel)
    (.inl fun n => mishap_default _ _ n) 3 (fun n hn i x orig j h _ _ => by
      obtain ⟨m, rfl⟩ : ∃ m, n = m + 3 := ⟨n - 3, by omega⟩
      exact works_succeed (n := m) h j)

/-- An every-second job, one job at a time. -/
def seconds (c : CronContext) : List (Op Int Unit) :=
  [.config { maxProcessingJobs := 1 }, .enqueue (cronJob c!"* * * * * *" 3 c) .newReRun]
def secondsJob (c : CronContext) : Job Int := ((see (seconds c)).job c!"a").getD (job [])

section
variable {c : CronContext} (h1 : allTurns fine [] (seconds c) = true) (h2 : (see (seconds c)).alive = true)
  (h3 : (see (seconds c)).cfg.maxProcessingJobs = 1) (h4 : (see (seconds c)).tasks = [])
  (h5 : (see (seconds c)).lists .running = []) (h6 : ((see (seconds c)).lists .queued).length ≤ 20)

include h1 h2 h3 h4 h5 h6 in
theorem seconds_serves : Sys.Serves Impl.memory E c!"print" clk c!"a" (after (seconds c)) works :=
  (works_fair (b := Impl.memory) ⟨fit_reach (fine.reach h1), h2, h3, .inl ⟨h4, h5, h6⟩⟩).serves lawful (fine.reach h1)
    (fun n => (works_calm _ n).1) (fun n => (works_calm _ n).2.1)

include h1 in
theorem seconds_orderly : Reach (O := Unit) Impl.memory E c!"print" clk (Orderly c!"a") (after (seconds c)) :=
  ((fine.reach h1).mono fun _ _ h => h.of _).orderly lawful
end

theorem free_serves : Sys.Serves Impl.memory E c!"print" clk c!"a" (after (seconds {})) works :=
  seconds_serves (by decide +kernel) (by decide +kernel) (by decide +kernel) (by decide +kernel) (by decide +kernel) (by decide +kernel)
theorem free_orderly : Reach (O := Unit) Impl.memory E c!"print" clk (Orderly c!"a") (after (seconds {})) :=
  seconds_orderly (by decide +kernel)
theorem free_job : (see (seconds {})).job c!"a" = some (secondsJob {}) := by decide +kernel

/-- C84: a job without limits runs a thousand times. -/
example : ∃ n, 1000 ≤ ((Impl.memory.snap E c!"print"
    (Sys.after E c!"print" InMem clk (after (seconds {})) works n)).runs c!"a").length :=
  C84_forever (b := Impl.memory) (e := c!"* * * * * *") (u := 3 * nsPerSec) (t := 1) (c := {}) lawful free_orderly free_serves
    clk_passes free_job (by decide +kernel) (by decide +kernel) rfl rfl rfl (.inr (by decide +kernel))
    (fun n i x orig j h _ _ => .inl (works_succeed h j)) 1000

theorem two_serves : Sys.Serves Impl.memory E c!"print" clk c!"a" (after (seconds { maxRepeat := some 2 })) works :=
  seconds_serves (by decide +kernel) (by decide +kernel) (by decide +kernel) (by decide +kernel) (by decide +kernel) (by decide +kernel)
theorem two_orderly : Reach (O := Unit) Impl.memory E c!"print" clk (Orderly c!"a") (after (seconds { maxRepeat := some 2 })) :=
  seconds_orderly (by decide +kernel)
theorem two_job : (see (seconds { maxRepeat := some 2 })).job c!"a" = some (secondsJob { maxRepeat := some 2 }) := by decide +kernel

/-- One with `max_repeat = 2` runs twice. -/
example := C84_max_repeat (b := Impl.memory) (e := c!"* * * * * *") (u := 3 * nsPerSec) (t := 1) (M := 2)
  (c := { maxRepeat := some 2 }) lawful two_orderly two_serves clk_passes two_job (by decide +kernel) (by decide +kernel) rfl rfl rfl
  (by constructor <;> decide) (by constructor <;> decide) (.inr (by decide +kernel))
  (fun n i x orig j h _ _ => .inl (works_succeed h j))

example : ∃ n, ∀ m, n ≤ m → ((Impl.memory.snap E c!"print"
    (Sys.after E c!"print" InMem clk (after (seconds { maxRepeat := some 2 })) works m)).runs c!"a").length = 2 := by
  have h0 : ((see (seconds { maxRepeat := some 2 })).runs c!"a").length = 0 := by decide +kernel
  obtain ⟨n, h⟩ := C84_exactly (b := Impl.memory) (e := c!"* * * * * *") (u := 3 * nsPerSec) (t := 1) (M := 2)
    (c := { maxRepeat := some 2 }) (f := fun t => some ((t / nsPerSec + 1) * nsPerSec)) lawful two_orderly two_serves clk_passes
    two_job (by decide +kernel) (by decide +kernel) rfl (fun _ => rfl) rfl rfl
    (by constructor <;> decide) (by constructor <;> decide) (by decide +kernel) (fun n => (works_calm _ n).2.2)
    (fun n i x orig j h _ _ => .inl (works_succeed h j))
  refine ⟨n, fun m hm => (h m hm).trans ?_⟩
  rw [see_after, h0]
  rfl

/-- C83 needs the bound on the number of waiting jobs, on every backend: with 41 of them (the history of `C31_refuted`)
ticks with free capacity never cease, and the plain job `x`, which nobody submits or cancels,
never ends. -/
theorem C83_long_queue (b : Impl) :
    let s := (Sys.runOps E c!"print" b.B clk (Sys.init b.B b.empty) crowd).1
    let v := fun n => b.snap E c!"print" (Sys.after E c!"print" b.B clk s rounds n)
    (∀ m, ∃ n, m ≤ n ∧ rounds n = .tick ∧ (v n).alive = true ∧ 1 ≤ (v n).free) ∧
    (∀ n, NoSubmit c!"x" (rounds n) ∧ rounds n ≠ .cancel c!"x") ∧
    (v 0).status c!"x" = some .queued ∧ ∀ n, ¬ (v n).Ended c!"x" := by
  intro s v
  obtain ⟨h1, h2, h3⟩ := C31_refuted b
  have hst : ∀ n, (v n).status c!"x" = some .queued := by
    intro n
    obtain ⟨⟨j, hj, _, hq⟩, _⟩ := h3 n
    exact (status_of hj).trans (by rw [hq])
  refine ⟨fun m => ?_, fun n => ?_, hst 0, fun n => ?_⟩
  · obtain ⟨n, h4, h5⟩ := h1 m
    exact ⟨n, h4, h5, h2 n h5⟩
  · unfold rounds
    split
    · exact ⟨(fun _ _ h => nomatch h), (fun h => nomatch h)⟩
    · exact ⟨(fun _ _ h => nomatch h), (fun h => nomatch h)⟩
    · exact ⟨(fun _ _ h => nomatch h), (fun h => nomatch h)⟩
    · refine ⟨fun j c h => ?_, (fun h => nomatch h)⟩
      cases h
      show List.replicate _ 'b' ≠ c!"x"
      intro e
      have := congrArg List.head? e
      rw [show 40 + n / 4 = (39 + n / 4) + 1 by omega, List.replicate_succ] at this
      simp at this
  · unfold Snap.Ended
    rw [hst n]
    rintro (h | h) <;> cases h

end
end AJ.Props
