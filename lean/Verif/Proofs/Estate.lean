import Verif.Proofs.DrainWeave

/-! # A work queue that takes over what others have left comes to rest -/

namespace AJ
open W Props

/-- Jobs are in order, but for those of `A`, which wait nowhere and are not executing; `l` has their entries in the running list. -/
structure Estate {D : Type} (A : Str → Prop) (l : List Str) (v : Snap D) : Prop where
  tidy : v.Tidy
  solo : ∀ k, ¬ A k → Solo k v
  apart : ∀ k, A k → k ∉ v.lists .queued ∧ v.own k = []
  kept : ∀ k, A k → (v.lists .running).count k = l.count k
  rest : ∀ k, ¬ A k → l.count k = 0

section
variable {D O : Type} {E : Env D} {name : Str} {clk : Nat → Time} {b : Impl} {k : Str} {s : Sys D b.B} {ops : Nat → Op D O} {A : Str → Prop} {l : List Str}

theorem solo_any (L : E.Lawful) (hg : b.Good s.w.s) (hT : (b.snap E name s).Tidy) (h : Solo k (b.snap E name s)) (op : Op D O)
    (hc : CarefulFor E k (b.snap E name s) op) :
    Solo k (b.snap E name (Sys.step E name b.B clk s op).1) ∧ Life E L name clk k (b.snap E name s) (b.snap E name (Sys.step E name b.B clk s op).1) op :=
  Impl.lift_any (Q := fun v op _ v' => v.Tidy → Solo k v → CarefulFor E k v op → Solo k v' ∧ Life E L name clk k v v' op)
    (fun _ op hT h hc => h.step L (tidy_iff.mp hT) op hc.at) hg op hT h hc

/-- What a turn does that is no request about a job of `A`. -/
theorem Estate.step (L : E.Lawful) (hg : b.Good s.w.s) (h : Estate A l (b.snap E name s)) (op : Op D O) (hc : Careful E (b.snap E name s) op)
    (hn : ∀ k, A k → NotAbout k op) :
    Estate A l (b.snap E name (Sys.step E name b.B clk s op).1) ∧
    (∀ k, ¬ A k → Life E L name clk k (b.snap E name s) (b.snap E name (Sys.step E name b.B clk s op).1) op) ∧
    ∀ k, A k → Aside k (b.snap E name s) (b.snap E name (Sys.step E name b.B clk s op).1) := by
  have h1 := fun k (hk : ¬ A k) => solo_any (clk := clk) L hg h.tidy (h.solo k hk) op (hc.of k)
  have h2 := fun k (hk : A k) => aside_any (clk := clk) L hg h.tidy (h.apart k hk).1 (h.apart k hk).2 op (hn k hk)
  refine ⟨⟨tidy_step L hg h.tidy op, fun k hk => (h1 k hk).1, fun k hk => ⟨?_, (h2 k hk).own⟩, fun k hk => ((h2 k hk).counts _).trans (h.kept k hk), h.rest⟩,
    fun k hk => (h1 k hk).2, h2⟩
  have := (h2 k hk).counts .queued
  rw [List.count_eq_zero.2 (h.apart k hk).1] at this
  exact List.count_eq_zero.1 this

/-- A history in which nobody submits or retries a job any more, in such a state. -/
structure Sys.Heirs (b : Impl) (E : Env D) (name : Str) (clk : Nat → Time) (A : Str → Prop) (l : List Str) (s : Sys D b.B) (ops : Nat → Op D O) : Prop where
  good : b.Good s.w.s
  estate : Estate A l (b.snap E name s)
  submit : ∀ n j c, ops n ≠ .enqueue j c
  retry : ∀ n id, ops n ≠ .retry id
  about : ∀ n k, A k → NotAbout k (ops n)
  careful : ∀ n, Careful E (b.snap E name (Sys.after E name b.B clk s ops n)) (ops n)
  room : Sys.Roomy b E name clk l.length s ops
  small : ((b.snap E name s).lists .queued).length + (b.snap E name s).inFlight.length + l.length < 2 ^ 31

local notation "σ" n:max => b.snap E name (Sys.after E name b.B clk s ops n)

variable (L : E.Lawful)

include L in
/-- The same holds all the time. -/
theorem estate_after (hg : b.Good s.w.s) (h : Estate A l (b.snap E name s)) (hc : ∀ n, Careful E (σ n) (ops n)) (hn : ∀ n k, A k → NotAbout k (ops n)) (n : Nat) :
    b.Good (Sys.after E name b.B clk s ops n).w.s ∧ Estate A l (σ n) := by
  induction n with
  | zero => exact ⟨hg, h⟩
  | succ n ih => exact ⟨good_step ih.1 (ops n), (ih.2.step (clk := clk) L ih.1 (ops n) (hc n) (hn n)).1⟩

include L in
theorem estate_kept (hg : b.Good s.w.s) (h : Estate A l (b.snap E name s)) (hc : ∀ n, Careful E (σ n) (ops n)) (hn : ∀ n k, A k → NotAbout k (ops n)) (n : Nat)
    (hk : A k) : (σ n).job k = (b.snap E name s).job k := by
  induction n with
  | zero => rfl
  | succ n ih =>
    obtain ⟨h1, h2⟩ := estate_after (clk := clk) L hg h hc hn n
    exact ((h2.step (clk := clk) L h1 (ops n) (hc n) (hn n)).2.2 k hk).job.trans ih

variable (H : Sys.Heirs b E name clk A l s ops)

include L H in
theorem Sys.Heirs.here (n : Nat) : b.Good (Sys.after E name b.B clk s ops n).w.s ∧ Estate A l (σ n) := estate_after L H.good H.estate H.careful H.about n

include H in
theorem Sys.Heirs.alive (n : Nat) : (Sys.after E name b.B clk s ops n).alive = true := by
  by_contra h
  obtain ⟨m, h1, _, h2⟩ := H.room.ticks n
  rw [after_dead h1 (by simpa using h)] at h2
  cases h2

include L H in
theorem Sys.Heirs.inHand (hk : ¬ A k) (n : Nat) : InHand b E name k (Sys.after E name b.B clk s ops n) := by
  obtain ⟨h1, h2⟩ := H.here L n
  obtain ⟨t, hr⟩ := Impl.rs_of_good h1
  have e := Impl.snap_eq (E := E) (name := name) hr
  exact ⟨t, hr, tidy_iff.1 (by have := h2.tidy; rw [e] at this; exact this), .inl (by have := h2.solo k hk; rw [e] at this; exact this)⟩

include L H in
theorem Sys.Heirs.solo (hk : ¬ A k) (n : Nat) : Solo k (σ n) := (H.here L n).2.solo k hk

include L H in
theorem Sys.Heirs.phase (hk : ¬ A k) {p c z : Prop} (hc : c → ∀ n, ops n ≠ .cancel k) (hx : (∀ n, Mild k (σ n) (ops n)) ∨ z) {n d : Nat}
    (h : Ahead k p c z (σ n) d) :
    ∃ d', Ahead k p c z (σ (n + 1)) d' ∧ (d' < d ∨ d' = d ∧ (σ (n + 1)).own k = (σ n).own k ∧ (σ (n + 1)).job k = (σ n).job k) :=
  h.step L (((H.here L n).2.step (clk := clk) L (H.here L n).1 (ops n) (H.careful n) (H.about n)).2.1 k hk) (fun _ hj => (H.inHand L hk n).stored L hj)
    (fun j hj => (H.inHand L hk n).keyed k j hj) (H.submit n) (H.retry n) (H.alive (n + 1)) (fun hcc => hc hcc n)
    (hx.imp (fun h => h n) id)

include L H in
/-- From some point on nothing happens to the job any more. -/
theorem Sys.Heirs.settles (hk : ¬ A k) {p c z : Prop} (hc : c → ∀ n, ops n ≠ .cancel k) (hx : (∀ n, Mild k (σ n) (ops n)) ∨ z) :
    ∀ (d n : Nat), Ahead k p c z (σ n) d → ∃ N d', n ≤ N ∧ ∀ m, N ≤ m → Ahead k p c z (σ m) d' ∧ (σ m).own k = (σ N).own k ∧ (σ m).job k = (σ N).job k := by
  intro d
  induction d using Nat.strongRecOn with
  | _ d ih =>
    intro n h
    by_cases hl : ∃ m d', n ≤ m ∧ d' < d ∧ Ahead k p c z (σ m) d'
    · obtain ⟨m, d', h1, h2, h3⟩ := hl
      obtain ⟨N, d'', h4, h5⟩ := ih d' h2 m h3
      exact ⟨N, d'', Nat.le_trans h1 h4, h5⟩
    · refine ⟨n, d, Nat.le_refl _, fun m hm => ?_⟩
      induction hm with
      | refl => exact ⟨h, rfl, rfl⟩
      | @step m hm ih' =>
        obtain ⟨h1, h2, h3⟩ := ih'
        obtain ⟨d', h4, h5 | ⟨rfl, h6, h7⟩⟩ := H.phase L hk hc hx h1
        · exact absurd ⟨m + 1, d', Nat.le_succ_of_le hm, h5, h4⟩ hl
        · exact ⟨h4, h6.trans h2, h7.trans h3⟩

include L H in
theorem Sys.Heirs.stays (hk : ¬ A k) {p c z : Prop} (hc : c → ∀ n, ops n ≠ .cancel k) (hx : (∀ n, Mild k (σ n) (ops n)) ∨ z) {n : Nat}
    (h : Ahead k p c z (σ n) 0) {m : Nat} (hm : n ≤ m) : Ahead k p c z (σ m) 0 := by
  induction hm with
  | refl => exact h
  | step _ ih =>
    obtain ⟨d', h1, h2 | ⟨rfl, -⟩⟩ := H.phase L hk hc hx ih
    · omega
    · exact h1

/-- Jobs in order that wait or are executing are no cron jobs and have a bounded number of retries. -/
def BoundsOff (b : Impl) (E : Env D) (name : Str) (clk : Nat → Time) (A : Str → Prop) (s : Sys D b.B) (ops : Nat → Op D O) : Prop :=
  ∀ k job, ¬ A k → (b.snap E name s).job k = some job → job.context.jobStatus = .queued ∨ job.context.jobStatus = .running →
    NonCron job ∧ (∀ r, job.context.retry = some r → IsI32 r.retriedTimes ∧ ∃ n, r.maxRetries = some n ∧ IsI32 n) ∧
    ((∀ n, Mild k (b.snap E name (Sys.after E name b.B clk s ops n)) (ops n)) ∨ job.context.retry = none)

include L H in
theorem Sys.Heirs.begins (hB : BoundsOff b E name clk A s ops) (k : Str) : ¬ A k → ∃ (z : Prop) (d : Nat), ((∀ n, Mild k (σ n) (ops n)) ∨ z) ∧
    Ahead k ((σ 0).status k ≠ none) ((∀ n, ops n ≠ .cancel k) ∧ (σ 0).status k ≠ some .canceled) z (σ 0) d ∧
    ((σ 0).status k ≠ some .queued → (σ 0).status k ≠ some .running → d = 0) := by
  intro hA
  have hso := H.solo L hA 0
  by_cases hq : (σ 0).status k = some .queued
  · obtain ⟨j, hj, hst⟩ := status_some hq
    obtain ⟨h1, h2, h3⟩ := hB k j hA hj (.inl hst)
    obtain ⟨r, hr⟩ := left_of (z := j.context.retry = none) h1 h2 id
    exact ⟨_, _, h3, .waits j r hj hst (hso.idle (by rw [hq]; decide)) hr, fun h => absurd hq h⟩
  by_cases hr : (σ 0).status k = some .running
  · obtain ⟨j, hj, hst⟩ := status_some hr
    obtain ⟨h1, h2, h3⟩ := hB k j hA hj (.inr hst)
    obtain ⟨r, hl⟩ := left_of (z := j.context.retry = none) h1 h2 id
    rcases hso.busy (H.alive 0) j hj hst with ho | ho
    · exact ⟨_, _, h3, .picked j r hj hst ho hl, fun _ h => absurd hr h⟩
    · exact ⟨_, _, h3, .runs j r hj hst ho hl, fun _ h => absurd hr h⟩
  · exact ⟨True, 0, .inr trivial, .over (hso.idle hr) ⟨hq, hr⟩ id fun h => h.2, fun _ _ => rfl⟩

include L H in
/-- The work queue comes to rest, but for what others have lost. -/
theorem Sys.Heirs.rests (hclk : Elapses clk) (hB : BoundsOff b E name clk A s ops) :
    ∃ N, ∀ n, N ≤ n → (σ n).lists .queued = [] ∧ ((σ n).lists .running).Perm l ∧ (σ n).tasks = [] ∧
      ∀ k, ¬ A k → ((σ n).status k ≠ some .queued ∧ (σ n).status k ≠ some .running) ∧ ((σ 0).status k ≠ none → (σ n).status k ≠ none) ∧
        ((∀ n, ops n ≠ .cancel k) ∧ (σ 0).status k ≠ some .canceled → (σ n).status k ≠ some .canceled) := by
  classical
  choose z d hx hph h0 using fun k => H.begins L hB k
  -- each job comes to rest
  have hone : ∀ k (hA : ¬ A k), ∃ N d', ∀ m, N ≤ m → Ahead k ((σ 0).status k ≠ none) ((∀ n, ops n ≠ .cancel k) ∧ (σ 0).status k ≠ some .canceled) (z k hA) (σ m) d' ∧
      (σ m).own k = [] ∧ (σ m).job k = (σ N).job k := by
    intro k hA
    obtain ⟨N, d', -, h⟩ := H.settles L (k := k) hA (fun h => h.1) (hx k hA) (d k hA) 0 (hph k hA)
    refine ⟨N, d', fun m hm => ⟨(h m hm).1, ?_, (h m hm).2.2⟩⟩
    by_contra hne
    have hin : ∀ m, N ≤ m → k ∈ (σ m).inFlight := by
      intro m' hm'
      by_contra hno
      exact hne ((h m hm).2.1.trans ((h m' hm').2.1.symm.trans (own_of_not_inFlight hno)))
    obtain ⟨m', h1, h2⟩ := H.room.ends N k (hin N (Nat.le_refl _))
    exact h2 (hin m' h1)
  have hout : ∀ k (hA : ¬ A k), k ∉ (σ 0).lists .queued ++ (σ 0).inFlight → ∀ m,
      Ahead k ((σ 0).status k ≠ none) ((∀ n, ops n ≠ .cancel k) ∧ (σ 0).status k ≠ some .canceled) (z k hA) (σ m) 0 := by
    intro k hA hk m
    have hso := H.solo L hA 0
    have hq : (σ 0).status k ≠ some .queued := fun e => by
      have := hso.queued
      rw [if_pos e] at this
      exact hk (List.mem_append_left _ (List.count_pos_iff.1 (by omega)))
    have hr : (σ 0).status k ≠ some .running := fun e => by
      obtain ⟨j, hj, hst⟩ := status_some e
      have hno := own_of_not_inFlight (fun h => hk (List.mem_append_right _ h))
      rcases hso.busy (H.alive 0) j hj hst with ho | ho <;> rw [hno] at ho <;> cases ho
    have h := hph k hA
    rw [h0 k hA hq hr] at h
    exact H.stays L hA (fun h => h.1) (hx k hA) h (Nat.zero_le m)
  have hall : ∀ l : List Str, ∃ N, ∀ k ∈ l, ∀ hA : ¬ A k, ∃ d', ∀ m, N ≤ m → Ahead k ((σ 0).status k ≠ none)
      ((∀ n, ops n ≠ .cancel k) ∧ (σ 0).status k ≠ some .canceled) (z k hA) (σ m) d' ∧ (σ m).own k = [] ∧ (σ m).job k = (σ N).job k := by
    intro l
    induction l with
    | nil => exact ⟨0, by simp⟩
    | cons x l ih =>
      obtain ⟨N, h1⟩ := ih
      by_cases hx : A x
      · refine ⟨N, fun k hk hA => ?_⟩
        rcases List.mem_cons.1 hk with rfl | hk
        · exact absurd hx hA
        · exact h1 k hk hA
      obtain ⟨N', d', h2⟩ := hone x hx
      refine ⟨max N N', fun k hk hA => ?_⟩
      rcases List.mem_cons.1 hk with rfl | hk
      · exact ⟨d', fun m hm => ⟨(h2 m (by omega)).1, (h2 m (by omega)).2.1, (h2 m (by omega)).2.2.trans (h2 (max N N') (by omega)).2.2.symm⟩⟩
      · obtain ⟨d', h3⟩ := h1 k hk hA
        exact ⟨d', fun m hm => ⟨(h3 m (by omega)).1, (h3 m (by omega)).2.1, (h3 m (by omega)).2.2.trans (h3 (max N N') (by omega)).2.2.symm⟩⟩
  obtain ⟨N, hN⟩ := hall ((σ 0).lists .queued ++ (σ 0).inFlight)
  have hown : ∀ k m, N ≤ m → (σ m).own k = [] := by
    intro k m hm
    by_cases hA : A k
    · exact ((H.here L m).2.apart k hA).2
    by_cases hk : k ∈ (σ 0).lists .queued ++ (σ 0).inFlight
    · obtain ⟨d', h⟩ := hN k hk hA
      exact (h m hm).2.1
    · exact (hout k hA hk m).over_inv.1
  have hnr : ∀ k m, ¬ A k → N ≤ m → (σ m).status k ≠ some .running := by
    intro k m hA hm e
    obtain ⟨j, hj, hst⟩ := status_some e
    rcases (H.solo L hA m).busy (H.alive m) j hj hst with ho | ho <;> rw [hown k m hm] at ho <;> cases ho
  have hrun : ∀ m, N ≤ m → ((σ m).lists .running).Perm l := by
    intro m hm
    refine List.perm_iff_count.2 fun id => ?_
    by_cases hA : A id
    · exact (H.here L m).2.kept id hA
    · have := (H.solo L hA m).running
      rw [if_neg (hnr id m hA hm)] at this
      rw [this, (H.here L m).2.rest id hA]
  have htask : ∀ m, N ≤ m → (σ m).tasks = [] := by
    intro m hm
    refine List.eq_nil_iff_forall_not_mem.2 fun t ht => ?_
    have : t ∈ (σ m).own t.orig.id := List.mem_filter.2 ⟨ht, by simp⟩
    rw [hown _ m hm] at this
    cases this
  have hsub : ∀ m, ((σ m).lists .queued) ⊆ (σ 0).lists .queued ++ (σ 0).inFlight := by
    intro m id hid
    by_contra hk
    by_cases hA : A id
    · exact ((H.here L m).2.apart id hA).1 hid
    have h1 := (hout id hA hk m).over_inv.2.1.1
    have := (H.solo L hA m).queued
    rw [if_neg h1] at this
    exact List.count_eq_zero.1 this hid
  have hnd : ∀ m, ((σ m).lists .queued).Nodup := by
    intro m
    refine List.nodup_iff_count.2 fun id => ?_
    by_cases hA : A id
    · rw [List.count_eq_zero.2 ((H.here L m).2.apart id hA).1]
      exact Nat.zero_le _
    rw [(H.solo L hA m).queued]
    split <;> omega
  have hslack : ∀ m, ∃ i, m ≤ i ∧ ops i = .tick ∧ (σ (i + 1)).Slack := by
    intro m
    obtain ⟨i, h1, h2, h3⟩ := H.room.ticks (max m N)
    refine ⟨i, by omega, h2, H.alive (i + 1), ?_, ?_⟩
    · have hcap := H.room.capacity i h2
      have e : Sys.after E name b.B clk s ops (i + 1) = (Sys.step E name b.B clk (Sys.after E name b.B clk s ops i) (.tick : Op D O)).1 := by
        rw [← h2]; rfl
      have hcfg : (σ (i + 1)).cfg = (σ i).cfg := by
        rcases tick_facts_any (O := O) (clk := clk) b L _ (H.here L i).1 (H.here L i).2.tidy.keyed h3 with ⟨st, g, _⟩ | ⟨g, _⟩
        · rw [e]; exact g.ticked.cfg
        · have := H.alive (i + 1)
          have h4 := congrArg Snap.alive g
          rw [← e] at h4
          rw [show (σ (i + 1)).alive = true from this] at h4
          cases h4
      unfold Snap.free
      rw [(hrun (i + 1) (by omega)).length_eq, hcfg]
      have hcap : l.length < (σ i).cfg.maxProcessingJobs := hcap
      omega
    · rw [(hrun (i + 1) (by omega)).length_eq]
      have := ((hnd (i + 1)).subperm (hsub (i + 1))).length_le
      rw [List.length_append] at this
      have hsm := H.small
      have e0 : σ 0 = b.snap E name s := rfl
      rw [e0] at this
      omega
  have hover : ∀ k m (hA : ¬ A k), N ≤ m →
      Ahead k ((σ 0).status k ≠ none) ((∀ n, ops n ≠ .cancel k) ∧ (σ 0).status k ≠ some .canceled) (z k hA) (σ m) 0 := by
    intro k m hA hm
    by_cases hk : k ∈ (σ 0).lists .queued ++ (σ 0).inFlight
    swap
    · exact hout k hA hk m
    obtain ⟨d', h⟩ := hN k hk hA
    have h1 := (h m hm).1
    cases h1 with
    | over a1 a2 a3 a4 => exact .over a1 a2 a3 a4
    | picked j r hj hq ho => rw [(h m hm).2.1] at ho; cases ho
    | runs j r hj hq ho => rw [(h m hm).2.1] at ho; cases ho
    | waits j r hj hq ho hl =>
      exfalso
      refine slack_starts (k := k) (n := m) (j := j) L (fun i _ => H.inHand L hA i) (fun i hi => ⟨?_, hown k i (by omega)⟩) hq hslack (elapses_due hclk hl.1)
      rw [(h i (by omega)).2.2, ← (h m hm).2.2]
      exact hj
  refine ⟨N, fun n hn => ⟨?_, hrun n hn, htask n hn, fun k hA => ?_⟩⟩
  · refine List.eq_nil_iff_forall_not_mem.2 fun id hid => ?_
    by_cases hA : A id
    · exact ((H.here L n).2.apart id hA).1 hid
    have := (H.solo L hA n).queued
    rw [if_neg (hover id n hA hn).over_inv.2.1.1] at this
    exact List.count_eq_zero.1 this hid
  · obtain ⟨-, h1, h2, h3⟩ := (hover k n hA hn).over_inv
    exact ⟨h1, h2, h3⟩

/-! ## With submissions for some time -/

/-- Jobs that wait or are executing stay tame, unless a job that has ended is retried. -/
theorem Life.tame_busy {v v' : Snap D} {op : Op D O} (hl : Life E L name clk k v v' op) (hst : ∀ j, v.job k = some j → L.Stored j)
    (hd : op.Decent E v) (hr : op ≠ .retry k) (h : ∀ j, v.job k = some j → j.context.jobStatus = .queued ∨ j.context.jobStatus = .running → j.Tame) :
    ∀ j, v'.job k = some j → j.context.jobStatus = .queued ∨ j.context.jobStatus = .running → j.Tame := by
  by_cases ht : ∀ j, v.job k = some j → j.Tame
  · exact fun j hj _ => hl.tame L hst hd ht j hj
  obtain ⟨j0, h0⟩ := not_forall.1 ht
  obtain ⟨h1, h2⟩ := Classical.not_imp.1 h0
  have hq : ¬ (j0.context.jobStatus = .queued ∨ j0.context.jobStatus = .running) := fun hs => h2 (h j0 h1 hs)
  have no : ∀ j, v.job k = some j → ¬ (j.context.jobStatus = .queued ∨ j.context.jobStatus = .running) := fun j hj => by
    cases h1.symm.trans hj
    exact hq
  intro j' hj' hs'
  cases hl with
  | same op g1 => rw [g1] at hj'; exact h j' hj' hs'
  | died op g1 => rw [g1] at hj'; exact h j' hj' hs'
  | submit j c _ _ _ hj =>
    rw [hj] at hj'; cases hj'
    exact Tame.norm (j := j.asQueued _) (Tame.of_eq hd.2.2.2 rfl rfl) L.normD
  | replace j c ex _ _ _ _ _ _ _ hj =>
    rw [hj] at hj'; cases hj'
    exact Tame.norm hd.2.2.2 _
  | cancel j hold hq => exact absurd (.inl hq) (no j hold)
  | retry j => exact absurd rfl hr
  | pick j i hold hq => exact absurd (.inl hq) (no j hold)
  | run j i hold hq => exact absurd (.inr hq) (no j hold)
  | finish j j'' i x w w' hold hq => exact absurd (.inr hq) (no j hold)

/-- The job is tame, or it has ended and is not retried. -/
def TameOr (ops : Nat → Op D O) (v : Snap D) (k : Str) : Prop :=
  (∀ j, v.job k = some j → j.Tame) ∨
  (∀ n, ops n ≠ .retry k) ∧ ∀ j, v.job k = some j → j.context.jobStatus = .queued ∨ j.context.jobStatus = .running → j.Tame

include L in
/-- What holds all the time if turns are decent. -/
theorem estate_decent (hg : b.Good s.w.s) (h : Estate A l (b.snap E name s)) (hd : ∀ n, (ops n).Decent E (σ n)) (hn : ∀ n k, A k → NotAbout k (ops n))
    (ht : ∀ k, ¬ A k → TameOr ops (b.snap E name s) k) :
    (∀ n, b.Good (Sys.after E name b.B clk s ops n).w.s ∧ Estate A l (σ n)) ∧ (∀ n k j, ¬ A k → (σ n).job k = some j → j.context.jobStatus = .queued ∨ j.context.jobStatus = .running → j.Tame) ∧
    (∀ k m n, m ≤ n → (σ m).status k ≠ none → (σ n).status k ≠ none) ∧
    (∀ k, (∀ n, ops n ≠ .cancel k) → (b.snap E name s).status k ≠ some .canceled → ∀ n, (σ n).status k ≠ some .canceled) ∧
    (∀ n k, A k → (σ n).job k = (b.snap E name s).job k) := by
  have hE := estate_after (clk := clk) L hg h (fun n => (hd n).careful) hn
  have hK := fun n k (hk : A k) => estate_kept (clk := clk) L hg h (fun n => (hd n).careful) hn n hk
  have hst : ∀ n k j, (σ n).job k = some j → L.Stored j := by
    intro n k j hj
    obtain ⟨t, hr⟩ := Impl.rs_of_good (hE n).1
    rw [Impl.snap_eq (E := E) (name := name) hr] at hj
    exact Env.Lawful.stored_view (L := L) (w := t.w) (id := k) hj
  have hL := fun n k (hk : ¬ A k) => ((hE n).2.step (clk := clk) L (hE n).1 (ops n) (hd n).careful (hn n)).2.1 k hk
  have est : ∀ {u v : Snap D} {k : Str}, u.job k = v.job k → u.status k = v.status k := fun h => congrArg (Option.map fun j : Job D => j.context.jobStatus) h
  refine ⟨hE, fun n k j hA => ?_, fun k m n hm h => ?_, fun k hc h0 n => ?_, hK⟩
  · rcases ht k hA with h | ⟨hr, h⟩
    · have key : ∀ n j, (σ n).job k = some j → j.Tame := by
        intro n
        induction n with
        | zero => exact h
        | succ n ih => exact (hL n k hA).tame L (hst n k) (hd n) ih
      exact fun hj _ => key n j hj
    · revert j
      induction n with
      | zero => exact h
      | succ n ih => exact (hL n k hA).tame_busy L (hst n k) (hd n) (hr n) ih
  · by_cases hA : A k
    · rw [est ((hK n k hA).trans (hK m k hA).symm)]; exact h
    · induction hm with
      | refl => exact h
      | @step n _ ih => exact (hL n k hA).kept ih
  · by_cases hA : A k
    · rw [est (hK n k hA)]; exact h0
    · induction n with
      | zero => exact h0
      | succ n ih => exact (hL n k hA).uncancelled (hst n k) (hd n) (hc n) ih

include L in
/-- A submitted job is known. -/
theorem estate_known {s : Sys D b.B} (hg : b.Good s.w.s) (h : Estate A l (b.snap E name s)) (ha : s.alive = true) {j : Job D}
    {c : EnqueueConfig} (hA : ¬ A j.id) (hd : (Op.enqueue j c : Op D O).Decent E (b.snap E name s)) :
    (b.snap E name (Sys.step E name b.B clk s (.enqueue j c : Op D O)).1).status j.id ≠ none := by
  cases e : (b.snap E name s).job j.id with
  | none =>
    have h := (C11_readable_partial (O := O) b E L name clk s hg ha j c e hd.1).2.1
    rw [status_of h]
    simp
  | some ex =>
    refine (solo_any (clk := clk) (k := j.id) L hg h.tidy (h.solo _ hA) (.enqueue j c : Op D O) (hd.careful.of _)).2.kept ?_
    rw [status_of e]
    simp

include L in
/-- Once it gets no jobs any more, a work queue with decent turns comes to rest, but for what others have lost. -/
theorem estate_rests (hg : b.Good s.w.s) (h : Estate A l (b.snap E name s)) (hd : ∀ n, (ops n).Decent E (σ n)) (hn : ∀ n k, A k → NotAbout k (ops n))
    (ht : ∀ k, ¬ A k → TameOr ops (b.snap E name s) k) (hclk : Elapses clk) (n0 : Nat)
    (h1 : ∀ n, n0 ≤ n → ∀ j c, ops n ≠ .enqueue j c) (h2 : ∀ n, n0 ≤ n → ∀ id, ops n ≠ .retry id) (hR : Sys.Roomy b E name clk l.length s ops)
    (hsm : ((σ n0).lists .queued).length + (σ n0).inFlight.length + l.length < 2 ^ 31) :
    ∃ N, ∀ n, N ≤ n → (σ n).lists .queued = [] ∧ ((σ n).lists .running).Perm l ∧ (σ n).tasks = [] ∧
      ∀ k, ¬ A k → (σ n).status k ≠ some .queued ∧ (σ n).status k ≠ some .running := by
  have e : ∀ n, Sys.after E name b.B clk (Sys.after E name b.B clk s ops n0) (fun i => ops (n0 + i)) n = Sys.after E name b.B clk s ops (n0 + n) := by
    intro n
    induction n with
    | zero => rfl
    | succ n ih => exact congrArg (fun s => (Sys.step E name b.B clk s (ops (n0 + n))).1) ih
  obtain ⟨hE, htame, -⟩ := estate_decent (clk := clk) L hg h hd hn ht
  have H : Sys.Heirs b E name clk A l (Sys.after E name b.B clk s ops n0) (fun i => ops (n0 + i)) :=
    ⟨(hE n0).1, (hE n0).2, fun n => h1 _ (Nat.le_add_right _ _), fun n => h2 _ (Nat.le_add_right _ _), fun n => hn _,
      fun n => by rw [e]; exact (hd (n0 + n)).careful, hR.later n0, hsm⟩
  obtain ⟨N, hN⟩ := H.rests L hclk fun k job hA hj hq => ⟨(htame n0 k job hA hj hq).1, (htame n0 k job hA hj hq).2, .inl fun n => by rw [e]; exact (hd (n0 + n)).mild k⟩
  refine ⟨n0 + N, fun n hn => ?_⟩
  have := hN (n - n0) (by omega)
  rw [e, show n0 + (n - n0) = n by omega] at this
  exact ⟨this.1, this.2.1, this.2.2.1, fun k hA => (this.2.2.2 k hA).1⟩

end
end AJ
