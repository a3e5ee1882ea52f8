import Verif.Proofs.DrainSite
import Verif.Props.Codec

/-! # A process in which no jobs are submitted any more: its work queues come to rest -/

namespace AJ
open W Props

section
variable {D O : Type} {E : Env D} {name : Str} {clk : Nat → Time} {b : Impl} {k : Str} {s : Sys D b.B}

/-- What is asked of a turn. -/
def Op.Decent (E : Env D) (v : Snap D) : Op D O → Prop
  | .enqueue j c => E.Encodable j ∧ j.context.jobStatus = .queued ∧ (c.overrideData = true → c.reRun = true) ∧ j.Tame
  | .finish i x => ∀ orig job, v.tasks[i]? = some ⟨orig, some job⟩ → x.Serialisable E job ∧ (x.retryAt = none ∨ job.context.retry = none)
  | _ => True

theorem Op.Decent.careful {v : Snap D} {op : Op D O} (h : op.Decent E v) : Careful E v op := by
  cases op with
  | enqueue j c =>
    refine ⟨h.1, fun ex _ hov hr hd => ?_⟩
    rw [h.2.2.1 hov, Bool.true_and] at hd
    rw [h.2.1]
    unfold Job.isRunning at hr
    unfold Job.isDone at hd
    cases hs : ex.context.jobStatus <;> simp [hs] at hr hd
    rfl
  | finish i x => exact fun orig job ht => (h orig job ht).1
  | _ => trivial

theorem Op.Decent.mild {v : Snap D} {op : Op D O} (h : op.Decent E v) (k : Str) : Mild k v op := by
  intro i x orig job hop ht _
  subst hop
  exact (h orig job ht).2

theorem Tame.of_eq {j j' : Job D} (h : j.Tame) (h1 : j'.context.jobType = j.context.jobType) (h2 : j'.context.retry = j.context.retry) : j'.Tame := by
  unfold Job.Tame NonCron
  rw [h1, h2]
  exact h

theorem Tame.norm {j : Job D} (h : j.Tame) (f : D → D) : (j.norm f).Tame := by
  refine ⟨fun e n m c hc => ?_, fun r hr => ?_⟩
  · have hc : j.context.jobType.norm = .cron e n m c := hc
    cases ht : j.context.jobType with
    | normal => rw [ht] at hc; cases hc
    | scheduledAt t => rw [ht] at hc; cases hc
    | cron e' n' m' c' => exact h.1 _ _ _ _ ht
  · have hr : j.context.retry.map Retry.norm = some r := hr
    obtain ⟨r', h1, rfl⟩ := Option.map_eq_some_iff.1 hr
    exact h.2 r' h1

/-- Jobs stay tame. -/
theorem Life.tame (L : E.Lawful) {v v' : Snap D} {op : Op D O} (hl : Life E L name clk k v v' op) (hst : ∀ j, v.job k = some j → L.Stored j)
    (hd : op.Decent E v) (h : ∀ j, v.job k = some j → j.Tame) : ∀ j, v'.job k = some j → j.Tame := by
  intro j' hj'
  cases hl with
  | same op g1 => rw [g1] at hj'; exact h j' hj'
  | died op g1 => rw [g1] at hj'; exact h j' hj'
  | submit j c _ _ _ hj =>
    rw [hj] at hj'; cases hj'
    exact Tame.norm (j := j.asQueued _) (Tame.of_eq hd.2.2.2 rfl rfl) L.normD
  | replace j c ex _ _ _ _ _ _ _ hj =>
    rw [hj] at hj'; cases hj'
    exact Tame.norm hd.2.2.2 _
  | cancel j hold _ hj =>
    rw [hj] at hj'; cases hj'
    exact Tame.of_eq (h j hold) rfl rfl
  | retry j hold _ hj =>
    rw [hj] at hj'; cases hj'
    exact Tame.of_eq (h j hold) rfl rfl
  | pick j i hold _ _ _ _ hj =>
    rw [hj] at hj'; cases hj'
    exact Tame.of_eq (h j hold) rfl rfl
  | run j i hold _ _ _ hj =>
    rw [hj] at hj'; cases hj'
    exact h _ hold
  | finish j j'' i x w w' hold hq ht ho hw hw' hf he hen hj ho' =>
    rw [hj] at hj'; cases hj'
    have ht0 := h j hold
    have hr := Life.ran (clk := clk) L (hst j hold) hq hw hw' hf he hen (hd j j.counted ht).2
    cases hr with
    | retry hq' hf' hsr hra =>
      obtain ⟨h0, N, h4, h5⟩ := ht0.2 _ hq'
      obtain ⟨c1, c2, c3⟩ := retryAt_count h4 hsr h0 h5 hra
      have := h0.1
      have := h5.2
      refine ⟨(by intro a b c d e; cases e), fun y e => ?_⟩
      cases e
      exact ⟨⟨by omega, by omega⟩, N, c3, h5⟩
    | slot _ hc' => exact absurd hc' (ht0.1 _ _ _ _)
    | stuck _ hc' => exact absurd hc' (ht0.1 _ _ _ _)
    | failed => exact Tame.of_eq ht0 rfl rfl
    | finished => exact Tame.of_eq ht0 rfl rfl

/-- Stored jobs stay stored. -/
theorem Life.kept {L : E.Lawful} {v v' : Snap D} {op : Op D O} (hl : Life E L name clk k v v' op) (h : v.status k ≠ none) : v'.status k ≠ none := by
  have key : ∀ j, v'.job k = some j → v'.status k ≠ none := fun j hj => by rw [status_of hj]; simp
  cases hl with
  | same op g1 => unfold Snap.status at h ⊢; rw [g1]; exact h
  | died op g1 => unfold Snap.status at h ⊢; rw [g1]; exact h
  | submit j c _ _ _ hj => exact key _ hj
  | replace j c ex _ _ _ _ _ _ _ hj => exact key _ hj
  | cancel j hold _ hj => exact key _ hj
  | retry j hold _ hj => exact key _ hj
  | pick j i hold _ _ _ _ hj => exact key _ hj
  | run j i hold _ _ _ hj => exact key _ hj
  | finish j j'' i x w w' hold hq ht ho hw hw' hf he hen hj ho' => exact key _ hj

/-- A job that is not cancelled by anybody is not Cancelled. -/
theorem Life.uncancelled {L : E.Lawful} {v v' : Snap D} {op : Op D O} (hl : Life E L name clk k v v' op) (hst : ∀ j, v.job k = some j → L.Stored j)
    (hd : op.Decent E v) (hc : op ≠ .cancel k) (h : v.status k ≠ some .canceled) : v'.status k ≠ some .canceled := by
  have key : ∀ j, v'.job k = some j → j.context.jobStatus ≠ .canceled → v'.status k ≠ some .canceled := fun j hj hs => by
    rw [status_of hj]
    exact fun e => hs (Option.some.inj e)
  cases hl with
  | same op g1 => unfold Snap.status at h ⊢; rw [g1]; exact h
  | died op g1 => unfold Snap.status at h ⊢; rw [g1]; exact h
  | submit j c _ _ _ hj => exact key _ hj (fun e => by cases e)
  | replace j c ex _ _ _ _ _ _ _ hj => exact key _ hj (fun e => by have e : j.context.jobStatus = _ := e; rw [hd.2.1] at e; cases e)
  | cancel j hold _ hj => exact absurd rfl hc
  | retry j hold _ hj => exact key _ hj (fun e => by cases e)
  | pick j i hold _ _ _ _ hj => exact key _ hj (fun e => by cases e)
  | run j i hold hq _ _ hj => exact key _ hj (fun e => by rw [hq] at e; cases e)
  | finish j j'' i x w w' hold hq ht ho hw hw' hf he hen hj ho' =>
    have hr := Life.ran (clk := clk) L (hst j hold) hq hw hw' hf he hen (hd j j.counted ht).2
    cases hr with
    | _ => exact key _ hj (fun e => by cases e)

variable {ops : Nat → Op D O}

local notation "σ" n:max => b.snap E name (Sys.after E name b.B clk s ops n)

/-- A work queue with decent turns alone: its jobs stay, are tame, and are not Cancelled by themselves. -/
theorem decent_after (L : E.Lawful) (hs : s = Sys.init b.B b.empty) (hd : ∀ n, (ops n).Decent E (σ n)) :
    (∀ n, Reach (O := O) b E name clk (Careful E) (Sys.after E name b.B clk s ops n)) ∧ (∀ n k j, (σ n).job k = some j → j.Tame) ∧
    (∀ k m n, m ≤ n → (σ m).status k ≠ none → (σ n).status k ≠ none) ∧
    (∀ k, (∀ n, ops n ≠ .cancel k) → ∀ n, (σ n).status k ≠ some .canceled) := by
  subst hs
  have hR : ∀ n, Reach (O := O) b E name clk (Careful E) (Sys.after E name b.B clk (Sys.init b.B b.empty) ops n) := by
    intro n
    induction n with
    | zero => exact .start
    | succ n ih => exact .step (ops n) ih (hd n).careful
  have hI : ∀ k n, InHand b E name k (Sys.after E name b.B clk (Sys.init b.B b.empty) ops n) := fun k n =>
    (((hR n).mono fun _ _ h => h.of k).orderly L).inHand L
  have hL : ∀ k n, Life E L name clk k (b.snap E name (Sys.after E name b.B clk (Sys.init b.B b.empty) ops n))
      (b.snap E name (Sys.after E name b.B clk (Sys.init b.B b.empty) ops (n + 1))) (ops n) := fun k n =>
    reach_life (k := k) L (fun _ _ h => h.of k) (hR n) (ops n) ((hd n).careful.of k)
  have h0 : ∀ k, (b.snap E name (Sys.init b.B b.empty : Sys D b.B)).job k = none := by
    intro k
    rw [Impl.snap_eq Impl.rs_init]
    rfl
  refine ⟨hR, fun n k => ?_, fun k m n hm h => ?_, fun k hc n => ?_⟩
  · induction n with
    | zero => exact fun j hj => absurd ((h0 k).symm.trans hj) (by simp)
    | succ n ih => exact (hL k n).tame L (fun _ hj => (hI k n).stored L hj) (hd n) ih
  · induction hm with
    | refl => exact h
    | @step n _ ih => exact (hL k n).kept ih
  · induction n with
    | zero =>
      show (b.snap E name (Sys.init b.B b.empty : Sys D b.B)).status k ≠ _
      unfold Snap.status
      rw [h0 k]
      simp
    | succ n ih => exact (hL k n).uncancelled (fun _ hj => (hI k n).stored L hj) (hd n) (hc n) ih

/-- A submitted job is known. -/
theorem enqueue_known (L : E.Lawful) {s : Sys D b.B} (hs : Reach (O := O) b E name clk (Careful E) s) (hg : b.Good s.w.s) (ha : s.alive = true) {j : Job D}
    {c : EnqueueConfig} (hd : (Op.enqueue j c : Op D O).Decent E (b.snap E name s)) :
    (b.snap E name (Sys.step E name b.B clk s (.enqueue j c : Op D O)).1).status j.id ≠ none := by
  cases e : (b.snap E name s).job j.id with
  | none =>
    have h := (C11_readable_partial (O := O) b E L name clk s hg ha j c e hd.1).2.1
    rw [status_of h]
    simp
  | some ex =>
    refine (reach_life (k := j.id) L (fun _ _ h => h.of _) hs (.enqueue j c : Op D O) (hd.careful.of _)).kept ?_
    rw [status_of e]
    simp

theorem Sys.Roomy.later {lost : Nat} (H : Sys.Roomy b E name clk lost s ops) (n0 : Nat) :
    Sys.Roomy b E name clk lost (Sys.after E name b.B clk s ops n0) (fun i => ops (n0 + i)) := by
  have e : ∀ n, Sys.after E name b.B clk (Sys.after E name b.B clk s ops n0) (fun i => ops (n0 + i)) n = Sys.after E name b.B clk s ops (n0 + n) := by
    intro n
    induction n with
    | zero => rfl
    | succ n ih => exact congrArg (fun s => (Sys.step E name b.B clk s (ops (n0 + n))).1) ih
  refine ⟨fun n id hid => ?_, fun m => ?_, fun n hn => ?_⟩
  · rw [e] at hid
    obtain ⟨m, h1, h2⟩ := H.ends (n0 + n) id hid
    exact ⟨m - n0, by omega, by rw [e, show n0 + (m - n0) = m by omega]; exact h2⟩
  · obtain ⟨n, h1, h2, h3⟩ := H.ticks (n0 + m)
    exact ⟨n - n0, by omega, by rw [show n0 + (n - n0) = n by omega]; exact h2, by rw [e, show n0 + (n - n0) = n by omega]; exact h3⟩
  · rw [e]
    exact H.capacity (n0 + n) hn

/-- Once it gets no jobs any more, a work queue with decent turns comes to rest. -/
theorem decent_rests (L : E.Lawful) (hs : s = Sys.init b.B b.empty) (hd : ∀ n, (ops n).Decent E (σ n)) (hclk : Elapses clk) (n0 : Nat)
    (h1 : ∀ n, n0 ≤ n → ∀ j c, ops n ≠ .enqueue j c) (h2 : ∀ n, n0 ≤ n → ∀ id, ops n ≠ .retry id) (hR : Sys.Roomy b E name clk 0 s ops)
    (hsm : ((σ n0).lists .queued).length + (σ n0).inFlight.length < 2 ^ 31) :
    ∃ N, ∀ n, N ≤ n → (σ n).lists .queued = [] ∧ (σ n).lists .running = [] ∧ (σ n).tasks = [] ∧
      ∀ k, (σ n).status k ≠ some .queued ∧ (σ n).status k ≠ some .running := by
  have e : ∀ n, Sys.after E name b.B clk (Sys.after E name b.B clk s ops n0) (fun i => ops (n0 + i)) n = Sys.after E name b.B clk s ops (n0 + n) := by
    intro n
    induction n with
    | zero => rfl
    | succ n ih => exact congrArg (fun s => (Sys.step E name b.B clk s (ops (n0 + n))).1) ih
  obtain ⟨hr, htame, -, -⟩ := decent_after (name := name) (clk := clk) L hs hd
  have H : Sys.Closes b E name clk (Sys.after E name b.B clk s ops n0) (fun i => ops (n0 + i)) :=
    ⟨fun n => h1 _ (Nat.le_add_right _ _), fun n => h2 _ (Nat.le_add_right _ _), fun n => by rw [e]; exact (hd (n0 + n)).careful, hR.later n0, hsm⟩
  obtain ⟨N, hN⟩ := H.rests L (hr n0) hclk fun k job hj _ => ⟨(htame n0 k job hj).1, (htame n0 k job hj).2, .inl fun n => by rw [e]; exact (hd (n0 + n)).mild k⟩
  refine ⟨n0 + N, fun n hn => ?_⟩
  have := hN (n - n0) (by omega)
  rw [e, show n0 + (n - n0) = n by omega] at this
  exact ⟨this.1, this.2.1, this.2.2.1, fun k => (this.2.2.2 k).1⟩

end

namespace Site
variable {D O : Type} {E : Nat → Env D} {clk : Nat → Nat → Time} {B : Backend} {t : Site D O B}

theorem run_meets {P : Req D → Prop} (hP : ∀ ty n id d x, ¬ P (.update ty n id d x)) (ops : List (SiteOp D O)) (ho : ∀ d req, .begin d req ∈ ops → P req)
    (h : ∀ d, Meets P (t.users d)) : ∀ d, Meets P ((t.run E B clk ops).users d) := by
  induction ops generalizing t with
  | nil => exact h
  | cons o ops ih =>
    exact ih (fun d req hm => ho d req (List.mem_cons_of_mem _ hm)) fun d => step_meets hP o (fun d req e => ho d req (e ▸ List.mem_cons_self ..)) d (h d)

/-- The turn to which an answer belongs. -/
theorem calls_turn {qs : List QueueActor} {c ty : Nat} {nm : Str} {job : Job D} {cfg : EnqueueConfig} {r : Resp D} {l : List (SiteEvent D O)} (h : Calls qs c l)
    (hr : .ret c (.submit ty nm job cfg) (.answer r) ∈ l) : ∃ (q : Nat) (a : QueueActor), qs[q]? = some a ∧ a.ty = ty ∧ .turn q (some c) (.enqueue job cfg) r ∈ l := by
  induction h with
  | nil => cases hr
  | snoc l req evs r' _ hf ih =>
    rcases List.mem_append.1 hr with hr | hr
    · obtain ⟨q, a, h1, h2, h3⟩ := ih hr
      exact ⟨q, a, h1, h2, List.mem_append_left _ h3⟩
    · have key : ∀ e ∈ evs, ∃ (q : Nat) (op : Op D O) (r : Resp D), e = .turn q (some c) op r := by
        intro e he
        cases hf with
        | served _ _ _ _ _ _ ht =>
          rw [List.mem_singleton.1 he]
          obtain ⟨q, -, -, -, rfl⟩ := ht
          exact ⟨q, _, _, rfl⟩
        | refused => cases he
        | updated _ _ _ _ _ _ _ _ _ h1 h2 =>
          rcases List.mem_cons.1 he with rfl | he
          · obtain ⟨q, -, -, -, rfl⟩ := h1
            exact ⟨q, _, _, rfl⟩
          · rw [List.mem_singleton.1 he]
            obtain ⟨q, -, -, -, rfl⟩ := h2
            exact ⟨q, _, _, rfl⟩
        | missing _ _ _ _ _ _ _ _ h1 =>
          rw [List.mem_singleton.1 he]
          obtain ⟨q, -, -, -, rfl⟩ := h1
          exact ⟨q, _, _, rfl⟩
      rcases List.mem_cons.1 hr with hr | hr
      · cases hr
      · rcases List.mem_append.1 hr with hr | hr
        · obtain ⟨_, _, _, e⟩ := key _ hr
          cases e
        · cases List.mem_singleton.1 hr
          cases hf with
          | served _ _ _ _ h1 h2 h3 =>
            cases h2
            obtain ⟨q, a, k1, k2, rfl⟩ := h3
            have k2 : some ty = some a.ty := k2
            cases k2
            exact ⟨q, a, k1, rfl, List.mem_append_right _ (List.mem_cons_of_mem _ (List.mem_append_left _ List.mem_cons_self))⟩

theorem history_turn {qs : List QueueActor} {c ty : Nat} {nm : Str} {job : Job D} {cfg : EnqueueConfig} {r : Resp D} {l : List (SiteEvent D O)} (h : History qs c l)
    (hr : .ret c (.submit ty nm job cfg) (.answer r) ∈ l) : ∃ (q : Nat) (a : QueueActor), qs[q]? = some a ∧ a.ty = ty ∧ .turn q (some c) (.enqueue job cfg) r ∈ l := by
  obtain ⟨past, now, rfl, h1, h2⟩ := h
  rcases List.mem_append.1 hr with hr | hr
  · obtain ⟨q, a, k1, k2, k3⟩ := calls_turn h1 hr
    exact ⟨q, a, k1, k2, List.mem_append_left _ k3⟩
  · exfalso
    rcases h2 with rfl | ⟨req, evs, rfl, hp⟩
    · cases hr
    · rcases List.mem_cons.1 hr with hr | hr
      · cases hr
      · cases hp with
        | begun => cases hr
        | served _ _ _ _ _ ht =>
          obtain ⟨q, -, -, -, rfl⟩ := ht
          simp at hr
        | updated _ _ _ _ _ _ _ _ _ k1 k2 =>
          obtain ⟨q, -, -, -, rfl⟩ := k1
          obtain ⟨q, -, -, -, rfl⟩ := k2
          simp at hr

/-- A step adds at most one event. -/
theorem step_event (t : Site D O B) (o : SiteOp D O) : (t.step E B clk o).trace = t.trace ∨ ∃ e, (t.step E B clk o).trace = t.trace ++ [e] := by
  have same : ∀ {t' : Site D O B}, t'.trace = t.trace → t'.trace = t.trace ∨ ∃ e, t'.trace = t.trace ++ [e] := .inl
  cases o with
  | begin d req =>
    show (t.begin B d req).trace = _ ∨ ∃ e, (t.begin B d req).trace = _
    unfold begin
    cases t.users d with
    | free => exact .inr ⟨_, rfl⟩
    | done => exact .inr ⟨_, rfl⟩
    | _ => exact same rfl
  | client d x =>
    show (t.client B d x).trace = _ ∨ ∃ e, (t.client B d x).trace = _
    unfold client
    split <;> exact same rfl
  | engine e => exact same (t' := { t with hub := t.hub.engine e }) rfl
  | post d =>
    show (t.post B d).trace = _ ∨ ∃ e, (t.post B d).trace = _
    unfold post
    split
    · split
      · exact same rfl
      · split <;> exact same rfl
      · exact .inr ⟨_, rfl⟩
      · exact same rfl
    · exact same rfl
  | handle p i =>
    show (t.handle E B clk p i).trace = _ ∨ ∃ e, (t.handle E B clk p i).trace = _
    unfold handle
    split
    · exact same rfl
    · dsimp only
      split
      · exact same rfl
      · split
        · exact .inr ⟨_, rfl⟩
        · exact same rfl
  | turn p o =>
    show (t.turn E B clk p o).trace = _ ∨ ∃ e, (t.turn E B clk p o).trace = _
    unfold turn
    split
    · exact same rfl
    · split
      · exact .inr ⟨_, rfl⟩
      · exact same rfl
  | take d =>
    show (t.take B d).trace = _ ∨ ∃ e, (t.take B d).trace = _
    unfold take
    split
    · dsimp only
      split
      · exact same rfl
      · exact .inr ⟨_, rfl⟩
    · exact .inr ⟨_, rfl⟩
    · exact same rfl

/-- The step at which an event has come into the trace. -/
theorem event_at {ops : Nat → SiteOp D O} {e : SiteEvent D O} (h0 : e ∉ t.trace) {n : Nat} (h : e ∈ (Site.after E B clk t ops n).trace) :
    ∃ i, i < n ∧ (Site.after E B clk t ops (i + 1)).trace = (Site.after E B clk t ops i).trace ++ [e] := by
  induction n with
  | zero => exact absurd h h0
  | succ n ih =>
    rcases step_event (E := E) (clk := clk) (Site.after E B clk t ops n) (ops n) with he | ⟨e', he⟩
    · have he : (Site.after E B clk t ops (n + 1)).trace = _ := he
      rw [he] at h
      obtain ⟨i, h1, h2⟩ := ih h
      exact ⟨i, by omega, h2⟩
    · have he : (Site.after E B clk t ops (n + 1)).trace = _ := he
      rw [he] at h
      rcases List.mem_append.1 h with h | h
      · obtain ⟨i, h1, h2⟩ := ih h
        exact ⟨i, by omega, h2⟩
      · rw [List.mem_singleton.1 h]
        exact ⟨n, by omega, he⟩

theorem run_bounded (ops : List (SiteOp D O)) {C : Nat} (h : ∀ d, C ≤ d → ahead (t.users d) = 0) : ∃ C', ∀ d, C' ≤ d → ahead ((t.run E B clk ops).users d) = 0 := by
  induction ops generalizing t C with
  | nil => exact ⟨C, h⟩
  | cons o ops ih =>
    obtain ⟨C', h'⟩ := step_bounded (E := E) (clk := clk) o h
    exact ih h'

end Site

namespace Weave
variable {D O : Type} {E : Nat → Env D} {clk : Nat → Nat → Time} {kind : Str → Nat}
variable {f : Weave D O SpecB} {t : Site D O SpecB} {ops : Nat → WeaveOp D O}

local notation "φ" n:max => Weave.after E SpecB clk f ops n

local notation "ψ" => serially E clk f ops

local notation "τ" n:max => Site.after E SpecB clk t (serially E clk f ops) n

local notation "μ" n:max => lone E clk (Site.Base.empty E kind) (Site.after E SpecB clk t (serially E clk f ops) n)

/-- Once nobody submits or retries jobs any more, a work queue comes to rest. -/
theorem ClosesOn.rests (hP : ∀ n, PairFrom E clk kind (Site.Base.empty E kind) (φ n) (τ n))
    (h0 : ∀ q, f.inside q = none) (h1 : ∀ n, (τ n).hub.engines.length ≤ 1) {n0 n1 q : Nat} {a : QueueActor} (ha : (φ n1).site.hub.queues[q]? = some a)
    (L : ∀ ty, (E ty).Lawful) (hs : turnsOf q t.trace = []) (hclk : Elapses (clk q))
    (hM : ∀ P : Req D → Prop, (∀ ty n id d x, ¬ P (.update ty n id d x)) → (∀ β, P (.start β)) → ∀ d, Site.Meets P (t.users d))
    (hC : ∃ C, ∀ d, C ≤ d → Site.ahead (t.users d) = 0)
    (H : ClosesOn .spec E n0 q a (Weave.after E SpecB clk f ops) ops) :
    ∃ N, ∀ n, N ≤ n → (φ n).inside q = none →
      let v := (φ n).site.snap .spec E q a
      v.lists .queued = [] ∧ v.lists .running = [] ∧ v.tasks = [] ∧
      (∀ who j c r, .turn q who (.enqueue j c) r ∈ (φ n).site.trace → kind j.id = a.ty ∧ v.status j.id ≠ none) ∧
      ∀ k, kind k = a.ty → (v.status k ≠ some .queued ∧ v.status k ≠ some .running) ∧
        (∀ m, m ≤ n → (φ m).site.hub.queues[q]? = some a → (φ m).inside q = none → ((φ m).site.snap .spec E q a).status k ≠ none → v.status k ≠ none) ∧
        ((∀ m d ty, ops m ≠ .site (.begin d (.cancel ty k))) → v.status k ≠ some .canceled) := by
  have hq : ∀ n, n1 ≤ n → (φ n).site.hub.queues[q]? = some a := fun n hn => after_queues (hP 0).tidy hn ha
  have hub : ∀ n, (τ n).hub = (φ n).site.hub := fun n => (hP n).serial.face.hub.symm
  obtain ⟨ops', hm, -, g4, F⟩ := H.room.alone hP h0 h1 ha hs
  have begun : ∀ n d req, ψ n = .begin d req → ops n = .site (.begin d req) := fun n d req e => flat_begin e
  have meets : ∀ P : Req D → Prop, (∀ ty n id d x, ¬ P (.update ty n id d x)) → (∀ β, P (.start β)) → (∀ n d req, ops n = .site (.begin d req) → P req) →
      ∀ n d, Site.Meets P ((τ n).users d) := by
    intro P k1 k2 k3 n
    induction n with
    | zero => exact hM P k1 k2
    | succ n ih => exact fun d => Site.step_meets k1 (ψ n) (fun d req e => k3 n d req (begun n d req e)) d (ih d)
  -- the request for which a turn is taken
  have asked : ∀ n, ops' n ≠ .get [] → (ops' n).inner = false → ∃ d req again r, (τ n).users d = .posted req (ops' n) again q ∧
      (τ (n + 1)).users d = .told req again r ∧ req.call.ty? = some a.ty := by
    intro n hne hin
    rcases g4 n with e | ⟨e1, who, r, e2⟩
    · exact absurd e hne
    · obtain ⟨d, req, again, -, k1, k2⟩ := Site.step_asked (hP n).links (ψ n) hin e2
      refine ⟨d, req, again, r, k1, k2, ?_⟩
      have hlink := (hP n).links.users d
      rw [k1] at hlink
      obtain ⟨a', k3, hty⟩ := hlink.2.typed (hP n).links.typed
      rw [hub, e1] at k3
      cases k3
      exact hty
  have hdec := meets (Req.Decent E) (fun _ _ _ _ _ h => h) (fun _ => trivial) H.decent
  have hD : ∀ n, (ops' n).Decent (E a.ty) (Impl.spec.snap (E a.ty) a.name (Sys.after (E a.ty) a.name Impl.spec.B (clk q) (Sys.init SpecB Spec.empty) ops' n)) := by
    intro n
    cases hop : ops' n with
    | enqueue j c =>
      obtain ⟨d, req, again, r, k1, -, k2⟩ := asked n (by rw [hop]; simp) (by rw [hop]; rfl)
      have k3 := hdec n d
      rw [k1, hop] at k3
      obtain ⟨k3, k4⟩ := k3
      cases req with
      | submit ty nm job cfg =>
        cases k4
        have k2 : some ty = some a.ty := k2
        cases k2
        exact k3
      | _ => cases k4
    | finish i x =>
      intro orig job ht
      rcases g4 n with e | ⟨e1, who, r, e2⟩
      · rw [hop] at e; cases e
      · rw [hop] at e2
        have k1 := Site.step_inner (hP n).links (ψ n) rfl e2
        refine runs_flat hP h0 (H.code orig.id) n i x orig job k1 ?_ rfl
        have hS := (Site.lone_snap (hP n).alone (q := q) (a := a) (by rw [hub]; exact e1)).2.1
        have k2 : (Impl.spec.snap (E a.ty) a.name ((μ n) q a)).tasks[i]? = some ⟨orig, some job⟩ := by rw [hm n]; exact ht
        rw [← hS] at k2
        exact k2
    | _ => trivial
  obtain ⟨C, hC⟩ := hC
  obtain ⟨N0, h2, h3⟩ := Site.brings_end (E := E) (clk := clk) (B := SpecB) (ops := ψ) (n0 := n0) hC fun n d req hn e => H.closed n d req hn (begun n d req e)
  obtain ⟨N1, h4, h5, -⟩ := H.room.ticks (N0 + n1)
  have quiet : ∀ n, N1 ≤ n → ∀ req : Req D, ops' n ≠ .get [] → (ops' n).inner = false → some (ops' n) = req.op → req.brings = true →
      (∀ req' : Req D, some (ops' n) = req'.op → req'.brings = true) → False := by
    intro n hn _ hne hin _ _ hall
    obtain ⟨d, req, again, r, k1, k2, -⟩ := asked n hne hin
    have k3 := hdec n d
    rw [k1] at k3
    have k4 := h3 n (by omega) d
    rw [k1, k2] at k4
    have k5 := hall req k3.2
    cases again <;> simp [Site.ahead, k5] at k4
  have i1 := ticks_idle h5
  obtain ⟨c1, c2, -⟩ := calm_lone hP (hq N1 (by omega)) i1
  obtain ⟨N, hN⟩ := decent_rests (b := .spec) (s := Sys.init SpecB Spec.empty) (name := a.name) (clk := clk q) (L a.ty) rfl hD hclk N1
    (fun n hn j c e => quiet n hn (.submit a.ty [] j c) (by rw [e]; simp) (by rw [e]; rfl) (by rw [e]; rfl) rfl (fun req' h => by
      rw [e] at h; cases req' <;> first | rfl | cases h))
    (fun n hn id e => quiet n hn (.retry a.ty id) (by rw [e]; simp) (by rw [e]; rfl) (by rw [e]; rfl) rfl (fun req' h => by
      rw [e] at h; cases req' <;> first | rfl | cases h)) F (by
      have := H.small N1 (by omega) h5
      unfold Snap.inFlight at this ⊢
      rw [c1, c2, hm N1] at this
      exact this)
  obtain ⟨hreach, -, hkept, hcan⟩ := decent_after (b := .spec) (name := a.name) (clk := clk q) (L a.ty) rfl hD
  have hlive : ∀ i, (Sys.after (E a.ty) a.name Impl.spec.B (clk q) (Sys.init SpecB Spec.empty) ops' i).alive = true := by
    intro i
    by_contra hd
    obtain ⟨n, k1, -, k3⟩ := F.ticks i
    have := after_dead (n := i) (m := n) k1 (by simpa using hd)
    have k3 : (Sys.after (E a.ty) a.name Impl.spec.B (clk q) (Sys.init SpecB Spec.empty) ops' n).alive = true := k3
    rw [this] at k3
    cases k3
  refine ⟨N + n1, fun n hn hi => ?_⟩
  obtain ⟨c1, c2, -, -, c5⟩ := calm_lone hP (hq n (by omega)) hi
  rw [hm n] at c1 c2 c5
  obtain ⟨r1, r2, r3, r4⟩ := hN n (by omega)
  have est : ∀ {u v : Snap D} {k : Str}, u.job k = v.job k → u.status k = v.status k := fun h => congrArg (Option.map fun j : Job D => j.context.jobStatus) h
  refine ⟨(congrFun c1 _).trans r1, (congrFun c1 _).trans r2, c2.trans r3, fun who j c r htr => ?_, fun k hk => ?_⟩
  · rw [(hP n).serial.face.trace] at htr
    obtain ⟨i, hin, htr⟩ := Site.event_at (fun h => by
      have : (Op.enqueue j c, r) ∈ turnsOf q t.trace := List.mem_filterMap.2 ⟨_, h, by simp [SiteEvent.at]⟩
      rw [hs] at this
      exact absurd this List.not_mem_nil) htr
    obtain ⟨d, req, again, -, k1, -⟩ := Site.step_asked (hP i).links (ψ i) rfl htr
    have hlink := (hP i).links.users d
    rw [k1] at hlink
    obtain ⟨a', k2, hty⟩ := hlink.2.typed (hP i).links.typed
    have ea : a' = a := same_queue hP ha (by rw [← hub]; exact k2)
    rw [ea] at k2 hty
    have k3 := hdec i d
    have k4 := (hP i).alone.users d
    rw [k1] at k3 k4
    obtain ⟨k3, k5⟩ := k3
    cases req with
    | submit ty nm job cfg =>
      cases k5
      have hty : some ty = some a.ty := hty
      cases hty
      have hk : kind j.id = a.ty := k4.1
      refine ⟨hk, ?_⟩
      rw [est (c5 j.id hk)]
      refine hkept j.id (i + 1) n (by omega) ?_
      have e1 : turnsOf q (τ (i + 1)).trace = turnsOf q (τ i).trace ++ [(.enqueue j c, r)] := by
        rw [htr]
        simp [turnsOf, SiteEvent.at]
      have e2 : (μ (i + 1)) q a = (Sys.step (E a.ty) a.name SpecB (clk q) ((μ i) q a) (.enqueue j c : Op D O)).1 := by
        unfold lone
        rw [e1, List.map_append]
        exact congrArg Prod.fst (runOps_snoc ..)
      have e3 := hm (i + 1)
      rw [e2, hm i] at e3
      have e3 : _ = Sys.after (E a.ty) a.name Impl.spec.B (clk q) (Sys.init Impl.spec.B Impl.spec.empty) ops' (i + 1) := e3
      rw [← e3]
      exact enqueue_known (b := .spec) (L a.ty) (hreach i) (hreach i).good (hlive i) k3
    | _ => cases k5
  have estn := est (c5 k hk)
  refine ⟨?_, fun m hmn hqm him hst => ?_, fun hnc => ?_⟩
  · rw [estn]; exact r4 k
  · obtain ⟨-, -, -, -, d5⟩ := calm_lone hP hqm him
    rw [hm m] at d5
    rw [est (d5 k hk)] at hst
    rw [estn]
    exact hkept k m n hmn hst
  · rw [estn]
    refine hcan k (fun i e => ?_) n
    have hmeet := meets (fun req => req.Decent E ∧ ∀ ty, req ≠ .cancel ty k) (fun _ _ _ _ _ h => h.1) (fun _ => ⟨trivial, fun _ h => by cases h⟩)
      (fun n d req h => ⟨H.decent n d req h, fun ty e => hnc n d ty (by rw [h, e])⟩)
    obtain ⟨d, req, again, r, k1, -, -⟩ := asked i (by rw [e]; simp) (by rw [e]; rfl)
    have k3 := hmeet i d
    rw [k1, e] at k3
    obtain ⟨k3, k4⟩ := k3
    cases req with
    | cancel ty id => cases k4; exact k3.2 ty rfl
    | _ => cases k4

end Weave

section
variable {D O : Type} {E : Nat → Env D} {clk : Nat → Nat → Time} {f : Weave D O SpecB}
variable {b : Impl} {φ : Nat → Weave D O b.B} {os : Nat → WeaveOp D O} {hist : Nat → WeaveOp D O} {idx : Nat → Nat}

theorem Weave.Stretch.closes (h : Weave.Stretch b φ os (Weave.after E SpecB clk f hist) hist idx) {n0 q : Nat} {a : QueueActor} (H : Weave.ClosesOn b E n0 q a φ os) :
    Weave.ClosesOn .spec E (idx n0) q a (Weave.after E SpecB clk f hist) hist where
  decent := by
    intro m d req hm
    obtain ⟨n, rfl, e⟩ := h.said hm
    exact H.decent n d req e
  closed := by
    intro m d req hn hm
    obtain ⟨n, rfl, e⟩ := h.said hm
    exact H.closed n d req (h.of_le hn) e
  code := fun k => h.runs (H.code k)
  room := h.roomy H.room
  small := by
    intro m hn hm
    obtain ⟨n, rfl⟩ := Weave.tick_at h hm
    have e : (φ n).site.snap b E q a = Site.snap Impl.spec E (Weave.after E SpecB clk f hist (idx n)).site q a := Site.snap_rel (h.site n) q a
    have := H.small n (h.of_le hn) (by rw [h.ticks_eq]; exact hm)
    rw [e] at this
    exact this

end
end AJ
