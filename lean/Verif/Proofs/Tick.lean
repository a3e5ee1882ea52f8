import Verif.Proofs.Pick
import Mathlib.Data.List.Perm.Basic

/-! # What a scan does, counted in examined entries -/

namespace AJ
namespace W
variable {D : Type} {E : Env D} {name : Str} {clk : Nat → Time}

/-- Every stored job is stored under its own id. -/
def Keyed (E : Env D) (w : W) : Prop := ∀ id j, view E w id = some j → j.id = id

/-- A started job: found under its id, ready when examined, then marked. -/
def Started (E : Env D) (clk : Nat → Time) (w0 w : W) (j : Job D) : Prop :=
  ∃ i job, w0.t ≤ i ∧ i + 1 < w.t ∧ view E w0 j.id = some job ∧ job.readyAt (clk i) = true ∧
    j = job.asRunning (clk (i + 1) / nsPerMs) ∧ view E w j.id = E.encdec j

/-- State of a scan that began in `w0`. -/
structure Scan (E : Env D) (name : Str) (clk : Nat → Time) (total : Nat) (w0 : W) (p : W × List (Job D)) : Prop where
  time : w0.t ≤ p.1.t
  same : ∀ id, id ∉ p.2.map Job.id → view E p.1 id = view E w0 id
  started : ∀ j ∈ p.2, Started E clk w0 p.1 j
  nodup : (p.2.map Job.id).Nodup
  bound : p.2.length ≤ total
  running : lst name p.1 .running = (p.2.map Job.id).reverse ++ lst name w0 .running
  queued : (lst name p.1 .queued ++ p.2.map Job.id).Perm (lst name w0 .queued)
  others : ∀ st : JobStatus, st ≠ .queued → st ≠ .running → lst name p.1 st = lst name w0 st
  log : p.1.log = w0.log ++ p.2.map fun j => Event.statusMsg j.id .running

theorem encdec_some (L : E.Lawful) {j j' : Job D} (h : E.encdec j = some j') : j' = j.norm L.normD := by
  unfold Env.encdec at h
  cases he : E.codec.enc j with
  | none => rw [he] at h; simp [L.dec_empty] at h
  | some s =>
    rw [he] at h
    have := L.roundtrip j s he
    simp only [Option.getD_some] at h
    rw [this] at h
    exact (Option.some.inj h).symm

theorem encdec_id (L : E.Lawful) {j j' : Job D} (h : E.encdec j = some j') : j'.id = j.id := by
  rw [encdec_some L h]; rfl

theorem Scan.init (total : Nat) (w0 : W) : Scan E name clk total w0 (w0, []) where
  time := Nat.le_refl _
  same _ _ := rfl
  started _ h := absurd h (by simp)
  nodup := by simp
  bound := by simp
  running := by simp
  queued := by simp
  others _ _ _ := rfl
  log := by simp

theorem queued_split {w : W} {id : Str} {F : List Str} (h : (lst name w .queued).reverse = id :: F) :
    lst name w .queued = F.reverse ++ [id] := by
  have := congrArg List.reverse h
  simpa using this

theorem Scan.keyed (L : E.Lawful) {total : Nat} {w0 : W} (hk : Keyed E w0) {p : W × List (Job D)}
    (h : Scan E name clk total w0 p) : Keyed E p.1 := by
  intro id job hv
  by_cases hmem : id ∈ p.2.map Job.id
  · obtain ⟨r, hr, e⟩ := List.mem_map.mp hmem
    obtain ⟨i, job', _, _, h3, _, h5, h6⟩ := h.started r hr
    have h7 : E.encdec r = some job := by rw [← h6, e]; exact hv
    rw [encdec_id L h7]; exact e
  · exact hk id job (h.same id hmem ▸ hv)

theorem Scan.turn (L : E.Lawful) {total : Nat} {w0 : W} (hk : Keyed E w0) {p : W × List (Job D)}
    (h : Scan E name clk total w0 p) : Scan E name clk total w0 (turn E name clk total p) := by
  rcases p with ⟨w, rd⟩
  rcases hq : (lst name w .queued).reverse with _ | ⟨id, F⟩
  · rw [WorkQueue.turn_empty E name clk total (w, rd) (by simpa using hq)]; exact h
  have hQ := queued_split hq
  have hrot : ∀ w1 : W, lst name w1 = lst name w → lst name (rotate name id F w1) .running = lst name w .running ∧
      (lst name (rotate name id F w1) .queued).Perm (lst name w .queued) ∧
      ∀ st, st ≠ .queued → lst name (rotate name id F w1) st = lst name w st := by
    intro w1 e
    refine ⟨by simp [e], ?_, fun st hs => by simp [e, hs]⟩
    simp only [lst_rotate, if_true]
    rw [hQ]
    simpa using List.perm_append_comm (l₁ := [id]) (l₂ := F.reverse)
  have hc := turn_cases E name clk total id F w rd hq
  generalize W.turn E name clk total (w, rd) = q at hc
  cases hc with
  | gone hv =>
    obtain ⟨r1, r2, r3⟩ := hrot w rfl
    exact ⟨h.time, h.same, h.started, h.nodup, h.bound, by rw [r1]; exact h.running,
      (r2.append_right _).trans h.queued, fun st a b => by rw [r3 st a]; exact h.others st a b, h.log⟩
  | skip job hv ht =>
    obtain ⟨r1, r2, r3⟩ := hrot (tick w) rfl
    refine ⟨Nat.le_succ_of_le h.time, h.same, fun j hj => ?_, h.nodup, h.bound, by rw [r1]; exact h.running,
      (r2.append_right _).trans h.queued, fun st a b => by rw [r3 st a]; exact h.others st a b, h.log⟩
    obtain ⟨i, job, a, b, c⟩ := h.started j hj
    exact ⟨i, job, a, Nat.lt_succ_of_lt b, c⟩
  | pick job hv ht =>
    simp only [takes, Bool.and_eq_true, decide_eq_true_eq, Bool.not_eq_true',
      List.any_eq_false] at ht
    obtain ⟨⟨hready, hlen⟩, hany⟩ := ht
    have hfresh : job.id ∉ rd.map Job.id := by
      intro hm
      obtain ⟨r, hr, e⟩ := List.mem_map.mp hm
      exact hany r hr e
    have hid : id = job.id := (h.keyed L hk id job hv).symm
    have hv0 : view E w0 job.id = some job := by rw [← h.same job.id hfresh, ← hid]; exact hv
    refine ⟨?_, ?_, ?_, ?_, ?_, ?_, ?_, ?_, ?_⟩
    · have := h.time; simp only [t_toRunning, t_put, t_tick] at this ⊢; omega
    · intro i hi
      simp only [List.map_append, List.map_cons, List.map_nil, List.mem_append, List.mem_singleton,
        not_or, Job.id_asRunning] at hi
      simp only [view_toRunning, view_put, view_tick, Job.id_asRunning]
      rw [upd_ne _ _ hi.2]
      exact h.same i hi.1
    · intro j hj
      simp only [List.mem_append, List.mem_singleton] at hj
      rcases hj with hj | rfl
      · obtain ⟨i, job', a, b, c, d, e, f⟩ := h.started j hj
        refine ⟨i, job', a, ?_, c, d, e, ?_⟩
        · simp only [t_toRunning, t_put, t_tick] at b ⊢; omega
        · simp only [view_toRunning, view_put, view_tick, Job.id_asRunning]
          rw [upd_ne _ _ (fun e : j.id = job.id => hfresh (e ▸ List.mem_map_of_mem (f := Job.id) hj))]
          exact f
      · refine ⟨w.t, job, h.time, by simp, hv0, hready, rfl, by simp⟩
    · simp only [List.map_append, List.map_cons, List.map_nil, Job.id_asRunning]
      exact List.nodup_append.mpr ⟨h.nodup, by simp, by
        intro a ha b hb
        simp only [List.mem_singleton] at hb
        subst hb
        exact fun e => hfresh (e ▸ ha)⟩
    · simp only [List.length_append, List.length_cons, List.length_nil]; exact hlen
    · simp [h.running, hid]
    · have : (lst name w .queued ++ rd.map Job.id).Perm (lst name w0 .queued) := h.queued
      rw [hQ] at this
      refine List.Perm.trans ?_ this
      simp only [lst_toRunning, if_true, List.map_append, List.map_cons, List.map_nil, Job.id_asRunning, ← hid]
      rw [List.append_assoc]
      exact List.Perm.append_left _ (List.perm_append_comm)
    · intro st a b
      simp only [lst_toRunning, a, b, if_false, lst_put, lst_tick]
      exact h.others st a b
    · have := h.log; simp only at this; simp [this]

theorem Scan.turns (L : E.Lawful) {total : Nat} {w0 : W} (hk : Keyed E w0) (n : Nat) {p : W × List (Job D)}
    (h : Scan E name clk total w0 p) : Scan E name clk total w0 (turns E name clk total n p) := by
  induction n generalizing p with
  | zero => exact h
  | succ n ih => exact ih (h.turn L hk)

theorem turns_succ' (total n : Nat) (p : W × List (Job D)) :
    turns E name clk total (n + 1) p = turn E name clk total (turns E name clk total n p) := by
  rw [turns_add]; rfl

/-- The first pass over the queue: entry number `n` is examined in turn `n`. -/
structure Pass (E : Env D) (name : Str) (clk : Nat → Time) (total : Nat) (w0 : W) (n : Nat)
    (p : W × List (Job D)) : Prop where
  queue : ∃ u, (lst name p.1 .queued).reverse = (lst name w0 .queued).reverse.drop n ++ u ∧
    u.Sublist ((lst name w0 .queued).reverse.take n)
  order : (p.2.map Job.id).Sublist ((lst name w0 .queued).reverse.take n)
  /-- An examined entry was started, or there was no capacity, or it was not ready. -/
  seen : ∀ x ∈ (lst name w0 .queued).reverse.take n, ∀ job, view E w0 x = some job →
    x ∈ p.2.map Job.id ∨ p.2.length ≥ total ∨ ∃ i, w0.t ≤ i ∧ i < p.1.t ∧ job.readyAt (clk i) = false
  /-- Whoever waits in front of a started entry had its chance. -/
  fifo : ∀ a x b y, (lst name w0 .queued).reverse = a ++ x :: b → y ∈ b → y ∉ a → y ≠ x →
    y ∈ p.2.map Job.id → ∀ job, view E w0 x = some job →
    x ∈ p.2.map Job.id ∨ ∃ i, w0.t ≤ i ∧ i < p.1.t ∧ job.readyAt (clk i) = false

theorem Pass.init (total : Nat) (w0 : W) : Pass E name clk total w0 0 (w0, []) where
  queue := ⟨[], by simp, by simp⟩
  order := by simp
  seen _ h := absurd h (by simp)
  fifo := by simp

theorem mem_take_of_split {l a b : List Str} {x y : Str} {n : Nat} (h : l = a ++ x :: b)
    (hy : l[n]? = some y) (h1 : y ∉ a) (h2 : y ≠ x) : x ∈ l.take n := by
  have hn : a.length < n := by
    by_contra hc
    rcases Nat.lt_or_eq_of_le (Nat.le_of_not_lt hc) with hlt | heq
    · rw [h, List.getElem?_append_left hlt] at hy
      exact h1 (List.mem_of_getElem? hy)
    · rw [h, heq, List.getElem?_append_right (Nat.le_refl _)] at hy
      simp at hy
      exact h2 hy.symm
  obtain ⟨k, hk⟩ : ∃ k, n - a.length = k + 1 := ⟨n - a.length - 1, by omega⟩
  rw [h, List.take_append, hk]
  simp

theorem Pass.turn (L : E.Lawful) {total : Nat} {w0 : W} (hk : Keyed E w0) {n : Nat} {p : W × List (Job D)}
    (hn : n < (lst name w0 .queued).length) (hs : Scan E name clk total w0 p)
    (h : Pass E name clk total w0 n p) : Pass E name clk total w0 (n + 1) (turn E name clk total p) := by
  rcases p with ⟨w, rd⟩
  obtain ⟨⟨u, hu, hsub⟩, hord, hseen, hfifo⟩ := h
  simp only at hu hord hseen hfifo
  generalize hF : (lst name w0 .queued).reverse = F0 at *
  have hn' : n < F0.length := by rw [← hF]; simpa using hn
  have hd : F0.drop n = F0[n] :: F0.drop (n + 1) := List.drop_eq_getElem_cons hn'
  have htk : F0.take (n + 1) = F0.take n ++ [F0[n]] := (List.take_append_getElem hn').symm
  have hq : (lst name w .queued).reverse = F0[n] :: (F0.drop (n + 1) ++ u) := by rw [hu, hd]; rfl
  have hget : F0[n]? = some F0[n] := List.getElem?_eq_getElem hn'
  generalize F0[n] = id at *
  have hc := turn_cases E name clk total id (F0.drop (n + 1) ++ u) w rd hq
  have hkw := hs.keyed L hk
  have hsame := hs.same
  simp only at hkw hsame
  generalize W.turn E name clk total (w, rd) = q at hc
  have hsub' : (u ++ [id]).Sublist (F0.take (n + 1)) := by
    rw [htk]; exact hsub.append (List.Sublist.refl _)
  have hord' : (rd.map Job.id).Sublist (F0.take (n + 1)) := by
    rw [htk]; exact hord.trans (List.sublist_append_left _ _)
  cases hc with
  | gone hv =>
    refine ⟨⟨u ++ [id], by simp [hF], by rw [hF]; exact hsub'⟩, by rw [hF]; exact hord', ?_, ?_⟩
    · rw [hF, htk]
      intro x hx job hj
      rcases List.mem_append.mp hx with hx | hx
      · exact hseen x hx job hj
      · simp only [List.mem_singleton] at hx
        subst hx
        by_cases hm : x ∈ rd.map Job.id
        · exact .inl hm
        · rw [← hsame x hm, hv] at hj; cases hj
    · rw [hF]; exact hfifo
  | skip job hv ht =>
    refine ⟨⟨u ++ [id], by simp [hF], by rw [hF]; exact hsub'⟩, by rw [hF]; exact hord', ?_, ?_⟩
    · rw [hF, htk]
      intro x hx job' hj
      rcases List.mem_append.mp hx with hx | hx
      · rcases hseen x hx job' hj with a | a | ⟨i, a, b, c⟩
        · exact .inl a
        · exact .inr (.inl a)
        · exact .inr (.inr ⟨i, a, Nat.lt_succ_of_lt b, c⟩)
      · simp only [List.mem_singleton] at hx
        subst hx
        by_cases hm : x ∈ rd.map Job.id
        · exact .inl hm
        · rw [← hsame x hm, hv] at hj
          cases hj
          simp only [takes, Bool.and_eq_false_iff, decide_eq_false_iff_not, Bool.not_eq_false',
            List.any_eq_true, decide_eq_true_eq] at ht
          rcases ht with (ht | ht) | ⟨r, hr, e⟩
          · exact .inr (.inr ⟨w.t, hs.time, by simp, ht⟩)
          · exact .inr (.inl (Nat.le_of_not_lt ht))
          · refine .inl (List.mem_map.mpr ⟨r, hr, ?_⟩)
            rw [e]; exact hkw x job hv
    · rw [hF]
      intro a x b y e1 e2 e3 e4 e5 job' e6
      rcases hfifo a x b y e1 e2 e3 e4 e5 job' e6 with h | ⟨i, h1, h2, h3⟩
      · exact .inl h
      · exact .inr ⟨i, h1, Nat.lt_succ_of_lt h2, h3⟩
  | pick job hv ht =>
    have hid : job.id = id := hkw id job hv
    simp only [takes, Bool.and_eq_true, decide_eq_true_eq] at ht
    have hlen : rd.length < total := ht.1.2
    refine ⟨⟨u, by simp [hF], by rw [hF, htk]; exact hsub.trans (List.sublist_append_left _ _)⟩, ?_, ?_, ?_⟩
    · rw [hF, htk]
      simp only [List.map_append, List.map_cons, List.map_nil, Job.id_asRunning, hid]
      exact hord.append (List.Sublist.refl _)
    · rw [hF, htk]
      intro x hx job' hj
      rcases List.mem_append.mp hx with hx | hx
      · rcases hseen x hx job' hj with a | a | ⟨i, a, b, c⟩
        · exact .inl (by simp [a])
        · omega
        · exact .inr (.inr ⟨i, a, by simp; omega, c⟩)
      · simp only [List.mem_singleton] at hx
        subst hx
        exact .inl (by simp [hid])
    · rw [hF]
      intro a x b y e1 e2 e3 e4 e5 job' e6
      simp only [List.map_append, List.map_cons, List.map_nil, Job.id_asRunning, hid, List.mem_append,
        List.mem_singleton] at e5 ⊢
      rcases e5 with e5 | e5
      · rcases hfifo a x b y e1 e2 e3 e4 e5 job' e6 with h | ⟨i, h1, h2, h3⟩
        · exact .inl (.inl h)
        · exact .inr ⟨i, h1, by simp; omega, h3⟩
      · subst e5
        rcases hseen x (mem_take_of_split e1 hget e3 e4) job' e6 with h | h | ⟨i, h1, h2, h3⟩
        · exact .inl (.inl h)
        · omega
        · exact .inr ⟨i, h1, by simp; omega, h3⟩

theorem Pass.turns (L : E.Lawful) {total : Nat} {w0 : W} (hk : Keyed E w0) (n : Nat)
    (hn : n ≤ (lst name w0 .queued).length) :
    Pass E name clk total w0 n (turns E name clk total n (w0, [])) := by
  induction n with
  | zero => exact Pass.init total w0
  | succ n ih =>
    rw [turns_succ']
    exact (ih (by omega)).turn L hk (by omega) ((Scan.init total w0).turns L hk n)

/-- Started jobs stay started. -/
theorem turn_mono (total : Nat) (p : W × List (Job D)) :
    (∃ l, (turn E name clk total p).2 = p.2 ++ l) ∧ p.1.t ≤ (turn E name clk total p).1.t := by
  rcases p with ⟨w, rd⟩
  rcases hq : (lst name w .queued).reverse with _ | ⟨id, F⟩
  · rw [WorkQueue.turn_empty E name clk total (w, rd) (by simpa using hq)]; exact ⟨⟨[], by simp⟩, Nat.le_refl _⟩
  have hc := turn_cases E name clk total id F w rd hq
  generalize W.turn E name clk total (w, rd) = q at hc
  cases hc with
  | gone hv => exact ⟨⟨[], by simp⟩, Nat.le_refl _⟩
  | skip job hv ht => exact ⟨⟨[], by simp⟩, by simp⟩
  | pick job hv ht => exact ⟨⟨_, rfl⟩, by simp; omega⟩

theorem turns_mono (total n : Nat) (p : W × List (Job D)) :
    (∃ l, (turns E name clk total n p).2 = p.2 ++ l) ∧ p.1.t ≤ (turns E name clk total n p).1.t := by
  induction n generalizing p with
  | zero => exact ⟨⟨[], by simp [turns]⟩, Nat.le_refl _⟩
  | succ n ih =>
    obtain ⟨⟨l, h1⟩, h2⟩ := turn_mono (E := E) (name := name) (clk := clk) total p
    obtain ⟨⟨l', h3⟩, h4⟩ := ih (turn E name clk total p)
    exact ⟨⟨l ++ l', by rw [turns, h3, h1, List.append_assoc]⟩, Nat.le_trans h2 h4⟩

/-- A scan that examined at least as many entries as there were, with capacity left, started every job
that stayed ready. -/
theorem scan_all (L : E.Lawful) {total : Nat} {w0 : W} (hk : Keyed E w0) (k : Nat)
    (hlen : (lst name w0 .queued).length ≤ k) (x : Str) (hx : x ∈ lst name w0 .queued) (job : Job D)
    (hj : view E w0 x = some job)
    (hready : ∀ i, w0.t ≤ i → i < (turns E name clk total k (w0, [])).1.t → job.readyAt (clk i) = true)
    (hcap : (turns E name clk total k (w0, [])).2.length < total) :
    x ∈ (turns E name clk total k (w0, [])).2.map Job.id := by
  obtain ⟨m, rfl⟩ : ∃ m, k = (lst name w0 .queued).length + m := ⟨_, (Nat.add_sub_cancel' hlen).symm⟩
  rw [turns_add] at *
  obtain ⟨⟨l, h1⟩, h2⟩ := turns_mono (E := E) (name := name) (clk := clk) total m
    (turns E name clk total (lst name w0 .queued).length (w0, []))
  have hp := (Pass.turns (clk := clk) (total := total) L hk _ (Nat.le_refl (lst name w0 .queued).length)).seen x
    (by rw [List.take_of_length_le (by simp)]; simpa using hx) job hj
  rcases hp with h | h | ⟨i, a, b, c⟩
  · rw [h1, List.map_append]; exact List.mem_append_left _ h
  · rw [h1, List.length_append] at hcap; omega
  · rw [hready i a (Nat.lt_of_lt_of_le b h2)] at c; cases c

/-- A queue of at most twenty entries is scanned in one pass. -/
theorem run_pick_small (fuel : Nat) (cfg : WorkQueueConfig) (w : W)
    (hl : (lst name w .queued).length ≤ 20) :
    ∃ k, k ≤ (lst name w .queued).length ∧ ((free name cfg w = 0 ∧ k = 0) ∨ k = (lst name w .queued).length) ∧
      (WorkQueue.pickJobsToProcess E name (fuel + 1) cfg).run SpecB clk w
        = (.ok (turns E name clk (free name cfg w) k (w, [])).2,
            (turns E name clk (free name cfg w) k (w, [])).1) := by
  have hrun : (WorkQueue.pickJobsToProcess E name (fuel + 1) cfg).run SpecB clk w =
      (if (lst name w .running).length ≥ cfg.maxProcessingJobs then (.ret [] : Prog (List (Job D)))
        else WorkQueue.tryPickSpecificReadyJobs E name (fuel + 1) (free name cfg w)).run SpecB clk w := rfl
  rw [hrun]
  split
  · next h => exact ⟨0, Nat.zero_le _, .inl ⟨Nat.sub_eq_zero_of_le h, rfl⟩, rfl⟩
  · refine ⟨_, Nat.le_refl _, .inr rfl, ?_⟩
    simp only [WorkQueue.tryPickSpecificReadyJobs, Prog.bind_eq, Prog.run_bind, Prog.run_count?,
      Prog.contRun_ok, WorkQueue.pickLoop_succ, Prog.run_get?]
    have ht : (lst name w .queued).reverse.take 20 = (lst name w .queued).reverse :=
      List.take_of_length_le (by simpa using hl)
    rw [ht, WorkQueue.wrapI32_of_fits (by omega) (by omega)]
    have ha : addI32 E.overflowChecks ((lst name w .queued).length : Int)
        (-((lst name w .queued).reverse.length : Int)) = some 0 := by
      simp [addI32, fitsI32, Int.add_right_neg]
    rw [ha]
    simp only [Prog.run_orPanic_some, Prog.contRun_ok]
    rw [Prog.run_bind, WorkQueue.run_pickBatch E name clk _ _ [] w [] (by simp)]
    simp only [Prog.contRun_ok, List.length_reverse]
    split <;> rfl

end W
end AJ
