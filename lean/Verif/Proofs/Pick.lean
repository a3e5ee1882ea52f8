import Verif.Proofs.World
import Mathlib.Tactic.ByContra

/-! # The scan of the queued list, one examined entry at a time -/

namespace AJ

namespace W
variable {D : Type} (E : Env D) (name : Str) (clk : Nat → Time)

/-- Put the oldest entry behind the others; `F` is the rest, oldest first. -/
def rotate (id : Str) (F : List Str) (w : W) : W := setL name .queued (F ++ [id]).reverse w

/-- Move the oldest entry to the running list. -/
def toRunning (id : Str) (F : List Str) (w : W) : W :=
  setL name .running (id :: lst name w .running) (setL name .queued F.reverse w)

/-- The test of one examined entry. -/
def takes (total : Nat) (job : Job D) (now : Time) (ready : List (Job D)) : Bool :=
  job.readyAt now && decide (ready.length < total) && !(ready.any fun r => decide (r.id = job.id))

/-- Examine the oldest queued entry. -/
def turn (total : Nat) (p : W × List (Job D)) : W × List (Job D) :=
  match (lst name p.1 .queued).reverse with
  | [] => p
  | id :: F =>
    match view E p.1 id with
    | some job =>
      if takes total job (clk p.1.t) p.2 then
        let j := job.asRunning (clk (p.1.t + 1) / nsPerMs)
        (toRunning name id F (put E j (tick (tick p.1))), p.2 ++ [j])
      else (rotate name id F (tick p.1), p.2)
    | none => (rotate name id F p.1, p.2)

/-- Examine `n` entries. -/
def turns (total : Nat) : Nat → W × List (Job D) → W × List (Job D)
  | 0, p => p
  | n + 1, p => turns total n (turn E name clk total p)

theorem turns_add (total m n : Nat) (p : W × List (Job D)) :
    turns E name clk total (m + n) p = turns E name clk total n (turns E name clk total m p) := by
  induction m generalizing p with
  | zero => simp [turns]
  | succ m ih => rw [Nat.succ_add]; exact ih _

/-- How examining the oldest entry may go. -/
inductive Turn (total : Nat) (id : Str) (F : List Str) (w : W) (rd : List (Job D)) : W × List (Job D) → Prop where
  | gone (h : view E w id = none) : Turn total id F w rd (rotate name id F w, rd)
  | skip (job : Job D) (h : view E w id = some job) (ht : takes total job (clk w.t) rd = false) :
      Turn total id F w rd (rotate name id F (tick w), rd)
  | pick (job : Job D) (h : view E w id = some job) (ht : takes total job (clk w.t) rd = true) :
      Turn total id F w rd
        (toRunning name id F (put E (job.asRunning (clk (w.t + 1) / nsPerMs)) (tick (tick w))),
          rd ++ [job.asRunning (clk (w.t + 1) / nsPerMs)])

theorem turn_cases (total : Nat) (id : Str) (F : List Str) (w : W) (rd : List (Job D))
    (h : (lst name w .queued).reverse = id :: F) :
    Turn E name clk total id F w rd (turn E name clk total (w, rd)) := by
  simp only [turn, h]
  cases hv : view E w id with
  | none => exact .gone hv
  | some job =>
    simp only
    cases ht : takes total job (clk w.t) rd with
    | true => exact .pick job hv ht
    | false => exact .skip job hv ht

@[simp] theorem lst_rotate (id : Str) (F : List Str) (w : W) (st : JobStatus) :
    lst name (rotate name id F w) st = if st = .queued then (F ++ [id]).reverse else lst name w st :=
  lst_setL _ _ _ _

@[simp] theorem lst_toRunning (id : Str) (F : List Str) (w : W) (st : JobStatus) :
    lst name (toRunning name id F w) st =
      if st = .queued then F.reverse else if st = .running then id :: lst name w .running
      else lst name w st := by
  simp only [toRunning, lst_setL]
  cases st <;> simp

@[simp] theorem view_rotate (id : Str) (F : List Str) (w : W) : view E (rotate name id F w) = view E w := rfl
@[simp] theorem view_toRunning (id : Str) (F : List Str) (w : W) :
    view E (toRunning name id F w) = view E w := rfl
@[simp] theorem t_rotate (id : Str) (F : List Str) (w : W) : (rotate name id F w).t = w.t := rfl
@[simp] theorem t_toRunning (id : Str) (F : List Str) (w : W) : (toRunning name id F w).t = w.t := rfl
@[simp] theorem log_rotate (id : Str) (F : List Str) (w : W) : (rotate name id F w).log = w.log := rfl
@[simp] theorem log_toRunning (id : Str) (F : List Str) (w : W) : (toRunning name id F w).log = w.log := rfl

end W

namespace Prog
open W
variable {D : Type} (E : Env D) (name : Str) (clk : Nat → Time)

theorem run_move? (a b : JobStatus) (w : W) :
    (orFail (queueMove (formatQueueName name a) (formatQueueName name b) 1 .back .front)).run SpecB clk w
      = (.ok ((lst name w a).reverse.take 1),
          let w1 := setL name a ((lst name w a).reverse.drop 1).reverse w
          setL name b (((lst name w a).reverse.take 1).reverse ++ lst name w1 b) w1) := rfl

theorem run_rotate (id : Str) (F : List Str) (w : W) (h : (lst name w .queued).reverse = id :: F) :
    (orFail (queueMove (formatQueueName name .queued) (formatQueueName name .queued) 1 .back .front)).run
      SpecB clk w = (.ok [id], rotate name id F w) := by
  rw [run_move?, h]
  simp [rotate, setL, lst]

theorem run_toRunning (id : Str) (F : List Str) (w : W) (h : (lst name w .queued).reverse = id :: F) :
    (orFail (queueMove (formatQueueName name .queued) (formatQueueName name .running) 1 .back .front)).run
      SpecB clk w = (.ok [id], toRunning name id F w) := by
  rw [run_move?, h]
  simp [toRunning, lst_setL]

end Prog

namespace WorkQueue
open W Prog
variable {D : Type} (E : Env D) (name : Str) (clk : Nat → Time)

theorem turn_queue (total : Nat) (id : Str) (F : List Str) (w : W) (rd : List (Job D))
    (h : (lst name w .queued).reverse = id :: F) :
    ∃ u, (lst name (turn E name clk total (w, rd)).1 .queued).reverse = F ++ u := by
  have hc := turn_cases E name clk total id F w rd h
  generalize turn E name clk total (w, rd) = p at hc
  cases hc with
  | gone h => exact ⟨[id], by simp⟩
  | skip j h ht => exact ⟨[id], by simp⟩
  | pick j h ht => exact ⟨[], by simp⟩

theorem pickBatch_cons (total : Nat) (id : Str) (ids : List Str) (rd : List (Job D)) :
    pickBatch E name total (id :: ids) rd =
      (getFromStorage E id).bind fun r => match r with
        | some job => job.isReady.bind fun b =>
          if b && decide (rd.length < total) && !(rd.any fun r => decide (r.id = job.id)) then
            (job.process E).bind fun job =>
              (orFail (queueMove (formatQueueName name .queued) (formatQueueName name .running) 1
                .back .front)).bind fun _ => pickBatch E name total ids (rd ++ [job])
          else (orFail (queueMove (formatQueueName name .queued) (formatQueueName name .queued) 1
                .back .front)).bind fun _ => pickBatch E name total ids rd
        | none => (orFail (queueMove (formatQueueName name .queued) (formatQueueName name .queued) 1
                .back .front)).bind fun _ => pickBatch E name total ids rd := rfl

theorem run_pickBatch (total : Nat) (ids rest : List Str) (w : W) (rd : List (Job D))
    (h : (lst name w .queued).reverse = ids ++ rest) :
    (pickBatch E name total ids rd).run SpecB clk w
      = (.ok (turns E name clk total ids.length (w, rd)).2, (turns E name clk total ids.length (w, rd)).1) := by
  induction ids generalizing w rd rest with
  | nil => rfl
  | cons id ids ih =>
    have h' : (lst name w .queued).reverse = id :: (ids ++ rest) := h
    obtain ⟨u, hu⟩ := turn_queue E name clk total id (ids ++ rest) w rd h'
    rw [List.append_assoc] at hu
    have hu' := ih (rest ++ u) _ (turn E name clk total (w, rd)).2 hu
    simp only [List.length_cons, turns]
    refine Eq.trans ?_ hu'
    rw [pickBatch_cons]
    simp only [run_bind, run_getFromStorage, contRun_ok]
    cases hv : view E w id with
    | none =>
      simp only [run_bind, run_rotate name clk id _ w h', contRun_ok, turn, h', hv]
    | some job =>
      simp only [run_bind, run_isReady, contRun_ok, turn, h', hv]
      have ht : takes total job (clk w.t) rd =
        (job.readyAt (clk w.t) && decide (rd.length < total) && !(rd.any fun r => decide (r.id = job.id))) := rfl
      rw [← ht]
      cases takes total job (clk w.t) rd with
      | true =>
        simp only [if_true, run_bind, run_jProcess, contRun_ok]
        rw [run_toRunning name clk id (ids ++ rest) _ (by simpa using h')]
        rfl
      | false =>
        simp only [Bool.false_eq_true, if_false, run_bind]
        rw [run_rotate name clk id (ids ++ rest) _ (by simpa using h')]
        rfl

theorem turn_empty (total : Nat) (p : W × List (Job D)) (h : lst name p.1 .queued = []) :
    turn E name clk total p = p := by simp [turn, h]

theorem turn_len (total : Nat) (p : W × List (Job D)) :
    (lst name (turn E name clk total p).1 .queued).length + (turn E name clk total p).2.length
      = (lst name p.1 .queued).length + p.2.length ∧
    (turn E name clk total p).2.length ≤ p.2.length + 1 := by
  rcases p with ⟨w, rd⟩
  rcases h : (lst name w .queued).reverse with _ | ⟨id, F⟩
  · rw [turn_empty E name clk total (w, rd) (by simpa using h)]; simp
  · have hl : (lst name w .queued).length = F.length + 1 := by
      rw [← List.length_reverse, h]; rfl
    have hc := turn_cases E name clk total id F w rd h
    generalize turn E name clk total (w, rd) = p at hc
    cases hc <;> simp [hl] <;> omega

theorem turns_len (total n : Nat) (p : W × List (Job D)) :
    (lst name (turns E name clk total n p).1 .queued).length + (turns E name clk total n p).2.length
      = (lst name p.1 .queued).length + p.2.length ∧
    (turns E name clk total n p).2.length ≤ p.2.length + n := by
  induction n generalizing p with
  | zero => simp [turns]
  | succ n ih =>
    have h1 := ih (turn E name clk total p)
    have h2 := turn_len E name clk total p
    simp only [turns]
    omega

theorem pickLoop_succ (total fuel : Nat) (cursor : Int) (rd : List (Job D)) :
    pickLoop E name total (fuel + 1) cursor rd =
      (orFail (queueGet (formatQueueName name .queued) 20 .back)).bind fun ids =>
        (orPanic (addI32 E.overflowChecks cursor (-(ids.length : Int)))).bind fun cursor =>
          (pickBatch E name total ids rd).bind fun ready =>
            if ready.length ≥ total then ret ready
            else if cursor ≤ 0 then ret ready
            else pickLoop E name total fuel cursor ready := rfl

theorem wrapI32_range (x : Int) : -(2 ^ 31) ≤ wrapI32 x ∧ wrapI32 x < 2 ^ 31 := by
  unfold wrapI32
  have h1 := Int.le_bmod (x := x) (m := 2 ^ 32) (by decide)
  have h2 := Int.bmod_lt (x := x) (m := 2 ^ 32) (by decide)
  constructor <;> omega

theorem wrapI32_of_fits {x : Int} (h1 : -(2 ^ 31) ≤ x) (h2 : x < 2 ^ 31) : wrapI32 x = x := by
  unfold wrapI32
  exact Int.bmod_eq_of_le (by omega) (by omega)

theorem addI32_wrap {chk : Bool} {a b c : Int} (h : addI32 chk a b = some c) : c = wrapI32 (a + b) := by
  unfold addI32 at h
  split at h
  · next hf =>
    simp only [fitsI32, Bool.and_eq_true, decide_eq_true_eq] at hf
    cases h
    exact (wrapI32_of_fits hf.1 hf.2).symm
  · split at h
    · cases h
    · cases h; rfl

/-- What one scan does: it examines some number `k` of entries, and stops because capacity is used up
or the cursor is not positive any more. The only panic is the cursor's overflow in the first round. -/
theorem run_pickLoop (total fuel len m : Nat) (cursor : Int) (w : W) (rd : List (Job D))
    (hc : cursor = wrapI32 ((len : Int) - m)) (hm : m < len ∨ m = 0)
    (hl : (lst name w .queued).length + rd.length = len) (hr : rd.length ≤ m)
    (hf : len - m < fuel) :
    (∃ k, (pickLoop E name total fuel cursor rd).run SpecB clk w
        = (.ok (turns E name clk total k (w, rd)).2, (turns E name clk total k (w, rd)).1) ∧
      ((turns E name clk total k (w, rd)).2.length ≥ total ∨ wrapI32 ((len : Int) - (m + k)) ≤ 0) ∧
      (len < 2 ^ 31 → (turns E name clk total k (w, rd)).2.length ≥ total ∨ len ≤ m + k)) ∨
    ((pickLoop E name total fuel cursor rd).run SpecB clk w = (.panicked, w) ∧
      E.overflowChecks = true ∧ cursor < -(2 ^ 31) + 20) := by
  induction fuel generalizing m cursor w rd with
  | zero => omega
  | succ fuel ih =>
    rw [pickLoop_succ]
    simp only [run_bind, run_get?, contRun_ok]
    generalize hids : (lst name w .queued).reverse.take 20 = ids
    have hidl : ids.length = min 20 (lst name w .queued).length := by rw [← hids]; simp
    have hQ : (lst name w .queued).reverse = ids ++ (lst name w .queued).reverse.drop 20 := by
      rw [← hids]; simp
    cases ha : addI32 E.overflowChecks cursor (-(ids.length : Int)) with
    | none =>
      right
      refine ⟨by simp, ?_, ?_⟩
      · unfold addI32 at ha
        split at ha
        · cases ha
        · split at ha
          · assumption
          · cases ha
      · unfold addI32 at ha
        split at ha
        · cases ha
        · next hfit =>
          have := wrapI32_range ((len : Int) - m)
          rw [← hc] at this
          have h20 : (ids.length : Int) ≤ 20 := by omega
          by_contra hge
          apply hfit
          simp only [fitsI32, Bool.and_eq_true, decide_eq_true_eq]
          constructor <;> omega
    | some c =>
      have hcw : c = wrapI32 ((len : Int) - ((m + ids.length : Nat) : Int)) := by
        rw [addI32_wrap ha, hc]
        unfold wrapI32
        rw [Int.bmod_add_bmod]
        congr 1
        omega
      left
      simp only [run_orPanic_some, contRun_ok, run_bind]
      rw [run_pickBatch E name clk total ids _ w rd hQ]
      simp only [contRun_ok]
      by_cases h1 : (turns E name clk total ids.length (w, rd)).2.length ≥ total
      · exact ⟨ids.length, by rw [if_pos h1]; rfl, .inl h1, fun _ => .inl h1⟩
      · rw [if_neg h1]
        by_cases h2 : c ≤ 0
        · refine ⟨ids.length, by rw [if_pos h2]; rfl, .inr ?_, fun hlen => .inr ?_⟩
          · rw [← Int.natCast_add, ← hcw]; exact h2
          · rw [hcw, wrapI32_of_fits (by omega) (by omega)] at h2
            omega
        · rw [if_neg h2]
          have hlt := turns_len E name clk total ids.length (w, rd)
          simp only at hlt
          have hlt2 : m + ids.length < len := by
            by_contra hge
            rw [hcw, wrapI32_of_fits (by omega) (by omega)] at h2
            omega
          have hpos : 0 < ids.length := by omega
          rcases ih (m + ids.length) c (turns E name clk total ids.length (w, rd)).1
            (turns E name clk total ids.length (w, rd)).2 hcw (.inl hlt2) (by omega) (by omega)
            (by omega) with ⟨k, hk1, hk2, hk3⟩ | ⟨hk1, _, hk3⟩
          · refine ⟨ids.length + k, ?_, ?_, ?_⟩
            · rw [turns_add]; exact hk1
            · rw [turns_add]
              simpa [Int.natCast_add, Int.add_assoc] using hk2
            · rw [turns_add]
              intro hlen
              simpa [Nat.add_assoc] using hk3 hlen
          · omega

/-- More fuel does not change a scan that ends. -/
theorem pickLoop_mono (total fuel : Nat) (cursor : Int) (B : Backend) (w : World B) (rd : List (Job D))
    (h : ((pickLoop E name total fuel cursor rd).run B clk w).1 ≠ .diverged) (n : Nat) :
    (pickLoop E name total (fuel + n) cursor rd).run B clk w
      = (pickLoop E name total fuel cursor rd).run B clk w := by
  induction fuel generalizing cursor w rd with
  | zero => exact absurd rfl h
  | succ fuel ih =>
    rw [Nat.succ_add]
    rw [pickLoop_succ] at h
    rw [pickLoop_succ, pickLoop_succ]
    simp only [run_bind] at h ⊢
    generalize (orFail (queueGet (formatQueueName name .queued) 20 .back)).run B clk w = p1 at h ⊢
    rcases p1 with ⟨(ids | e | _ | _), w1⟩
    · simp only [contRun_ok, run_bind] at h ⊢
      generalize (orPanic (addI32 E.overflowChecks cursor (-(ids.length : Int)))).run B clk w1 = p2 at h ⊢
      rcases p2 with ⟨(c | e | _ | _), w2⟩
      · simp only [contRun_ok, run_bind] at h ⊢
        generalize (pickBatch E name total ids rd).run B clk w2 = p3 at h ⊢
        rcases p3 with ⟨(rd2 | e | _ | _), w3⟩
        · simp only [contRun_ok] at h ⊢
          split
          · rfl
          · next h1 =>
            rw [if_neg h1] at h
            split
            · rfl
            · next h2 =>
              rw [if_neg h2] at h
              exact ih _ _ _ h
        all_goals rfl
      all_goals rfl
    all_goals rfl

/-- Free capacity. -/
def _root_.AJ.W.free (cfg : WorkQueueConfig) (w : W) : Nat :=
  cfg.maxProcessingJobs - (lst name w .running).length

/-- A whole tick, with enough fuel. -/
theorem run_pickJobs (fuel : Nat) (cfg : WorkQueueConfig) (w : W)
    (hf : (lst name w .queued).length < fuel) :
    (∃ k, (pickJobsToProcess E name fuel cfg).run SpecB clk w
        = (.ok (turns E name clk (free name cfg w) k (w, [])).2,
            (turns E name clk (free name cfg w) k (w, [])).1) ∧
      ((lst name w .queued).length < 2 ^ 31 →
        (turns E name clk (free name cfg w) k (w, [])).2.length ≥ free name cfg w ∨
        (lst name w .queued).length ≤ k)) ∨
    ((pickJobsToProcess E name fuel cfg).run SpecB clk w = (.panicked, w) ∧
      E.overflowChecks = true ∧ wrapI32 (lst name w .queued).length < -(2 ^ 31) + 20) := by
  have hrun : (pickJobsToProcess E name fuel cfg).run SpecB clk w =
      (if (lst name w .running).length ≥ cfg.maxProcessingJobs then (ret [] : Prog (List (Job D)))
        else tryPickSpecificReadyJobs E name fuel (free name cfg w)).run SpecB clk w := rfl
  rw [hrun]
  split
  · next h =>
    exact .inl ⟨0, rfl, fun _ => .inl (by simp only [free]; omega)⟩
  · simp only [tryPickSpecificReadyJobs, bind_eq, run_bind, run_count?, contRun_ok]
    rcases run_pickLoop E name clk (free name cfg w) fuel (lst name w .queued).length 0
      (wrapI32 (lst name w .queued).length) w [] (by simp) (.inr rfl) (by simp) (by simp) (by omega)
      with ⟨k, h1, _, h3⟩ | h
    · exact .inl ⟨k, h1, by simpa using h3⟩
    · exact .inr h

end WorkQueue
end AJ
