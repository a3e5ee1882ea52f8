import Verif.Proofs.Record
import Verif.Props.Overlap

/-!
# The messages of a process are a record of what it did (C78)

Processes interleave call by call in any way, die anywhere, and their calls fail. What a process tells its plugin centre about a
job is still covered, at every moment, by what that process did with the job and by what it was asked to do.
-/

namespace AJ.Props
open Prog

section
variable {ι D O : Type} [DecidableEq ι] {b : Impl} {E : Env D} (L : E.Lawful) {name : ι → Str} {ops : ι → List (Op D O × Nat)}
  {script : Nat → Fate} {clk : ι → Nat → Time} (hq : ∀ n, (script n).env = []) (sched : List ι)
include L hq

/-- At every moment `l` of the log of a process: no more executions of a job than it announced as running; no more ends than
executions; no more announcements as queued than it was asked for and made unsuccessful or repeating executions; no more
cancellations than it was asked for; and the hooks are asked for once before and at most once after each execution. -/
theorem C78_record (i : ι) (k : Str) {l : List Event} (hl : l <+: (b.overlapped E name ops script clk sched).log i) :
    Record k ((ops i).countP fun o => o.1.asks k) ((ops i).countP fun o => o.1.cancels k) l :=
  overlap_record L hq sched i k hl

/-- An end of a job is only announced after an execution that this process made, and that it announced before. -/
theorem C78_order (i : ι) (k : Str) {st : JobStatus} (hst : st = .finished ∨ st = .failed) {l rest : List Event}
    (hl : l ++ .statusMsg k st :: rest = (b.overlapped E name ops script clk sched).log i) :
    told k .finished l + told k .failed l < runsOf k l ∧ runsOf k l ≤ told k .running l := by
  have h1 := C78_record (l := l ++ [.statusMsg k st]) L hq sched i k ⟨rest, by rw [← hl]; simp⟩
  have h2 := C78_record (l := l) L hq sched i k ⟨_, hl⟩
  refine ⟨?_, h2.announced⟩
  have h := h1.ended
  have e : runsOf k (l ++ [.statusMsg k st]) = runsOf k l := by simp [runsOf]
  rw [e] at h
  rcases hst with rfl | rfl <;> simp only [told, List.countP_append, List.countP_singleton] at h ⊢ <;> simp at h <;> omega

/-- A job is only executed after it was announced as running one more time than it was executed. -/
theorem C78_announced (i : ι) {c : JobContext} {l rest : List Event}
    (hl : l ++ .ran c :: rest = (b.overlapped E name ops script clk sched).log i) :
    runsOf c.jobId l < told c.jobId .running l ∧ runsOf c.jobId l < hookings c.jobId l := by
  have h1 := C78_record (l := l ++ [.ran c]) L hq sched i c.jobId ⟨rest, by rw [← hl]; simp⟩
  have e : runsOf c.jobId (l ++ [.ran c]) = runsOf c.jobId l + 1 := by simp [runsOf]
  have e1 : told c.jobId .running (l ++ [.ran c]) = told c.jobId .running l := by simp [told]
  have e2 : hookings c.jobId (l ++ [.ran c]) = hookings c.jobId l := by simp [hookings]
  have h2 := h1.announced
  have h3 := h1.before
  rw [e, e1] at h2
  rw [e, e2] at h3
  exact ⟨h2, h3⟩

/-- A process that was not asked for a job and has not executed it may have announced it as running, but never as queued,
finished or failed; and one that was not asked to cancel it never announces that. -/
theorem C78_silent (i : ι) (k : Str) (ha : ∀ o ∈ ops i, o.1.asks k = false)
    (hr : ∀ e ∈ (b.overlapped E name ops script clk sched).log i, ∀ c, e = .ran c → c.jobId ≠ k) {st : JobStatus}
    (hm : .statusMsg k st ∈ (b.overlapped E name ops script clk sched).log i) :
    st = .running ∨ st = .canceled ∧ ∃ o ∈ ops i, o.1.cancels k = true := by
  have h := C78_record (l := (b.overlapped E name ops script clk sched).log i) L hq sched i k (List.prefix_refl _)
  have h0 : ((ops i).countP fun o => o.1.asks k) = 0 := List.countP_eq_zero.2 fun o ho => by simp [ha o ho]
  have h1 : runsOf k ((b.overlapped E name ops script clk sched).log i) = 0 := by
    refine List.countP_eq_zero.2 fun e he => ?_
    cases e with
    | ran c => simpa using hr _ he c rfl
    | _ => simp
  have hpos : 0 < told k st ((b.overlapped E name ops script clk sched).log i) := List.countP_pos_iff.2 ⟨_, hm, by simp⟩
  have hqd := h.queued
  rw [h0, h1] at hqd
  cases st with
  | running => exact .inl rfl
  | canceled =>
    obtain ⟨o, ho, hc⟩ := List.countP_pos_iff.1 (Nat.lt_of_lt_of_le hpos h.canceled)
    exact .inr ⟨rfl, o, ho, hc⟩
  | queued => omega
  | finished => omega
  | failed => omega

end

/-! ## Concrete cases -/

namespace Demo
open AJ.Demo

/-- What the two processes of `rivalry` say about the job they both execute. -/
example : told c!"a" .queued ((rivalry Impl.memory 50).log true) = 2 ∧ told c!"a" .running ((rivalry Impl.memory 50).log true) = 2 ∧
    runsOf c!"a" ((rivalry Impl.memory 50).log true) = 2 ∧ told c!"a" .failed ((rivalry Impl.memory 50).log true) = 1 ∧
    hookings c!"a" ((rivalry Impl.memory 50).log true) = 4 ∧ ((rivals true).countP fun o => o.1.asks c!"a") = 1 := by
  decide +kernel

example : told c!"a" .queued ((rivalry Impl.redis 50).log false) = 1 ∧ runsOf c!"a" ((rivalry Impl.redis 50).log false) = 2 ∧
    told c!"a" .failed ((rivalry Impl.redis 50).log false) = 1 ∧ ((rivals false).countP fun o => o.1.asks c!"a") = 0 := by
  decide +kernel

/-- A moment at which the second process, which was never asked for the job, has announced it as running and not executed it. -/
example : (∀ o ∈ rivals false, o.1.asks c!"a" = false) ∧ runsOf c!"a" ((rivalry Impl.memory 15).log false) = 0 ∧
    .statusMsg c!"a" .running ∈ (rivalry Impl.memory 15).log false := by
  decide +kernel

/-- At no moment of any interleaving has it announced more failures than it made executions. -/
example (b : Impl) (sched : List Bool) :
    told c!"a" .failed ((b.overlapped E (fun _ => c!"print") rivals lostReply (fun _ => clk) sched).log false) ≤
      runsOf c!"a" ((b.overlapped E (fun _ => c!"print") rivals lostReply (fun _ => clk) sched).log false) :=
  Nat.le_trans (Nat.le_add_left ..) (C78_record lawful lostReply_quiet sched false c!"a" (List.prefix_refl _)).ended

end Demo
end AJ.Props
