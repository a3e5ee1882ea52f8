import Verif.Proofs.Many
import Verif.Proofs.Crash
import Verif.Spec.Crash

/-! # The same turns later, and with a clock that differs elsewhere -/

namespace AJ

section
variable {B : Backend} {α : Type} {c c' : Nat → Time} {n : Nat} {l : List Event}

/-- The same backend, `n` clock reads and the messages `l` later. -/
def World.late (n : Nat) (l : List Event) (w : World B) : World B := ⟨w.s, w.t + n, l ++ w.log⟩

theorem run_late (h : ∀ i, c' (i + n) = c i) (p : Prog α) (w : World B) :
    p.run B c' (w.late n l) = ((p.run B c w).1, (p.run B c w).2.late n l) := by
  induction p generalizing w with
  | call op k ih => exact ih _ { w with s := (B.exec op w.s).2 }
  | now k ih =>
    show (k (c' (w.t + n))).run B c' ⟨w.s, w.t + n + 1, l ++ w.log⟩ = _
    rw [h, Nat.add_right_comm]
    exact ih (c w.t) { w with t := w.t + 1 }
  | emit e k ih =>
    show k.run B c' ⟨w.s, w.t + n, l ++ w.log ++ [e]⟩ = _
    rw [List.append_assoc]
    exact ih { w with log := w.log ++ [e] }
  | _ => rfl

theorem crash_late (h : ∀ i, c' (i + n) = c i) (p : Prog α) {w w' : World B} (hc : p.Crash B c w w') :
    p.Crash B c' (w.late n l) (w'.late n l) := by
  induction p generalizing w with
  | call op k ih =>
    rcases hc with rfl | hc
    · exact .inl rfl
    · exact .inr (ih _ hc)
  | now k ih =>
    rcases hc with rfl | hc
    · exact .inl rfl
    · refine .inr ?_
      show (k (c' (w.t + n))).Crash B c' ⟨w.s, w.t + n + 1, l ++ w.log⟩ _
      rw [h, Nat.add_right_comm]
      exact ih _ hc
  | emit e k ih =>
    rcases hc with rfl | hc
    · exact .inl rfl
    · refine .inr ?_
      show k.Crash B c' ⟨w.s, w.t + n, l ++ w.log ++ [e]⟩ _
      rw [List.append_assoc]
      exact ih hc
  | _ => cases hc; rfl

theorem run_reads (p : Prog α) (w : World B) : w.t ≤ (p.run B c w).2.t := by
  induction p generalizing w with
  | call op k ih => exact ih _ { w with s := (B.exec op w.s).2 }
  | now k ih => exact Nat.le_trans (Nat.le_succ _) (ih (c w.t) { w with t := w.t + 1 })
  | emit e k ih => exact ih { w with log := w.log ++ [e] }
  | _ => exact Nat.le_refl _

theorem crash_reads (p : Prog α) {w w' : World B} (hc : p.Crash B c w w') : w.t ≤ w'.t := by
  induction p generalizing w with
  | call op k ih =>
    rcases hc with rfl | hc
    · exact Nat.le_refl _
    · exact ih (w := { w with s := (B.exec op w.s).2 }) _ hc
  | now k ih =>
    rcases hc with rfl | hc
    · exact Nat.le_refl _
    · exact Nat.le_trans (Nat.le_succ _) (ih _ hc)
  | emit e k ih =>
    rcases hc with rfl | hc
    · exact Nat.le_refl _
    · exact ih (w := { w with log := w.log ++ [e] }) hc
  | _ => cases hc; exact Nat.le_refl _

theorem run_clock (p : Prog α) (w : World B) (h : ∀ i, i < (p.run B c w).2.t → c' i = c i) : p.run B c' w = p.run B c w := by
  induction p generalizing w with
  | call op k ih => exact ih _ _ h
  | now k ih =>
    show (k (c' w.t)).run B c' _ = _
    rw [h w.t (Nat.lt_of_lt_of_le (Nat.lt_succ_self _) (run_reads (k (c w.t)) { w with t := w.t + 1 }))]
    exact ih _ _ h
  | emit e k ih => exact ih _ h
  | _ => rfl

theorem crash_clock (p : Prog α) {w w' : World B} (hc : p.Crash B c w w') (h : ∀ i, i < w'.t → c' i = c i) : p.Crash B c' w w' := by
  induction p generalizing w with
  | call op k ih =>
    rcases hc with rfl | hc
    · exact .inl rfl
    · exact .inr (ih _ hc)
  | now k ih =>
    rcases hc with rfl | hc
    · exact .inl rfl
    · refine .inr ?_
      rw [h w.t (Nat.lt_of_lt_of_le (Nat.lt_succ_self _) (crash_reads _ hc))]
      exact ih _ hc
  | emit e k ih =>
    rcases hc with rfl | hc
    · exact .inl rfl
    · exact .inr (ih hc)
  | _ => exact hc

end

section
variable {D O : Type} {E : Env D} {name : Str} {c c' : Nat → Time} {n : Nat} {l : List Event}

def Sys.late (n : Nat) (l : List Event) (s : Sys D SpecB) : Sys D SpecB := { s with w := s.w.late n l }

private theorem sys_ext {s s' : Sys D SpecB} (h : s.proc = s'.proc) (hw : s.w = s'.w) : s = s' := by
  obtain ⟨w, cfg, tasks, alive⟩ := s
  obtain ⟨w', cfg', tasks', alive'⟩ := s'
  simp only [Sys.proc, Proc.mk.injEq] at h hw
  obtain ⟨rfl, rfl, rfl⟩ := h
  subst hw
  rfl

theorem step_late (h : ∀ i, c' (i + n) = c i) (s : Sys D SpecB) (op : Op D O) :
    Sys.step E name SpecB c' (s.late n l) op = ((Sys.step E name SpecB c s op).1.late n l, (Sys.step E name SpecB c s op).2) := by
  have h1 := run_turn (E := E) (name := name) (clk := c') (s.late n l) op
  have h2 := run_turn (E := E) (name := name) (clk := c) s op
  have h3 := run_late (l := l) h (s.proc.turn E name op) s.w
  have h1 : (s.proc.turn E name op).run SpecB c' (s.w.late n l) = _ := h1
  rw [h1, h2] at h3
  simp only [Prod.mk.injEq, Out.ok.injEq] at h3
  exact Prod.ext (sys_ext h3.1.1 h3.2) h3.1.2

theorem crashIn_late (h : ∀ i, c' (i + n) = c i) {s : Sys D SpecB} {op : Op D O} {w : World SpecB} (hc : Sys.CrashIn E name SpecB c s op w) :
    Sys.CrashIn E name SpecB c' (s.late n l) op (w.late n l) := by
  cases hc with
  | between => exact .between _
  | enqueue ha hw => exact .enqueue ha (crash_late h _ hw)
  | cancel ha hw => exact .cancel ha (crash_late h _ hw)
  | get ha hw => exact .get ha (crash_late h _ hw)
  | retry ha hw => exact .retry ha (crash_late h _ hw)
  | tick ha hw => exact .tick ha (crash_late h _ hw)
  | start ha ht hw => exact .start ha ht (crash_late h _ hw)
  | finish ha ht hw => exact .finish ha ht (crash_late h _ hw)

theorem step_later (s : Sys D SpecB) (op : Op D O) : s.w.t ≤ (Sys.step E name SpecB c s op).1.w.t := by
  have h2 := run_turn (E := E) (name := name) (clk := c) s op
  have h3 := run_reads (c := c) (s.proc.turn E name op) s.w
  rw [h2] at h3
  exact h3

theorem step_clock (s : Sys D SpecB) (op : Op D O) (h : ∀ i, i < (Sys.step E name SpecB c s op).1.w.t → c' i = c i) :
    Sys.step E name SpecB c' s op = Sys.step E name SpecB c s op := by
  have h1 := run_turn (E := E) (name := name) (clk := c') s op
  have h2 := run_turn (E := E) (name := name) (clk := c) s op
  have h3 := run_clock (c := c) (c' := c') (s.proc.turn E name op) s.w (by rw [h2]; exact h)
  rw [h1, h2] at h3
  simp only [Prod.mk.injEq, Out.ok.injEq] at h3
  exact Prod.ext (sys_ext h3.1.1 h3.2) h3.1.2

theorem crashIn_reads {s : Sys D SpecB} {op : Op D O} {w : World SpecB} (hc : Sys.CrashIn E name SpecB c s op w) : s.w.t ≤ w.t := by
  cases hc with
  | between => exact Nat.le_refl _
  | _ => exact crash_reads _ (by assumption)

theorem crashIn_clock {s : Sys D SpecB} {op : Op D O} {w : World SpecB} (hc : Sys.CrashIn E name SpecB c s op w) (h : ∀ i, i < w.t → c' i = c i) :
    Sys.CrashIn E name SpecB c' s op w := by
  cases hc with
  | between => exact .between _
  | enqueue ha hw => exact .enqueue ha (crash_clock _ hw h)
  | cancel ha hw => exact .cancel ha (crash_clock _ hw h)
  | get ha hw => exact .get ha (crash_clock _ hw h)
  | retry ha hw => exact .retry ha (crash_clock _ hw h)
  | tick ha hw => exact .tick ha (crash_clock _ hw h)
  | start ha ht hw => exact .start ha ht (crash_clock _ hw h)
  | finish ha ht hw => exact .finish ha ht (crash_clock _ hw h)

theorem lives_clock {P : Snap D → Op D O → Prop} {s s' : Sys D Impl.spec.B} (hl : Lives .spec E name c P s s') (h : ∀ i, i < s'.w.t → c' i = c i) :
    Lives .spec E name c' P s s' := by
  induction hl with
  | refl => exact .refl
  | @turn s1 op h1 hp ih =>
    have := Lives.turn (b := .spec) op (ih fun i hi => h i (Nat.lt_of_lt_of_le hi (step_later s1 op))) hp
    have e : Sys.step E name Impl.spec.B c' s1 op = Sys.step E name Impl.spec.B c s1 op := step_clock s1 op h
    rw [e] at this
    exact this
  | @crash s1 op w h1 hp hc ih =>
    exact Lives.crash (b := .spec) op (ih fun i hi => h i (Nat.lt_of_lt_of_le hi (crashIn_reads hc))) hp (crashIn_clock hc h)

/-! ## A work queue through several processes -/

/-- A work queue on which the clock of its process reads `c`, after turns and crashes from `s`, in this process and earlier
ones. -/
def Trail (E : Env D) (name : Str) (P : (JobStatus → List Str) → Op D O → Prop) (s : Sys D SpecB) (c : Nat → Time) (x : Sys D SpecB) : Prop :=
  ∃ c' n l, (∀ i, c' (i + n) = c i) ∧ Lives .spec E name c' (fun v op => P v.lists op) s (x.late n l)

variable {P : (JobStatus → List Str) → Op D O → Prop} {s x : Sys D SpecB}

theorem Trail.init (c : Nat → Time) : Trail E name P s c s := ⟨c, 0, [], fun _ => rfl, .refl⟩

theorem Trail.turn (h : Trail E name P s c x) {op : Op D O} (hp : P (Impl.spec.snap E name x).lists op) :
    Trail E name P s c (Sys.step E name SpecB c x op).1 := by
  obtain ⟨c', n, l, h1, h2⟩ := h
  refine ⟨c', n, l, h1, ?_⟩
  have h3 := Lives.turn (b := .spec) op h2 hp
  have e : Sys.step E name Impl.spec.B c' (x.late n l) op = _ := step_late (l := l) h1 x op
  rw [e] at h3
  exact h3

theorem Trail.dies (h : Trail E name P s c x) {op : Op D O} (hp : P (Impl.spec.snap E name x).lists op) {w : World SpecB}
    (hc : Sys.CrashIn E name SpecB c x op w) (c2 : Nat → Time) : Trail E name P s c2 (Sys.init SpecB w.s) := by
  obtain ⟨c', n, l, h1, h2⟩ := h
  have h3 := Lives.crash (b := .spec) op h2 hp (crashIn_late (l := l) h1 hc)
  refine ⟨fun i => if i < w.t + n then c' i else c2 (i - (w.t + n)), w.t + n, l ++ w.log, fun i => ?_, ?_⟩
  · show (if i + (w.t + n) < w.t + n then _ else _) = _
    rw [if_neg (by omega), Nat.add_sub_cancel]
  · have h4 := lives_clock (c' := fun i => if i < w.t + n then c' i else c2 (i - (w.t + n))) h3 fun i hi => if_pos hi
    have e : (Sys.init SpecB w.s : Sys D SpecB).late (w.t + n) (l ++ w.log) = Sys.restart (w.late n l) := by
      simp [Sys.init, Sys.late, World.late, Sys.restart]
    rw [e]
    exact h4

/-! ## A turn that is cut short -/

theorem crash_attempt {α β : Type} {B : Backend} {q : Prog α} {k : Out α → Prog β} (hk : ∀ r, ∃ y, k r = .ret y) {w w' : World B}
    (h : (q.attempt.bind k).Crash B c w w') : q.Crash B c w w' := by
  induction q generalizing w with
  | call op f ih =>
    rcases h with rfl | h
    · exact .inl rfl
    · exact .inr (ih _ h)
  | now f ih =>
    rcases h with rfl | h
    · exact .inl rfl
    · exact .inr (ih _ h)
  | emit e f ih =>
    rcases h with rfl | h
    · exact .inl rfl
    · exact .inr (ih h)
  | ret a =>
    obtain ⟨y, hy⟩ := hk (.ok a)
    have h : (k (.ok a)).Crash B c w w' := h
    rw [hy] at h
    exact h
  | fail e =>
    obtain ⟨y, hy⟩ := hk (.err e)
    have h : (k (.err e)).Crash B c w w' := h
    rw [hy] at h
    exact h
  | panic =>
    obtain ⟨y, hy⟩ := hk .panicked
    have h : (k .panicked).Crash B c w w' := h
    rw [hy] at h
    exact h
  | diverge =>
    obtain ⟨y, hy⟩ := hk .diverged
    have h : (k .diverged).Crash B c w w' := h
    rw [hy] at h
    exact h

theorem crash_turn {s : Sys D SpecB} {op : Op D O} {w : World SpecB} (h : (s.proc.turn E name op).Crash SpecB c s.w w) :
    Sys.CrashIn E name SpecB c s op w := by
  obtain ⟨w0, cfg, tasks, alive⟩ := s
  cases alive with
  | false => cases h; exact .between _
  | true =>
    have hh : ∀ {α : Type} (p : Proc D) (q : Prog α) (dead : Resp D) (f : Except Error α → Resp D), (p.handle q dead f).Crash SpecB c w0 w → q.Crash SpecB c w0 w :=
      fun p q dead f h => crash_attempt (fun r => by cases r <;> exact ⟨_, rfl⟩) h
    cases op with
    | enqueue job cf => exact .enqueue rfl (hh _ _ _ _ h)
    | cancel id => exact .cancel rfl (hh _ _ _ _ h)
    | get id => exact .get rfl (crash_attempt (fun r => by cases r <;> exact ⟨_, rfl⟩) h)
    | retry id => exact .retry rfl (hh _ _ _ _ h)
    | config cf => cases h; exact .between _
    | tick =>
      rcases h with rfl | h
      · exact .between _
      · exact .tick rfl (crash_attempt (fun r => by cases r <;> exact ⟨_, rfl⟩) h)
    | start i =>
      have h : (match tasks[i]? with
        | some ⟨orig, none⟩ => _
        | _ => _ : Prog (Proc D × Resp D)).Crash SpecB c w0 w := h
      split at h
      · next orig ht =>
        exact .start rfl ht (crash_attempt (fun r => by rcases r with (_ | j) | e | _ | _ <;> exact ⟨_, rfl⟩) h)
      · cases h; exact .between _
    | finish i x =>
      have h : (match tasks[i]? with
        | some ⟨orig, some job⟩ => _
        | _ => _ : Prog (Proc D × Resp D)).Crash SpecB c w0 w := h
      split at h
      · next orig job ht =>
        exact .finish rfl ht (crash_attempt (fun r => by cases r <;> exact ⟨_, rfl⟩) h)
      · cases h; exact .between _
    | userPanic i =>
      have h : (match tasks[i]? with
        | some ⟨_, some _⟩ => _
        | _ => _ : Prog (Proc D × Resp D)).Crash SpecB c w0 w := h
      split at h <;> (cases h; exact .between _)

end
end AJ
