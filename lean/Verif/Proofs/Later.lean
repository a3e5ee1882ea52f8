import Verif.Proofs.Life

/-! # Following one job through a history -/

namespace AJ
open W

section
variable {D O : Type} {E : Env D} {name : Str} {clk : Nat → Time} {b : Impl} {k : Str}
variable {P P' : Snap D → Op D O → Prop}

theorem Later.reach {s s' : Sys D b.B} (hs : Reach b E name clk P s) (h : Later b E name clk P' s s')
    (hP : ∀ v op, P' v op → P v op) : Reach b E name clk P s' := by
  induction h with
  | refl => exact hs
  | step op _ hp ih => exact .step op ih (hP _ _ hp)

theorem Later.trans {s s1 s2 : Sys D b.B} (h : Later b E name clk P s s1) (h' : Later b E name clk P s1 s2) :
    Later b E name clk P s s2 := by
  induction h' with
  | refl => exact h
  | step op _ hp ih => exact .step op ih hp

theorem Later.mono {s s' : Sys D b.B} (h : Later b E name clk P s s') (hP : ∀ v op, P v op → P' v op) :
    Later b E name clk P' s s' := by
  induction h with
  | refl => exact .refl
  | step op _ hp ih => exact .step op ih (hP _ _ hp)

/-- Clock reads only go up. -/
theorem step_reads (L : E.Lawful) {s : Sys D SpecB} (hT : Tidy E s) (op : Op D O) :
    s.w.t ≤ (Sys.step E name SpecB clk s op).1.w.t := by
  by_cases ha : s.alive = true
  swap
  · rw [Sys.step_dead s (by simpa using ha)]; exact Nat.le_refl _
  have hs := Sys.step_cases (E := E) (name := name) (clk := clk) s ha op
  generalize Sys.step E name SpecB clk s op = p at hs
  cases hs with
  | enqueue j c => exact (Touch.submit (E := E) (name := name) (clk := clk) j c s.w).time
  | cancel k => exact (Touch.cancel (name := name) (clk := clk) hT.keyed k).time
  | retry k => exact (Touch.retry (name := name) (clk := clk) hT.keyed k).time
  | tick n hk hk20 => exact ((Scan.init _ _).turns L hT.keyed n).time
  | finished i x orig job w hi hf => exact hf.touch.time
  | finishPanic i x orig job w hi hf => exact hf.touch.time
  | _ => exact Nat.le_refl _

theorem reach_reads (L : E.Lawful) {s : Sys D b.B} (hs : Reach b E name clk P s) (op : Op D O) :
    (b.snap E name s).reads ≤ (b.snap E name (Sys.step E name b.B clk s op).1).reads :=
  Reach.lift_step (Q := fun v _ _ v' => v.reads ≤ v'.reads)
    (fun _ op ht => step_reads L (reach_tidy L ht) op) hs op

theorem later_reads (L : E.Lawful) {s s' : Sys D b.B} (hs : Reach b E name clk P s) (h : Later b E name clk P s s') :
    (b.snap E name s).reads ≤ (b.snap E name s').reads := by
  induction h with
  | refl => exact Nat.le_refl _
  | step op h' hp ih => exact Nat.le_trans ih (reach_reads L (h'.reach hs fun _ _ h => h) op)

/-- An invariant of one job, turn by turn. -/
theorem later_life (L : E.Lawful) {I : Snap D → Prop} (hP : ∀ v op, P' v op → CarefulFor E k v op)
    {s s' : Sys D b.B} (hs : Reach (O := O) b E name clk (CarefulFor E k) s) (h : Later b E name clk P' s s')
    (h0 : I (b.snap E name s))
    (hstep : ∀ v v' op, P' v op → Solo k v → v.reads ≤ v'.reads → Life E L name clk k v v' op → I v → I v') :
    I (b.snap E name s') := by
  induction h with
  | refl => exact h0
  | step op h' hp ih =>
    have hr := h'.reach hs hP
    exact hstep _ _ op hp (reach_solo L (fun _ _ h => h) hr) (reach_reads L hr op)
      (reach_life L (fun _ _ h => h) hr op (hP _ _ hp)) ih

end
end AJ
