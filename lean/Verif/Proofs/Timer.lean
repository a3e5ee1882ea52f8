import Verif.Spec.Timer
import Verif.Proofs.Later
import Mathlib.Data.List.Chain

/-!
# Proofs about the timer
-/

namespace AJ
variable {D O : Type} {E : Env D} {name : Str} {B : Backend} {clk : Nat → Time} {δ : Nat}

namespace Timed

theorem tick_any (s : Sys D B) :
    (Sys.step E name B clk s (.tick : Op D Unit)).1 = (Sys.step E name B clk s (.tick : Op D O)).1 := rfl

/-- A tick leaves the configuration alone. -/
theorem tick_cfg (s : Sys D B) : (Sys.step E name B clk s (.tick : Op D O)).1.cfg = s.cfg := by
  unfold Sys.step
  split
  · dsimp only
    split <;> rfl
  · rfl

theorem dead_step {s : Sys D B} (h : s.alive = false) (op : Op D O) : (Sys.step E name B clk s op).1 = s := by
  unfold Sys.step
  rw [if_neg (by simp [h])]

/-- One step, in cases: nothing but time, a turn, or a scan by the only callback. -/
inductive Case (t : Timed D B) (op : TimedOp D O) : Timed D B → Prop where
  | pass (d) (e : op = .pass d) : Case t op { t with now := t.now + d }
  | idle (e : (∃ o, op = .turn o) ∨ ∃ i, op = .fire i) : Case t op t
  | turn (o) (e : op = .turn o) (hne : o ≠ .tick) : Case t op { t with
      sys := (Sys.step E name B clk t.sys o).1
      timers := if (Sys.step E name B clk t.sys o).1.alive then t.timers else [] }
  | fire (i d) (e : op = .fire i) (hd : t.timers[i]? = some d) (hle : d ≤ t.now) :
      Case t op (scan E name B clk { t with timers := t.timers.eraseIdx i })

theorem step_case (t : Timed D B) (op : TimedOp D O) :
    Case (E := E) (name := name) (clk := clk) t op (step E name B clk t op) := by
  cases op with
  | pass d => exact .pass d rfl
  | turn o =>
    cases o with
    | tick => exact .idle (.inl ⟨_, rfl⟩)
    | _ => exact .turn _ rfl (by intro h; cases h)
  | fire i =>
    show Case t (.fire i) (match t.timers[i]? with
      | some d => if d ≤ t.now then scan E name B clk { t with timers := t.timers.eraseIdx i } else t
      | none => t)
    split
    · next d hd =>
      split
      · next hle => exact .fire i d rfl hd hle
      · exact .idle (.inr ⟨_, rfl⟩)
    · exact .idle (.inr ⟨_, rfl⟩)

/-- Consecutive scans are as far apart as the delay asked for. -/
def Spaced (later earlier : Nat × Nat) : Prop := earlier.1 + earlier.2 ≤ later.1

/-- Nor farther apart than that and `δ`. -/
def Near (δ : Nat) (later earlier : Nat × Nat) : Prop := later.1 ≤ earlier.1 + earlier.2 + δ

/-- The invariant: the callbacks pending are the one the last scan asked for, or none if the actor is dead. -/
structure Armed (t : Timed D B) : Prop where
  chain : List.IsChain Spaced t.scans
  last : ∃ x d l, t.scans = (x, d) :: l ∧ x ≤ t.now ∧
    t.timers = if t.sys.alive then [x + d] else []

theorem armed_scan {t : Timed D B} (hc : List.IsChain Spaced t.scans)
    (hx : ∀ y ∈ t.scans.head?, y.1 + y.2 ≤ t.now) (ht : t.timers = []) : Armed (scan E name B clk t) := by
  refine ⟨?_, t.now, (Sys.step E name B clk t.sys (.tick : Op D Unit)).1.cfg.processTickDuration, t.scans, rfl, Nat.le_refl _, ?_⟩
  · exact List.isChain_cons.mpr ⟨hx, hc⟩
  · show (if _ then _ else _) = _
    rw [ht]
    rfl

theorem armed_step {t : Timed D B} (h : Armed t) (op : TimedOp D O) : Armed (step E name B clk t op) := by
  obtain ⟨hc, x, d, l, hs, hx, ht⟩ := h
  have hcase := step_case (E := E) (name := name) (clk := clk) t op
  generalize step E name B clk t op = t' at hcase ⊢
  cases hcase with
  | pass d' => exact ⟨hc, x, d, l, hs, Nat.le_trans hx (Nat.le_add_right _ _), ht⟩
  | idle => exact ⟨hc, x, d, l, hs, hx, ht⟩
  | turn o e hne =>
    refine ⟨hc, x, d, l, hs, hx, ?_⟩
    show (if _ then t.timers else []) = if (Sys.step E name B clk t.sys o).1.alive then [x + d] else []
    split
    · next h1 =>
      rw [ht, if_pos]
      cases ha : t.sys.alive with
      | true => rfl
      | false => rw [dead_step ha, ha] at h1; cases h1
    · rfl
  | fire i d' e hd hle =>
    cases ha : t.sys.alive with
    | false => rw [ht, ha] at hd; simp at hd
    | true =>
      rw [ht, ha, if_pos rfl] at hd
      cases i with
      | succ i => simp at hd
      | zero =>
        simp only [List.getElem?_cons_zero, Option.some.injEq] at hd
        refine armed_scan hc ?_ ?_
        · intro y hy
          rw [hs] at hy
          cases hy
          show x + d ≤ t.now
          omega
        · show t.timers.eraseIdx 0 = []
          rw [ht, ha]
          rfl

theorem armed_run {t : Timed D B} (h : Armed t) (ops : List (TimedOp D O)) : Armed (run E name B clk t ops) := by
  induction ops generalizing t with
  | nil => exact h
  | cons op ops ih => exact ih (armed_step h op)

theorem armed_start (s : Sys D B) (now : Nat) : Armed (start E name B clk s now) :=
  armed_scan List.IsChain.nil (fun _ h => by cases h) rfl

/-- With prompt timers no scan is late, and neither is the pending one. -/
structure OnTime (δ : Nat) (t : Timed D B) : Prop where
  chain : List.IsChain (Near δ) t.scans
  last : ∀ x ∈ t.timers, t.now ≤ x + δ

theorem onTime_scan {t : Timed D B} (hc : List.IsChain (Near δ) t.scans)
    (hx : ∀ y ∈ t.scans.head?, t.now ≤ y.1 + y.2 + δ) (ht : t.timers = []) : OnTime δ (scan E name B clk t) := by
  refine ⟨List.isChain_cons.mpr ⟨hx, hc⟩, ?_⟩
  show ∀ x ∈ (if (Sys.step E name B clk t.sys (.tick : Op D Unit)).1.alive then t.timers ++
    [t.now + (Sys.step E name B clk t.sys (.tick : Op D Unit)).1.cfg.processTickDuration] else []), t.now ≤ x + δ
  rw [ht]
  split
  · intro x hm
    simp only [List.nil_append, List.mem_singleton] at hm
    omega
  · intro x hm; cases hm

theorem onTime_step {t : Timed D B} (ha : Armed t) (h : OnTime δ t) (op : TimedOp D O)
    (hp : ∀ d, op = .pass d → ∀ x ∈ t.timers, t.now + d ≤ x + δ) : OnTime δ (step E name B clk t op) := by
  obtain ⟨hc, hl⟩ := h
  have hcase := step_case (E := E) (name := name) (clk := clk) t op
  generalize step E name B clk t op = t' at hcase ⊢
  cases hcase with
  | pass d e => exact ⟨hc, hp d e⟩
  | idle => exact ⟨hc, hl⟩
  | turn o e hne =>
    refine ⟨hc, ?_⟩
    show ∀ x ∈ (if (Sys.step E name B clk t.sys o).1.alive then t.timers else []), _
    split
    · exact hl
    · intro x hm; cases hm
  | fire i d' e hd hle =>
    obtain ⟨_, x, d, l, hs, hx, ht⟩ := ha
    cases ha : t.sys.alive with
    | false => rw [ht, ha] at hd; simp at hd
    | true =>
      rw [ha, if_pos rfl] at ht
      rw [ht] at hd
      cases i with
      | succ i => simp at hd
      | zero =>
        simp only [List.getElem?_cons_zero, Option.some.injEq] at hd
        refine onTime_scan hc ?_ ?_
        · intro y hy
          rw [hs] at hy
          cases hy
          exact hl _ (by rw [ht]; exact List.mem_singleton.mpr rfl)
        · show t.timers.eraseIdx 0 = []
          rw [ht]
          rfl

theorem onTime_run {t : Timed D B} (ha : Armed t) (h : OnTime δ t) {ops : List (TimedOp D O)}
    (hp : Prompt E name B clk δ t ops) : OnTime δ (run E name B clk t ops) := by
  induction ops generalizing t with
  | nil => exact h
  | cons op ops ih => exact ih (armed_step ha op) (onTime_step ha h op hp.1) hp.2

theorem onTime_start (s : Sys D B) (now : Nat) : OnTime δ (start E name B clk s now) :=
  onTime_scan List.IsChain.nil (fun _ h => by cases h) rfl

/-- No scan before the pending callback may run. -/
theorem no_scan {t : Timed D B} {x : Nat} (h : t.timers = [x] ∨ t.timers = []) (ops : List (TimedOp D O))
    (hn : (run E name B clk t ops).now < x) : (run E name B clk t ops).scans = t.scans := by
  have mono : ∀ (ops : List (TimedOp D O)) (t : Timed D B), t.now ≤ (run E name B clk t ops).now := by
    intro ops
    induction ops with
    | nil => exact fun _ => Nat.le_refl _
    | cons op ops ih =>
      intro t
      refine Nat.le_trans ?_ (ih (step E name B clk t op))
      have hcase := step_case (E := E) (name := name) (clk := clk) t op
      generalize step E name B clk t op = t' at hcase ⊢
      cases hcase with
      | pass d => exact Nat.le_add_right _ _
      | _ => exact Nat.le_refl _
  induction ops generalizing t with
  | nil => rfl
  | cons op ops ih =>
    have h1 : (step E name B clk t op).scans = t.scans ∧
        ((step E name B clk t op).timers = [x] ∨ (step E name B clk t op).timers = []) := by
      have hm := mono ops (step E name B clk t op)
      have hn : (run E name B clk (step E name B clk t op) ops).now < x := hn
      revert hm hn
      have hcase := step_case (E := E) (name := name) (clk := clk) t op
      generalize step E name B clk t op = t' at hcase ⊢
      cases hcase with
      | pass d => exact fun _ _ => ⟨rfl, h⟩
      | idle => exact fun _ _ => ⟨rfl, h⟩
      | turn o e hne =>
        refine fun _ _ => ⟨rfl, ?_⟩
        show (if _ then t.timers else []) = _ ∨ (if _ then t.timers else []) = _
        split
        · exact h
        · exact .inr rfl
      | fire i d e hd hle =>
        intro hm hn
        have hm : t.now ≤ _ := hm
        rcases h with h | h
        · rw [h] at hd
          cases i with
          | succ i => simp at hd
          | zero =>
            simp only [List.getElem?_cons_zero, Option.some.injEq] at hd
            omega
        · rw [h] at hd; simp at hd
    exact (ih h1.2 hn).trans h1.1

/-- Only `config` changes the configuration. -/
theorem step_cfg (s : Sys D B) (op : Op D O) (hc : ∀ c, op ≠ .config c) :
    (Sys.step E name B clk s op).1.cfg = s.cfg := by
  have hh : ∀ {α : Type} (p : Prog α) (d : Resp D) (f : Except Error α → Resp D),
      (Sys.handle B clk s p d f).1.cfg = s.cfg := by
    intro α p d f
    unfold Sys.handle
    split <;> rfl
  unfold Sys.step
  split
  swap
  · rfl
  cases op with
  | enqueue j c => exact hh _ _ _
  | cancel id => exact hh _ _ _
  | get id => exact hh _ _ _
  | retry id => exact hh _ _ _
  | config c => exact absurd rfl (hc c)
  | tick => dsimp only; split <;> rfl
  | start i =>
    dsimp only
    split
    · split <;> rfl
    · rfl
  | finish i x =>
    dsimp only
    split
    · split <;> rfl
    · rfl
  | userPanic i => dsimp only; split <;> rfl

/-- With one configuration, the number of scans follows the time. -/
structure Counted (p s0 : Nat) (t : Timed D B) : Prop where
  cfg : t.sys.cfg.processTickDuration = p
  lower : ∃ x l, t.scans = (x, p) :: l ∧ s0 + l.length * p ≤ x

theorem counted_step {p s0 : Nat} {t : Timed D B} (ha : Armed t) (h : Counted p s0 t) {op : TimedOp D O} (hk : op.KeepsConfig) :
    Counted p s0 (step E name B clk t op) := by
  obtain ⟨hc, x, l, hs, hx⟩ := h
  have hcase := step_case (E := E) (name := name) (clk := clk) t op
  generalize step E name B clk t op = t' at hcase ⊢
  cases hcase with
  | pass d e => exact ⟨hc, x, l, hs, hx⟩
  | idle => exact ⟨hc, x, l, hs, hx⟩
  | turn o e hne =>
    refine ⟨?_, x, l, hs, hx⟩
    show (Sys.step E name B clk t.sys o).1.cfg.processTickDuration = p
    rw [step_cfg _ _ (by rintro c rfl; subst e; exact hk), hc]
  | fire i d' e hd hle =>
    obtain ⟨_, y, d, l', hs', _, ht⟩ := ha
    rw [hs] at hs'
    simp only [List.cons.injEq, Prod.mk.injEq] at hs'
    obtain ⟨⟨rfl, rfl⟩, rfl⟩ := hs'
    refine ⟨?_, t.now, t.scans, ?_, ?_⟩
    · show (Sys.step E name B clk t.sys (.tick : Op D Unit)).1.cfg.processTickDuration = p
      rw [tick_cfg, hc]
    · show (t.now, (Sys.step E name B clk t.sys (.tick : Op D Unit)).1.cfg.processTickDuration) :: t.scans = _
      rw [tick_cfg, hc]
    · rw [ht] at hd
      split at hd
      · cases i with
        | succ i => simp at hd
        | zero =>
          simp only [List.getElem?_cons_zero, Option.some.injEq] at hd
          rw [hs, List.length_cons, Nat.add_mul]
          omega
      · simp at hd

theorem counted_run {p s0 : Nat} {t : Timed D B} (ha : Armed t) (h : Counted p s0 t) {ops : List (TimedOp D O)}
    (hk : ∀ op ∈ ops, op.KeepsConfig) : Counted p s0 (run E name B clk t ops) := by
  induction ops generalizing t with
  | nil => exact h
  | cons op ops ih =>
    exact ih (armed_step ha op) (counted_step ha h (hk op (List.mem_cons_self ..)))
      fun o ho => hk o (List.mem_cons_of_mem _ ho)

theorem counted_start (s : Sys D B) (now : Nat) :
    Counted s.cfg.processTickDuration now (start E name B clk s now) := by
  refine ⟨?_, now, [], ?_, ?_⟩
  · show (Sys.step E name B clk s (.tick : Op D Unit)).1.cfg.processTickDuration = _
    rw [tick_cfg]
  · show [(now, (Sys.step E name B clk s (.tick : Op D Unit)).1.cfg.processTickDuration)] = _
    rw [tick_cfg]
  · simp

/-- The oldest scan is the one of the start. -/
theorem scans_last {t : Timed D B} {z : Nat × Nat} (h : t.scans.getLast? = some z) (ops : List (TimedOp D O)) :
    (run E name B clk t ops).scans.getLast? = some z := by
  induction ops generalizing t with
  | nil => exact h
  | cons op ops ih =>
    refine ih ?_
    have hcase := step_case (E := E) (name := name) (clk := clk) t op
    generalize step E name B clk t op = t' at hcase ⊢
    cases hcase with
    | fire i d' e hd hle =>
      show (_ :: t.scans).getLast? = _
      rw [List.getLast?_cons, h]
      rfl
    | _ => exact h

/-- Scans that come in time are not far apart in total. -/
theorem near_total {δ p : Nat} {x : Nat} {l : List (Nat × Nat)} {z : Nat × Nat}
    (hc : List.IsChain (Near δ) ((x, p) :: l)) (hp : ∀ y ∈ l, y.2 = p) (hz : ((x, p) :: l).getLast? = some z) :
    x ≤ z.1 + l.length * (p + δ) := by
  induction l generalizing x with
  | nil => cases hz; simp
  | cons y l ih =>
    obtain ⟨h1, h2⟩ := List.isChain_cons.mp hc
    have e : y.2 = p := hp y (List.mem_cons_self ..)
    obtain ⟨y1, y2⟩ := y
    cases e
    have h3 := ih h2 (fun w hw => hp w (List.mem_cons_of_mem _ hw)) (by simpa [List.getLast?_cons] using hz)
    have h4 : x ≤ y1 + y2 + δ := h1 _ rfl
    rw [List.length_cons, Nat.add_mul]
    omega

/-- With one configuration all scans ask for the same delay. -/
theorem same_delay {p : Nat} {t : Timed D B} (h : t.sys.cfg.processTickDuration = p) (hs : ∀ y ∈ t.scans, y.2 = p)
    {ops : List (TimedOp D O)} (hk : ∀ op ∈ ops, op.KeepsConfig) :
    ∀ y ∈ (run E name B clk t ops).scans, y.2 = p := by
  induction ops generalizing t with
  | nil => exact hs
  | cons op ops ih =>
    have hk0 := hk op (List.mem_cons_self ..)
    have hk1 : ∀ o ∈ ops, o.KeepsConfig := fun o ho => hk o (List.mem_cons_of_mem _ ho)
    have : (step E name B clk t op).sys.cfg.processTickDuration = p ∧ ∀ y ∈ (step E name B clk t op).scans, y.2 = p := by
      have hcase := step_case (E := E) (name := name) (clk := clk) t op
      generalize step E name B clk t op = t' at hcase ⊢
      cases hcase with
      | pass d e => exact ⟨h, hs⟩
      | idle => exact ⟨h, hs⟩
      | turn o e hne =>
        refine ⟨?_, hs⟩
        show (Sys.step E name B clk t.sys o).1.cfg.processTickDuration = p
        rw [step_cfg _ _ (by rintro c rfl; subst e; exact hk0), h]
      | fire i d' e hd hle =>
        have hc : (Sys.step E name B clk t.sys (.tick : Op D Unit)).1.cfg.processTickDuration = p := by rw [tick_cfg, h]
        refine ⟨hc, ?_⟩
        intro y hy
        rcases List.mem_cons.mp hy with rfl | hy
        · exact hc
        · exact hs y hy
    exact ih this.1 this.2 hk1

section
variable {b : Impl} {P : Snap D → Op D O → Prop}

/-- What happens in time is a history of turns. -/
theorem obeys_reach {t : Timed D b.B} (h : Reach b E name clk P t.sys) {ops : List (TimedOp D O)}
    (ho : Obeys b E name clk P t ops) : Reach b E name clk P (run E name b.B clk t ops).sys := by
  induction ops generalizing t with
  | nil => exact h
  | cons op ops ih =>
    obtain ⟨h1, h2, h3⟩ := ho
    refine ih ?_ h3
    have hcase := step_case (E := E) (name := name) (clk := clk) t op
    generalize step E name b.B clk t op = t' at hcase ⊢
    cases hcase with
    | pass d e => exact h
    | idle => exact h
    | turn o e hne => exact .step o h (h1 o e)
    | fire i d e hd hle => exact .step (.tick : Op D O) h (h2 i e)

end

end Timed
end AJ
