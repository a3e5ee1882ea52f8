import Mathlib.Data.List.Induction
import Verif.Proofs.EndlessWeave
import Verif.Props.EndlessSite

/-!
# Rounds of a process for ever

Used by the examples of C86 and C87: after finitely many steps, the work queue of type 5 ticks, executes what it has picked, and so on.
-/

namespace AJ.Props
open Demo

/-- The next call counts the entries of a list. -/
def counting {α : Type} : Prog α → Bool
  | .call (.queueCount _) _ => true
  | _ => false

/-- From then on: the steps of `siteRounds` when the work queue is not inside a turn, otherwise the turn goes on, while client 2 and
the engine take steps. -/
def nextOp (f : Weave Int Unit SpecB) (p n : Nat) : WeaveOp Int Unit :=
  match f.inside 0 with
  | none => .site (siteRounds p)
  | some x => if counting x.rest then .go 0 else match n % 4 with
    | 1 => .site (.client 2 false)
    | 3 => .site (.engine 0)
    | _ => .go 0

/-- The state after `n` such steps, and how far the rounds have come. -/
def course (f : Weave Int Unit SpecB) : Nat → Weave Int Unit SpecB × Nat
  | 0 => (f, 0)
  | n + 1 => ((course f n).1.step (fun _ => E) SpecB (fun _ => clk) (nextOp (course f n).1 (course f n).2 n),
      (course f n).2 + if ((course f n).1.inside 0).isNone then 1 else 0)
variable {f : Weave Int Unit SpecB} {pro : List (WeaveOp Int Unit)} {s0 : SpecState}

theorem course_zero (f : Weave Int Unit SpecB) : course f 0 = (f, 0) := rfl

theorem course_succ (f : Weave Int Unit SpecB) (n : Nat) : course f (n + 1) =
    ((course f n).1.step (fun _ => E) SpecB (fun _ => clk) (nextOp (course f n).1 (course f n).2 n),
      (course f n).2 + if ((course f n).1.inside 0).isNone then 1 else 0) := rfl

attribute [local irreducible] course

/-- The process after the first `n` steps of `pro`. -/
abbrev sofar (f : Weave Int Unit SpecB) (pro : List (WeaveOp Int Unit)) (n : Nat) : Weave Int Unit SpecB :=
  f.run (fun _ => E) SpecB (fun _ => clk) (pro.take n)

/-- The steps of `pro`, then rounds. -/
def lasting (f : Weave Int Unit SpecB) (pro : List (WeaveOp Int Unit)) (n : Nat) : WeaveOp Int Unit :=
  (pro[n]?).getD (nextOp (course (sofar f pro pro.length) (n - pro.length)).1 (course (sofar f pro pro.length) (n - pro.length)).2 (n - pro.length))

local notation "φ" n:max => Weave.after (fun _ => E) SpecB (fun _ => clk) f (lasting f pro) n
local notation "κ" n:max => course (sofar f pro pro.length) n

theorem lasting_late (n : Nat) : lasting f pro (pro.length + n) = nextOp (κ n).1 (κ n).2 n := by
  unfold lasting
  rw [List.getElem?_eq_none (by omega), show pro.length + n - pro.length = n by omega]
  rfl

theorem lasting_some {n : Nat} (hn : n < pro.length) : pro[n]? = some (lasting f pro n) := by
  unfold lasting
  rw [List.getElem?_eq_getElem hn]
  rfl

theorem lasting_early {n : Nat} (hn : n ≤ pro.length) : φ n = sofar f pro n := by
  induction n with
  | zero => rfl
  | succ n ih =>
    show (φ n).step (fun _ => E) SpecB (fun _ => clk) (lasting f pro n) = _
    rw [ih (by omega)]
    unfold sofar
    rw [List.take_add_one, lasting_some (f := f) (by omega)]
    show _ = Weave.run _ _ _ _ (pro.take n ++ [lasting f pro n])
    unfold Weave.run
    rw [List.foldl_append]
    rfl

theorem lasting_course (n : Nat) : φ (pro.length + n) = (κ n).1 := by
  induction n with
  | zero => rw [course_zero]; exact lasting_early (Nat.le_refl _)
  | succ n ih =>
    show (φ (pro.length + n)).step (fun _ => E) SpecB (fun _ => clk) (lasting f pro (pro.length + n)) = _
    rw [ih, lasting_late, course_succ]

/-- The requests. -/
theorem lasting_begin {n : Nat} {d : Nat} {req : Req Int} (h : lasting f pro n = .site (.begin d req)) : pro[n]? = some (.site (.begin d req)) := by
  by_cases hn : n < pro.length
  · rw [← h]; exact lasting_some hn
  · obtain ⟨m, rfl⟩ : ∃ m, n = pro.length + m := ⟨n - pro.length, by omega⟩
    rw [lasting_late] at h
    unfold nextOp at h
    split at h
    · unfold siteRounds at h
      split at h <;> cases h
    · split at h
      · cases h
      · split at h <;> cases h

/-- The ends of runs. -/
theorem lasting_finish {n q i : Nat} {y : Executable Int Unit} (h : lasting f pro n = .site (.turn q (.finish i y))) :
    y = good ∨ pro[n]? = some (.site (.turn q (.finish i y))) := by
  by_cases hn : n < pro.length
  · rw [← h]; exact .inr (lasting_some hn)
  · obtain ⟨m, rfl⟩ : ∃ m, n = pro.length + m := ⟨n - pro.length, by omega⟩
    rw [lasting_late] at h
    unfold nextOp at h
    split at h
    · unfold siteRounds at h
      split at h <;> cases h
      exact .inl rfl
    · split at h
      · cases h
      · split at h <;> cases h

/-- What is checked of the process when the rounds begin. -/
def settled (g : Weave Int Unit SpecB) : Bool :=
  (g.inside 0).isNone && (g.site.hub.queues == [printer]) &&
  (match g.site.hub.clients 2 with
    | .done _ _ => true
    | _ => false) &&
  (match g.site.users 2 with
    | .asking _ _ _ => false
    | _ => true) &&
  (match g.site.hub.engines with
    | [⟨_, _, [], .idle⟩] => true
    | _ => false) &&
  (g.site.boxes 0).mailbox.isEmpty &&
  (g.site.snap .spec (fun _ => E) 0 printer).alive &&
  decide ((g.site.snap .spec (fun _ => E) 0 printer).cfg.maxProcessingJobs = 1) &&
  (g.site.snap .spec (fun _ => E) 0 printer).tasks.isEmpty &&
  decide ((g.site.snap .spec (fun _ => E) 0 printer).lists .running = []) &&
  decide (((g.site.snap .spec (fun _ => E) 0 printer).lists .queued).length ≤ 20)

/-- Work queue 0, alone from `s0`, is as in the process. -/
def Alike (s0 : SpecState) (g : Weave Int Unit SpecB) : Prop :=
  let v := g.site.snap .spec (fun _ => E) 0 printer
  let v' := Impl.spec.snap E c!"print" (g.site.played s0)
  v.tasks = v'.tasks ∧ (g.inside 0 = none → v.lists = v'.lists ∧ v.cfg = v'.cfg ∧ v.alive = v'.alive)

theorem played_fit (h : (Impl.spec.snap E c!"print" (Sys.init SpecB s0 : Sys Int SpecB)).Tidy) (t : Site Int Unit SpecB) :
    Impl.spec.Good (t.played s0).w.s ∧ (Impl.spec.snap E c!"print" (t.played s0)).Tidy := by
  unfold Site.played
  generalize (turnsOf 0 t.trace).map Prod.fst = ops
  induction ops using List.reverseRecOn with
  | nil => exact ⟨⟨_, rfl⟩, h⟩
  | append_singleton ops op ih =>
    rw [congrArg Prod.fst (runOps_snoc (B := SpecB) _ _ op)]
    exact fit_step (b := .spec) ih op

theorem settled.steady {g : Weave Int Unit SpecB} (h : settled g = true) (ha : Alike s0 g)
    (hf : (Impl.spec.snap E c!"print" (Sys.init SpecB s0 : Sys Int SpecB)).Tidy) : g.inside 0 = none ∧ Steady s0 0 g.site := by
  simp only [settled, Bool.and_eq_true, beq_iff_eq, decide_eq_true_eq] at h
  obtain ⟨⟨⟨⟨⟨⟨⟨⟨⟨⟨h1, h2⟩, h3⟩, h4⟩, h5⟩, h6⟩, h7⟩, h8⟩, h9⟩, h10⟩, h11⟩ := h
  have h1 := Option.isNone_iff_eq_none.1 h1
  obtain ⟨a1, a2⟩ := ha
  obtain ⟨a2, a3, a4⟩ := a2 h1
  rw [a4] at h7
  rw [a3] at h8
  rw [a1] at h9
  rw [a2] at h10 h11
  refine ⟨h1, h2, ?_, ?_, List.isEmpty_iff.1 h6, ?_, played_fit hf g.site, h7, h8, .inl ⟨List.isEmpty_iff.1 h9, h10, h11⟩⟩
  · split at h3
    · next h => exact ⟨_, _, h⟩
    · cases h3
  · split at h5
    · next h => exact ⟨_, h, rfl, rfl⟩
    · cases h5
  · intro req op again h
    rw [h] at h4
    cases h4

theorem Steady.still {p : Nat} {t t' : Site Int Unit SpecB} (h : Steady s0 p t) (h1 : t'.hub = t.hub) (h2 : t'.users = t.users)
    (h3 : (t'.boxes 0).mailbox = (t.boxes 0).mailbox) (h4 : t'.trace = t.trace) : Steady s0 p t' := by
  refine ⟨h1 ▸ h.queues, h1 ▸ h.client, h1 ▸ h.engine, h3.trans h.mail, h2 ▸ h.user, ?_⟩
  have : t'.played s0 = t.played s0 := by
    unfold Site.played; rw [h4]
  rw [this]
  exact h.work

theorem Steady.seen {p p' : Nat} {t t' : Site Int Unit SpecB} (h : Steady s0 p t) (h1 : t'.hub = t.hub) (h2 : t'.users = t.users)
    (h3 : (t'.boxes 0).mailbox = (t.boxes 0).mailbox) {op : Op Int Unit} {r : Resp Int} (h4 : t'.trace = t.trace ++ [.turn 0 none op r])
    (hw : ∀ s, Worker .spec p s → Worker .spec p' (Sys.step E c!"print" SpecB clk s op).1) : Steady s0 p' t' := by
  refine ⟨h1 ▸ h.queues, h1 ▸ h.client, h1 ▸ h.engine, h3.trans h.mail, h2 ▸ h.user, ?_⟩
  have e : (turnsOf 0 t'.trace).map Prod.fst = (turnsOf 0 t.trace).map Prod.fst ++ [op] := by
    rw [h4, turnsOf_append]
    simp [turnsOf, SiteEvent.at]
  have : t'.played s0 =
      (Sys.step E c!"print" SpecB clk (t.played s0) op).1 := by
    unfold Site.played
    rw [e]
    exact congrArg Prod.fst (runOps_snoc (B := SpecB) _ _ op)
  rw [this]
  exact hw _ h.work
/-- Where the rounds are: between two steps of `siteRounds`, or inside the turn that the last one has begun. -/
def Going (s0 : SpecState) (f : Weave Int Unit SpecB) (p : Nat) : Prop :=
  (f.inside 0 = none ∧ Steady s0 (if p % 7 < 3 then p % 7 else 0) f.site) ∨
  ∃ x p0, p = p0 + 1 ∧ f.inside 0 = some x ∧ x.who = none ∧ siteRounds p0 = .turn 0 x.op ∧ Steady s0 (if p0 % 7 < 3 then p0 % 7 else 0) f.site

theorem going_step {f : Weave Int Unit SpecB} {p : Nat} (ht : Weave.Tidy f) (h : Going s0 f p) (n : Nat) :
    Going s0 (f.step (fun _ => E) SpecB (fun _ => clk) (nextOp f p n)) (p + if (f.inside 0).isNone then 1 else 0) := by
  rcases h with ⟨h1, h2⟩ | ⟨x, p0, rfl, h1, h2, h3, h4⟩
  · have e : nextOp f p n = .site (siteRounds p) := by unfold nextOp; rw [h1]
    rw [e, h1]
    show Going s0 _ (p + 1)
    have hp : p % 7 = 0 ∨ p % 7 = 1 ∨ p % 7 = 2 ∨ p % 7 = 3 ∨ p % 7 = 4 ∨ p % 7 = 5 ∨ p % 7 = 6 := by omega
    have turn : ∀ op, op.inner = true → siteRounds p = .turn 0 op → Going s0 (f.step (fun _ => E) SpecB (fun _ => clk) (.site (siteRounds p))) (p + 1) := by
      intro op hi hs
      rw [hs]
      show Going s0 (f.turn (fun _ => E) SpecB 0 op) (p + 1)
      have : f.turn (fun _ => E) SpecB 0 op = f.enter (fun _ => E) SpecB 0 printer none op := by
        unfold Weave.turn
        rw [h1, h2.queues]
        simp [hi]
      rw [this]
      exact .inr ⟨⟨none, op, (f.site.boxes 0).proc.turn E printer.name op⟩, p, rfl, by
        show upd f.inside 0 _ 0 = _; exact upd_same .., rfl, hs, h2⟩
    have plain : (siteRounds p).plain = true → Going s0 (f.step (fun _ => E) SpecB (fun _ => clk) (.site (siteRounds p))) (p + 1) := by
      intro hpl
      rw [Weave.step_plain hpl]
      exact .inl ⟨h1, steady_step h2⟩
    rcases hp with e | e | e | e | e | e | e
    · exact turn .tick rfl (by unfold siteRounds; rw [e]; rfl)
    · exact turn (.start 0) rfl (by unfold siteRounds; rw [e]; rfl)
    · exact turn (.finish 0 good) rfl (by unfold siteRounds; rw [e]; rfl)
    · exact plain (by unfold siteRounds; rw [e]; rfl)
    · exact plain (by unfold siteRounds; rw [e]; rfl)
    · exact plain (by unfold siteRounds; rw [e]; rfl)
    · have hs : siteRounds p = .handle 0 0 := by unfold siteRounds; rw [e]; rfl
      rw [hs]
      have : f.step (fun _ => E) SpecB (fun _ => clk) (.site (.handle 0 0)) = f := by
        show f.handle (fun _ => E) SpecB 0 0 = f
        unfold Weave.handle
        rw [h1, h2.queues]
        simp [h2.mail]
      rw [this]
      refine .inl ⟨h1, ?_⟩
      rw [e] at h2
      rw [show (p + 1) % 7 = 0 by omega]
      exact h2
  · have e0 : p0 + 1 + (if (f.inside 0).isNone then 1 else 0) = p0 + 1 := by rw [h1]; rfl
    rw [e0]
    have keep : ∀ {f' : Weave Int Unit SpecB} {x' : Inside Int Unit}, f'.inside 0 = some x' → x'.who = x.who → x'.op = x.op →
        Steady s0 (if p0 % 7 < 3 then p0 % 7 else 0) f'.site → Going s0 f' (p0 + 1) :=
      fun {f' x'} g1 g2 g3 g4 => .inr ⟨x', p0, rfl, g1, g2.trans h2, g3 ▸ h3, g4⟩
    have hgo : Going s0 (f.step (fun _ => E) SpecB (fun _ => clk) (.go 0)) (p0 + 1) := by
      show Going s0 (f.go SpecB (fun _ => clk) 0) (p0 + 1)
      rcases Weave.go_cases (B := SpecB) (clk := fun _ => clk) (f := f) (q := 0) with e | ⟨x', a', hx, ha, ⟨p, r, hr, e⟩ | ⟨hr, e⟩⟩
      · rw [e]; exact keep h1 rfl rfl h4
      · rw [e]
        have : x' = x := by rw [h1] at hx; exact (Option.some.inj hx).symm
        subst this
        obtain ⟨l1, -, l3, -, l5, -⟩ := Weave.leave_site ht hx p r
        obtain ⟨l5, l6⟩ := l5 h2
        refine .inl ⟨by show upd f.inside 0 none 0 = none; exact upd_same .., h4.seen l1 l5 (by rw [l6]) (op := x'.op) (r := r) (by rw [l3, h2]; rfl) ?_⟩
        have hp : p0 % 7 = 0 ∨ p0 % 7 = 1 ∨ p0 % 7 = 2 ∨ p0 % 7 = 3 ∨ p0 % 7 = 4 ∨ p0 % 7 = 5 ∨ p0 % 7 = 6 := by omega
        unfold siteRounds at h3
        rcases hp with e | e | e | e | e | e | e <;> rw [e] at h3 ⊢
        · rw [show (p0 + 1) % 7 = 1 by omega, ← (SiteOp.turn.inj h3).2]
          exact fun s => worker_tick
        · rw [show (p0 + 1) % 7 = 2 by omega, ← (SiteOp.turn.inj h3).2]
          exact fun s => worker_start
        · rw [show (p0 + 1) % 7 = 3 by omega, ← (SiteOp.turn.inj h3).2]
          exact fun s => worker_finish
        all_goals cases h3
      · rw [e]
        obtain ⟨m1, m2, m3, m4⟩ := Weave.move_calm (clk := fun _ => clk) f 0 a' x'
        have : x' = x := by rw [h1] at hx; exact (Option.some.inj hx).symm
        subst this
        exact keep (x' := { x' with rest := (x'.rest.step1 SpecB clk (Weave.world f.site 0 a')).1 }) (by
          show upd f.inside 0 _ 0 = _; exact upd_same ..) rfl rfl (h4.still m1 m2 (m4 0).1 m3)
    have hcl : Going s0 (f.step (fun _ => E) SpecB (fun _ => clk) (.site (.client 2 false))) (p0 + 1) := by
      have : f.site.client SpecB 2 false = f.site := by
        obtain ⟨call, r, hc⟩ := h4.client
        unfold Site.client
        rw [hc]
        simp [Hub.client, hc]
      refine keep (f' := { f with site := f.site.client SpecB 2 false }) h1 rfl rfl ?_
      rw [this]; exact h4
    have hen : Going s0 (f.step (fun _ => E) SpecB (fun _ => clk) (.site (.engine 0))) (p0 + 1) := by
      refine keep (f' := { f with site := { f.site with hub := f.site.hub.engine 0 } }) h1 rfl rfl ?_
      obtain ⟨G, g1, g2, g3⟩ := h4.engine
      have : f.site.hub.engine 0 = f.site.hub := by simp [Hub.engine, g1, g2, g3]
      exact h4.still this rfl rfl rfl
    unfold nextOp
    rw [h1]
    dsimp only
    split
    · exact hgo
    · split
      · exact hcl
      · exact hen
      · exact hgo
section
variable (ht : Weave.Tidy f) (h0 : ∀ q, f.inside q = none) (hs : (sofar f pro pro.length).inside 0 = none ∧ Steady s0 0 (sofar f pro pro.length).site)
include ht hs

theorem going (n : Nat) : Going s0 (κ n).1 (κ n).2 := by
  induction n with
  | zero => rw [course_zero]; exact .inl hs
  | succ n ih =>
    rw [course_succ]
    refine going_step ?_ ih n
    rw [← lasting_course]
    exact Weave.after_tidy ht _

include h0
omit hs in
/-- Turns come to an end. -/
theorem lasting_idle (n : Nat) : ∃ m, n ≤ m ∧ (κ m).1.inside 0 = none := by
  by_contra hcon
  have hcon : ∀ m, n ≤ m → ∃ y, (κ m).1.inside 0 = some y := by
    intro m hm
    cases h : (κ m).1.inside 0 with
    | none => exact absurd ⟨m, hm, h⟩ hcon
    | some y => exact ⟨y, rfl⟩
  obtain ⟨y, hy⟩ := hcon n (Nat.le_refl n)
  have ht' : Weave.Tidy (φ (pro.length + n)) := Weave.after_tidy ht _
  have hs : Weave.AllSound (φ (pro.length + n)) := by
    rw [Weave.after_run]
    exact Weave.sound_run ht (fun q y hy => by rw [h0 q] at hy; cases hy) _
  rw [← lasting_course] at hy
  obtain ⟨k, hk⟩ := Weave.ends (E := fun _ => E) (clk := fun _ => clk) ht' hy (hs 0 y hy) (fun i => lasting f pro (pro.length + n + i)) (by
    intro m
    refine ⟨4 * (n + m) - n, by omega, ?_⟩
    obtain ⟨z, hz⟩ := hcon (4 * (n + m)) (by omega)
    show lasting f pro (pro.length + n + (4 * (n + m) - n)) = _
    rw [show pro.length + n + (4 * (n + m) - n) = pro.length + 4 * (n + m) by omega, lasting_late]
    unfold nextOp
    rw [hz]
    dsimp only
    rw [show 4 * (n + m) % 4 = 0 by omega]
    split <;> rfl)
  rw [← Weave.after_run, ← Weave.after_add, Nat.add_assoc, lasting_course] at hk
  obtain ⟨z, hz⟩ := hcon (n + k) (by omega)
  rw [hz] at hk
  cases hk

/-- Every step of `siteRounds` is taken. -/
theorem lasting_reaches (p : Nat) : ∃ n, p ≤ n ∧ (κ n).2 = p ∧ (κ n).1.inside 0 = none := by
  have wait : ∀ d n, (κ (n + d)).1.inside 0 = none →
      ∃ m, n ≤ m ∧ (κ m).2 = (κ n).2 ∧ (κ m).1.inside 0 = none := by
    intro d
    induction d with
    | zero => exact fun n h => ⟨n, Nat.le_refl n, rfl, h⟩
    | succ d ih =>
      intro n h
      cases hn : (κ n).1.inside 0 with
      | none => exact ⟨n, Nat.le_refl n, rfl, hn⟩
      | some y =>
        obtain ⟨m, k1, k2, k3⟩ := ih (n + 1) (by rw [Nat.add_right_comm]; exact h)
        refine ⟨m, by omega, ?_, k3⟩
        rw [k2, course_succ, hn]
        rfl
  induction p with
  | zero => exact ⟨0, Nat.le_refl 0, by rw [course_zero], by rw [course_zero]; exact hs.1⟩
  | succ p ih =>
    obtain ⟨n, k1, k2, k3⟩ := ih
    obtain ⟨m, g1, g2⟩ := lasting_idle ht h0 (n + 1)
    obtain ⟨m', e1, e2, e3⟩ := wait (m - (n + 1)) (n + 1) (by rw [show n + 1 + (m - (n + 1)) = m by omega]; exact g2)
    refine ⟨m', by omega, ?_, e3⟩
    rw [e2, course_succ, k3, k2]
    rfl

theorem lasting_takes (p : Nat) : ∃ n, p ≤ n ∧ lasting f pro (pro.length + n) = .site (siteRounds p) ∧ (φ (pro.length + n)).inside 0 = none ∧
    Steady s0 (if p % 7 < 3 then p % 7 else 0) (φ (pro.length + n)).site := by
  obtain ⟨n, h1, h2, h3⟩ := lasting_reaches ht h0 hs p
  refine ⟨n, h1, ?_, by rw [lasting_course]; exact h3, ?_⟩
  · rw [lasting_late]
    unfold nextOp
    rw [h3, h2]
  · rw [lasting_course]
    rcases going ht hs n with ⟨-, g⟩ | ⟨y, _, _, g, -⟩
    · rw [h2] at g
      exact g
    · rw [h3] at g; cases g
omit h0 in
theorem lasting_queues {n q : Nat} {a : QueueActor} (h : (φ n).site.hub.queues[q]? = some a) : q = 0 ∧ a = printer := by
  have h := Weave.after_queues ht (Nat.le_add_left n pro.length) h
  have hq : (φ (pro.length + n)).site.hub.queues = [printer] := by
    rw [lasting_course]
    rcases going ht hs n with ⟨-, g⟩ | ⟨_, _, _, _, _, _, g⟩ <;> exact g.queues
  rw [hq] at h
  cases q with
  | zero => cases h; exact ⟨rfl, rfl⟩
  | succ q => cases h
theorem lasting_serves {k : Str} (ha : ∀ n, (φ n).site.hub.queues = [printer] → Alike s0 (φ n))
    (hturns : ((List.range pro.length).all fun n => match pro[n]? with
      | some (.site (.turn 0 op)) => ok k ((sofar f pro n).site.snap .spec (fun _ => E) 0 printer) op &&
        (((sofar f pro n).site.snap .spec (fun _ => E) 0 printer).lists .queued).length ≤ 20
      | _ => true) = true) : Weave.Serves .spec (fun _ => E) (fun _ => clk) k 0 printer f (lasting f pro) := by
  have early : ∀ n, n < pro.length → ∀ op, lasting f pro n = .site (.turn 0 op) → ok k ((φ n).site.snap .spec (fun _ => E) 0 printer) op = true ∧
      (((φ n).site.snap .spec (fun _ => E) 0 printer).lists .queued).length ≤ 20 := by
    intro n hn op ho
    have := List.all_eq_true.1 hturns n (List.mem_range.2 hn)
    rw [lasting_some hn, ho] at this
    rw [lasting_early (Nat.le_of_lt hn)]
    simpa using this
  have phase : ∀ n, (φ (pro.length + n)).inside 0 = none → ∃ p, lasting f pro (pro.length + n) = .site (siteRounds p) ∧
      Steady s0 (if p % 7 < 3 then p % 7 else 0) (φ (pro.length + n)).site := by
    intro n hi
    rw [lasting_course] at hi
    refine ⟨(κ n).2, ?_, ?_⟩
    · rw [lasting_late]
      unfold nextOp
      rw [hi]
    · rw [lasting_course]
      rcases going ht hs n with ⟨-, g⟩ | ⟨y, _, _, g, -⟩
      · exact g
      · rw [hi] at g; cases g
  refine ⟨fun n i x orig j h1 hi h2 h3 => ?_, fun n _ => ?_, fun m => ?_, .inl fun n hn => ?_⟩
  · by_cases hn : n < pro.length
    · exact ok.careful (k := k) (op := .finish i x) (early n hn _ h1).1 orig j h2 h3
    · obtain ⟨m, rfl⟩ : ∃ m, n = pro.length + m := ⟨n - pro.length, by omega⟩
      obtain ⟨p, hp, hst⟩ := phase m hi
      rw [hp] at h1
      have e : p % 7 = 2 ∧ i = 0 ∧ x = good := by
        have h1 := WeaveOp.site.inj h1
        unfold siteRounds at h1
        split at h1 <;> cases h1
        exact ⟨by assumption, rfl, rfl⟩
      obtain ⟨e, rfl, rfl⟩ := e
      have hw := hst.work
      rw [e] at hw
      have h2 : ((φ (pro.length + m)).site.snap .spec (fun _ => E) 0 printer).tasks[0]? = _ := h2
      rw [(ha _ hst.queues).1] at h2
      exact good_careful hw orig j h2
  · obtain ⟨m, k1, k2, k3, hst⟩ := lasting_takes ht h0 hs (7 * n)
    refine ⟨pro.length + m, by omega, fun hk => ?_⟩
    have hk : k ∈ ((φ (pro.length + m)).site.snap .spec (fun _ => E) 0 printer).inFlight := hk
    unfold Snap.inFlight at hk
    rw [(ha _ hst.queues).1] at hk
    have hw := hst.work
    rw [show 7 * n % 7 = 0 by omega] at hw
    obtain ⟨_, _, _, ⟨ht, _⟩ | ⟨_, h0, _⟩⟩ := hw
    · have ht : (Impl.spec.snap E c!"print" ((φ (pro.length + m)).site.played s0)).tasks = [] := ht
      rw [ht] at hk
      cases hk
    · exact absurd rfl h0
  · obtain ⟨n, k1, k2, k3, hst⟩ := lasting_takes ht h0 hs (7 * m)
    obtain ⟨s1, s2, s3⟩ := (ha _ hst.queues).2 k3
    refine ⟨pro.length + n, by omega, ?_, s3.trans hst.work.2.1, ?_⟩
    · rw [k2]
      unfold siteRounds
      rw [show 7 * m % 7 = 0 by omega]
      show (true && ((φ (pro.length + n)).inside 0).isNone) = true
      rw [k3]; rfl
    · have hw := hst.work
      rw [show 7 * m % 7 = 0 by omega] at hw
      obtain ⟨_, _, hc, ⟨_, hr, _⟩ | ⟨_, h0, _⟩⟩ := hw
      · show 1 ≤ ((φ (pro.length + n)).site.snap .spec (fun _ => E) 0 printer).free
        rw [Site.snap_free s1 s2]
        unfold Snap.free
        show 1 ≤ (Sys.cfg _).maxProcessingJobs - ((Impl.spec.snap E c!"print" _).lists .running).length
        rw [hr, hc]
        decide
      · exact absurd rfl h0
  · have hn : (φ n).ticks 0 (lasting f pro n) = true := hn
    have ho : lasting f pro n = .site (.turn 0 .tick) ∧ (φ n).inside 0 = none := by
      cases ho : lasting f pro n with
      | go p => rw [ho] at hn; cases hn
      | site o =>
        rw [ho] at hn
        simp only [Weave.ticks, Bool.and_eq_true, Option.isNone_iff_eq_none] at hn
        refine ⟨?_, hn.2⟩
        cases o with
        | turn p op =>
          cases op with
          | tick => rw [show p = 0 by simpa [SiteOp.ticks] using hn.1]
          | _ => cases hn.1
        | _ => cases hn.1
    by_cases h : n < pro.length
    · exact (early n h _ ho.1).2
    · obtain ⟨m, rfl⟩ : ∃ m, n = pro.length + m := ⟨n - pro.length, by omega⟩
      obtain ⟨p, -, hst⟩ := phase m ho.2
      show (((φ (pro.length + m)).site.snap .spec (fun _ => E) 0 printer).lists .queued).length ≤ 20
      rw [((ha _ hst.queues).2 ho.2).1]
      obtain ⟨_, _, _, ⟨_, _, hl⟩ | ⟨_, _, _, _, _, _, hl⟩⟩ := hst.work
      · exact hl
      · exact Nat.le_of_succ_le hl
end

end AJ.Props
