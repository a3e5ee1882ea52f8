import Verif.Proofs.GrantEndless
import Verif.Proofs.Slots
import Verif.Spec.Fair

/-! # Work queues of a process that are treated fairly: ticks find free capacity again and again -/

namespace AJ
namespace Weave
variable {D O : Type} {E : Nat → Env D} {clk : Nat → Nat → Time} {kind : Str → Nat}

section
variable {B : Backend} {f : Weave D O B} {ops : Nat → WeaveOp D O}

local notation "φ" n:max => Weave.after E B clk f ops n

/-- When and how the turn in progress began. -/
theorem entered (h : Tidy f) {q N1 : Nat} (h1 : (φ N1).inside q = none) (n : Nat) (hn : N1 ≤ n) {x : Inside D O} (hx : (φ n).inside q = some x) :
    ∃ m y, N1 ≤ m ∧ m < n ∧ (φ m).inside q = none ∧ (φ (m + 1)).inside q = some y ∧ y.op = x.op ∧ y.who = x.who ∧
      turnsOf q (φ n).site.trace = turnsOf q (φ m).site.trace ∧ (∃ a, (φ m).site.hub.queues[q]? = some a) ∧
      (x.who = none → ops m = .site (.turn q x.op)) := by
  induction hn generalizing x with
  | refl => rw [h1] at hx; cases hx
  | @step n hn ih =>
    have ht := after_tidy (E := E) (clk := clk) (ops := ops) h n
    rcases turn_step (E := E) (clk := clk) ht q (ops n) with ⟨-, g2, -, g4⟩ | ⟨g1, -⟩
    · rcases g4 with g4 | ⟨z, y, g4, g5, g6, g7⟩ | ⟨g4, g5, z, g6, g7⟩
      · have : none = some x := g4.symm.trans hx
        cases this
      · have : some y = some x := g5.symm.trans hx
        cases this
        obtain ⟨m, w, k1, k2, k3, k4, k5, k6, k7, k8, k9⟩ := ih g4
        exact ⟨m, w, k1, by omega, k3, k4, k5.trans g7.symm, k6.trans g6.symm, g2.trans k7, k8, by rw [g6, g7]; exact k9⟩
      · have : some z = some x := g6.symm.trans hx
        cases this
        obtain ⟨a, ha⟩ := ((tidy_step (E := E) (clk := clk) ht (ops n)).inside q x g6).queue
        exact ⟨n, x, hn, Nat.lt_succ_self n, g4, hx, rfl, rfl, g2, ⟨a, by rw [← g5]; exact ha⟩, g7⟩
    · have : none = some x := g1.symm.trans hx
      cases this

/-- A turn of `q` that is seen is the one in progress. -/
theorem turn_seen (h : Tidy f) (q : Nat) (o : WeaveOp D O) (hne : turnsOf q (f.step E B clk o).site.trace ≠ turnsOf q f.site.trace) :
    ∃ x r, f.inside q = some x ∧ (f.step E B clk o).site.trace = f.site.trace ++ [.turn q (x.who.map Prod.fst) x.op r] := by
  cases o with
  | site o =>
    exfalso
    rcases turn_step (E := E) (clk := clk) h q (.site o) with ⟨-, g2, -⟩ | ⟨-, x, g2, g3⟩
    · exact hne g2
    · cases hp : o.plain with
      | true =>
        apply hne
        rw [step_plain hp]
        exact Site.plain_turns f.site hp q
      | false =>
        cases o with
        | handle => cases g3
        | turn => cases g3
        | _ => cases hp
  | go p =>
    rcases go_cases (B := B) (clk := clk) (f := f) (q := p) with e | ⟨x, a', hx, ha', ⟨y, r, hr, e⟩ | ⟨hr, e⟩⟩
    · exact absurd (by show turnsOf q (f.go B clk p).site.trace = _; rw [e]) hne
    · obtain ⟨-, -, l3, -⟩ := leave_site h hx y r
      by_cases hpq : q = p
      · subst hpq
        exact ⟨x, r, hx, by show (f.go B clk q).site.trace = _; rw [e, l3]⟩
      · refine absurd ?_ hne
        show turnsOf q (f.go B clk p).site.trace = _
        rw [e, l3, turnsOf_append]
        have : turnsOf q [.turn p (x.who.map Prod.fst) x.op r] = [] := by simp [turnsOf, SiteEvent.at, Ne.symm hpq]
        rw [this, List.append_nil]
    · obtain ⟨-, -, m3, -⟩ := move_calm (clk := clk) f p a' x
      exact absurd (by show turnsOf q (f.go B clk p).site.trace = _; rw [e, m3]) hne

theorem ticks_idle {f : Weave D O B} {q : Nat} {o : WeaveOp D O} (h : f.ticks q o = true) : f.inside q = none := by
  cases o with
  | go p => cases h
  | site o =>
    unfold ticks at h
    rw [Bool.and_eq_true] at h
    simpa using h.2

theorem ticks_turn {f : Weave D O B} {q : Nat} (h : f.inside q = none) : f.ticks q (.site (.turn q .tick)) = true := by
  show (_ && _) = true
  rw [h]
  simp [SiteOp.ticks]

end

section
variable {S : Site.Base E kind} {f : Weave D O SpecB} {t : Site D O SpecB} {ops : Nat → WeaveOp D O}

local notation "φ" n:max => Weave.after E SpecB clk f ops n

local notation "ψ" => serially E clk f ops

local notation "τ" n:max => Site.after E SpecB clk t (serially E clk f ops) n

local notation "μ" n:max => lone E clk S (Site.after E SpecB clk t (serially E clk f ops) n)

variable (hP : ∀ n, PairFrom E clk kind S (Weave.after E SpecB clk f ops n) (Site.after E SpecB clk t (serially E clk f ops) n))
  (h0 : ∀ q, f.inside q = none) (h1 : ∀ n, (Site.after E SpecB clk t (serially E clk f ops) n).hub.engines.length ≤ 1)
  {n1 q : Nat} {a : QueueActor} (ha : (Weave.after E SpecB clk f ops n1).site.hub.queues[q]? = some a)
include hP ha

omit ha in
/-- A work queue is the same at all times. -/
theorem same_queue (ha : (φ n1).site.hub.queues[q]? = some a) {m : Nat} {a' : QueueActor} (ha' : (φ m).site.hub.queues[q]? = some a') : a' = a := by
  have g1 := after_queues (E := E) (clk := clk) (ops := ops) (hP 0).tidy (Nat.le_add_right m n1) ha'
  have g2 := after_queues (E := E) (clk := clk) (ops := ops) (hP 0).tidy (Nat.le_add_left n1 m) ha
  exact Option.some.inj (g1.symm.trans g2)

omit ha in
theorem lone_eq {m n : Nat} (h : turnsOf q (φ n).site.trace = turnsOf q (φ m).site.trace) : (μ n) q a = (μ m) q a := by
  refine lone_turns ?_ a
  rw [← (hP n).serial.face.trace, ← (hP m).serial.face.trace, h]

omit ha in
/-- A work queue that is not inside a turn, and the same one alone. -/
theorem calm_lone {m : Nat} (hm : (φ m).site.hub.queues[q]? = some a) (hi : (φ m).inside q = none) :
    let v := (φ m).site.snap .spec E q a
    let v' := Impl.spec.snap (E a.ty) a.name ((μ m) q a)
    v.lists = v'.lists ∧ v.tasks = v'.tasks ∧ v.cfg = v'.cfg ∧ v.alive = v'.alive ∧ ∀ k, kind k = a.ty → v.job k = v'.job k := by
  have hm' : (τ m).hub.queues[q]? = some a := by rw [← (hP m).serial.face.hub]; exact hm
  obtain ⟨c1, c2, c3, -, c5⟩ := (hP m).calm hm' hi
  obtain ⟨s1, s2, s3, s4, -, -, s7⟩ := Site.lone_snap (hP m).alone hm'
  exact ⟨c1.trans s1, ((hP m).tasks q a).trans s2, c2.trans s3, c3.trans s4, fun k hk => (c5 k hk).trans (s7 k hk)⟩

omit ha in
/-- The places in the running list of a work queue that is not inside a turn. -/
theorem places_calm (L : ∀ ty, (E ty).Lawful) (hkey : (Impl.spec.snap (E a.ty) a.name (Sys.init SpecB (S.start a) : Sys D SpecB)).Keyed)
    {m : Nat} (hm : (φ m).site.hub.queues[q]? = some a) (hi : (φ m).inside q = none) :
    Slots ((Impl.spec.snap (E a.ty) a.name (Sys.init SpecB (S.start a) : Sys D SpecB)).lists .running) ((φ m).site.snap .spec E q a) := by
  obtain ⟨c1, c2, -, c4, -⟩ := calm_lone hP hm hi
  exact (slots_run (b := .spec) (s := Sys.init SpecB (S.start a)) (L a.ty) ⟨_, rfl⟩ hkey (.start rfl) _).same c2 (congrFun c1 _) c4

/-- Where the turn in progress began. -/
theorem origin {N1 n : Nat} (hN : (φ N1).inside q = none) (hn : N1 ≤ n) {x : Inside D O} (hx : (φ n).inside q = some x) :
    ∃ m y, N1 ≤ m ∧ m < n ∧ (φ m).inside q = none ∧ (φ (m + 1)).inside q = some y ∧ y.op = x.op ∧ (φ m).site.hub.queues[q]? = some a ∧
      (μ n) q a = (μ m) q a ∧ (x.who = none → ops m = .site (.turn q x.op)) := by
  obtain ⟨m, y, k1, k2, k3, k4, k5, -, k7, ⟨a', k8⟩, k9⟩ := entered (hP 0).tidy hN n hn hx
  cases same_queue hP ha k8
  exact ⟨m, y, k1, k2, k3, k4, k5, k8, lone_eq hP k7, k9⟩

/-- A tick taken in one step is one that began. -/
theorem tick_began {N1 n : Nat} (hN : (φ N1).inside q = none) (hn : N1 ≤ n) (h : (ψ n).ticks q = true) :
    ∃ m, N1 ≤ m ∧ m < n ∧ (φ m).ticks q (ops m) = true ∧ (φ m).site.hub.queues[q]? = some a ∧ (μ n) q a = (μ m) q a := by
  have e : ψ n = .turn q .tick := by
    generalize ψ n = o at h
    cases o with
    | turn p op =>
      cases op with
      | tick => rw [show p = q by simpa [SiteOp.ticks] using h]
      | _ => cases h
    | _ => cases h
  obtain ⟨x, hx, hw, hop⟩ := flat_turn E (hP n).tidy e
  obtain ⟨m, y, k1, k2, k3, -, -, k6, k7, k8⟩ := origin hP ha hN hn hx
  have k8 := k8 hw
  rw [hop] at k8
  exact ⟨m, k1, k2, by rw [k8]; exact ticks_turn k3, k6, k7⟩

include h1 in
/-- A tick that has begun comes to an end before the next one begins. -/
theorem tick_ends : ∀ d i, n1 ≤ i → ticking ((φ i).inside q) = true → (φ (i + d)).ticks q (ops (i + d)) = true → ∃ j, i ≤ j ∧ (ψ j).ticks q = true := by
  have hq : ∀ n, n1 ≤ n → (τ n).hub.queues[q]? = some a := fun n hn => by
    rw [← (hP n).serial.face.hub]
    exact after_queues (hP 0).tidy hn ha
  have erun : ∀ n, τ (n + 1) = (τ n).run E SpecB clk ((φ n).closed (ops n)) := fun n => flat_run (φ n) (ops n) (h1 n)
  intro d
  induction d with
  | zero =>
    intro i _ h2 h4
    have h4 : (φ i).ticks q (ops i) = true := h4
    rw [ticks_idle h4] at h2
    cases h2
  | succ d ih =>
    intro i hi h2 h4
    have hs := (hP (i + 1)).serial
    have hal := (hP (i + 1)).alone
    rw [erun i] at hs hal
    rcases (hP i).serial.counts (hP i).tidy (hP i).alone (hq i hi) (ops i) hs hal with ⟨-, -, g, -⟩ | ⟨-, g2, -, -⟩ | ⟨-, -, g3, -⟩
    · rw [h2] at g; cases g
    · refine ⟨i, Nat.le_refl _, ?_⟩
      show ((φ i).flat (ops i)).ticks q = true
      unfold flat
      rw [g2]
      simp [SiteOp.ticks]
    · obtain ⟨j, hj, g⟩ := ih (i + 1) (by omega) (by rw [← h2]; exact g3) (by rw [show i + 1 + d = i + (d + 1) by omega]; exact h4)
      exact ⟨j, by omega, g⟩

include h0 h1 in
/-- A work queue that is treated fairly, alone. -/
theorem RoomyOn.alone {lost : Nat} (H : RoomyOn .spec E lost q a (Weave.after E SpecB clk f ops) ops) (hs : turnsOf q t.trace = []) :
    ∃ ops' : Nat → Op D O, (∀ i, (μ i) q a = Sys.after (E a.ty) a.name Impl.spec.B (clk q) (Sys.init SpecB (S.start a)) ops' i) ∧
      (∀ n, (φ n).site.hub.queues[q]? = some a → ((ψ n).ticks q = true ↔ ops' n = .tick)) ∧
      (∀ n, ops' n = .get [] ∨ (φ n).site.hub.queues[q]? = some a ∧ ∃ who r, (τ (n + 1)).trace = (τ n).trace ++ [.turn q who (ops' n) r]) ∧
      Sys.Roomy .spec (E a.ty) a.name (clk q) lost (Sys.init SpecB (S.start a)) ops' := by
  have hq : ∀ n, n1 ≤ n → (φ n).site.hub.queues[q]? = some a := fun n hn => after_queues (hP 0).tidy hn ha
  have hub : ∀ n, (τ n).hub = (φ n).site.hub := fun n => (hP n).serial.face.hub.symm
  choose ops' g1 g2 g3 g4 using fun n => Site.lone_move (q := q) (a := a) (hP n).links (hP n).alone (ψ n) (hP (n + 1)).alone fun a' e =>
    same_queue hP ha (by rw [← hub]; exact e)
  have hi : lone E clk S t q a = Sys.init SpecB (S.start a) := by
    unfold lone
    rw [hs]
    rfl
  have hm : ∀ i, (μ i) q a = Sys.after (E a.ty) a.name Impl.spec.B (clk q) (Sys.init SpecB (S.start a)) ops' i := by
    intro i
    induction i with
    | zero => exact hi
    | succ i ih =>
      have h := g1 i
      rw [ih] at h
      exact h
  have here : ∀ n, ops' n ≠ .get [] → (φ n).site.hub.queues[q]? = some a := by
    intro n hne
    cases e : (φ n).site.hub.queues[q]? with
    | none => exact absurd (g3 n (by rw [hub]; exact e)) hne
    | some a' => rw [same_queue hP ha e]
  have tick : ∀ n, (φ n).site.hub.queues[q]? = some a → ((ψ n).ticks q = true ↔ ops' n = .tick) := fun n e => g2 n (by rw [hub]; exact e)
  have hal : ∀ n, ((φ n).site.snap .spec E q a).alive = ((τ n).snap .spec E q a).alive := fun n => congrArg Proc.alive ((hP n).serial.procs q)
  have hS := fun n (hn : (φ n).site.hub.queues[q]? = some a) => Site.lone_snap (hP n).alone (q := q) (a := a) (by rw [hub]; exact hn)
  have live : ∀ i, (Sys.after (E a.ty) a.name Impl.spec.B (clk q) (Sys.init SpecB (S.start a)) ops' i).alive = true := by
    intro i
    by_contra hd
    obtain ⟨n, k1, -, k3⟩ := H.ticks (n1 + i)
    have := after_dead (n := i) (m := n) (by omega) (by simpa using hd)
    rw [← hm n] at this
    have k3 : ((φ n).site.snap .spec E q a).alive = true := k3
    rw [hal, (hS n (hq n (by omega))).2.2.2.1] at k3
    have k3 : ((μ n) q a).alive = true := k3
    rw [this] at k3
    cases k3
  have began : ∀ i, ops' i = .tick → ∃ m, (φ m).ticks q (ops m) = true ∧ (φ m).site.hub.queues[q]? = some a ∧ (μ i) q a = (μ m) q a := by
    intro i hi
    obtain ⟨m, -, -, k3, k4, k5⟩ := tick_began hP ha (N1 := 0) (h0 q) (Nat.zero_le i) ((tick i (here i (by rw [hi]; simp))).2 hi)
    exact ⟨m, k3, k4, k5⟩
  have eflight : ∀ n, ((φ n).site.snap .spec E q a).inFlight = (Impl.spec.snap (E a.ty) a.name ((μ n) q a)).inFlight := by
    intro n
    unfold Snap.inFlight
    cases e : (φ n).site.hub.queues[q]? with
    | some a' =>
      rw [same_queue hP ha e] at e
      rw [(hP n).tasks, (hS n e).2.1]
    | none =>
      have hf := (hP n).alone.fresh q (by rw [hub]; exact List.getElem?_eq_none_iff.1 e)
      have e1 : ((φ n).site.snap .spec E q a).tasks = [] := ((hP n).tasks q a).trans (show ((τ n).boxes q).proc.tasks = [] by rw [hf.1])
      have e2 : (Impl.spec.snap (E a.ty) a.name ((μ n) q a)).tasks = [] := by
        unfold lone
        rw [hf.2.2.2]
        rfl
      rw [e1, e2]
  have F : Sys.Roomy .spec (E a.ty) a.name (clk q) lost (Sys.init SpecB (S.start a)) ops' := by
    refine ⟨fun i id hid => ?_, fun i => ?_, fun i hi => ?_⟩
    · rw [← hm i, ← eflight] at hid
      obtain ⟨n, k1, k2⟩ := H.ends i id hid
      exact ⟨n, k1, by rw [← hm n, ← eflight]; exact k2⟩
    · obtain ⟨n, k1, k2, -⟩ := H.ticks (n1 + i)
      obtain ⟨n', k3, k4, -⟩ := H.ticks (n + 1)
      have hsr := (hP (n + 1)).serial
      have halo := (hP (n + 1)).alone
      have erun : τ (n + 1) = (τ n).run E SpecB clk ((φ n).closed (ops n)) := flat_run (φ n) (ops n) (h1 n)
      rw [erun] at hsr halo
      have hqn : (τ n).hub.queues[q]? = some a := by rw [hub]; exact hq n (by omega)
      rcases (hP n).serial.counts (hP n).tidy (hP n).alone hqn (ops n) hsr halo with ⟨-, -, -, k5, -⟩ | ⟨k5, -⟩ | ⟨k5, -⟩
      · obtain ⟨d, rfl⟩ := Nat.exists_eq_add_of_le k3
        obtain ⟨j, j1, j2⟩ := tick_ends hP h1 ha d (n + 1) (by omega) k5 k4
        exact ⟨j, by omega, (tick j (hq j (by omega))).1 j2, live j⟩
      · exact absurd (k5.symm.trans k2) (by simp)
      · exact absurd (k5.symm.trans k2) (by simp)
    · obtain ⟨m, k1, k2, k3⟩ := began i hi
      rw [← hm i, k3]
      have e := (calm_lone hP k2 (ticks_idle k1)).2.2.1
      have := H.capacity m k1
      have this : lost < ((φ m).site.snap .spec E q a).cfg.maxProcessingJobs := this
      rw [e] at this
      exact this
  refine ⟨ops', hm, tick, fun n => ?_, F⟩
  rcases g4 n with e | e
  · exact .inl e
  · by_cases hne : ops' n = .get []
    · exact .inl hne
    · exact .inr ⟨here n hne, e⟩

include h0 h1 in
/-- Ticks find free capacity again and again. -/
theorem RoomyOn.free (L : ∀ ty, (E ty).Lawful) (hkey : (Impl.spec.snap (E a.ty) a.name (Sys.init SpecB (S.start a) : Sys D SpecB)).Keyed) {lost : Nat}
    (hl : ((Impl.spec.snap (E a.ty) a.name (Sys.init SpecB (S.start a) : Sys D SpecB)).lists .running).length ≤ lost)
    (H : RoomyOn .spec E lost q a (Weave.after E SpecB clk f ops) ops) (hs : turnsOf q t.trace = []) (m : Nat) :
    ∃ n, m ≤ n ∧ (φ n).ticks q (ops n) = true ∧ ((φ n).site.snap .spec E q a).alive = true ∧ 1 ≤ ((φ n).site.snap .spec E q a).free := by
  have hq : ∀ n, n1 ≤ n → (φ n).site.hub.queues[q]? = some a := fun n hn => after_queues (hP 0).tidy hn ha
  obtain ⟨ops', hm, tick, -, F⟩ := H.alone hP h0 h1 ha hs
  obtain ⟨N1, k1, k2, -⟩ := H.ticks (m + n1)
  obtain ⟨i, k3, k4, k5, k6⟩ := F.free (L a.ty) ⟨_, rfl⟩ hkey (.start rfl) hl N1
  obtain ⟨n, j1, -, j3, j4, j5⟩ := tick_began hP ha (ticks_idle k2) (show N1 ≤ i by omega) ((tick i (hq i (by omega))).2 k4)
  obtain ⟨c1, -, c3, c4, -⟩ := calm_lone hP j4 (ticks_idle j3)
  rw [← hm i, j5] at k5 k6
  exact ⟨n, by omega, j3, c4.trans k5, by rw [Site.snap_free c1 c3]; exact k6⟩

include h0 h1 in
/-- A work queue that is treated fairly serves the job. -/
theorem FairOn.serves (L : ∀ ty, (E ty).Lawful) (hkey : (Impl.spec.snap (E a.ty) a.name (Sys.init SpecB (S.start a) : Sys D SpecB)).Keyed) {lost : Nat}
    (hl : ((Impl.spec.snap (E a.ty) a.name (Sys.init SpecB (S.start a) : Sys D SpecB)).lists .running).length ≤ lost) {k : Str}
    (H : FairOn .spec E k lost q a (Weave.after E SpecB clk f ops) ops) (hs : turnsOf q t.trace = []) : Weave.Serves .spec E clk k q a f ops :=
  ⟨H.code, fun n => H.room.ends n k, H.room.free hP h0 h1 ha L hkey hl hs, H.short⟩

end
/-! ## Ticks that make the calls of the code alone -/

section
variable {b : Impl} {φ : Nat → Weave D O b.B} {ops : Nat → WeaveOp D O} {f : Weave D O SpecB} {hist : Nat → WeaveOp D O} {idx : Nat → Nat}

theorem tick_at {ψ : Nat → Weave D O SpecB} (h : Stretch b φ ops ψ hist idx) {q m : Nat} (hm : (ψ m).ticks q (hist m) = true) : ∃ n, m = idx n := by
  have : ∃ o, hist m = .site o := by
    cases e : hist m with
    | site o => exact ⟨o, rfl⟩
    | go p => rw [e] at hm; cases hm
  obtain ⟨o, ho⟩ := this
  obtain ⟨n, e, -⟩ := h.said ho
  exact ⟨n, e⟩

theorem Stretch.roomy (h : Stretch b φ ops (Weave.after E SpecB clk f hist) hist idx) {lost q : Nat} {a : QueueActor} (H : RoomyOn b E lost q a φ ops) :
    RoomyOn .spec E lost q a (Weave.after E SpecB clk f hist) hist where
  ends := by
    intro m id hk
    obtain ⟨n, hs, hm⟩ := h.back m
    have e : (φ n).site.snap b E q a = Site.snap Impl.spec E (Weave.after E SpecB clk f hist m).site q a := Site.snap_rel hs q a
    have hk' : id ∈ ((φ n).site.snap b E q a).inFlight := by rw [e]; exact hk
    obtain ⟨n', h1, h2⟩ := H.ends n id hk'
    have hlt : n < n' := by
      rcases Nat.eq_or_lt_of_le h1 with e2 | e2
      · subst e2; exact absurd hk' h2
      · exact e2
    refine ⟨idx n', h.later hm hlt, ?_⟩
    have e' : (φ n').site.snap b E q a = Site.snap Impl.spec E (Weave.after E SpecB clk f hist (idx n')).site q a := Site.snap_rel (h.site n') q a
    exact fun hc => h2 (by rw [e']; exact hc)
  ticks := by
    intro m
    obtain ⟨n, h1, h2, h3⟩ := H.ticks m
    have e : (φ n).site.snap b E q a = Site.snap Impl.spec E (Weave.after E SpecB clk f hist (idx n)).site q a := Site.snap_rel (h.site n) q a
    rw [e] at h3
    exact ⟨idx n, Nat.le_trans h1 (h.le n), (h.ticks_eq n q).symm.trans h2, h3⟩
  capacity := by
    intro m hm
    obtain ⟨n, rfl⟩ := tick_at h hm
    have e : (φ n).site.snap b E q a = Site.snap Impl.spec E (Weave.after E SpecB clk f hist (idx n)).site q a := Site.snap_rel (h.site n) q a
    have := H.capacity n (by rw [h.ticks_eq]; exact hm)
    rw [e] at this
    exact this

theorem Stretch.fair (h : Stretch b φ ops (Weave.after E SpecB clk f hist) hist idx) {k : Str} {lost q : Nat} {a : QueueActor} (H : FairOn b E k lost q a φ ops) :
    FairOn .spec E k lost q a (Weave.after E SpecB clk f hist) hist where
  code := h.runs H.code
  room := h.roomy H.room
  short := h.brief H.short

theorem Stretch.free_back (h : Stretch b φ ops (Weave.after E SpecB clk f hist) hist idx) {q : Nat} {a : QueueActor} {n : Nat}
    (H : ∃ m, idx n ≤ m ∧ (Weave.after E SpecB clk f hist m).ticks q (hist m) = true ∧
      (Site.snap Impl.spec E (Weave.after E SpecB clk f hist m).site q a).alive = true ∧ 1 ≤ (Site.snap Impl.spec E (Weave.after E SpecB clk f hist m).site q a).free) :
    ∃ m, n ≤ m ∧ (φ m).ticks q (ops m) = true ∧ ((φ m).site.snap b E q a).alive = true ∧ 1 ≤ ((φ m).site.snap b E q a).free := by
  obtain ⟨m, h1, h2, h3, h4⟩ := H
  obtain ⟨n', rfl⟩ := tick_at h h2
  have e : (φ n').site.snap b E q a = Site.snap Impl.spec E (Weave.after E SpecB clk f hist (idx n')).site q a := Site.snap_rel (h.site n') q a
  exact ⟨n', h.of_le h1, (h.ticks_eq n' q).trans h2, by rw [e]; exact h3, by rw [e]; exact h4⟩

theorem Stretch.fair_back (h : Stretch b φ ops (Weave.after E SpecB clk f hist) hist idx) {k : Str} {lost q : Nat} {a : QueueActor}
    (H : FairOn .spec E k lost q a (Weave.after E SpecB clk f hist) hist) : FairOn b E k lost q a φ ops where
  code := h.runs_back H.code
  room :=
    { ends := by
        intro n id hk
        have e : (φ n).site.snap b E q a = Site.snap Impl.spec E (Weave.after E SpecB clk f hist (idx n)).site q a := Site.snap_rel (h.site n) q a
        rw [e] at hk
        obtain ⟨m, h1, h2⟩ := H.room.ends (idx n) id hk
        obtain ⟨n', hs, hm⟩ := h.back m
        have e' : (φ n').site.snap b E q a = Site.snap Impl.spec E (Weave.after E SpecB clk f hist m).site q a := Site.snap_rel hs q a
        refine ⟨n', ?_, by rw [e']; exact h2⟩
        rcases hm with rfl | ⟨-, h3, -⟩
        · exact h.of_le h1
        · by_contra hc
          have := h.mono (n := n' + 1) (m := n) (by omega)
          omega
      ticks := by
        intro n
        obtain ⟨m, h1, h2, h3⟩ := H.room.ticks (idx n)
        obtain ⟨n', rfl⟩ := tick_at h h2
        have e : (φ n').site.snap b E q a = Site.snap Impl.spec E (Weave.after E SpecB clk f hist (idx n')).site q a := Site.snap_rel (h.site n') q a
        exact ⟨n', h.of_le h1, (h.ticks_eq n' q).trans h2, by rw [e]; exact h3⟩
      capacity := by
        intro n hn
        have e : (φ n).site.snap b E q a = Site.snap Impl.spec E (Weave.after E SpecB clk f hist (idx n)).site q a := Site.snap_rel (h.site n) q a
        rw [e]
        exact H.room.capacity (idx n) ((h.ticks_eq n q).symm.trans hn) }
  short := h.brief_back H.short

end

end Weave
end AJ
