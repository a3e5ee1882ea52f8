import Verif.Proofs.EndlessWeave
import Verif.Proofs.Survive
import Verif.Spec.EndlessBoot

/-! # A later process that never ends: proofs -/

namespace AJ

namespace Site
variable {D O : Type} {E : Nat → Env D} {clk : Nat → Nat → Time} {kind : Str → Nat} {k : Str} {S : Base E kind} {t : Site D O SpecB}

open Weave in
/-- A step of the process is a turn of the work queue alone, which may be one that changes nothing. -/
theorem lone_move (hl : Links t) {q : Nat} {a : QueueActor} (h : AloneFrom E clk kind S t) (o : SiteOp D O) (h' : AloneFrom E clk kind S (t.step E SpecB clk o))
    (hq : ∀ a', t.hub.queues[q]? = some a' → a' = a) :
    ∃ op, lone E clk S (t.step E SpecB clk o) q a = (Sys.step (E a.ty) a.name Impl.spec.B (clk q) (lone E clk S t q a) op).1 ∧
      (t.hub.queues[q]? = some a → (o.ticks q = true ↔ op = .tick)) ∧ (t.hub.queues[q]? = none → op = .get []) ∧
      (op = .get [] ∨ ∃ who r, (t.step E SpecB clk o).trace = t.trace ++ [.turn q who op r]) := by
  have same : turnsOf q (t.step E SpecB clk o).trace = turnsOf q t.trace →
      lone E clk S (t.step E SpecB clk o) q a = (Sys.step (E a.ty) a.name Impl.spec.B (clk q) (lone E clk S t q a) (.get [] : Op D O)).1 := fun e => by
    rw [lone_turns e]
    exact (get_same (O := O) _ _).symm
  cases hqa : t.hub.queues[q]? with
  | none =>
    refine ⟨.get [], same ?_, fun e => by simp at e, fun _ => rfl, .inl rfl⟩
    by_cases hp : o.plain = true
    · exact plain_turns t hp q
    · have hh : (t.step E SpecB clk o).hub = t.hub := by
        cases o with
        | handle p i =>
          show (t.handle E SpecB clk p i).hub = _
          unfold handle
          split
          · rfl
          · dsimp only
            repeat' split
            all_goals rfl
        | turn p op =>
          show (t.turn E SpecB clk p op).hub = _
          unfold turn
          repeat' split
          all_goals rfl
        | _ => exact absurd rfl hp
      have hlen : t.hub.queues.length ≤ q := List.getElem?_eq_none_iff.1 hqa
      rw [(h.fresh q hlen).2.2.2, (h'.fresh q (by rw [hh]; exact hlen)).2.2.2]
  | some a' =>
    obtain rfl := hq a' hqa
    rcases mirror_step (E := E) (clk := clk) hl hqa o with ⟨-, et, e⟩ | ⟨who, op, r, etr, etick, -⟩
    · exact ⟨.get [], same e, fun _ => by simp [et], fun _ => rfl, .inl rfl⟩
    · refine ⟨op, ?_, fun _ => etick, fun e => by simp at e, .inr ⟨who, r, etr⟩⟩
      have e : (turnsOf q (t.step E SpecB clk o).trace).map Prod.fst = (turnsOf q t.trace).map Prod.fst ++ [op] := by
        rw [etr, turnsOf_append]
        simp [turnsOf, SiteEvent.at]
      unfold lone
      rw [e]
      exact congrArg Prod.fst (runOps_snoc (B := SpecB) _ _ op)

open Weave in
/-- If no message about `k` is under way, then the turn is not about `k`. -/
theorem lone_turn (hl : Links t) {q : Nat} {a : QueueActor} (h : AloneFrom E clk kind S t) (o : SiteOp D O) (h' : AloneFrom E clk kind S (t.step E SpecB clk o))
    (hq : ∀ a', t.hub.queues[q]? = some a' → a' = a) (hcl : ∀ d, Clean k (t.users d)) :
    ∃ op, lone E clk S (t.step E SpecB clk o) q a = (Sys.step (E a.ty) a.name Impl.spec.B (clk q) (lone E clk S t q a) op).1 ∧
      (t.hub.queues[q]? = some a → (o.ticks q = true ↔ op = .tick)) ∧ (t.hub.queues[q]? = none → op = .get []) ∧ ¬ op.Touches k ∧
      ∀ i x, op = .finish i x → o = .turn q (.finish i x) := by
  obtain ⟨op, h1, h2, h3, rfl | ⟨who, r, etr⟩⟩ := lone_move hl h o h' hq
  · exact ⟨_, h1, h2, h3, id, fun _ _ h => by cases h⟩
  · refine ⟨op, h1, h2, h3, fun hto2 => ?_, fun i x hop => ?_⟩
    · obtain ⟨l, h4, h5, h6⟩ := step_touch (E := E) (clk := clk) hl k o
      rw [etr] at h4
      have h4 := List.append_cancel_left h4
      obtain ⟨d, req, again, -, hu, -⟩ := h6 q who op r (by rw [← h4]; exact List.mem_singleton.2 rfl) hto2
      have := hcl d
      rw [hu] at this
      exact this.1 hto2
    · subst hop
      exact step_inner hl o rfl etr

open Weave in
/-- The process and the work queue alone look the same. -/
theorem lone_snap (h : AloneFrom E clk kind S t) {q : Nat} {a : QueueActor} (ha : t.hub.queues[q]? = some a) :
    let v := t.snap .spec E q a
    let v' := Impl.spec.snap (E a.ty) a.name (lone E clk S t q a)
    v.lists = v'.lists ∧ v.tasks = v'.tasks ∧ v.cfg = v'.cfg ∧ v.alive = v'.alive ∧ v.reads = v'.reads ∧ v.log = v'.log ∧
      ∀ k, kind k = a.ty → v.job k = v'.job k := by
  obtain ⟨-, h1⟩ := h.queue q a ha
  have hp := h1.proc
  simp only [Sys.proc, Proc.mk.injEq] at hp
  refine ⟨funext h1.part.lists, hp.2.1, hp.1, hp.2.2, h1.reads, h1.log, fun k hk => ?_⟩
  exact congrArg (Option.bind · (E a.ty).codec.dec) (h1.part.stored k hk)

variable {ops : Nat → SiteOp D O}

local notation "τ" n:max => Site.after E SpecB clk t ops n

open Weave in
/-- A work queue in an endless history of a process on what earlier ones have left, alone, from before it came up. -/
theorem Serves.lone (hL : ∀ n, Links (τ n)) (hA : ∀ n, AloneFrom E clk kind S (τ n)) (hto : ∀ n c req, ops n = .begin c req → ¬ req.Touches k)
    (hcl : ∀ d, Clean k (t.users d)) {n1 q : Nat} {a : QueueActor} (ha : (τ n1).hub.queues[q]? = some a) (H : Site.Serves .spec E clk k q a t ops) :
    ∃ ops' : Nat → Op D O, (∀ n, Weave.lone E clk S (τ n) q a = Sys.after (E a.ty) a.name Impl.spec.B (clk q) (Weave.lone E clk S t q a) ops' n) ∧
      (∀ n i x, ops' n = .finish i x → (τ n).hub.queues[q]? = some a ∧ ops n = .turn q (.finish i x)) ∧
      Sys.Serves .spec (E a.ty) a.name (clk q) k (Weave.lone E clk S t q a) ops' := by
  have hC : ∀ n d, Clean k ((τ n).users d) := by
    intro n
    induction n with
    | zero => exact hcl
    | succ n ih => exact fun d => step_clean (hL n) (hA n) _ (hto n) d (ih d)
  have hq : ∀ n a', (τ n).hub.queues[q]? = some a' → a' = a := by
    intro n a' h
    have g1 := after_queues (E := E) (clk := clk) (ops := ops) (Nat.le_add_right n n1) h
    have g2 := after_queues (E := E) (clk := clk) (ops := ops) (Nat.le_add_left n1 n) ha
    exact Option.some.inj (g1.symm.trans g2)
  choose ops' g1 g2 g0 g3 g4 using fun n => lone_turn (E := E) (clk := clk) (hL n) (hA n) (ops n) (hA (n + 1)) (hq n) (hC n)
  have hm : ∀ n, Weave.lone E clk S (τ n) q a = Sys.after (E a.ty) a.name Impl.spec.B (clk q) (Weave.lone E clk S t q a) ops' n := by
    intro n
    induction n with
    | zero => rfl
    | succ n ih =>
      exact (g1 n).trans (congrArg (fun s => (Sys.step (E a.ty) a.name Impl.spec.B (clk q) s (ops' n)).1) ih)
  have here : ∀ n, ops' n ≠ .get [] → (τ n).hub.queues[q]? = some a := by
    intro n hne
    cases e : (τ n).hub.queues[q]? with
    | none => exact absurd (g0 n e) hne
    | some a' => rw [hq n a' e]
  have hf : ∀ n i x, ops' n = .finish i x → (τ n).hub.queues[q]? = some a ∧ ops n = .turn q (.finish i x) :=
    fun n i x h => ⟨here n (by rw [h]; simp), g4 n i x h⟩
  have hnone : ∀ n, (τ n).hub.queues[q]? = none → (Weave.lone E clk S (τ n) q a).tasks = [] := by
    intro n e
    unfold Weave.lone
    rw [((hA n).fresh q (List.getElem?_eq_none_iff.1 e)).2.2.2]
    rfl
  refine ⟨ops', hm, hf, ⟨fun n => ?_, fun n => ?_, fun n => ?_, fun n hn => ?_, fun m => ?_, ?_⟩⟩
  · exact NoTouch.noSubmit (v := ((τ n).snap .spec E q a)) (g3 n)
  · exact NoTouch.noCancel (v := ((τ n).snap .spec E q a)) (g3 n)
  · rw [← hm n]
    cases hop : ops' n with
    | enqueue j c => exact fun e => absurd e (by have := g3 n; rw [hop] at this; exact this)
    | finish i x =>
      intro orig job ht hid
      obtain ⟨e1, e2⟩ := hf n i x hop
      rw [← (lone_snap (hA n) e1).2.1] at ht
      exact H.code n i x orig job e2 ht hid
    | _ => trivial
  · rw [← hm n] at hn
    have e1 : ∀ n, (τ n).hub.queues[q]? = some a →
        (Impl.spec.snap (E a.ty) a.name (Weave.lone E clk S (τ n) q a)).inFlight = ((τ n).snap .spec E q a).inFlight := by
      intro n e
      unfold Snap.inFlight
      rw [(lone_snap (hA n) e).2.1]
    cases e : (τ n).hub.queues[q]? with
    | none =>
      unfold Snap.inFlight at hn
      rw [show (Impl.spec.snap (E a.ty) a.name (Weave.lone E clk S (τ n) q a)).tasks = [] from hnone n e] at hn
      cases hn
    | some a' =>
      rw [hq n a' e] at e
      rw [e1 n e] at hn
      obtain ⟨m, h2, h3⟩ := H.ends n hn
      exact ⟨m, h2, by rw [← hm m, e1 m (after_queues h2 e)]; exact h3⟩
  · obtain ⟨n, h2, h3, h4, h5⟩ := H.ticks (m + n1)
    have e := after_queues (E := E) (clk := clk) (ops := ops) (show n1 ≤ n by omega) ha
    obtain ⟨e1, -, e3, e4, -⟩ := lone_snap (hA n) e
    refine ⟨n, by omega, (g2 n e).1 h3, ?_, ?_⟩
    · rw [← hm n]; exact e4.symm.trans h4
    · rw [← hm n, ← snap_free e1 e3]; exact h5
  · rcases H.short with h | h
    · refine .inl fun n hn => ?_
      have e := here n (by rw [hn]; simp)
      rw [← hm n, ← (lone_snap (hA n) e).1]
      exact h n ((g2 n e).2 hn)
    · refine .inr fun m => ?_
      obtain ⟨n, h2, h3, h4⟩ := h (m + n1)
      have e := after_queues (E := E) (clk := clk) (ops := ops) (show n1 ≤ n by omega) ha
      obtain ⟨e1, -, e3, e4, -⟩ := lone_snap (hA (n + 1)) (after_queues (E := E) (clk := clk) (ops := ops) (show n1 ≤ n + 1 by omega) ha)
      refine ⟨n, by omega, (g2 n e).1 h3, ?_, ?_, ?_⟩
      · rw [← hm (n + 1)]; exact e4.symm.trans h4.alive
      · rw [← hm (n + 1), ← snap_free e1 e3]; exact h4.room
      · rw [← hm (n + 1), ← e1]; exact h4.small

end Site

namespace Weave
variable {D O : Type} {E : Nat → Env D} {clk : Nat → Nat → Time} {kind : Str → Nat} {k : Str} {S : Site.Base E kind}
  {f : Weave D O SpecB} {t : Site D O SpecB} {ops : Nat → WeaveOp D O}

local notation "φ" n:max => Weave.after E SpecB clk f ops n

local notation "τ" n:max => Site.after E SpecB clk t (serially E clk f ops) n

theorem pairFrom_after (L : ∀ ty, (E ty).Lawful) (h : PairFrom E clk kind S f t) (hon : ∀ n d req, ops n = .site (.begin d req) → req.On kind)
    (h1 : ∀ n, (φ n).site.hub.engines.length ≤ 1) (hk : ∀ n, ∀ a ∈ (φ n).site.hub.queues, S.ok a) (n : Nat) : PairFrom E clk kind S (φ n) (τ n) := by
  induction n with
  | zero => exact h
  | succ n ih =>
    have e : τ (n + 1) = (τ n).run E SpecB clk ((φ n).closed (ops n)) := flat_run (φ n) (ops n) (by rw [← ih.serial.face.hub]; exact h1 n)
    rw [e]
    exact ih.step L (ops n) (fun c req => hon n c req) (h1 (n + 1)) (hk (n + 1))

/-- The work queue alone, in a later process that never ends. -/
theorem resumed (L : ∀ ty, (E ty).Lawful) (h : PairFrom E clk kind S f t) (h0 : ∀ q, f.inside q = none) (hcl : ∀ d, Site.Clean k (t.users d))
    (hon : ∀ n d req, ops n = .site (.begin d req) → req.On kind) (hto : ∀ n d req, ops n = .site (.begin d req) → ¬ req.Touches k)
    (h1 : ∀ n, (φ n).site.hub.engines.length ≤ 1) (hk : ∀ n, ∀ a ∈ (φ n).site.hub.queues, S.ok a) {n1 q : Nat} {a : QueueActor}
    (ha : (φ n1).site.hub.queues[q]? = some a) (H : Weave.Serves .spec E clk k q a f ops) (hkind : kind k = a.ty) :
    ∃ ops' : Nat → Op D O, Sys.Serves .spec (E a.ty) a.name (clk q) k (lone E clk S t q a) ops' ∧
      (∀ P, f.EachRun .spec E clk k q a ops P → ∀ m i x orig j, ops' m = .finish i x →
        (Sys.after (E a.ty) a.name Impl.spec.B (clk q) (lone E clk S t q a) ops' m).tasks[i]? = some ⟨orig, some j⟩ → orig.id = k → P x j) ∧
      ∀ m, ∃ n, (φ n).site.hub.queues[q]? = some a ∧
        (Sys.after (E a.ty) a.name Impl.spec.B (clk q) (lone E clk S t q a) ops' m = lone E clk S t q a ∨
        ((φ n).site.snap .spec E q a).job k =
          (Impl.spec.snap (E a.ty) a.name (Sys.after (E a.ty) a.name Impl.spec.B (clk q) (lone E clk S t q a) ops' m)).job k ∧
        ((φ n).site.snap .spec E q a).log =
          (Impl.spec.snap (E a.ty) a.name (Sys.after (E a.ty) a.name Impl.spec.B (clk q) (lone E clk S t q a) ops' m)).log) := by
  have hP := pairFrom_after (t := t) L h hon h1 hk
  have h1' : ∀ n, (τ n).hub.engines.length ≤ 1 := fun n => by rw [← (hP n).serial.face.hub]; exact h1 n
  have hub : ∀ n, (τ n).hub = (φ n).site.hub := fun n => (hP n).serial.face.hub.symm
  have ha' : (τ n1).hub.queues[q]? = some a := by rw [hub]; exact ha
  obtain ⟨ops', g1, g2, g3⟩ := Site.Serves.lone (fun n => (hP n).links) (fun n => (hP n).alone) (fun n c req e => hto n c req (flat_begin e)) hcl ha'
    (serves_flat hP h0 h1' ha H)
  refine ⟨ops', g3, fun P hR m i x orig j e ht hid => ?_, fun m => ?_⟩
  · obtain ⟨e1, e2⟩ := g2 m i x e
    refine runs_flat hP h0 hR m i x orig j e2 ?_ hid
    show ((τ m).snap .spec E q a).tasks[i]? = _
    rw [(Site.lone_snap (hP m).alone e1).2.1, g1 m]
    exact ht
  · cases e : (τ m).hub.queues[q]? with
    | none =>
      refine ⟨n1, ha, .inl ?_⟩
      rw [← g1 m]
      unfold lone
      have e2 : t.hub.queues[q]? = none := by
        cases e3 : t.hub.queues[q]? with
        | none => rfl
        | some a' =>
          have := Site.after_queues (E := E) (clk := clk) (ops := serially E clk f ops) (Nat.zero_le m) (t := t) e3
          rw [e] at this; cases this
      rw [((hP m).alone.fresh q (List.getElem?_eq_none_iff.1 e)).2.2.2, (h.alone.fresh q (List.getElem?_eq_none_iff.1 e2)).2.2.2]
    | some a' =>
      obtain ⟨n, k1, k2, k3⟩ : ∃ n, (φ n).site.hub.queues[q]? = some a' ∧ (φ n).inside q = none ∧
          turnsOf q (φ m).site.trace = turnsOf q (φ n).site.trace := by
        cases hi : (φ m).inside q with
        | none => exact ⟨m, by rw [← hub]; exact e, hi, rfl⟩
        | some x =>
          obtain ⟨n, -, k2, k3, -, k5, k6⟩ := began (E := E) (clk := clk) (f := f) (ops := ops) h.tidy (N1 := 0) (h0 q) m (Nat.zero_le m)
          obtain ⟨⟨a2, ha2⟩, -⟩ := k6 x hi
          have := after_queues (E := E) (clk := clk) (f := f) (ops := ops) h.tidy k2 ha2
          rw [← hub, e] at this
          cases this
          exact ⟨n, ha2, k3, k5⟩
      have : a' = a := by
        have e1 := after_queues (E := E) (clk := clk) (f := f) (ops := ops) h.tidy (Nat.le_add_right n n1) k1
        have e2 := after_queues (E := E) (clk := clk) (f := f) (ops := ops) h.tidy (Nat.le_add_left n1 n) ha
        exact Option.some.inj (e1.symm.trans e2)
      subst this
      have k1' : (τ n).hub.queues[q]? = some a' := by rw [hub]; exact k1
      obtain ⟨-, -, -, i4, i5⟩ := (hP n).calm k1' k2
      obtain ⟨-, -, -, -, -, s6, s7⟩ := Site.lone_snap (hP n).alone k1'
      have hm : lone E clk S (τ m) q a' = lone E clk S (τ n) q a' := lone_turns (by
        rw [← (hP m).serial.face.trace, ← (hP n).serial.face.trace]; exact k3) a'
      refine ⟨n, k1, .inr ?_⟩
      rw [← g1 m, hm]
      exact ⟨(i5 k hkind).trans (s7 k hkind), i4.trans s6⟩

end Weave
end AJ
