import Verif.Proofs.EndlessSite
import Verif.Proofs.WeaveRun
import Verif.Proofs.WeaveSend
import Verif.Spec.EndlessWeave

/-! # Endless histories of a process whose work queues interleave: proofs -/

namespace AJ

/-- Steps that are about no turn are seen as no turn. -/
theorem Site.plain_turns {D O : Type} {E : Nat → Env D} {clk : Nat → Nat → Time} {B : Backend} (t : Site D O B) {o : SiteOp D O}
    (h : o.plain = true) (q : Nat) : turnsOf q (t.step E B clk o).trace = turnsOf q t.trace := by
  have one : ∀ {t' : Site D O B} {e : SiteEvent D O}, t'.trace = t.trace ++ [e] → e.at q = none → turnsOf q t'.trace = turnsOf q t.trace := by
    intro t' e h1 h2
    rw [h1, turnsOf_append]
    simp [turnsOf, h2]
  cases o with
  | begin c req =>
    show turnsOf q (t.begin B c req).trace = _
    unfold begin
    split
    · exact one (e := .call c req) rfl rfl
    · exact one (e := .call c req) rfl rfl
    · rfl
  | client c x =>
    show turnsOf q (t.client B c x).trace = _
    unfold client
    split <;> rfl
  | engine e => rfl
  | post c =>
    show turnsOf q (t.post B c).trace = _
    unfold post
    split
    · split
      · rfl
      · split <;> rfl
      · exact one rfl rfl
      · rfl
    · rfl
  | take c =>
    show turnsOf q (t.take B c).trace = _
    unfold take
    split
    · dsimp only
      split
      · rfl
      · exact one rfl rfl
    · exact one rfl rfl
    · rfl
  | _ => cases h

namespace Weave
variable {D O : Type} {E : Nat → Env D} {clk : Nat → Nat → Time} {kind : Str → Nat} {k : Str}

section
variable {B : Backend} {f : Weave D O B}

/-- A step either ends the turn of work queue `q`, or its actor and its turns stay as they are. -/
theorem turn_step (h : Tidy f) (q : Nat) (o : WeaveOp D O) :
    (((f.step E B clk o).site.boxes q).proc = (f.site.boxes q).proc ∧ turnsOf q (f.step E B clk o).site.trace = turnsOf q f.site.trace ∧
      (∀ op, .turn q op ∉ f.closed o) ∧
      ((f.step E B clk o).inside q = none ∨
        (∃ x y, f.inside q = some x ∧ (f.step E B clk o).inside q = some y ∧ y.who = x.who ∧ y.op = x.op) ∨
        (f.inside q = none ∧ (f.step E B clk o).site.hub = f.site.hub ∧
          ∃ x, (f.step E B clk o).inside q = some x ∧ (x.who = none → o = .site (.turn q x.op))))) ∨
    ((f.step E B clk o).inside q = none ∧ ∃ x, f.inside q = some x ∧ f.closed o = [match x.who with
      | none => .turn q x.op
      | some (_, i) => .handle q i]) := by
  have stay : ∀ {f' : Weave D O B}, f'.inside q = f.inside q → (f'.inside q = none ∨
        (∃ x y, f.inside q = some x ∧ f'.inside q = some y ∧ y.who = x.who ∧ y.op = x.op) ∨
        (f.inside q = none ∧ f'.site.hub = f.site.hub ∧ ∃ x, f'.inside q = some x ∧ (x.who = none → o = .site (.turn q x.op)))) := by
    intro f' e
    cases hx : f.inside q with
    | none => exact .inl (e.trans hx)
    | some x => exact .inr (.inl ⟨x, x, rfl, e.trans hx, rfl, rfl⟩)
  cases o with
  | site o =>
    cases hp : o.plain with
    | true =>
      left
      rw [step_plain hp]
      refine ⟨((Site.calm_plain (E := E) (clk := clk) f.site hp).box q).1, Site.plain_turns f.site hp q, fun op hm => ?_, stay rfl⟩
      cases o with
      | handle => cases hp
      | turn => cases hp
      | _ => cases List.mem_singleton.1 hm
    | false =>
      left
      cases o with
      | handle p i =>
        show ((f.handle E B p i).site.boxes q).proc = _ ∧ turnsOf q (f.handle E B p i).site.trace = _ ∧ _ ∧ ((f.handle E B p i).inside q = none ∨ _)
        rcases handle_cases (E := E) h (q := p) (i := i) with e | ⟨a', c, op, i', h1, -, -, -, e⟩
        · refine ⟨by rw [e], by rw [e], fun op hm => (by cases hm), ?_⟩
          exact stay (f' := f.handle E B p i) (by rw [e])
        · refine ⟨by rw [e]; rfl, by rw [e]; rfl, fun op hm => (by cases hm), ?_⟩
          by_cases hpq : q = p
          · subst hpq
            refine .inr (.inr ⟨h1, ?_, ⟨some (c, i'), op, (f.site.boxes q).proc.turn (E a'.ty) a'.name op⟩, ?_, fun hw => by cases hw⟩)
            · show (f.handle E B q i).site.hub = _
              rw [e]; rfl
            · show (f.handle E B q i).inside q = _
              rw [e]; exact upd_same ..
          · refine stay (f' := f.handle E B p i) ?_
            rw [e]
            show upd f.inside p _ q = _
            simp only [upd, if_neg hpq]
      | turn p op =>
        show ((f.turn E B p op).site.boxes q).proc = _ ∧ turnsOf q (f.turn E B p op).site.trace = _ ∧ _ ∧ ((f.turn E B p op).inside q = none ∨ _)
        rcases turn_cases (E := E) (f := f) (q := p) (op := op) with e | ⟨a', h1, -, -, e⟩
        · refine ⟨by rw [e], by rw [e], fun op hm => (by cases hm), ?_⟩
          exact stay (f' := f.turn E B p op) (by rw [e])
        · refine ⟨by rw [e]; rfl, by rw [e]; rfl, fun op hm => (by cases hm), ?_⟩
          by_cases hpq : q = p
          · subst hpq
            refine .inr (.inr ⟨h1, ?_, ⟨none, op, (f.site.boxes q).proc.turn (E a'.ty) a'.name op⟩, ?_, fun _ => rfl⟩)
            · show (f.turn E B q op).site.hub = _
              rw [e]; rfl
            · show (f.turn E B q op).inside q = _
              rw [e]; exact upd_same ..
          · refine stay (f' := f.turn E B p op) ?_
            rw [e]
            show upd f.inside p _ q = _
            simp only [upd, if_neg hpq]
      | _ => cases hp
  | go p =>
    rcases go_cases (B := B) (clk := clk) (f := f) (q := p) with e | ⟨x, a', hx, ha', ⟨y, r, hr, e⟩ | ⟨hr, e⟩⟩
    · left
      have hcl : f.closed (.go p) = [] := by
        cases hx : f.inside p with
        | none => simp only [closed, hx]
        | some x =>
          obtain ⟨a', ha'⟩ := (h.inside p x hx).queue
          unfold closed
          simp only [hx]
          obtain ⟨who, op, rest⟩ := x
          cases rest with
          | ret y =>
            have := go_ret (clk := clk) h hx (y := y) rfl
            rw [e, hx] at this
            cases this
          | _ => cases who <;> rfl
      rw [hcl]
      show ((f.go B clk p).site.boxes q).proc = _ ∧ turnsOf q (f.go B clk p).site.trace = _ ∧ _ ∧ ((f.go B clk p).inside q = none ∨ _)
      refine ⟨by rw [e], by rw [e], fun op hm => (by cases hm), ?_⟩
      exact stay (f' := f.go B clk p) (by rw [e])
    · have hcl : f.closed (.go p) = [match x.who with
          | none => .turn p x.op
          | some (_, i) => .handle p i] := by
        obtain ⟨who, op, rest⟩ := x
        simp only at hr
        subst hr
        simp only [closed, hx]
        cases who <;> rfl
      by_cases hpq : q = p
      · subst hpq
        right
        refine ⟨?_, x, hx, hcl⟩
        show (f.go B clk q).inside q = none
        rw [e]; exact upd_same ..
      · left
        obtain ⟨-, -, l3, l4, -, -⟩ := leave_site h hx y r
        rw [hcl]
        show ((f.go B clk p).site.boxes q).proc = _ ∧ turnsOf q (f.go B clk p).site.trace = _ ∧ _ ∧ ((f.go B clk p).inside q = none ∨ _)
        refine ⟨by rw [e, l4 q hpq], ?_, fun op hm => ?_, ?_⟩
        · rw [e, l3, turnsOf_append]
          have : turnsOf q [.turn p (x.who.map Prod.fst) x.op r] = [] := by simp [turnsOf, SiteEvent.at, Ne.symm hpq]
          rw [this, List.append_nil]
        · have := List.mem_singleton.1 hm
          split at this
          · cases this; exact hpq rfl
          · cases this
        · refine stay (f' := f.go B clk p) ?_
          rw [e]
          show upd f.inside p _ q = _
          simp only [upd, if_neg hpq]
    · left
      obtain ⟨m1, m2, m3, m4⟩ := move_calm (clk := clk) f p a' x
      have hcl : f.closed (.go p) = [] := by
        unfold closed
        simp only [hx]
        obtain ⟨who, op, rest⟩ := x
        cases rest with
        | ret y => exact absurd rfl (hr y)
        | _ => cases who <;> rfl
      rw [hcl]
      show ((f.go B clk p).site.boxes q).proc = _ ∧ turnsOf q (f.go B clk p).site.trace = _ ∧ _ ∧ ((f.go B clk p).inside q = none ∨ _)
      refine ⟨by rw [e]; exact (m4 q).2, by rw [e, m3], fun op hm => (by cases hm), ?_⟩
      by_cases hpq : q = p
      · subst hpq
        refine .inr (.inl ⟨x, { x with rest := (x.rest.step1 B (clk q) (world f.site q a')).1 }, hx, ?_, rfl, rfl⟩)
        show (f.go B clk q).inside q = _
        rw [e]; exact upd_same ..
      · refine stay (f' := f.go B clk p) ?_
        rw [e]
        show upd f.inside p _ q = _
        simp only [upd, if_neg hpq]

variable {ops : Nat → WeaveOp D O}

local notation "φ" n:max => Weave.after E B clk f ops n

theorem after_tidy (h : Tidy f) (n : Nat) : Tidy (φ n) := by
  induction n with
  | zero => exact h
  | succ n ih => exact tidy_step ih _

theorem after_queues (h : Tidy f) {n m : Nat} (hn : n ≤ m) {q : Nat} {a : QueueActor} (ha : (φ n).site.hub.queues[q]? = some a) :
    (φ m).site.hub.queues[q]? = some a := by
  induction hn with
  | refl => exact ha
  | step _ ih => exact run_queues (after_tidy h _) [ops _] ih

theorem after_run (n : Nat) : φ n = f.run E B clk ((List.range n).map ops) := by
  induction n with
  | zero => rfl
  | succ n ih =>
    rw [List.range_succ, List.map_append]
    show (φ n).step E B clk (ops n) = List.foldl (step E B clk) f (_ ++ [ops n])
    rw [List.foldl_append, ih]
    rfl

theorem after_add (n m : Nat) : φ (n + m) = Weave.after E B clk (φ n) (fun i => ops (n + i)) m := by
  induction m with
  | zero => rfl
  | succ m ih =>
    show (φ (n + m)).step E B clk (ops (n + m)) = (Weave.after E B clk (φ n) (fun i => ops (n + i)) m).step E B clk (ops (n + m))
    rw [ih]

/-- The last moment at which work queue `q` was not inside a turn: it is where it was then, and the turn in progress began then. -/
theorem began (h : Tidy f) {q N1 : Nat} (h1 : (φ N1).inside q = none) (n : Nat) (hn : N1 ≤ n) :
    ∃ m, N1 ≤ m ∧ m ≤ n ∧ (φ m).inside q = none ∧ ((φ n).site.boxes q).proc = ((φ m).site.boxes q).proc ∧
      turnsOf q (φ n).site.trace = turnsOf q (φ m).site.trace ∧
      ∀ x, (φ n).inside q = some x → (∃ a, (φ m).site.hub.queues[q]? = some a) ∧ (x.who = none → ops m = .site (.turn q x.op)) := by
  induction hn with
  | refl => exact ⟨N1, Nat.le_refl _, Nat.le_refl _, h1, rfl, rfl, fun x hx => by rw [h1] at hx; cases hx⟩
  | @step n hn ih =>
    obtain ⟨m, k1, k2, k3, k4, k5, k6⟩ := ih
    by_cases hi : (φ (n + 1)).inside q = none
    · exact ⟨n + 1, by omega, by omega, hi, rfl, rfl, fun x hx => by rw [hi] at hx; cases hx⟩
    have ht := after_tidy (E := E) (clk := clk) (ops := ops) h n
    rcases turn_step (E := E) (clk := clk) ht q (ops n) with ⟨g1, g2, -, g4⟩ | ⟨g1, -⟩
    · rcases g4 with g4 | ⟨x, y, g4, g5, g6, g7⟩ | ⟨g4, g5, x, g6, g7⟩
      · exact absurd g4 hi
      · refine ⟨m, k1, by omega, k3, g1.trans k4, g2.trans k5, fun z hz => ?_⟩
        have : some y = some z := g5.symm.trans hz
        cases this
        rw [g6, g7]
        exact k6 x g4
      · refine ⟨n, hn, by omega, g4, g1, g2, fun z hz => ?_⟩
        have : some x = some z := g6.symm.trans hz
        cases this
        refine ⟨?_, g7⟩
        obtain ⟨a, ha⟩ := ((tidy_step (E := E) (clk := clk) ht (ops n)).inside q x g6).queue
        exact ⟨a, by rw [← g5]; exact ha⟩
    · exact absurd g1 hi

/-- A message in a mailbox is handled. -/
theorem handled_after (h : Tidy f) {c ty q : Nat} {a : QueueActor} (hm : Weave.Moves E clk c ty f ops) (hty : a.ty = ty) {d : Nat} {op : Op D O} :
    ∀ (e i n : Nat), (φ n).need q i ≤ e → (φ n).site.hub.queues[q]? = some a → ((φ n).site.boxes q).mailbox[i]? = some (d, op) →
      ∃ m, n ≤ m ∧ (∃ r, (φ (m + 1)).site.trace = (φ m).site.trace ++ [.turn q (some d) op r]) ∧ (φ (m + 1)).inside q = none := by
  intro e
  induction e with
  | zero =>
    intro i n he ha hi
    by_contra hcon
    have stay : ∀ k, ∃ i, ((φ (n + k)).site.boxes q).mailbox[i]? = some (d, op) ∧ (φ (n + k)).need q i ≤ 0 := by
      intro k
      induction k with
      | zero => exact ⟨i, hi, he⟩
      | succ k ihk =>
        obtain ⟨i', g1, g2⟩ := ihk
        rcases waits_step (E := E) (clk := clk) (after_tidy h (n + k)) g1 (after_queues h (by omega) ha) (ops (n + k)) with ⟨m, k1, k2⟩ | ⟨r, k1, -, k2⟩
        · exact ⟨m, k1, by show ((φ (n + k)).step E B clk (ops (n + k))).need q m ≤ 0; omega⟩
        · exact absurd ⟨n + k, by omega, ⟨r, k1⟩, k2⟩ hcon
    obtain ⟨m, g1, g2, g3⟩ := hm.takes n q a ha hty (by intro h; rw [h] at hi; cases hi)
    obtain ⟨k, rfl⟩ := Nat.exists_eq_add_of_le g1
    obtain ⟨i', k1, k2⟩ := stay k
    rcases waits_step (E := E) (clk := clk) (after_tidy h (n + k)) k1 (after_queues h (by omega) ha) (ops (n + k)) with ⟨m, k3, k4⟩ | ⟨r, k3, -, k4⟩
    · rw [g2, g3] at k4
      simp [SiteOp.takes] at k4
      omega
    · exact absurd ⟨n + k, by omega, ⟨r, k3⟩, k4⟩ hcon
  | succ e ih =>
    intro i n he ha hi
    by_contra hcon
    have stay : ∀ k, ∃ i, ((φ (n + k)).site.boxes q).mailbox[i]? = some (d, op) ∧ (φ (n + k)).need q i ≤ e + 1 := by
      intro k
      induction k with
      | zero => exact ⟨i, hi, he⟩
      | succ k ihk =>
        obtain ⟨i', g1, g2⟩ := ihk
        rcases waits_step (E := E) (clk := clk) (after_tidy h (n + k)) g1 (after_queues h (by omega) ha) (ops (n + k)) with ⟨m, k1, k2⟩ | ⟨r, k1, -, k2⟩
        · exact ⟨m, k1, by show ((φ (n + k)).step E B clk (ops (n + k))).need q m ≤ e + 1; omega⟩
        · exact absurd ⟨n + k, by omega, ⟨r, k1⟩, k2⟩ hcon
    obtain ⟨m, g1, g2, g3⟩ := hm.takes n q a ha hty (by intro h; rw [h] at hi; cases hi)
    obtain ⟨k, rfl⟩ := Nat.exists_eq_add_of_le g1
    obtain ⟨i', k1, k2⟩ := stay k
    rcases waits_step (E := E) (clk := clk) (after_tidy h (n + k)) k1 (after_queues h (by omega) ha) (ops (n + k)) with ⟨m, k3, k4⟩ | ⟨r, k3, -, k4⟩
    · obtain ⟨m', k5, k6⟩ := ih m (n + k + 1) (by
        show ((φ (n + k)).step E B clk (ops (n + k))).need q m ≤ e
        rw [g2, g3] at k4
        simp [SiteOp.takes] at k4
        rw [g2]
        omega) (after_queues h (by omega) ha) k3
      exact hcon ⟨m', by omega, k6⟩
    · exact absurd ⟨n + k, by omega, ⟨r, k3⟩, k4⟩ hcon

end

section
variable {f : Weave D O SpecB} {t : Site D O SpecB} {ops : Nat → WeaveOp D O}

local notation "φ" n:max => Weave.after E SpecB clk f ops n

/-- The step of `Site` that this step is: the turn that ends, or the step itself, or a step that does nothing. -/
def flat (f : Weave D O SpecB) (o : WeaveOp D O) : SiteOp D O := (f.closed o).headD (.engine 1)

/-- The history with every turn taken in one step. -/
def serially (E : Nat → Env D) (clk : Nat → Nat → Time) (f : Weave D O SpecB) (ops : Nat → WeaveOp D O) (n : Nat) : SiteOp D O :=
  (Weave.after E SpecB clk f ops n).flat (ops n)

local notation "ψ" => serially E clk f ops

local notation "τ" n:max => Site.after E SpecB clk t (serially E clk f ops) n

theorem flat_run (f : Weave D O SpecB) (o : WeaveOp D O) (h1 : t.hub.engines.length ≤ 1) : t.step E SpecB clk (f.flat o) = t.run E SpecB clk (f.closed o) := by
  unfold flat
  match hc : f.closed o, closed_length f o with
  | [], _ =>
    show { t with hub := t.hub.engine 1 } = t
    have : t.hub.engine 1 = t.hub := by
      unfold Hub.engine
      rw [List.getElem?_eq_none h1]
    rw [this]
  | [y], _ => rfl
  | _ :: _ :: _, hl => simp at hl

theorem flat_mem {o : WeaveOp D O} {x : SiteOp D O} (h : f.flat o = x) (hx : x ≠ .engine 1) : f.closed o = [x] := by
  unfold flat at h
  match hc : f.closed o, closed_length f o with
  | [], _ => rw [hc] at h; exact absurd h.symm hx
  | [y], _ => rw [hc] at h; cases h; rfl
  | _ :: _ :: _, hl => simp at hl

theorem flat_begin {o : WeaveOp D O} {c : Nat} {req : Req D} (h : f.flat o = .begin c req) : o = .site (.begin c req) :=
  closed_begin (by rw [flat_mem h (by intro e; cases e)]; exact List.mem_singleton.2 rfl)

theorem flat_turn (E : Nat → Env D) (h : Tidy f) {o : WeaveOp D O} {q : Nat} {op : Op D O} (e : f.flat o = .turn q op) :
    ∃ x, f.inside q = some x ∧ x.who = none ∧ x.op = op := by
  have hc := flat_mem e (by intro e; cases e)
  rcases turn_step (E := E) (clk := fun _ _ => (0 : Int)) h q o with ⟨-, -, h3, -⟩ | ⟨-, x, h2, h3⟩
  · exact absurd (by rw [hc]; exact List.mem_singleton.2 rfl) (h3 op)
  · rw [hc] at h3
    refine ⟨x, h2, ?_⟩
    cases hw : x.who with
    | none => rw [hw] at h3; cases h3; exact ⟨rfl, rfl⟩
    | some w => rw [hw] at h3; cases h3

/-- A work queue that is not inside a turn is where it would be had all turns been taken in one step. -/
theorem PairFrom.calm {S : Site.Base E kind} {f : Weave D O SpecB} {t : Site D O SpecB} (h : PairFrom E clk kind S f t) {q : Nat} {a : QueueActor} (ha : t.hub.queues[q]? = some a)
    (hi : f.inside q = none) :
    let v := f.site.snap .spec E q a
    let v' := t.snap .spec E q a
    v.lists = v'.lists ∧ v.cfg = v'.cfg ∧ v.alive = v'.alive ∧ v.log = v'.log ∧ ∀ k, kind k = a.ty → v.job k = v'.job k := by
  have hc := h.serial.calm q a ha hi
  exact ⟨funext hc.lists, congrArg Proc.cfg (h.serial.procs q), congrArg Proc.alive (h.serial.procs q), (h.serial.idle q hi).2,
    fun k hk => congrArg (Option.bind · (E a.ty).codec.dec) (hc.stored k hk)⟩

theorem PairFrom.tasks {S : Site.Base E kind} {f : Weave D O SpecB} {t : Site D O SpecB} (h : PairFrom E clk kind S f t) (q : Nat) (a : QueueActor) :
    (f.site.snap .spec E q a).tasks = (t.snap .spec E q a).tasks := congrArg Proc.tasks (h.serial.procs q)

/-- What an endless history comes to, it comes to with every turn taken in one step. -/
theorem pair_after {N : Nat → Str} (hN : ∀ a b, N a = N b → a = b) (L : ∀ ty, (E ty).Lawful) (h : Pair E clk kind f t) {G : Engine}
    (ho : f.site.hub.Orderly N G) (hp : ∀ n o, ops n = .site o → o.Polite N (φ n).site) (hon : ∀ n d req, ops n = .site (.begin d req) → req.On kind)
    (n : Nat) : Pair E clk kind (φ n) (τ n) ∧ ∃ G, (φ n).site.hub.Orderly N G := by
  induction n with
  | zero => exact ⟨h, G, ho⟩
  | succ n ih =>
    obtain ⟨h1, G, h2⟩ := ih
    obtain ⟨G', h3⟩ := orderly_step (E := E) (clk := clk) hN h1.tidy h2 (ops n) (hp n)
    refine ⟨?_, G', h3⟩
    have e : τ (n + 1) = (τ n).run E SpecB clk ((φ n).closed (ops n)) := flat_run (φ n) (ops n) (by
      rw [← h1.serial.face.hub, h2.engines]; simp)
    rw [e]
    exact h1.step L (ops n) (fun c req => hon n c req) (by rw [h3.engines]; simp)

theorem runs_flat {S : Site.Base E kind} (hP : ∀ n, PairFrom E clk kind S (φ n) (τ n)) (h0 : ∀ q, f.inside q = none) {q : Nat} {a : QueueActor} {P : Executable D O → Job D → Prop}
    (h : f.EachRun .spec E clk k q a ops P) : t.EachRun .spec E clk k q a ψ P := by
  intro n i x orig job e ht hid
  obtain ⟨y, hy, hw, hop⟩ := flat_turn E (hP n).tidy e
  obtain ⟨m, -, k2, k3, k4, k5, k6⟩ := began (E := E) (clk := clk) (f := f) (ops := ops) (hP 0).tidy (N1 := 0) (h0 q) n (Nat.zero_le n)
  refine h m i x orig job (by rw [← hop]; exact (k6 y hy).2 hw) k3 ?_ hid
  have e1 : ((φ m).site.snap .spec E q a).tasks = ((φ n).site.snap .spec E q a).tasks := congrArg Proc.tasks k4.symm
  have ht : ((τ n).snap .spec E q a).tasks[i]? = _ := ht
  rw [← (hP n).tasks, ← e1] at ht
  exact ht

/-- A work queue whose turns are taken in one step serves the job as well. -/
theorem serves_flat {S : Site.Base E kind} (hP : ∀ n, PairFrom E clk kind S (φ n) (τ n)) (h0 : ∀ q, f.inside q = none)
    (h1 : ∀ n, (τ n).hub.engines.length ≤ 1) {n1 q : Nat} {a : QueueActor} (ha : (φ n1).site.hub.queues[q]? = some a)
    (H : Weave.Serves .spec E clk k q a f ops) : Site.Serves .spec E clk k q a t ψ := by
  have hq : ∀ n, n1 ≤ n → (τ n).hub.queues[q]? = some a := fun n hn => by
    rw [← (hP n).serial.face.hub]
    exact after_queues (hP 0).tidy hn ha
  have erun : ∀ n, τ (n + 1) = (τ n).run E SpecB clk ((φ n).closed (ops n)) := fun n => flat_run (φ n) (ops n) (h1 n)
  have close : ∀ d i, n1 ≤ i → ticking ((φ i).inside q) = true → ready (τ i) E q a = true → (φ (i + d)).ticks q (ops (i + d)) = true →
      ∃ j, i ≤ j ∧ (ψ j).ticks q = true ∧ ready (τ j) E q a = true := by
    intro d
    induction d with
    | zero =>
      intro i _ h2 _ h4
      have h4 : (φ i).ticks q (ops i) = true := h4
      exfalso
      cases hop : ops i with
      | go p => rw [hop] at h4; cases h4
      | site o =>
        rw [hop] at h4
        have : (φ i).inside q = none := by
          unfold ticks at h4
          rw [Bool.and_eq_true] at h4
          simpa using h4.2
        rw [this] at h2
        cases h2
    | succ d ih =>
      intro i hi h2 h3 h4
      have hs := (hP (i + 1)).serial
      have hal := (hP (i + 1)).alone
      rw [erun i] at hs hal
      rcases (hP i).serial.counts (hP i).tidy (hP i).alone (hq i hi) (ops i) hs hal with ⟨-, -, g, -⟩ | ⟨-, g2, -, -⟩ | ⟨-, -, g3, g4⟩
      · rw [h2] at g; cases g
      · refine ⟨i, Nat.le_refl _, ?_, h3⟩
        show ((φ i).flat (ops i)).ticks q = true
        unfold flat
        rw [g2]
        simp [SiteOp.ticks]
      · obtain ⟨e1, e2, e3⟩ := g4 h2
        obtain ⟨j, hj, g⟩ := ih (i + 1) (by omega) (by rw [← h2]; exact g3) (by rw [erun i, ready_eq e1 e2 e3]; exact h3) (by rw [show i + 1 + d = i + (d + 1) by omega]; exact h4)
        exact ⟨j, by omega, g⟩
  refine ⟨runs_flat hP h0 H.code, fun n hn => ?_, fun m => ?_, ?_⟩
  · have e : ∀ n, ((φ n).site.snap .spec E q a).inFlight = ((τ n).snap .spec E q a).inFlight := fun n => by
      unfold Snap.inFlight; rw [(hP n).tasks]
    have hn : k ∈ ((τ n).snap .spec E q a).inFlight := hn
    rw [← e] at hn
    obtain ⟨m, g1, g2⟩ := H.ends n hn
    exact ⟨m, g1, by show k ∉ ((τ m).snap .spec E q a).inFlight; rw [← e]; exact g2⟩
  · obtain ⟨n, g1, g2, g3, g4⟩ := H.ticks (m + n1)
    obtain ⟨n', g5, g6, -, -⟩ := H.ticks (n + 1)
    have hs := (hP (n + 1)).serial
    have hal := (hP (n + 1)).alone
    rw [erun n] at hs hal
    rcases (hP n).serial.counts (hP n).tidy (hP n).alone (hq n (by omega)) (ops n) hs hal with ⟨-, k2, -, k4, k5, k6, k7⟩ | ⟨k1, -⟩ | ⟨k1, -⟩
    · have hr : ready (φ n).site E q a = true := by
        unfold ready
        rw [Bool.and_eq_true]
        exact ⟨g3, decide_eq_true g4⟩
      rw [ready_eq k5 k6 k7] at hr
      obtain ⟨i, rfl⟩ := Nat.exists_eq_add_of_le g5
      obtain ⟨j, j1, j2, j3⟩ := close i (n + 1) (by omega) k4 (by rw [erun n, k2]; exact hr) g6
      unfold ready at j3
      rw [Bool.and_eq_true] at j3
      exact ⟨j, by omega, j2, j3.1, of_decide_eq_true j3.2⟩
    · exact absurd (k1.symm.trans g2) (by simp)
    · exact absurd (k1.symm.trans g2) (by simp)
  · rcases H.short with h | h
    · refine .inl fun n hn => ?_
      have e : ψ n = .turn q .tick := by
        generalize ψ n = o at hn
        cases o with
        | turn p op =>
          cases op with
          | tick => rw [show p = q by simpa [SiteOp.ticks] using hn]
          | _ => cases hn
        | _ => cases hn
      obtain ⟨y, hy, hw, hop⟩ := flat_turn E (hP n).tidy e
      obtain ⟨m, -, k2, k3, k4, k5, k6⟩ := began (E := E) (clk := clk) (f := f) (ops := ops) (hP 0).tidy (N1 := 0) (h0 q) n (Nat.zero_le n)
      obtain ⟨⟨a', ha'⟩, hb⟩ := k6 y hy
      have hb := hb hw
      rw [hop] at hb
      have : a' = a := by
        have g1 := after_queues (E := E) (clk := clk) (ops := ops) (hP 0).tidy (Nat.le_add_right m n1) ha'
        have g2 := after_queues (E := E) (clk := clk) (ops := ops) (hP 0).tidy (Nat.le_add_left n1 m) ha
        exact Option.some.inj (g1.symm.trans g2)
      subst this
      have hm : (τ m).hub.queues[q]? = some a' := by rw [← (hP m).serial.face.hub]; exact ha'
      have hn' : (τ n).hub.queues[q]? = some a' := Site.after_queues k2 hm
      have hmir : turnsOf q (τ n).trace = turnsOf q (τ m).trace := by
        rw [← (hP n).serial.face.trace, ← (hP m).serial.face.trace, k5]
      have := h m (by rw [hb]; show (_ && _) = true; rw [show (Weave.after E Impl.spec.B clk f ops m).inside q = none from k3]; simp [SiteOp.ticks])
      have this : (((φ m).site.snap .spec E q a').lists .queued).length ≤ 20 := this
      rw [((hP m).calm hm k3).1] at this
      show (((τ n).snap .spec E q a').lists .queued).length ≤ 20
      rw [(Site.snap_same (hP m).alone (hP n).alone hm hn' hmir).1]
      exact this
    · refine .inr fun m => ?_
      obtain ⟨n, g1, g2, g3, g4⟩ := h (m + n1)
      have hs := (hP (n + 1)).serial
      have hal := (hP (n + 1)).alone
      rw [erun n] at hs hal
      refine ⟨n, by omega, ?_, ?_⟩
      · rcases (hP n).serial.counts (hP n).tidy (hP n).alone (hq n (by omega)) (ops n) hs hal with ⟨-, -, k3, -⟩ | ⟨-, k2, -, -⟩ | ⟨-, -, k3, -⟩
        · exact absurd (k3.symm.trans g2) (by simp)
        · show ((φ n).flat (ops n)).ticks q = true
          unfold flat
          rw [k2]
          simp [SiteOp.ticks]
        · have k3 : ticking ((φ (n + 1)).inside q) = true := k3.trans g2
          rw [show (φ (n + 1)).inside q = none from g3] at k3
          cases k3
      · obtain ⟨c1, c2, c3, -⟩ := (hP (n + 1)).calm (hq (n + 1) (by omega)) g3
        refine ⟨c3.symm.trans g4.alive, ?_, ?_⟩
        · have : 1 ≤ (Site.snap Impl.spec E (φ (n + 1)).site q a).free := g4.room
          rw [Site.snap_free c1 c2] at this
          exact this
        · have : ((Site.snap Impl.spec E (φ (n + 1)).site q a).lists .queued).length + ((Site.snap Impl.spec E (φ (n + 1)).site q a).lists .running).length < 2 ^ 31 := g4.small
          rw [c1] at this
          exact this

/-- The job of a submission comes to a work queue, which alone has an endless history that serves it. -/
theorem served {N : Nat → Str} (hN : ∀ a b, N a = N b → a = b) (L : ∀ ty, (E ty).Lawful) (h : Pair E clk kind f t) (h0 : ∀ q, f.inside q = none)
    {G : Engine} (ho : f.site.hub.Orderly N G) {n0 c ty : Nat} {nm : Str} {job : Job D} {cfg : EnqueueConfig}
    (hcl : ∀ d, Site.Clean job.id (t.users d)) (hqt : Site.Quiet job.id t.trace) (H : Weave.Chance .spec E clk kind N c ty nm job cfg n0 f ops)
    (henc : (E ty).Encodable job) :
    ∃ n q a ops' ms, n0 < n ∧ (φ n).inside q = none ∧ (φ n).site.hub.queues[q]? = some a ∧ a.ty = ty ∧ a.name = nm ∧
      Reach (O := O) .spec (E a.ty) a.name (clk q) (Orderly job.id) ((τ n).mirror .spec E clk q a) ∧
      (Impl.spec.snap (E a.ty) a.name ((τ n).mirror .spec E clk q a)).job job.id = some ((job.asQueued ms).norm (L a.ty).normD) ∧
      (Impl.spec.snap (E a.ty) a.name ((τ n).mirror .spec E clk q a)).runs job.id = [] ∧
      (∀ m, (τ (n + m)).mirror .spec E clk q a = Sys.after (E a.ty) a.name Impl.spec.B (clk q) ((τ n).mirror .spec E clk q a) ops' m) ∧
      (∀ m i x, ops' m = .finish i x → ψ (n + m) = .turn q (.finish i x)) ∧
      Sys.Serves .spec (E a.ty) a.name (clk q) job.id ((τ n).mirror .spec E clk q a) ops' ∧
      ∀ m, Pair E clk kind (φ m) (τ m) := by
  have hP := fun n => (pair_after (E := E) (clk := clk) (t := t) hN L h ho H.polite H.on n).1
  have hO := fun n => (pair_after (E := E) (clk := clk) (t := t) hN L h ho H.polite H.on n).2
  have h1 : ∀ n, (τ n).hub.engines.length ≤ 1 := by
    intro n
    obtain ⟨G, hG⟩ := hO n
    rw [← (hP n).serial.face.hub, hG.engines]; simp
  have plain : ∀ {n o}, ops n = .site o → o.plain = true → ψ n = o := by
    intro n o e hp
    show (Weave.closed _ (ops n)).headD _ = o
    rw [e]
    cases o <;> first | rfl | cases hp
  obtain ⟨n, q, a, ops', ms, k1, kz, k2, k3, k4, k5, k6, k7, k8, k9, k10, k11⟩ := Site.served (ops := ψ) hN L ⟨h.links, h.alone, h.single⟩
    (by rw [← h.serial.face.hub]; exact ho)
    (fun n => by
      cases e : ψ n with
      | begin d req =>
        have := H.polite n _ (flat_begin e)
        show (HubOp.begin d req.call).Orderly N (τ n).hub
        rw [← (hP n).serial.face.hub]
        exact this
      | _ => trivial)
    (fun n c req e => H.on n c req (flat_begin e)) hcl hqt (plain H.call rfl) (by rw [← (hP n0).serial.face.users]; exact H.free)
    (fun n d req hn e => H.sole n d req hn (flat_begin e))
    (fun m => by obtain ⟨n, x, g1, g2⟩ := H.moves.client m; exact ⟨n, x, g1, plain g2 rfl⟩)
    (fun m => by obtain ⟨n, g1, g2⟩ := H.moves.engine m; exact ⟨n, g1, plain g2 rfl⟩)
    (fun m => by obtain ⟨n, g1, g2⟩ := H.moves.post m; exact ⟨n, g1, plain g2 rfl⟩)
    (Z := fun q n => (φ n).inside q = none)
    (fun i n q a d op g1 g2 g3 => by
      rw [← (hP n).serial.face.hub] at g1
      rw [← (hP n).serial.face.mail] at g3
      obtain ⟨m, g4, ⟨r, g5⟩, g6⟩ := handled_after h.tidy H.moves g2 _ i n (Nat.le_refl _) g1 g3
      refine ⟨m, g4, ⟨r, ?_⟩, g6⟩
      rw [← (hP (m + 1)).serial.face.trace, ← (hP m).serial.face.trace]
      exact g5)
    (fun n q a g1 g2 => by
      rw [← (hP n).serial.face.hub] at g1
      exact serves_flat hP h0 h1 g1 (H.serves n q a g1 g2)) henc
  exact ⟨n, q, a, ops', ms, k1, kz, by rw [(hP n).serial.face.hub]; exact k2, k3, k4, k5, k6, k7, k8, k9, k10, hP⟩

end
end Weave
end AJ
