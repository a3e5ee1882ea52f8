import Verif.Proofs.WeaveLive

/-! # Executions when turns interleave: proofs -/

namespace AJ

namespace Site
variable {D O : Type} {E : Nat → Env D} {clk : Nat → Nat → Time} {kind : Str → Nat}

/-- A work queue that is not there does not read its clock. -/
theorem reads_none {B : Backend} (t : Site D O B) (o : SiteOp D O) {q : Nat} (ha : t.hub.queues[q]? = none) :
    ((t.step E B clk o).boxes q).reads = (t.boxes q).reads := by
  cases hp : o.plain with
  | true => exact ((calm_plain t hp).box q).2.1
  | false =>
    cases o with
    | handle p i =>
      show ((t.handle E B clk p i).boxes q).reads = _
      unfold handle
      by_cases hpq : q = p
      · subst hpq; rw [ha]
      · cases t.hub.queues[p]? with
        | none => rfl
        | some a =>
          dsimp only
          split
          · rfl
          · split
            · simp [play, go, see, upd, hpq]
            · rfl
    | turn p op =>
      show ((t.turn E B clk p op).boxes q).reads = _
      unfold turn
      by_cases hpq : q = p
      · subst hpq; rw [ha]
      · cases t.hub.queues[p]? with
        | none => rfl
        | some a =>
          dsimp only
          split
          · simp [play, see, upd, hpq]
          · rfl
    | _ => cases hp

theorem reads_mono (L : ∀ ty, (E ty).Lawful) {t : Site D O SpecB} (hl : Links t) (h : Alone E clk kind t) (hs : t.hub.Single) (ops : List (SiteOp D O))
    (hops : ∀ c req, .begin c req ∈ ops → req.On kind) (h1 : (t.run E SpecB clk ops).hub.engines.length ≤ 1) (q : Nat) :
    (t.boxes q).reads ≤ ((t.run E SpecB clk ops).boxes q).reads := by
  induction ops generalizing t with
  | nil => exact Nat.le_refl _
  | cons o ops ih =>
    have h2 : (t.step E SpecB clk o).hub.engines.length ≤ 1 := Nat.le_trans (run_length _ ops) h1
    have h3 : t.hub.engines.length ≤ 1 := Nat.le_trans (step_length t o) h2
    have hs' := step_single (E := E) (clk := clk) hs h3 o
    have h' := alone_step L hl h o (fun c req e => hops c req (e ▸ List.mem_cons_self ..)) (hs.once h3) (hs'.once h2)
    refine Nat.le_trans ?_ (ih (links_step hl o) h' hs' (fun c req hm => hops c req (List.mem_cons_of_mem _ hm)) h1)
    cases ha : t.hub.queues[q]? with
    | none => exact Nat.le_of_eq (reads_none t o ha).symm
    | some a => exact reads_step L hl h o h' ha

theorem Short.of_append {b : Impl} {t : Site D O b.B} {n q : Nat} {a : QueueActor} {xs ys : List (SiteOp D O)}
    (h : t.Short b E clk n q a xs) (h' : (t.run E b.B clk xs).Short b E clk n q a ys) : t.Short b E clk n q a (xs ++ ys) := by
  induction xs generalizing t with
  | nil => exact h'
  | cons o xs ih => exact ⟨h.1, ih h.2 h'⟩

theorem goodTicks_none {b : Impl} (t : Site D O b.B) {q : Nat} {a : QueueActor} {l : List (SiteOp D O)} (h : ∀ o ∈ l, o.ticks q = false) :
    t.goodTicks b E clk q a l = 0 := by
  induction l generalizing t with
  | nil => rfl
  | cons o l ih =>
    show (if o.ticks q && _ && _ then 1 else 0) + goodTicks b E clk q a (t.step E b.B clk o) l = 0
    rw [ih _ fun o' h' => h o' (List.mem_cons_of_mem _ h'), h o (List.mem_cons_self ..)]
    rfl

theorem short_none {b : Impl} (t : Site D O b.B) {n q : Nat} {a : QueueActor} {l : List (SiteOp D O)} (h : ∀ o ∈ l, o.ticks q = false) :
    t.Short b E clk n q a l := by
  induction l generalizing t with
  | nil => trivial
  | cons o l ih =>
    exact ⟨fun e => (by rw [h o (List.mem_cons_self ..)] at e; cases e), ih _ fun o' h' => h o' (List.mem_cons_of_mem _ h')⟩

/-- Steps of others leave a work queue as it was. -/
theorem snap_same {S : Base E kind} {t t' : Site D O SpecB} (h : AloneFrom E clk kind S t) (h' : AloneFrom E clk kind S t') {q : Nat} {a : QueueActor}
    (ha : t.hub.queues[q]? = some a) (ha' : t'.hub.queues[q]? = some a) (hm : turnsOf q t'.trace = turnsOf q t.trace) :
    (t'.snap .spec E q a).lists = (t.snap .spec E q a).lists ∧ (t'.snap .spec E q a).cfg = (t.snap .spec E q a).cfg ∧
      (t'.snap .spec E q a).alive = (t.snap .spec E q a).alive := by
  obtain ⟨-, h1⟩ := h.queue q a ha
  obtain ⟨-, h2⟩ := h'.queue q a ha'
  rw [hm] at h2
  have hp := h2.proc.trans h1.proc.symm
  exact ⟨funext fun st => (h2.part.lists st).trans (h1.part.lists st).symm, congrArg Proc.cfg hp, congrArg Proc.alive hp⟩

end Site

namespace Weave
variable {D O : Type} {E : Nat → Env D} {clk : Nat → Nat → Time} {kind : Str → Nat}

section
variable {f : Weave D O SpecB} {t : Site D O SpecB}

/-- What the ticks of a work queue find when they begin, they find when they are taken in one step. -/
theorem Serial.counts {S : Site.Base E kind} (h : Serial E clk kind f t) (hf : Tidy f) (hal : Site.AloneFrom E clk kind S t)
    {q : Nat} {a : QueueActor} (ha : t.hub.queues[q]? = some a) (o : WeaveOp D O) (h' : Serial E clk kind (f.step E SpecB clk o) (t.run E SpecB clk (f.closed o)))
    (hal' : Site.AloneFrom E clk kind S (t.run E SpecB clk (f.closed o))) :
    (f.ticks q o = true ∧ f.closed o = [] ∧ ticking (f.inside q) = false ∧ ticking ((f.step E SpecB clk o).inside q) = true ∧
      (f.site.snap .spec E q a).lists = (t.snap .spec E q a).lists ∧ (f.site.snap .spec E q a).cfg = (t.snap .spec E q a).cfg ∧
      (f.site.snap .spec E q a).alive = (t.snap .spec E q a).alive) ∨
    (f.ticks q o = false ∧ f.closed o = [.turn q .tick] ∧ ticking (f.inside q) = true ∧ ticking ((f.step E SpecB clk o).inside q) = false) ∨
    (f.ticks q o = false ∧ (∀ o' ∈ f.closed o, o'.ticks q = false) ∧ ticking ((f.step E SpecB clk o).inside q) = ticking (f.inside q) ∧
      (ticking (f.inside q) = true → ((t.run E SpecB clk (f.closed o)).snap .spec E q a).lists = (t.snap .spec E q a).lists ∧
        ((t.run E SpecB clk (f.closed o)).snap .spec E q a).cfg = (t.snap .spec E q a).cfg ∧
        ((t.run E SpecB clk (f.closed o)).snap .spec E q a).alive = (t.snap .spec E q a).alive)) := by
  have quiet : f.closed o = [] → f.ticks q o = false → ticking ((f.step E SpecB clk o).inside q) = ticking (f.inside q) →
      f.ticks q o = false ∧ (∀ o' ∈ f.closed o, o'.ticks q = false) ∧ ticking ((f.step E SpecB clk o).inside q) = ticking (f.inside q) ∧
      (ticking (f.inside q) = true → ((t.run E SpecB clk (f.closed o)).snap .spec E q a).lists = (t.snap .spec E q a).lists ∧
        ((t.run E SpecB clk (f.closed o)).snap .spec E q a).cfg = (t.snap .spec E q a).cfg ∧
        ((t.run E SpecB clk (f.closed o)).snap .spec E q a).alive = (t.snap .spec E q a).alive) := by
    intro e1 e2 e3
    rw [e1]
    exact ⟨e2, fun _ h => (by cases h), e3, fun _ => ⟨rfl, rfl, rfl⟩⟩
  cases o with
  | site o =>
    cases hp : o.plain with
    | true =>
      right; right
      have e1 : f.closed (.site o) = [o] := by cases o <;> first | rfl | cases hp
      have e2 : o.ticks q = false := by cases o <;> first | rfl | cases hp
      rw [e1, step_plain hp]
      refine ⟨by show (o.ticks q && _) = false; rw [e2]; rfl, fun o' ho' => by rw [List.mem_singleton.1 ho']; exact e2, rfl, fun _ => ?_⟩
      have hc := Site.calm_plain (E := E) (clk := clk) t hp
      obtain ⟨b1, -, -⟩ := hc.box q
      refine ⟨?_, ?_, ?_⟩
      · simp only [Site.run, List.foldl_cons, List.foldl_nil, Site.snap, Impl.snap, Site.sys, hc.stores]
      · exact congrArg Proc.cfg b1
      · exact congrArg Proc.alive b1
    | false =>
      cases o with
      | handle p i =>
        right; right
        refine quiet rfl rfl ?_
        show ticking ((f.handle E SpecB p i).inside q) = _
        rcases handle_cases (E := E) hf (q := p) (i := i) with e | ⟨a', c, op, i', h1, -, -, -, e⟩ <;> rw [e]
        show ticking (upd f.inside p _ q) = _
        unfold upd
        split
        · next e => subst e; rw [h1]; rfl
        · rfl
      | turn p op =>
        by_cases ht : f.ticks q (.site (.turn p op)) = true
        · left
          obtain ⟨e1, e2⟩ : (SiteOp.turn p op).ticks q = true ∧ (f.inside q).isNone = true := by simpa [ticks] using ht
          have e2 : f.inside q = none := by simpa using e2
          obtain ⟨rfl, rfl⟩ : p = q ∧ op = .tick := by
            cases op with
            | tick => exact ⟨by simpa [SiteOp.ticks] using e1, rfl⟩
            | _ => cases e1
          have hc := h.calm p a ha e2
          refine ⟨ht, rfl, by rw [e2]; rfl, ?_, funext hc.lists, congrArg Proc.cfg (h.procs p), congrArg Proc.alive (h.procs p)⟩
          show ticking ((f.turn E SpecB p .tick).inside p) = true
          unfold turn
          rw [e2, h.face.hub, ha]
          show ticking (upd f.inside p _ p) = true
          rw [upd_same]; rfl
        · right; right
          refine quiet rfl (by simpa using ht) ?_
          show ticking ((f.turn E SpecB p op).inside q) = _
          rcases turn_cases (E := E) (f := f) (q := p) (op := op) with e | ⟨a', h1, -, -, e⟩ <;> rw [e]
          show ticking (upd f.inside p _ q) = _
          unfold upd
          split
          · next e =>
            subst e
            rw [h1]
            cases op with
            | tick => exact absurd (by simp [ticks, SiteOp.ticks, h1]) ht
            | _ => rfl
          · rfl
      | _ => cases hp
  | go p =>
    right
    rcases go_cases (B := SpecB) (clk := clk) (f := f) (q := p) with e | ⟨x, a', hx, ha', ⟨y, r, hr, e⟩ | ⟨hr, e⟩⟩
    · right
      refine quiet ?_ rfl (by show ticking ((f.go SpecB clk p).inside q) = _; rw [e])
      cases hx : f.inside p with
      | none => simp only [closed, hx]
      | some x =>
        obtain ⟨a', ha'⟩ := (hf.inside p x hx).queue
        unfold closed
        simp only [hx]
        obtain ⟨who, op, rest⟩ := x
        cases rest with
        | ret y =>
          have := go_ret (clk := clk) hf hx (y := y) rfl
          rw [e, hx] at this
          cases this
        | _ => cases who <;> rfl
    · by_cases hpq : q = p
      · subst hpq
        have hin : (f.step E SpecB clk (.go q)).inside q = none := by
          show (f.go SpecB clk q).inside q = none
          rw [e]; exact upd_same ..
        obtain ⟨who, op, rest⟩ := x
        simp only at hr
        subst hr
        have hcl : f.closed (.go q) = match who with
            | none => [.turn q op]
            | some (_, i) => [.handle q i] := by
          simp only [closed, hx]
          cases who <;> rfl
        cases hti : ticking (f.inside q) with
        | true =>
          left
          rw [hx] at hti
          have : who = none ∧ op = .tick := by
            cases who with
            | none => cases op <;> first | exact ⟨rfl, rfl⟩ | cases hti
            | some w => cases hti
          obtain ⟨rfl, rfl⟩ := this
          exact ⟨rfl, hcl, rfl, by rw [hin]; rfl⟩
        | false =>
          right
          refine ⟨rfl, ?_, by rw [hin]; rfl, fun h => by cases h⟩
          rw [hcl]
          rw [hx] at hti
          cases who with
          | none =>
            intro o' ho'
            rw [List.mem_singleton.1 ho']
            cases op <;> first | rfl | cases hti
          | some w => intro o' ho'; rw [List.mem_singleton.1 ho']; rfl
      · right
        have hin : (f.step E SpecB clk (.go p)).inside q = f.inside q := by
          show (f.go SpecB clk p).inside q = _
          rw [e]
          show upd f.inside p _ q = _
          simp only [upd, if_neg hpq]
        have hcl : ∃ o', f.closed (.go p) = [o'] ∧ o'.ticks q = false := by
          obtain ⟨who, op, rest⟩ := x
          simp only at hr
          subst hr
          simp only [closed, hx]
          cases who with
          | none =>
            refine ⟨_, rfl, ?_⟩
            cases op <;> first | rfl | (simp [SiteOp.ticks]; exact fun h => hpq h.symm)
          | some w => exact ⟨_, rfl, rfl⟩
        obtain ⟨o', hcl, hti⟩ := hcl
        refine ⟨rfl, fun o2 ho2 => by rw [hcl] at ho2; rw [List.mem_singleton.1 ho2]; exact hti, by rw [hin], fun _ => ?_⟩
        refine Site.snap_same hal hal' ha (Site.run_queues _ _ ha) ?_
        have e3 : (t.run E SpecB clk (f.closed (.go p))).trace = t.trace ++ [.turn p (x.who.map Prod.fst) x.op r] := by
          rw [← h'.face.trace, ← h.face.trace]
          show (f.go SpecB clk p).site.trace = _
          rw [e]
          exact (leave_site hf hx y r).2.2.1
        rw [e3, turnsOf_append]
        have : turnsOf q [.turn p (x.who.map Prod.fst) x.op r] = [] := by simp [turnsOf, SiteEvent.at, Ne.symm hpq]
        rw [this, List.append_nil]
    · right
      refine quiet ?_ rfl ?_
      · unfold closed
        simp only [hx]
        obtain ⟨who, op, rest⟩ := x
        cases rest with
        | ret y => exact absurd rfl (hr y)
        | _ => cases who <;> rfl
      · show ticking ((f.go SpecB clk p).inside q) = _
        rw [e]
        show ticking (upd f.inside p _ q) = _
        unfold upd
        split
        · next e => subst e; rw [hx]; obtain ⟨who, op, rest⟩ := x; cases who <;> cases op <;> rfl
        · rfl

theorem goodTicks_append (b : Impl) (f : Weave D O b.B) (q : Nat) (a : QueueActor) (xs ys : List (WeaveOp D O)) :
    f.goodTicks E clk b q a (xs ++ ys) = f.goodTicks E clk b q a xs + (f.run E b.B clk xs).goodTicks E clk b q a ys := by
  induction xs generalizing f with
  | nil => exact (Nat.zero_add _).symm
  | cons o xs ih =>
    show _ + goodTicks E clk b q a (f.step E b.B clk o) (xs ++ ys) = _
    rw [ih, ← Nat.add_assoc]
    rfl

theorem short_append {b : Impl} {f : Weave D O b.B} {n q : Nat} {a : QueueActor} {xs ys : List (WeaveOp D O)}
    (h : f.Short E clk b n q a (xs ++ ys)) : (f.run E b.B clk xs).Short E clk b n q a ys := by
  induction xs generalizing f with
  | nil => exact h
  | cons o xs ih => exact ih h.2

theorem run_hub (ops : List (WeaveOp D O)) {B : Backend} {f : Weave D O B} (hf : Tidy f) :
    f.site.hub.engines.length ≤ (f.run E B clk ops).site.hub.engines.length := by
  induction ops generalizing f with
  | nil => exact Nat.le_refl _
  | cons o ops ih => exact Nat.le_trans (hub_step hf o) (ih (tidy_step hf o))

/-- A process on what is left of earlier ones, and the serial one, with all that is known of them. -/
structure PairFrom (E : Nat → Env D) (clk : Nat → Nat → Time) (kind : Str → Nat) (S : Site.Base E kind) (f : Weave D O SpecB) (t : Site D O SpecB) : Prop where
  serial : Serial E clk kind f t
  tidy : Tidy f
  links : Site.Links t
  alone : Site.AloneFrom E clk kind S t
  single : t.hub.Single

/-- The same, where the backends are empty at first. -/
abbrev Pair (E : Nat → Env D) (clk : Nat → Nat → Time) (kind : Str → Nat) (f : Weave D O SpecB) (t : Site D O SpecB) : Prop :=
  PairFrom E clk kind (Site.Base.empty E kind) f t

theorem pair_init : Pair E clk kind (init SpecB (fun _ => Spec.empty) : Weave D O SpecB) (Site.init SpecB fun _ => Spec.empty) :=
  ⟨serial_init, tidy_init _, Site.links_init _, Site.alone_init, Hub.single_init⟩

theorem Pair.step (L : ∀ ty, (E ty).Lawful) (h : Pair E clk kind f t) (o : WeaveOp D O) (ho : ∀ c req, o = .site (.begin c req) → req.On kind)
    (h1 : (f.step E SpecB clk o).site.hub.engines.length ≤ 1) : Pair E clk kind (f.step E SpecB clk o) (t.run E SpecB clk (f.closed o)) := by
  have h3 := h.serial.step L h.tidy h.links h.alone h.single o h1
  have h4 : (t.run E SpecB clk (f.closed o)).hub.engines.length ≤ 1 := by rw [← h3.face.hub]; exact h1
  exact ⟨h3, tidy_step h.tidy o, Site.links_run h.links _, Site.alone_run L h.links h.alone h.single _ (fun c req hm => ho c req (closed_begin hm)) h4,
    Site.single_run h.single _ h4⟩

theorem Pair.run (L : ∀ ty, (E ty).Lawful) (h : Pair E clk kind f t) (ops : List (WeaveOp D O)) (hops : ∀ c req, .site (.begin c req) ∈ ops → req.On kind)
    (h1 : (f.run E SpecB clk ops).site.hub.engines.length ≤ 1) : Pair E clk kind (f.run E SpecB clk ops) (t.run E SpecB clk (f.serial E clk ops)) := by
  induction ops generalizing f t with
  | nil => exact h
  | cons o ops ih =>
    have h2 : (f.step E SpecB clk o).site.hub.engines.length ≤ 1 := Nat.le_trans (run_hub ops (tidy_step h.tidy o)) h1
    have := ih (h.step L o (fun c req e => hops c req (e ▸ List.mem_cons_self ..)) h2) (fun c req hm => hops c req (List.mem_cons_of_mem _ hm)) h1
    show Pair E clk kind _ (t.run E SpecB clk (f.closed o ++ _))
    rw [Site.run_append]
    exact this

/-- The tick in progress will find the work queue alive and with free capacity. -/
def ready (t : Site D O SpecB) (E : Nat → Env D) (q : Nat) (a : QueueActor) : Bool :=
  (t.snap .spec E q a).alive && decide (1 ≤ (t.snap .spec E q a).free)

theorem ready_eq {t t' : Site D O SpecB} {q : Nat} {a : QueueActor} (h1 : (t'.snap .spec E q a).lists = (t.snap .spec E q a).lists)
    (h2 : (t'.snap .spec E q a).cfg = (t.snap .spec E q a).cfg) (h3 : (t'.snap .spec E q a).alive = (t.snap .spec E q a).alive) :
    ready t' E q a = ready t E q a := by
  unfold ready
  rw [Site.snap_free h1 h2, h3]

/-- The ticks begun, and those taken in one step. -/
theorem Pair.goodTicks (L : ∀ ty, (E ty).Lawful) (h : Pair E clk kind f t) (ops : List (WeaveOp D O)) (hops : ∀ c req, .site (.begin c req) ∈ ops → req.On kind)
    (h1 : (f.run E SpecB clk ops).site.hub.engines.length ≤ 1) {q : Nat} {a : QueueActor} (ha : t.hub.queues[q]? = some a) :
    f.goodTicks E clk .spec q a ops + (if ticking (f.inside q) && ready t E q a then 1 else 0) ≤
      t.goodTicks .spec E clk q a (f.serial E clk ops) + 1 := by
  induction ops generalizing f t with
  | nil =>
    show 0 + _ ≤ 0 + 1
    split <;> omega
  | cons o ops ih =>
    have h2 : (f.step E SpecB clk o).site.hub.engines.length ≤ 1 := Nat.le_trans (run_hub ops (tidy_step h.tidy o)) h1
    have h' := h.step L o (fun c req e => hops c req (e ▸ List.mem_cons_self ..)) h2
    have ih' := ih h' (fun c req hm => hops c req (List.mem_cons_of_mem _ hm)) h1 (Site.run_queues _ _ ha)
    have hg : f.goodTicks E clk .spec q a (o :: ops) =
        (if f.ticks q o && (f.site.snap .spec E q a).alive && decide (1 ≤ (f.site.snap .spec E q a).free) then 1 else 0) +
          Weave.goodTicks E clk .spec q a (f.step E SpecB clk o) ops := rfl
    have hs : t.goodTicks .spec E clk q a (f.serial E clk (o :: ops)) = t.goodTicks .spec E clk q a (f.closed o) +
        (t.run E SpecB clk (f.closed o)).goodTicks .spec E clk q a ((f.step E SpecB clk o).serial E clk ops) :=
      Site.goodTicks_append .spec t q a _ _
    rw [hg, hs]
    rcases h.serial.counts h.tidy h.alone ha o h'.serial h'.alone with ⟨k1, k2, k3, k4, k5, k6, k7⟩ | ⟨k1, k2, k3, k4⟩ | ⟨k1, k2, k3, k4⟩
    · have e : ready f.site E q a = ready t E q a := ready_eq k5 k6 k7
      rw [k2] at ih' ⊢
      rw [k1, k3]
      rw [k4] at ih'
      have e' : ((f.site.snap .spec E q a).alive && decide (1 ≤ (f.site.snap .spec E q a).free)) = ready t E q a := e
      simp only [Bool.true_and, Bool.false_and, Bool.false_eq_true, if_false, Nat.add_zero, e'] at ih' ⊢
      have : t.run E SpecB clk [] = t := rfl
      rw [this] at ih' ⊢
      have : t.goodTicks .spec E clk q a [] = 0 := rfl
      rw [this]
      omega
    · rw [k2, k4] at ih'
      rw [k1, k3, k2]
      have : t.goodTicks .spec E clk q a [.turn q .tick] = if ready t E q a then 1 else 0 := by
        show (if (SiteOp.turn q .tick).ticks q && _ && _ then 1 else 0) + 0 = _
        simp [SiteOp.ticks, ready]
      rw [this]
      simp only [Bool.true_and, Bool.false_and, Bool.false_eq_true, if_false, Nat.add_zero, Nat.zero_add] at ih' ⊢
      omega
    · rw [k1]
      have e0 : t.goodTicks .spec E clk q a (f.closed o) = 0 := Site.goodTicks_none (b := .spec) t k2
      rw [e0]
      rw [k3] at ih'
      cases hti : ticking (f.inside q) with
      | false =>
        rw [hti] at ih'
        simp only [Bool.false_and, Bool.false_eq_true, if_false, Nat.add_zero, Nat.zero_add] at ih' ⊢
        exact ih'
      | true =>
        obtain ⟨g1, g2, g3⟩ := k4 hti
        rw [hti, ready_eq g1 g2 g3] at ih'
        simp only [Bool.false_and, Bool.false_eq_true, if_false, Nat.zero_add] at ih' ⊢
        exact ih'

/-- What ticks find when they begin, and when they are taken in one step. -/
theorem Pair.short (L : ∀ ty, (E ty).Lawful) (h : Pair E clk kind f t) (ops : List (WeaveOp D O)) (hops : ∀ c req, .site (.begin c req) ∈ ops → req.On kind)
    (h1 : (f.run E SpecB clk ops).site.hub.engines.length ≤ 1) {n q : Nat} {a : QueueActor} (ha : t.hub.queues[q]? = some a)
    (hnow : ticking (f.inside q) = true → ((t.snap .spec E q a).lists .queued).length ≤ n) (hsh : f.Short E clk .spec n q a ops) :
    t.Short .spec E clk n q a (f.serial E clk ops) := by
  induction ops generalizing f t with
  | nil => trivial
  | cons o ops ih =>
    have h2 : (f.step E SpecB clk o).site.hub.engines.length ≤ 1 := Nat.le_trans (run_hub ops (tidy_step h.tidy o)) h1
    have h' := h.step L o (fun c req e => hops c req (e ▸ List.mem_cons_self ..)) h2
    have ih' := fun hnow => ih h' (fun c req hm => hops c req (List.mem_cons_of_mem _ hm)) h1 (Site.run_queues _ _ ha) hnow hsh.2
    refine Site.Short.of_append ?_ (ih' ?_)
    · rcases h.serial.counts h.tidy h.alone ha o h'.serial h'.alone with ⟨k1, k2, -⟩ | ⟨k1, k2, k3, k4⟩ | ⟨k1, k2, -⟩
      · rw [k2]; trivial
      · rw [k2]; exact ⟨fun _ => hnow k3, trivial⟩
      · exact Site.short_none (b := .spec) t k2
    · intro hti
      rcases h.serial.counts h.tidy h.alone ha o h'.serial h'.alone with ⟨k1, k2, -, -, k5, -⟩ | ⟨k1, k2, k3, k4⟩ | ⟨k1, k2, k3, k4⟩
      · rw [k2]
        show ((t.snap .spec E q a).lists .queued).length ≤ n
        rw [← k5]
        exact hsh.1 k1
      · rw [k4] at hti; cases hti
      · rw [k3] at hti
        rw [(k4 hti).1]
        exact hnow hti

/-- Moments of the serial history are moments of the history. -/
theorem closed_length {B : Backend} (f : Weave D O B) (o : WeaveOp D O) : (f.closed o).length ≤ 1 := by
  cases o with
  | site o => cases o <;> first | exact Nat.zero_le _ | exact Nat.le_refl _
  | go q =>
    unfold closed
    dsimp only
    split
    · split <;> first | exact Nat.zero_le _ | exact Nat.le_refl _
    · exact Nat.zero_le _

theorem serial_prefix {B : Backend} (f : Weave D O B) (ops : List (WeaveOp D O)) {p : List (SiteOp D O)} (hp : p <+: f.serial E clk ops) :
    ∃ p', p' <+: ops ∧ f.serial E clk p' = p := by
  induction ops generalizing f p with
  | nil => exact ⟨[], List.prefix_rfl, (List.prefix_nil.1 hp).symm⟩
  | cons o ops ih =>
    have hl := closed_length f o
    have e : f.serial E clk (o :: ops) = f.closed o ++ (f.step E B clk o).serial E clk ops := rfl
    rw [e] at hp
    cases p with
    | nil => exact ⟨[], List.nil_prefix, rfl⟩
    | cons x p =>
      have key : ∀ p2, p2 <+: (f.step E B clk o).serial E clk ops → ∃ p', p' <+: o :: ops ∧ f.serial E clk p' = f.closed o ++ p2 := by
        intro p2 h2
        obtain ⟨p', h3, h4⟩ := ih _ h2
        exact ⟨o :: p', (List.prefix_cons_inj o).2 h3, by rw [← h4]; rfl⟩
      match hc : f.closed o, hl with
      | [], _ =>
        rw [hc] at hp key
        exact key _ hp
      | [y], _ =>
        rw [hc] at hp key
        obtain ⟨rfl, h2⟩ := List.cons_prefix_cons.1 hp
        exact key p h2
      | _ :: _ :: _, hl => simp at hl

theorem handled {B : Backend} {f : Weave D O B} (h : Tidy f) {q n c : Nat} {op : Op D O} (hn : (f.site.boxes q).mailbox[n]? = some (c, op)) {a : QueueActor}
    (ha : f.site.hub.queues[q]? = some a) (ops : List (WeaveOp D O)) (hc : f.need q n < f.looks E clk q ops) :
    ∃ w w' r, ops = w ++ .go q :: w' ∧ ((f.run E B clk w).step E B clk (.go q)).site.trace = (f.run E B clk w).site.trace ++ [.turn q (some c) op r] ∧
      ((f.run E B clk w).step E B clk (.go q)).inside q = none := by
  induction ops generalizing f n a with
  | nil => exact absurd hc (Nat.not_lt_zero _)
  | cons o ops ih =>
    have ht := tidy_step (E := E) (clk := clk) h o
    rcases waits_step (E := E) (clk := clk) h hn ha o with ⟨m, h1, h2⟩ | ⟨r, h1, rfl, h2⟩
    · obtain ⟨req, again, hu⟩ := (ht.links.mail q c op).1 (List.mem_of_getElem? h1)
      have hlink := ht.links.users c
      rw [hu] at hlink
      obtain ⟨a', ha', -⟩ := hlink.2.typed ht.links.typed
      obtain ⟨w, w', r, h3, h4, h5⟩ := ih ht h1 ha' (by
        clear hu hlink ha' h1 ht ih
        unfold looks at hc
        cases o <;> dsimp only at hc h2 <;> omega)
      exact ⟨o :: w, w', r, by rw [h3]; rfl, h4, h5⟩
    · exact ⟨[], ops, r, rfl, h1, h2⟩

/-- In the mailbox, handled, executed. -/
theorem Pair.executed (L : ∀ ty, (E ty).Lawful) (h : Pair E clk kind f t) (wait work : List (WeaveOp D O))
    (hops : ∀ c req, .site (.begin c req) ∈ wait ++ work → req.On kind) (h1 : (f.run E SpecB clk (wait ++ work)).site.hub.engines.length ≤ 1) {c : Nat}
    {job : Job D} {cfg : EnqueueConfig} (hto : ∀ d req, .site (.begin d req) ∈ wait ++ work → ¬ req.Touches job.id) (ht : Site.Track c job cfg t)
    {q m : Nat} {a : QueueActor} (ha : t.hub.queues[q]? = some a) (hm : (f.site.boxes q).mailbox[m]? = some (c, .enqueue job cfg))
    (henc : (E a.ty).Encodable job) (hdue : ∀ i, (t.boxes q).reads ≤ i → (job.norm (L a.ty).normD).Due (clk q i))
    (hwait : f.need q m < f.looks E clk q wait) {n : Nat} (hn : n ≤ 20) (hn1 : 1 ≤ n) (hsh : f.Short E clk .spec n q a (wait ++ work))
    (hwork : n < (f.run E SpecB clk wait).goodTicks E clk .spec q a work) :
    ∃ pre, pre <+: wait ++ work ∧ job.id ∈ ((f.run E SpecB clk pre).site.snap .spec E q a).inFlight := by
  obtain ⟨w, w', r, rfl, htr, hin⟩ := handled (E := E) (clk := clk) h.tidy hm (by rw [h.serial.face.hub]; exact ha) wait hwait
  have eops : w ++ .go q :: w' ++ work = w ++ (.go q :: (w' ++ work)) := by simp
  rw [eops] at hops h1 hto hsh ⊢
  rw [run_append] at h1
  have tw : Tidy (f.run E SpecB clk w) := tidy_run h.tidy w
  have h1' : (f.run E SpecB clk w).site.hub.engines.length ≤ 1 := Nat.le_trans (run_hub _ tw) h1
  have hops1 : ∀ c req, .site (.begin c req) ∈ w → req.On kind := fun c req hm => hops c req (List.mem_append_left _ hm)
  have p1 := h.run L w hops1 h1'
  have hsw : (t.run E SpecB clk (f.serial E clk w)).hub.engines.length ≤ 1 := by rw [← p1.serial.face.hub]; exact h1'
  have ha1 := Site.run_queues (E := E) (clk := clk) t (f.serial E clk w) ha
  have hT1 := Site.track_run L h.links h.alone h.single _ (fun c req hm => hops1 c req (serial_begin hm)) hsw
    (fun d req hm => hto d req (List.mem_append_left _ (serial_begin hm))) ht
  have hr1 := Site.reads_run L h.links h.alone h.single _ (fun c req hm => hops1 c req (serial_begin hm)) hsw ha
  have hsh1 : (f.run E SpecB clk w).Short E clk .spec n q a (.go q :: (w' ++ work)) := short_append hsh
  have hwork1 : n < ((f.run E SpecB clk w).step E SpecB clk (.go q)).goodTicks E clk .spec q a (w' ++ work) := by
    have e1 : f.run E SpecB clk (w ++ .go q :: w') = ((f.run E SpecB clk w).step E SpecB clk (.go q)).run E SpecB clk w' := by rw [run_append]; rfl
    have e2 := goodTicks_append (E := E) (clk := clk) .spec ((f.run E SpecB clk w).step E SpecB clk (.go q)) q a w' work
    rw [e1] at hwork
    rw [e2]
    exact Nat.lt_of_lt_of_le hwork (Nat.le_add_left _ _)
  have hops1 : ∀ c req, .site (.begin c req) ∈ .go q :: (w' ++ work) → req.On kind := fun c req hm => hops c req (List.mem_append_right _ hm)
  have hto1 : ∀ d req, .site (.begin d req) ∈ .go q :: (w' ++ work) → ¬ req.Touches job.id := fun c req hm => hto c req (List.mem_append_right _ hm)
  suffices H : ∃ pre, pre <+: .go q :: (w' ++ work) ∧ job.id ∈ (((f.run E SpecB clk w).run E SpecB clk pre).site.snap .spec E q a).inFlight by
    obtain ⟨pre, ⟨suf, h2⟩, h3⟩ := H
    refine ⟨w ++ pre, ⟨suf, by rw [List.append_assoc, h2]⟩, ?_⟩
    rw [run_append]
    exact h3
  generalize f.run E SpecB clk w = f1 at *
  generalize t.run E SpecB clk (f.serial E clk w) = t1 at *
  generalize w' ++ work = rest at *
  have h2 : (f1.step E SpecB clk (.go q)).site.hub.engines.length ≤ 1 := Nat.le_trans (run_hub rest (tidy_step tw _)) h1
  have p2 := p1.step L (.go q) (fun _ _ e => by cases e) h2
  have hops2 : ∀ c req, .site (.begin c req) ∈ rest → req.On kind := fun c req hm => hops1 c req (List.mem_cons_of_mem _ hm)
  have etr : (t1.run E SpecB clk (f1.closed (.go q))).trace = t1.trace ++ [.turn q (some c) (.enqueue job cfg) r] := by
    rw [← p2.serial.face.trace, htr, p1.serial.face.trace]
  obtain ⟨o, ho⟩ : ∃ o, f1.closed (.go q) = [o] := by
    match hc : f1.closed (.go q), closed_length f1 (.go q) with
    | [], _ =>
      rw [hc] at etr
      exact absurd (congrArg List.length etr) (by simp [Site.run])
    | [y], _ => exact ⟨y, rfl⟩
    | _ :: _ :: _, hl => simp at hl
  rw [ho] at p2 etr
  have p3 := p2.run L rest hops2 h1
  have eser : f1.serial E clk (.go q :: rest) = o :: (f1.step E SpecB clk (.go q)).serial E clk rest := by
    show f1.closed (.go q) ++ _ = _
    rw [ho]; rfl
  have hgt := p2.goodTicks L rest hops2 h1 (Site.run_queues _ _ ha1)
  have hsh2 := p2.short L rest hops2 h1 (Site.run_queues _ _ ha1) (n := n) (fun e => by rw [hin] at e; cases e) hsh1.2
  obtain ⟨pre, g1, g2⟩ := Site.executed_from L p1.links p1.alone p1.single (o := o) (rest := (f1.step E SpecB clk (.go q)).serial E clk rest)
    (fun c req hm => hops1 c req (serial_begin (by rw [eser]; exact hm)))
    (by
      have e := p3.serial.face.hub
      show ((t1.run E SpecB clk [o]).run E SpecB clk _).hub.engines.length ≤ 1
      rw [← e]
      exact h1)
    (fun c req hm => hto1 c req (serial_begin (by rw [eser]; exact hm))) hT1 ha1 etr henc (fun i hi => hdue i (Nat.le_trans hr1 hi)) hn hn1
    hsh2 (by
      have : n < Site.goodTicks .spec E clk q a (t1.step E SpecB clk o) ((f1.step E SpecB clk (.go q)).serial E clk rest) + 1 :=
        Nat.lt_of_lt_of_le hwork1 (Nat.le_trans (Nat.le_add_right _ _) hgt)
      omega)
  rw [← eser] at g1
  obtain ⟨p', g3, rfl⟩ := serial_prefix f1 _ g1
  refine ⟨p', g3, ?_⟩
  obtain ⟨suf, hsuf⟩ := g3
  have h4 : (f1.run E SpecB clk p').site.hub.engines.length ≤ 1 := by
    refine Nat.le_trans (run_hub (E := E) (clk := clk) suf (tidy_run tw p')) ?_
    rw [← run_append, hsuf]
    exact h1
  have p4 := p1.run L p' (fun c req hm => hops1 c req (by rw [← hsuf]; exact List.mem_append_left _ hm)) h4
  have : ((f1.run E SpecB clk p').site.snap .spec E q a).inFlight = ((t1.run E SpecB clk (f1.serial E clk p')).snap .spec E q a).inFlight := by
    show ((f1.run E SpecB clk p').site.boxes q).proc.tasks.map _ = _
    rw [p4.serial.procs q]; rfl
  rw [this]
  exact g2

end

/-! ## Every backend -/

section
variable {b : Impl} {f : Weave D O b.B} {g : Weave D O SpecB}

theorem Rel.ticks (h : Rel b f g) (q : Nat) (o : WeaveOp D O) : f.ticks q o = g.ticks q o := by
  cases o with
  | site o => show (o.ticks q && (f.inside q).isNone) = (o.ticks q && (g.inside q).isNone); rw [h.inside]
  | go p => rfl

theorem Rel.goodTicks (h : Rel b f g) (q : Nat) (a : QueueActor) (ops : List (WeaveOp D O)) :
    f.goodTicks E clk b q a ops = g.goodTicks E clk .spec q a ops := by
  induction ops generalizing f g with
  | nil => rfl
  | cons o ops ih =>
    show (if _ then 1 else 0) + Weave.goodTicks E clk b q a (f.step E b.B clk o) ops = (if _ then 1 else 0) + Weave.goodTicks E clk .spec q a (g.step E SpecB clk o) ops
    rw [ih (h.step o), Site.snap_rel h.site, h.ticks]
    rfl

theorem Rel.short (h : Rel b f g) {m q : Nat} {a : QueueActor} {ops : List (WeaveOp D O)} (hs : f.Short E clk b m q a ops) : g.Short E clk .spec m q a ops := by
  induction ops generalizing f g with
  | nil => trivial
  | cons o ops ih =>
    refine ⟨?_, ih (h.step o) hs.2⟩
    intro ho
    rw [← Site.snap_rel h.site]
    exact hs.1 (by rw [h.ticks]; exact ho)

theorem Rel.looks (h : Rel b f g) (q : Nat) (ops : List (WeaveOp D O)) : f.looks E clk q ops = g.looks E clk q ops := by
  induction ops generalizing f g with
  | nil => rfl
  | cons o ops ih =>
    unfold Weave.looks
    rw [ih (h.step o), h.inside]

end
end Weave
end AJ
