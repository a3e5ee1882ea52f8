import Verif.Proofs.SiteTouch
import Verif.Proofs.Runs
import Verif.Props.Starve
import Verif.Props.Codec

/-! # From a request to an execution -/

namespace AJ

/-- The turn neither submits nor cancels `k`. -/
abbrev NoTouch {D O : Type} (k : Str) (_ : Snap D) (op : Op D O) : Prop := ¬ op.Touches k

section
variable {D O : Type} {b : Impl} {E : Env D} {name : Str} {clk : Nat → Time} {k : Str}

theorem NoTouch.noSubmit {v : Snap D} {op : Op D O} (h : NoTouch k v op) : NoSubmit k op := fun job cfg e hid => h (by subst e; exact hid)

theorem NoTouch.noCancel {v : Snap D} {op : Op D O} (h : NoTouch k v op) : op ≠ .cancel k := fun e => h (by subst e; exact rfl)

theorem reach_ops {P : Snap D → Op D O → Prop} (ops : List (Op D O)) (h : ∀ v, ∀ op ∈ ops, P v op) :
    Reach b E name clk P (Sys.runOps E name b.B clk (Sys.init b.B b.empty) ops).1 := by
  suffices H : ∀ s, Reach b E name clk P s → Reach b E name clk P (Sys.runOps E name b.B clk s ops).1 from H _ .start
  induction ops with
  | nil => exact fun s hs => hs
  | cons op ops ih => exact fun s hs => ih (fun v o ho => h v o (List.mem_cons_of_mem _ ho)) _ (.step op hs (h _ op (List.mem_cons_self ..)))

theorem later_ops {P : Snap D → Op D O → Prop} (s : Sys D b.B) (ops : List (Op D O)) (h : ∀ v, ∀ op ∈ ops, P v op) :
    Later b E name clk P s (Sys.runOps E name b.B clk s ops).1 := by
  suffices H : ∀ s', Later b E name clk P s s' → Later b E name clk P s (Sys.runOps E name b.B clk s' ops).1 from H _ .refl
  induction ops with
  | nil => exact fun s hs => hs
  | cons op ops ih => exact fun s hs => ih (fun v o ho => h v o (List.mem_cons_of_mem _ ho)) _ (.step op hs (h _ op (List.mem_cons_self ..)))

theorem runOps_append {B : Backend} (s : Sys D B) (ops ops' : List (Op D O)) :
    (Sys.runOps E name B clk s (ops ++ ops')).1 = (Sys.runOps E name B clk (Sys.runOps E name B clk s ops).1 ops').1 := by
  induction ops generalizing s with
  | nil => rfl
  | cons op ops ih => exact ih _

end

theorem Props.solo_mem {D O : Type} {b : Impl} {E : Env D} {name : Str} {clk : Nat → Time} {k : Str} (L : E.Lawful) {s : Sys D b.B}
    (hs : Reach (O := O) b E name clk (Orderly k) s) {j : Job D} (hj : (b.snap E name s).job k = some j)
    (hst : (b.snap E name s).status k = some .queued) : k ∈ (b.snap E name s).fifo := by
  have h := (solo_of L hs hj).queued
  rw [if_pos hst] at h
  unfold Snap.fifo
  rw [List.mem_reverse, ← List.count_pos_iff, h]
  exact Nat.one_pos

namespace Site
variable {D O : Type} {E : Nat → Env D} {clk : Nat → Nat → Time} {kind : Str → Nat} {k : Str}

/-- The work queue that has taken the same turns, alone. -/
def mirror (b : Impl) (E : Nat → Env D) (clk : Nat → Nat → Time) {B : Backend} (t : Site D O B) (q : Nat) (a : QueueActor) : Sys D b.B :=
  (Sys.runOps (E a.ty) a.name b.B (clk q) (Sys.init b.B b.empty) ((turnsOf q t.trace).map Prod.fst)).1

section
variable {t : Site D O SpecB}

theorem mirror_step (hl : Links t) {q : Nat} {a : QueueActor} (ha : t.hub.queues[q]? = some a) (o : SiteOp D O) :
    ((t.step E SpecB clk o).mirror .spec E clk q a = t.mirror .spec E clk q a ∧ o.ticks q = false ∧
      turnsOf q (t.step E SpecB clk o).trace = turnsOf q t.trace) ∨
    ∃ who op r, (t.step E SpecB clk o).trace = t.trace ++ [.turn q who op r] ∧ (o.ticks q = true ↔ op = .tick) ∧
      (t.step E SpecB clk o).mirror .spec E clk q a = (Sys.step (E a.ty) a.name Impl.spec.B (clk q) (t.mirror .spec E clk q a) op).1 := by
  have snoc : ∀ who op r, (t.step E SpecB clk o).trace = t.trace ++ [.turn q who op r] →
      (t.step E SpecB clk o).mirror .spec E clk q a = (Sys.step (E a.ty) a.name Impl.spec.B (clk q) (t.mirror .spec E clk q a) op).1 := by
    intro who op r h
    have e : (turnsOf q (t.step E SpecB clk o).trace).map Prod.fst = (turnsOf q t.trace).map Prod.fst ++ [op] := by
      rw [h, turnsOf_append]
      simp [turnsOf, SiteEvent.at]
    unfold mirror
    rw [e]
    exact congrArg Prod.fst (runOps_snoc (B := SpecB) _ _ op)
  by_cases ht : o.ticks q = true
  · right
    obtain ⟨rfl⟩ : o = .turn q .tick := by
      cases o with
      | turn p op =>
        cases op with
        | tick => rw [show p = q by simpa [SiteOp.ticks] using ht]
        | _ => cases ht
      | _ => cases ht
    have e : ((t.step E SpecB clk (.turn q .tick)).trace = t.trace ++ [.turn q none .tick (t.play E SpecB clk q a none .tick).2]) := by
      show (t.turn E SpecB clk q .tick).trace = _
      unfold turn
      rw [ha]
      rfl
    exact ⟨none, .tick, _, e, ⟨fun _ => rfl, fun _ => ht⟩, snoc _ _ _ e⟩
  · obtain ⟨l, h1, h2, -⟩ := step_touch (E := E) (clk := clk) hl [] o
    by_cases hm : ∃ who op r, .turn q who op r ∈ l
    · obtain ⟨who, op, r, hm⟩ := hm
      have := eq_singleton hm h2
      rw [this] at h1
      exact .inr ⟨who, op, r, h1, ⟨fun h => absurd h ht, fun h => (by subst h; exact step_tick hl o h1)⟩, snoc _ _ _ h1⟩
    · left
      have e : turnsOf q (t.step E SpecB clk o).trace = turnsOf q t.trace := by
        rw [h1, turnsOf_append]
        have : turnsOf q l = [] := by
          unfold turnsOf
          rw [List.filterMap_eq_nil_iff]
          intro e he
          cases e with
          | turn p who op r =>
            show (if p = q then _ else _) = _
            split
            · next hp => subst hp; exact absurd ⟨who, op, r, he⟩ hm
            · rfl
          | _ => rfl
        rw [this, List.append_nil]
      exact ⟨by unfold mirror; rw [e], by simpa using ht, e⟩

/-- The process and the work queue alone look the same. -/
theorem mirror_snap (h : Alone E clk kind t) {q : Nat} {a : QueueActor} (ha : t.hub.queues[q]? = some a) :
    let v := t.snap .spec E q a
    let v' := Impl.spec.snap (E a.ty) a.name (t.mirror .spec E clk q a)
    v.lists = v'.lists ∧ v.tasks = v'.tasks ∧ v.cfg = v'.cfg ∧ v.alive = v'.alive ∧ v.reads = v'.reads ∧ v.log = v'.log ∧
      ∀ k, kind k = a.ty → v.job k = v'.job k := by
  obtain ⟨-, h1⟩ := h.queue q a ha
  have hp := h1.proc
  simp only [Sys.proc, Proc.mk.injEq] at hp
  refine ⟨funext h1.part.lists, hp.2.1, hp.1, hp.2.2, h1.reads, h1.log, fun k hk => ?_⟩
  exact congrArg (Option.bind · (E a.ty).codec.dec) (h1.part.stored k hk)

theorem snap_free {v v' : Snap D} (h1 : v.lists = v'.lists) (h2 : v.cfg = v'.cfg) : v.free = v'.free := by
  unfold Snap.free; rw [h1, h2]

theorem goodTicks_dead (L : ∀ ty, (E ty).Lawful) (hl : Links t) (h : Alone E clk kind t) (hs : t.hub.Single) (ops : List (SiteOp D O))
    (hops : ∀ c req, .begin c req ∈ ops → req.On kind) (h1 : (t.run E SpecB clk ops).hub.engines.length ≤ 1)
    {q : Nat} {a : QueueActor} (ha : t.hub.queues[q]? = some a) (hd : (t.mirror .spec E clk q a).alive = false) :
    t.goodTicks .spec E clk q a ops = 0 := by
  induction ops generalizing t with
  | nil => rfl
  | cons o ops ih =>
    have h2 : (t.step E SpecB clk o).hub.engines.length ≤ 1 := Nat.le_trans (run_length _ ops) h1
    have h3 : t.hub.engines.length ≤ 1 := Nat.le_trans (step_length t o) h2
    have hs' := step_single (E := E) (clk := clk) hs h3 o
    have ih' := ih (links_step hl o) (alone_step L hl h o (fun c req e => hops c req (e ▸ List.mem_cons_self ..)) (hs.once h3) (hs'.once h2)) hs'
      (fun c req hm => hops c req (List.mem_cons_of_mem _ hm)) h1 (step_queues t o ha) (by
        rcases mirror_step (E := E) (clk := clk) hl ha o with ⟨e, -⟩ | ⟨who, op, r, -, -, e⟩ <;> rw [e]
        · exact hd
        · rw [dead_step (b := .spec) hd op]; exact hd)
    obtain ⟨-, -, -, h4, -⟩ := mirror_snap h ha
    have h4 : (t.snap .spec E q a).alive = false := h4.trans hd
    show (if o.ticks q && (t.snap .spec E q a).alive && _ then 1 else 0) + goodTicks .spec E clk q a (t.step E SpecB clk o) ops = 0
    rw [ih', h4]
    simp

/-- A queued job waits for no more good ticks than there are jobs before it. -/
theorem wait_run (L : ∀ ty, (E ty).Lawful) (hl : Links t) (h : Alone E clk kind t) (hs : t.hub.Single) (ops : List (SiteOp D O))
    (hops : ∀ c req, .begin c req ∈ ops → req.On kind) (h1 : (t.run E SpecB clk ops).hub.engines.length ≤ 1)
    (hto : ∀ c req, .begin c req ∈ ops → ¬ req.Touches k) (hcl : ∀ d, Clean k (t.users d))
    {q : Nat} {a : QueueActor} (ha : t.hub.queues[q]? = some a)
    (hr : Reach (O := O) .spec (E a.ty) a.name (clk q) (Orderly k) (t.mirror .spec E clk q a)) {j : Job D}
    (hj : (Impl.spec.snap (E a.ty) a.name (t.mirror .spec E clk q a)).job k = some j) (hq : j.context.jobStatus = .queued)
    (hdue : ∀ i, (t.mirror .spec E clk q a).w.t ≤ i → j.Due (clk q i)) {n : Nat} (hn : n ≤ 20) (hsh : t.Short .spec E clk n q a ops) :
    (∃ pre, pre <+: ops ∧ k ∈ ((t.run E SpecB clk pre).snap .spec E q a).inFlight) ∨
      (t.goodTicks .spec E clk q a ops ≤ (Impl.spec.snap (E a.ty) a.name (t.mirror .spec E clk q a)).fifo.idxOf k ∧
        (t.goodTicks .spec E clk q a ops = 0 ∨ t.goodTicks .spec E clk q a ops < n)) := by
  induction ops generalizing t with
  | nil => exact .inr ⟨Nat.zero_le _, .inl rfl⟩
  | cons o ops ih =>
    have h2 : (t.step E SpecB clk o).hub.engines.length ≤ 1 := Nat.le_trans (run_length _ ops) h1
    have h3 : t.hub.engines.length ≤ 1 := Nat.le_trans (step_length t o) h2
    have hs' := step_single (E := E) (clk := clk) hs h3 o
    have h' := alone_step L hl h o (fun c req e => hops c req (e ▸ List.mem_cons_self ..)) (hs.once h3) (hs'.once h2)
    have hto' : ∀ d req, o = .begin d req → ¬ req.Touches k := fun c req e => hto c req (e ▸ List.mem_cons_self ..)
    have hcl' := fun d => step_clean hl h o hto' d (hcl d)
    have ha' := step_queues (E := E) (clk := clk) t o ha
    by_cases hfl : k ∈ ((t.step E SpecB clk o).snap .spec E q a).inFlight
    · exact .inl ⟨[o], ⟨ops, rfl⟩, hfl⟩
    obtain ⟨e1, e2, e3, e4, e5, -, -⟩ := mirror_snap h ha
    obtain ⟨-, e2', -⟩ := mirror_snap h' ha'
    have hno : (Impl.spec.snap (E a.ty) a.name ((t.step E SpecB clk o).mirror .spec E clk q a)).own k = [] := by
      by_contra hne
      obtain ⟨x, hx⟩ := List.exists_mem_of_ne_nil _ hne
      obtain ⟨hx1, hx2⟩ := List.mem_filter.mp hx
      rw [← e2'] at hx1
      exact hfl (List.mem_map.mpr ⟨x, hx1, by simpa using hx2⟩)
    have more : ∀ hr' hj' hdue', _ := fun hr' hj' hdue' => ih (links_step hl o) h' hs' (fun c req hm => hops c req (List.mem_cons_of_mem _ hm)) h1
      (fun c req hm => hto c req (List.mem_cons_of_mem _ hm)) hcl' ha' hr' hj' hdue' hsh.2
    have lift : ((∃ pre, pre <+: ops ∧ k ∈ (((t.step E SpecB clk o).run E SpecB clk pre).snap .spec E q a).inFlight) →
        ∃ pre, pre <+: (o :: ops) ∧ k ∈ ((t.run E SpecB clk pre).snap .spec E q a).inFlight) := by
      rintro ⟨pre, ⟨suf, h4⟩, h5⟩
      exact ⟨o :: pre, ⟨suf, by rw [← h4]; rfl⟩, h5⟩
    have hg : t.goodTicks .spec E clk q a (o :: ops) =
        (if o.ticks q && (t.snap .spec E q a).alive && decide (1 ≤ (t.snap .spec E q a).free) then 1 else 0) +
          goodTicks .spec E clk q a (t.step E SpecB clk o) ops := rfl
    rw [hg]
    rcases mirror_step (E := E) (clk := clk) hl ha o with ⟨e, et, -⟩ | ⟨who, op, r, etr, etick, e⟩
    · rw [e] at more
      rw [et]
      simp only [Bool.false_and, Bool.false_eq_true, if_false, Nat.zero_add]
      exact (more hr hj hdue).imp_left lift
    · have hop : ¬ op.Touches k := by
        intro hto2
        obtain ⟨l, h4, h5, h6⟩ := step_touch (E := E) (clk := clk) hl k o
        rw [etr] at h4
        have h4 := List.append_cancel_left h4
        obtain ⟨d, req, again, -, hu, -⟩ := h6 q who op r (by rw [← h4]; exact List.mem_singleton.2 rfl) hto2
        have := hcl d
        rw [hu] at this
        exact this.1 hto2
      have hnt : NoTouch k (Impl.spec.snap (E a.ty) a.name (t.mirror .spec E clk q a)) op := hop
      rw [e] at hno more
      have hlen : op = .tick → ((Impl.spec.snap (E a.ty) a.name (t.mirror .spec E clk q a)).lists .queued).length ≤ n := by
        intro e6
        have := hsh.1 (etick.2 e6)
        rwa [e1] at this
      obtain ⟨w1, w2, -, w4, w5⟩ := Props.wait_step (b := .spec) (L a.ty) (hr.inHand (L a.ty)) op hnt.noSubmit hnt.noCancel (fun e6 => Nat.le_trans (hlen e6) hn) hj hq hno
      rcases more (.step op hr (NoSubmit.orderly hnt.noSubmit)) w1 (fun i hi => hdue i (Nat.le_trans w2 hi)) with hm | ⟨hm1, hm2⟩
      · exact .inl (lift hm)
      · right
        split
        · next hgood =>
          simp only [Bool.and_eq_true, decide_eq_true_eq] at hgood
          obtain ⟨⟨g1, g2⟩, g3⟩ := hgood
          have hop2 := etick.1 g1
          have w6 := w5 hop2 (e4 ▸ g2) (snap_free e1 e3 ▸ g3) (fun i hi _ => hdue i hi)
          have w7 : (Impl.spec.snap (E a.ty) a.name (t.mirror .spec E clk q a)).fifo.idxOf k < n := by
            have hst : (Impl.spec.snap (E a.ty) a.name (t.mirror .spec E clk q a)).status k = some .queued := by
              show Option.map _ _ = _
              rw [hj]; simp [hq]
            have hc := (Props.solo_mem (L a.ty) hr hj hst)
            exact Nat.lt_of_lt_of_le (List.idxOf_lt_length_of_mem hc) (by unfold Snap.fifo; rw [List.length_reverse]; exact hlen hop2)
          omega
        · refine ⟨?_, ?_⟩
          · omega
          · simpa using hm2

theorem run_append {B : Backend} (t : Site D O B) (xs ys : List (SiteOp D O)) :
    t.run E B clk (xs ++ ys) = (t.run E B clk xs).run E B clk ys := List.foldl_append

theorem run_queues {B : Backend} (t : Site D O B) (ops : List (SiteOp D O)) {q : Nat} {a : QueueActor} (ha : t.hub.queues[q]? = some a) :
    (t.run E B clk ops).hub.queues[q]? = some a := by
  induction ops generalizing t with
  | nil => exact ha
  | cons o ops ih => exact ih _ (step_queues t o ha)

theorem goodTicks_append (b : Impl) (t : Site D O b.B) (q : Nat) (a : QueueActor) (xs ys : List (SiteOp D O)) :
    t.goodTicks b E clk q a (xs ++ ys) = t.goodTicks b E clk q a xs + (t.run E b.B clk xs).goodTicks b E clk q a ys := by
  induction xs generalizing t with
  | nil => exact (Nat.zero_add _).symm
  | cons o xs ih =>
    show _ + goodTicks b E clk q a (t.step E b.B clk o) (xs ++ ys) = _
    rw [ih, ← Nat.add_assoc]
    rfl

theorem short_append {b : Impl} {t : Site D O b.B} {n q : Nat} {a : QueueActor} {xs ys : List (SiteOp D O)}
    (h : t.Short b E clk n q a (xs ++ ys)) : (t.run E b.B clk xs).Short b E clk n q a ys := by
  induction xs generalizing t with
  | nil => exact h
  | cons o xs ih => exact ih h.2

/-- The message is handled. -/
theorem handled (hl : Links t) {q m c : Nat} {op : Op D O} {a : QueueActor} (ha : t.hub.queues[q]? = some a)
    (hm : (t.boxes q).mailbox[m]? = some (c, op)) (ops : List (SiteOp D O)) (hc : m < ops.countP (·.takes q)) :
    ∃ w o w' r, ops = w ++ o :: w' ∧
      ((t.run E SpecB clk w).step E SpecB clk o).trace = (t.run E SpecB clk w).trace ++ [.turn q (some c) op r] := by
  induction ops generalizing t m with
  | nil => simp at hc
  | cons o ops ih =>
    rcases waits_step (E := E) (clk := clk) hl ha hm o with ⟨m', h1, h2, h3⟩ | ⟨r, h1⟩
    · obtain ⟨w, o', w', r, h4, h5⟩ := ih (links_step hl o) (step_queues t o ha) h3 (by
        rw [List.countP_cons] at hc
        split at hc
        · next e => have := h2 e; omega
        · omega)
      exact ⟨o :: w, o', w', r, by rw [h4]; rfl, h5⟩
    · exact ⟨[], o, ops, r, rfl, h1⟩

theorem track_run (L : ∀ ty, (E ty).Lawful) (hl : Links t) (h : Alone E clk kind t) (hs : t.hub.Single) (ops : List (SiteOp D O))
    (hops : ∀ c req, .begin c req ∈ ops → req.On kind) (h1 : (t.run E SpecB clk ops).hub.engines.length ≤ 1) {c : Nat} {job : Job D}
    {cfg : EnqueueConfig} (hto : ∀ d req, .begin d req ∈ ops → ¬ req.Touches job.id) (ht : Track c job cfg t) :
    Track c job cfg (t.run E SpecB clk ops) := by
  induction ops generalizing t with
  | nil => exact ht
  | cons o ops ih =>
    have h2 : (t.step E SpecB clk o).hub.engines.length ≤ 1 := Nat.le_trans (run_length _ ops) h1
    have h3 : t.hub.engines.length ≤ 1 := Nat.le_trans (step_length t o) h2
    have hs' := step_single (E := E) (clk := clk) hs h3 o
    exact ih (links_step hl o) (alone_step L hl h o (fun c req e => hops c req (e ▸ List.mem_cons_self ..)) (hs.once h3) (hs'.once h2)) hs'
      (fun c req hm => hops c req (List.mem_cons_of_mem _ hm)) h1 (fun c req hm => hto c req (List.mem_cons_of_mem _ hm))
      (track_step hl h o (fun c req e => hto c req (e ▸ List.mem_cons_self ..)) ht)

theorem calm_run (L : ∀ ty, (E ty).Lawful) (hl : Links t) (h : Alone E clk kind t) (hs : t.hub.Single) (ops : List (SiteOp D O))
    (hops : ∀ c req, .begin c req ∈ ops → req.On kind) (h1 : (t.run E SpecB clk ops).hub.engines.length ≤ 1)
    (hto : ∀ d req, .begin d req ∈ ops → ¬ req.Touches k) (hcl : ∀ d, Clean k (t.users d)) (hq : Quiet k t.trace) :
    (∀ d, Clean k ((t.run E SpecB clk ops).users d)) ∧ Quiet k (t.run E SpecB clk ops).trace := by
  induction ops generalizing t with
  | nil => exact ⟨hcl, hq⟩
  | cons o ops ih =>
    have h2 : (t.step E SpecB clk o).hub.engines.length ≤ 1 := Nat.le_trans (run_length _ ops) h1
    have h3 : t.hub.engines.length ≤ 1 := Nat.le_trans (step_length t o) h2
    have hs' := step_single (E := E) (clk := clk) hs h3 o
    obtain ⟨h4, h5⟩ := calm_step hl h o (fun c req e => hto c req (e ▸ List.mem_cons_self ..)) hcl hq
    exact ih (links_step hl o) (alone_step L hl h o (fun c req e => hops c req (e ▸ List.mem_cons_self ..)) (hs.once h3) (hs'.once h2)) hs'
      (fun c req hm => hops c req (List.mem_cons_of_mem _ hm)) h1 (fun c req hm => hto c req (List.mem_cons_of_mem _ hm)) h4 h5

theorem single_run (hs : t.hub.Single) (ops : List (SiteOp D O)) (h1 : (t.run E SpecB clk ops).hub.engines.length ≤ 1) :
    (t.run E SpecB clk ops).hub.Single := by
  induction ops generalizing t with
  | nil => exact hs
  | cons o ops ih =>
    have h2 : (t.step E SpecB clk o).hub.engines.length ≤ 1 := Nat.le_trans (run_length _ ops) h1
    exact ih (step_single hs (Nat.le_trans (step_length t o) h2) o) h1

theorem quiet_reach {b : Impl} {B : Backend} {t : Site D O B} (q : Nat) (a : QueueActor) (h : Quiet k t.trace) :
    Reach (O := O) b (E a.ty) a.name (clk q) (NoTouch k) (t.mirror b E clk q a) := by
  refine reach_ops _ fun v op hop => ?_
  obtain ⟨⟨op', r⟩, h1, rfl⟩ := List.mem_map.1 hop
  obtain ⟨e, h2, h3⟩ := List.mem_filterMap.1 h1
  cases e with
  | turn p who op r =>
    simp only [SiteEvent.at] at h3
    split at h3
    · cases h3; exact h p who _ _ h2
    · cases h3
  | _ => cases h3

theorem reads_step (L : ∀ ty, (E ty).Lawful) (hl : Links t) (h : Alone E clk kind t) (o : SiteOp D O) (h' : Alone E clk kind (t.step E SpecB clk o))
    {q : Nat} {a : QueueActor} (ha : t.hub.queues[q]? = some a) : (t.boxes q).reads ≤ ((t.step E SpecB clk o).boxes q).reads := by
  obtain ⟨-, -, -, -, e, -⟩ := mirror_snap h ha
  obtain ⟨-, -, -, -, e', -⟩ := mirror_snap h' (step_queues t o ha)
  have e : (t.boxes q).reads = _ := e
  have e' : ((t.step E SpecB clk o).boxes q).reads = _ := e'
  rw [e, e']
  rcases mirror_step (E := E) (clk := clk) hl ha o with ⟨e, -⟩ | ⟨who, op, r, -, -, e⟩ <;> rw [e]
  · exact Nat.le_refl _
  exact reach_reads (P := fun _ (_ : Op D O) => True) (L a.ty) (reach_ops _ fun _ _ _ => trivial) op

theorem reads_run (L : ∀ ty, (E ty).Lawful) (hl : Links t) (h : Alone E clk kind t) (hs : t.hub.Single) (ops : List (SiteOp D O))
    (hops : ∀ c req, .begin c req ∈ ops → req.On kind) (h1 : (t.run E SpecB clk ops).hub.engines.length ≤ 1) {q : Nat} {a : QueueActor}
    (ha : t.hub.queues[q]? = some a) : (t.boxes q).reads ≤ ((t.run E SpecB clk ops).boxes q).reads := by
  induction ops generalizing t with
  | nil => exact Nat.le_refl _
  | cons o ops ih =>
    have h2 : (t.step E SpecB clk o).hub.engines.length ≤ 1 := Nat.le_trans (run_length _ ops) h1
    have h3 : t.hub.engines.length ≤ 1 := Nat.le_trans (step_length t o) h2
    have hs' := step_single (E := E) (clk := clk) hs h3 o
    have h' := alone_step L hl h o (fun c req e => hops c req (e ▸ List.mem_cons_self ..)) (hs.once h3) (hs'.once h2)
    exact Nat.le_trans (reads_step L hl h o h' ha) (ih (links_step hl o) h' hs' (fun c req hm => hops c req (List.mem_cons_of_mem _ hm)) h1
      (step_queues t o ha))

/-- From the turn that submits the job to its execution. -/
theorem executed_from (L : ∀ ty, (E ty).Lawful) {t1 : Site D O SpecB} (hl1 : Links t1) (hA1 : Alone E clk kind t1) (hs1 : t1.hub.Single) {o : SiteOp D O}
    {rest : List (SiteOp D O)} (hops1 : ∀ c req, .begin c req ∈ o :: rest → req.On kind)
    (h1 : ((t1.step E SpecB clk o).run E SpecB clk rest).hub.engines.length ≤ 1) {c : Nat} {job : Job D} {cfg : EnqueueConfig}
    (hto1 : ∀ d req, .begin d req ∈ o :: rest → ¬ req.Touches job.id) (hT1 : Track c job cfg t1) {q : Nat} {a : QueueActor}
    (ha1 : t1.hub.queues[q]? = some a) {r : Resp D} (htr : (t1.step E SpecB clk o).trace = t1.trace ++ [.turn q (some c) (.enqueue job cfg) r])
    (henc : (E a.ty).Encodable job) (hdue : ∀ i, (t1.boxes q).reads ≤ i → (job.norm (L a.ty).normD).Due (clk q i))
    {n : Nat} (hn : n ≤ 20) (hn1 : 1 ≤ n) (hsh2 : (t1.step E SpecB clk o).Short .spec E clk n q a rest)
    (hwork2 : n ≤ (t1.step E SpecB clk o).goodTicks .spec E clk q a rest) :
    ∃ pre, pre <+: o :: rest ∧ job.id ∈ ((t1.run E SpecB clk pre).snap .spec E q a).inFlight := by
  have h2 : (t1.step E SpecB clk o).hub.engines.length ≤ 1 := Nat.le_trans (run_length _ rest) h1
  have h1' : t1.hub.engines.length ≤ 1 := Nat.le_trans (step_length t1 o) h2
  obtain ⟨l, g1, g2, g3⟩ := step_touch (E := E) (clk := clk) hl1 job.id o
  rw [htr] at g1
  have g1 := List.append_cancel_left g1
  obtain ⟨d, req, again, hwho, hu, hu'⟩ := g3 q (some c) (.enqueue job cfg) r (by rw [← g1]; exact List.mem_singleton.2 rfl) rfl
  cases hwho
  obtain ⟨hquiet, ty, nm, hb⟩ := hT1.state.resolve_right (fun hc => by
    have := hc.1
    rw [hu] at this
    exact this.1 rfl)
  have hreq : req = .submit ty nm job cfg := by
    rcases hb with hb | ⟨q', hb⟩ <;> rw [hu] at hb <;> cases hb
    rfl
  subst hreq
  have hmir : (t1.step E SpecB clk o).mirror .spec E clk q a =
      (Sys.step (E a.ty) a.name Impl.spec.B (clk q) (t1.mirror .spec E clk q a) (.enqueue job cfg : Op D O)).1 ∧ o.ticks q = false := by
    rcases mirror_step (E := E) (clk := clk) hl1 ha1 o with ⟨-, -, e⟩ | ⟨who, op, r', e1, e2, e⟩
    · rw [htr, turnsOf_append] at e
      exact absurd (congrArg List.length e) (by simp [turnsOf, SiteEvent.at])
    · rw [htr] at e1
      have e1 := List.append_cancel_left e1
      simp only [List.cons.injEq, SiteEvent.turn.injEq, true_and, and_true] at e1
      obtain ⟨-, rfl, -⟩ := e1
      exact ⟨e, by
        cases ho : o.ticks q with
        | false => rfl
        | true => exact absurd (e2.1 ho) (by simp)⟩
  have hs2 := step_single (E := E) (clk := clk) hs1 h1' o
  have hl2 := links_step (E := E) (clk := clk) hl1 o
  have ha2 := step_queues (E := E) (clk := clk) t1 o ha1
  have hA2 := alone_step L hl1 hA1 o (fun c req e => hops1 c req (e ▸ List.mem_cons_self ..)) (hs1.once h1') (hs2.once h2)
  have hops2 : ∀ c req, .begin c req ∈ rest → req.On kind := fun c req hm => hops1 c req (List.mem_cons_of_mem _ hm)
  have halive : (t1.mirror .spec E clk q a).alive = true := by
    by_contra hd
    have hd : (t1.mirror .spec E clk q a).alive = false := by simpa using hd
    have := goodTicks_dead L hl2 hA2 hs2 rest hops2 h1 ha2 (by rw [hmir.1, dead_step (b := .spec) hd]; exact hd)
    omega
  obtain ⟨s1, -, s2, -, s4⟩ := submitted (b := .spec) (clk := clk q) (name := a.name) (k := job.id) (L a.ty)
    ((quiet_reach (b := .spec) q a hquiet).mono fun _ _ h => h.noSubmit) halive cfg rfl
  have s2 := s2 henc
  rw [← hmir.1] at s1 s2 s4
  obtain ⟨-, -, -, -, e5, -⟩ := mirror_snap hA1 ha1
  have e5 : (t1.boxes q).reads = (Impl.spec.snap (E a.ty) a.name (t1.mirror .spec E clk q a)).reads := e5
  rcases wait_run L hl2 hA2 hs2 rest hops2 h1 (fun d req hm => hto1 d req (List.mem_cons_of_mem _ hm)) (k := job.id) (fun d => by
      by_cases e : d = c
      · subst e
        rw [hu']
        rintro - _ _ _ _ _ h
        cases h
      · exact step_clean hl1 hA1 o (fun c req e => hto1 c req (e ▸ List.mem_cons_self ..)) d (hT1.others d e)) ha2 s1 s2 rfl
      (fun i hi => hdue i (by
        have : (Impl.spec.snap (E a.ty) a.name ((t1.step E SpecB clk o).mirror .spec E clk q a)).reads ≤ i := hi
        omega)) hn hsh2 with ⟨pre, ⟨suf, h4⟩, h5⟩ | ⟨-, h4⟩
  · exact ⟨o :: pre, ⟨suf, by rw [← h4]; rfl⟩, h5⟩
  · omega

/-- Posted, handled, executed. -/
theorem executed (L : ∀ ty, (E ty).Lawful) (hl : Links t) (h : Alone E clk kind t) (hs : t.hub.Single) (wait work : List (SiteOp D O))
    (hops : ∀ c req, .begin c req ∈ wait ++ work → req.On kind) (h1 : (t.run E SpecB clk (wait ++ work)).hub.engines.length ≤ 1) {c : Nat}
    {job : Job D} {cfg : EnqueueConfig} (hto : ∀ d req, .begin d req ∈ wait ++ work → ¬ req.Touches job.id) (ht : Track c job cfg t)
    {q m : Nat} {a : QueueActor} (ha : t.hub.queues[q]? = some a) (hm : (t.boxes q).mailbox[m]? = some (c, .enqueue job cfg))
    (henc : (E a.ty).Encodable job) (hdue : ∀ i, (t.boxes q).reads ≤ i → (job.norm (L a.ty).normD).Due (clk q i))
    (hwait : m < wait.countP (·.takes q)) {n : Nat} (hn : n ≤ 20) (hn1 : 1 ≤ n) (hsh : t.Short .spec E clk n q a (wait ++ work))
    (hwork : n ≤ (t.run E SpecB clk wait).goodTicks .spec E clk q a work) :
    ∃ pre, pre <+: wait ++ work ∧ job.id ∈ ((t.run E SpecB clk pre).snap .spec E q a).inFlight := by
  obtain ⟨w, o, w', r, e, htr⟩ := handled (E := E) (clk := clk) hl ha hm wait hwait
  subst e
  have eops : w ++ o :: w' ++ work = w ++ (o :: (w' ++ work)) := by simp
  rw [eops] at hops h1 hto hsh ⊢
  rw [run_append] at h1
  have h1' : (t.run E SpecB clk w).hub.engines.length ≤ 1 := Nat.le_trans (run_length _ _) h1
  have ops1 : ∀ c req, .begin c req ∈ w → req.On kind := fun c req hm => hops c req (List.mem_append_left _ hm)
  have hl1 := links_run (E := E) (clk := clk) hl w
  have ha1 := run_queues (E := E) (clk := clk) t w ha
  have hA1 := alone_run L hl h hs w ops1 h1'
  have hs1 := single_run (E := E) (clk := clk) hs w h1'
  have hT1 := track_run L hl h hs w ops1 h1' (fun d req hm => hto d req (List.mem_append_left _ hm)) ht
  have hr1 := reads_run L hl h hs w ops1 h1' ha
  have hsh1 : (t.run E SpecB clk w).Short .spec E clk n q a (o :: (w' ++ work)) := short_append hsh
  have hwork1 : n ≤ (t.run E SpecB clk w).goodTicks .spec E clk q a (o :: (w' ++ work)) := by
    have e1 : o :: (w' ++ work) = (o :: w') ++ work := rfl
    have e2 := goodTicks_append (E := E) (clk := clk) .spec (t.run E SpecB clk w) q a (o :: w') work
    have e3 := run_append (E := E) (clk := clk) t w (o :: w')
    have hwork : n ≤ (t.run E SpecB clk (w ++ o :: w')).goodTicks .spec E clk q a work := hwork
    rw [e3] at hwork
    rw [e1, e2]
    exact Nat.le_trans hwork (Nat.le_add_left _ _)
  have hops1 : ∀ c req, .begin c req ∈ o :: (w' ++ work) → req.On kind := fun c req hm => hops c req (List.mem_append_right _ hm)
  have hto1 : ∀ d req, .begin d req ∈ o :: (w' ++ work) → ¬ req.Touches job.id := fun c req hm => hto c req (List.mem_append_right _ hm)
  suffices H : ∃ pre, pre <+: o :: (w' ++ work) ∧ job.id ∈ (((t.run E SpecB clk w).run E SpecB clk pre).snap .spec E q a).inFlight by
    obtain ⟨pre, ⟨suf, h2⟩, h3⟩ := H
    refine ⟨w ++ pre, ⟨suf, by rw [List.append_assoc, h2]⟩, ?_⟩
    rw [run_append]
    exact h3
  have htick : o.ticks q = false := by
    cases ho : o.ticks q with
    | false => rfl
    | true =>
      rcases mirror_step (E := E) (clk := clk) hl1 ha1 o with ⟨-, e, -⟩ | ⟨who, op, r', e1, e2, -⟩
      · rw [e] at ho; cases ho
      · rw [htr] at e1
        have e1 := List.append_cancel_left e1
        simp only [List.cons.injEq, SiteEvent.turn.injEq, true_and, and_true] at e1
        obtain ⟨-, rfl, -⟩ := e1
        exact absurd (e2.1 ho) (by simp)
  have hwork2 : n ≤ ((t.run E SpecB clk w).step E SpecB clk o).goodTicks .spec E clk q a (w' ++ work) := by
    have e : (t.run E SpecB clk w).goodTicks .spec E clk q a (o :: (w' ++ work)) =
        (if o.ticks q && ((t.run E SpecB clk w).snap .spec E q a).alive && decide (1 ≤ ((t.run E SpecB clk w).snap .spec E q a).free) then 1 else 0) +
          goodTicks .spec E clk q a ((t.run E SpecB clk w).step E SpecB clk o) (w' ++ work) := rfl
    rw [e, htick] at hwork1
    simpa using hwork1
  exact executed_from L hl1 hA1 hs1 hops1 h1 hto1 hT1 ha1 htr henc (fun i hi => hdue i (Nat.le_trans hr1 hi)) hn hn1 hsh1.2 hwork2

end

section
variable {b : Impl}

theorem snap_rel {t : Site D O b.B} {n : Site D O SpecB} (h : Rel b t n) (q : Nat) (a : QueueActor) : t.snap b E q a = n.snap .spec E q a := by
  refine Impl.snap_eq ⟨⟨h.stores _, ?_, ?_⟩, ?_, ?_, ?_⟩ <;> simp only [Site.sys, h.boxes]

theorem goodTicks_rel {t : Site D O b.B} {n : Site D O SpecB} (h : Rel b t n) (q : Nat) (a : QueueActor) (ops : List (SiteOp D O)) :
    t.goodTicks b E clk q a ops = n.goodTicks .spec E clk q a ops := by
  induction ops generalizing t n with
  | nil => rfl
  | cons o ops ih =>
    show (if _ then 1 else 0) + goodTicks b E clk q a (t.step E b.B clk o) ops = (if _ then 1 else 0) + goodTicks .spec E clk q a (n.step E SpecB clk o) ops
    rw [ih (h.step o), snap_rel h]

theorem short_rel {t : Site D O b.B} {n : Site D O SpecB} (h : Rel b t n) {m q : Nat} {a : QueueActor} {ops : List (SiteOp D O)}
    (hs : t.Short b E clk m q a ops) : n.Short .spec E clk m q a ops := by
  induction ops generalizing t n with
  | nil => trivial
  | cons o ops ih =>
    refine ⟨?_, ih (h.step o) hs.2⟩
    rw [← snap_rel h]
    exact hs.1

end
end Site
end AJ
