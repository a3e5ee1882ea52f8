import Verif.Proofs.Reboot
import Verif.Proofs.Picked

/-! # What later processes do with the jobs of earlier ones -/

namespace AJ
open W

namespace Weave
variable {D O : Type} {E : Nat → Env D} {clk : Nat → Nat → Time} {kind : Str → Nat} {S : Site.Base E kind} {f : Weave D O SpecB} {t : Site D O SpecB}

theorem PairFrom.run (L : ∀ ty, (E ty).Lawful) (hp : PairFrom E clk kind S f t) (ops : List (WeaveOp D O))
    (hops : ∀ c req, .site (.begin c req) ∈ ops → req.On kind)
    (h1 : (f.run E SpecB clk ops).site.hub.engines.length ≤ 1) (hk : ∀ a ∈ (f.run E SpecB clk ops).site.hub.queues, S.ok a) :
    ∃ t', PairFrom E clk kind S (f.run E SpecB clk ops) t' := by
  induction ops generalizing f t with
  | nil => exact ⟨t, hp⟩
  | cons o ops ih =>
    have hf := tidy_step (E := E) (clk := clk) hp.tidy o
    have h2 : (f.step E SpecB clk o).site.hub.engines.length ≤ 1 := Nat.le_trans (run_hub ops hf) h1
    have hk' : ∀ a ∈ (f.step E SpecB clk o).site.hub.queues, S.ok a := by
      intro a ha
      obtain ⟨q, hq⟩ := List.mem_iff_getElem?.1 ha
      exact hk a (List.mem_of_getElem? (run_queues hf ops hq))
    exact ih (hp.step L o (fun c req e => hops c req (e ▸ List.mem_cons_self ..)) h2 hk') (fun c req hm => hops c req (List.mem_cons_of_mem _ hm)) h1 hk

/-- A work queue between turns, and alone. -/
theorem PairFrom.snap (h : PairFrom E clk kind S f t) {q : Nat} {a : QueueActor} (ha : f.site.hub.queues[q]? = some a) (hi : f.inside q = none) :
    let v := f.site.snap .spec E q a
    let u := Impl.spec.snap (E a.ty) a.name (lone E clk S t q a)
    v.lists = u.lists ∧ (∀ k, kind k = a.ty → v.job k = u.job k) ∧ v.tasks = u.tasks ∧ v.cfg = u.cfg ∧ v.alive = u.alive ∧ v.reads = u.reads := by
  rw [h.serial.face.hub] at ha
  obtain ⟨h1, h2, -, h4⟩ := h.idle ha hi
  exact ⟨funext h4.lists, fun k hk => congrArg (Option.bind · (E a.ty).codec.dec) (h4.stored k hk), congrArg Proc.tasks h1, congrArg Proc.cfg h1,
    congrArg Proc.alive h1, h2.symm⟩

end Weave

namespace Boot
variable {D O : Type} {E : Nat → Env D} {kind : Str → Nat} {N : Nat → Str} {k : Str}

theorem lone_join {B : Backend} {s : Nat → B.S} {ls ls' : List (Boot D O)} (h : Lone E B s ls) (h' : Lone E B (leave E B s ls) ls') : Lone E B s (ls ++ ls') := by
  induction ls generalizing s with
  | nil => exact h'
  | cons l ls ih => exact ⟨h.1, ih h.2 h'⟩

theorem begins_append {Q : Weave.Rule D O} {s : Nat → SpecState} {ls ls' : List (Boot D O)} (h : Begins E Q s (ls ++ ls')) :
    Begins E Q s ls ∧ Begins E Q (leave E SpecB s ls) ls' := by
  induction ls generalizing s with
  | nil => exact ⟨trivial, h⟩
  | cons l ls ih => exact ⟨⟨h.1, h.2.1, (ih h.2.2).1⟩, (ih h.2.2).2⟩

/-- The first processes, on empty backends. -/
theorem first (L : ∀ ty, (E ty).Lawful) (hN : ∀ i j, N i = N j → i = j) (ls : List (Boot D O)) (hfit : ∀ l ∈ ls, l.Fit kind N)
    (h1 : Lone E SpecB (fun _ => Spec.empty) ls) (a : QueueActor) (ha : a.name = N a.ty) :
    ∃ x, Standing (O := O) E kind N free (fun _ => Sys.init SpecB Spec.empty) (leave E SpecB (fun _ => Spec.empty) ls) a x :=
  standing L hN ls hfit h1 (begins_free ..) (fun a _ => ⟨_, standing_empty _ a⟩) a ha

theorem Standing.tidy (L : ∀ ty, (E ty).Lawful) {s : Nat → SpecState} {a : QueueActor} {x : SpecState}
    (h : Standing (O := O) E kind N free (fun _ => Sys.init SpecB Spec.empty) s a x) : (found E .spec x a.ty a.name).Tidy := by
  obtain ⟨c', n, l, -, hl⟩ := h.trail fun _ => 0
  have h0 : (Impl.spec.snap (E a.ty) a.name (Sys.init SpecB Spec.empty : Sys D SpecB)).Tidy := (tidy_iff (E := E a.ty) (name := a.name)).2 Tidy.init
  obtain ⟨-, h2⟩ := tidy_lives (b := .spec) (L a.ty) (s := Sys.init SpecB Spec.empty) ⟨_, rfl⟩ h0 hl
  exact ⟨h2.keyed, fun _ h => (by cases h), fun h => (by cases h)⟩

/-- The same, as a new beginning. -/
theorem Standing.rebase {Q Q' : Weave.Rule D O} {s0 s0' : QueueActor → Sys D SpecB} {s : Nat → SpecState} {a : QueueActor} {x : SpecState}
    (h : Standing E kind N Q s0 s a x) (h0 : s0' a = Sys.init SpecB x) : Standing E kind N Q' s0' s a x :=
  ⟨h.part, h.own, fun c => by rw [h0]; exact .init c⟩

/-- What is found of a job of the type. -/
theorem found_eq {s s' : SpecState} {ty : Nat} {n : Str} (h : SamePart n (kind · = ty) s s') (hk : kind k = ty) :
    (∀ st, (found E .spec s ty n).lists st = (found E .spec s' ty n).lists st) ∧ (found E .spec s ty n).job k = (found E .spec s' ty n).job k :=
  ⟨fun st => congrFun (found_part (E := E) h).1 st, (found_part (E := E) h).2 k hk⟩

section
variable (L : ∀ ty, (E ty).Lawful) (hN : ∀ i j, N i = N j → i = j) {before : List (Boot D O)} (hb : ∀ l ∈ before, l.Fit kind N)
include L hN hb

/-- A waiting job waits on through later processes, until it is picked. -/
theorem waits_on {later : List (Boot D O)} (hl : ∀ l ∈ later, l.Fit kind N) (h1 : Lone E SpecB (fun _ => Spec.empty) (before ++ later))
    (hno : ∀ l ∈ later, ∀ c req, .site (.begin c req) ∈ l.ops → ¬ req.Concerns k) {a : QueueActor} (ha : a.name = N a.ty) (hk : kind k = a.ty)
    (hr : ∀ m, Moment m later → k ∉ (found E .spec (leave E SpecB (fun _ => Spec.empty) (before ++ m) a.backend) a.ty a.name).lists .running)
    {j : Job D} (hj : (found E .spec (leave E SpecB (fun _ => Spec.empty) before a.backend) a.ty a.name).job k = some j) :
    ∃ S : Site.Base E kind, (∀ a, S.ok a ↔ a.name = N a.ty) ∧
      (∀ a, S.ok a → Standing (O := O) E kind N free (fun _ => Sys.init SpecB Spec.empty) (leave E SpecB (fun _ => Spec.empty) before) a (S.start a)) ∧
      Begins E (Weave.spare k a) (leave E SpecB (fun _ => Spec.empty) before) later ∧
      (found E .spec (S.start a) a.ty a.name).Waits k j
        (((found E .spec (leave E SpecB (fun _ => Spec.empty) before a.backend) a.ty a.name).lists .queued).count k) := by
  obtain ⟨h2, h3⟩ := lone_append h1
  obtain ⟨S, hok, hS⟩ := base_of (first L hN before hb h2)
  have hp := found_eq (E := E) (hS a ((hok a).2 ha)).part hk
  refine ⟨S, hok, hS, begins_spare L hN later hl hno h3 (fun b hb => ⟨_, hS b ((hok b).2 hb)⟩) fun m hm => ?_,
    ⟨by rw [hp.1], .inl (hp.2 ▸ hj), rfl⟩⟩
  have := hr m hm
  rw [leave_append] at this
  exact this

/-- So much is true of it at their end. -/
theorem survives {later : List (Boot D O)} (hl : ∀ l ∈ later, l.Fit kind N) (h1 : Lone E SpecB (fun _ => Spec.empty) (before ++ later))
    (hno : ∀ l ∈ later, ∀ c req, .site (.begin c req) ∈ l.ops → ¬ req.Concerns k) {a : QueueActor} (ha : a.name = N a.ty) (hk : kind k = a.ty)
    (hr : ∀ m, Moment m later → k ∉ (found E .spec (leave E SpecB (fun _ => Spec.empty) (before ++ m) a.backend) a.ty a.name).lists .running)
    {j : Job D} (hj : (found E .spec (leave E SpecB (fun _ => Spec.empty) before a.backend) a.ty a.name).job k = some j) :
    (found E .spec (leave E SpecB (fun _ => Spec.empty) (before ++ later) a.backend) a.ty a.name).Waits k j
      (((found E .spec (leave E SpecB (fun _ => Spec.empty) before a.backend) a.ty a.name).lists .queued).count k) := by
  obtain ⟨S, hok, hS, hB, hw⟩ := waits_on L hN hb hl h1 hno ha hk hr hj
  have hst := fun b (hb : b.name = N b.ty) => (hS b ((hok b).2 hb)).rebase (Q' := Weave.spare k a) (s0' := fun b => Sys.init SpecB (S.start b)) rfl
  obtain ⟨x, hx⟩ := standing (Q := Weave.spare k a) L hN later hl (lone_append h1).2 hB (fun b hb => ⟨_, hst b hb⟩) a ha
  obtain ⟨c', n, l, -, hl'⟩ := hx.trail fun _ => 0
  obtain ⟨-, -, h3⟩ := waits_lives (b := .spec) (L a.ty) (s := Sys.init SpecB (S.start a)) ⟨_, rfl⟩ ((hS a ((hok a).2 ha)).tidy L) hw
    (fun v op hq => ⟨hq.1, hq.2 rfl⟩) hl'
  have hp := found_eq (E := E) hx.part hk
  have hend := hr later (moment_self later)
  rw [leave_append] at hend ⊢
  rw [hp.1] at hend
  have h4 := h3.resolve_right hend
  exact ⟨by rw [hp.1]; exact h4.count, by rw [hp.2]; exact h4.job, rfl⟩

/-- A job that is Running in the backend, with no entry in the queued list, when a process has died stays as it is. -/
theorem lost {later : List (Boot D O)} (hl : ∀ l ∈ later, l.Fit kind N) (h1 : Lone E SpecB (fun _ => Spec.empty) (before ++ later))
    {a : QueueActor} (ha : a.name = N a.ty) (hk : kind k = a.ty) {j : Job D}
    (hj : (found E .spec (leave E SpecB (fun _ => Spec.empty) before a.backend) a.ty a.name).job k = some j) (hst : j.context.jobStatus = .running)
    (hq : k ∉ (found E .spec (leave E SpecB (fun _ => Spec.empty) before a.backend) a.ty a.name).lists .queued) :
    (found E .spec (leave E SpecB (fun _ => Spec.empty) (before ++ later) a.backend) a.ty a.name).job k = some j ∧
      ∀ st, ((found E .spec (leave E SpecB (fun _ => Spec.empty) (before ++ later) a.backend) a.ty a.name).lists st).count k =
        ((found E .spec (leave E SpecB (fun _ => Spec.empty) before a.backend) a.ty a.name).lists st).count k := by
  obtain ⟨h2, h3⟩ := lone_append h1
  obtain ⟨S, hok, hS⟩ := base_of (first L hN before hb h2)
  have hp0 := found_eq (E := E) (hS a ((hok a).2 ha)).part hk
  have hst' := fun b (hb : b.name = N b.ty) => (hS b ((hok b).2 hb)).rebase (Q' := free) (s0' := fun b => Sys.init SpecB (S.start b)) rfl
  obtain ⟨x, hx⟩ := standing (Q := free) L hN later hl h3 (begins_free ..) (fun b hb => ⟨_, hst' b hb⟩) a ha
  obtain ⟨c', n, l, -, hl'⟩ := hx.trail fun _ => 0
  have hp := found_eq (E := E) hx.part hk
  obtain ⟨-, -, h4, -, h5⟩ := adrift_lives (b := .spec) (L a.ty) (s := Sys.init SpecB (S.start a)) (k := k) ⟨_, rfl⟩ ((hS a ((hok a).2 ha)).tidy L)
    (hp0.2 ▸ hj) hst (by have := hq; rw [hp0.1] at this; exact this) rfl hl'
  rw [leave_append]
  refine ⟨hp.2.trans h4, fun st => ?_⟩
  rw [hp.1, hp0.1]
  exact h5 st

/-- Nor is it in flight again. -/
theorem lost_idle {later : List (Boot D O)} (hl : ∀ l ∈ later, l.Fit kind N) {l : Boot D O} (hfl : l.Fit kind N)
    (h1 : Lone E SpecB (fun _ => Spec.empty) (before ++ later ++ [l])) {a : QueueActor} (ha : a.name = N a.ty) (hk : kind k = a.ty) {j : Job D}
    (hj : (found E .spec (leave E SpecB (fun _ => Spec.empty) before a.backend) a.ty a.name).job k = some j) (hst : j.context.jobStatus = .running)
    (hq : k ∉ (found E .spec (leave E SpecB (fun _ => Spec.empty) before a.backend) a.ty a.name).lists .queued) {q : Nat}
    (hqa : (l.last E SpecB (leave E SpecB (fun _ => Spec.empty) (before ++ later))).site.hub.queues[q]? = some a) :
    ((l.last E SpecB (leave E SpecB (fun _ => Spec.empty) (before ++ later))).site.snap .spec E q a).own k = [] := by
  obtain ⟨h2, h3⟩ := lone_append h1
  obtain ⟨hj', hc⟩ := lost L hN hb hl h2 ha hk hj hst hq
  have hall : ∀ l ∈ before ++ later, l.Fit kind N := fun l hm => (List.mem_append.1 hm).elim (hb l) (hl l)
  obtain ⟨S, hok, hS⟩ := base_of (first L hN (before ++ later) hall h2)
  have hp := found_eq (E := E) (hS a ((hok a).2 ha)).part hk
  have hQ : ∀ b, S.ok b → ∀ c, Trail (O := O) (E b.ty) b.name (free b) (Sys.init SpecB (S.start b)) c (Sys.init SpecB (S.start b)) := fun b _ c => .init c
  obtain ⟨t, hpair, hf⟩ := (Weave.follow_init (clk := l.clk) (S := S) (Q := free) (s0 := fun b => Sys.init SpecB (S.start b))
    (leave E SpecB (fun _ => Spec.empty) (before ++ later))).run L (Weave.pairFrom_init fun b hb => (hS b hb).part) l.ops
    (fun c req hm => (hfl c req hm).1) hQ h3.1 (fun b hm => (hok b).2 (named (E := E) (B := SpecB) l hfl _ b hm)) (weave_free ..)
  have hqa' := hqa
  unfold last at hqa'
  rw [hpair.serial.face.hub] at hqa'
  obtain ⟨c', n, ev, -, hl'⟩ := hf.trail q a hqa'
  obtain ⟨-, -, -, h5, -⟩ := adrift_lives (b := .spec) (L a.ty) (s := Sys.init SpecB (S.start a)) (k := k) ⟨_, rfl⟩ ((hS a ((hok a).2 ha)).tidy L)
    (hp.2 ▸ hj') hst (by rw [← List.count_eq_zero]; exact (congrArg _ (hp.1 _)).symm.trans ((hc _).trans (List.count_eq_zero.2 hq))) rfl hl'
  have e : ((l.last E SpecB (leave E SpecB (fun _ => Spec.empty) (before ++ later))).site.boxes q).proc = (Weave.lone E l.clk S t q a).proc :=
    (hpair.serial.procs q).trans (hpair.alone.queue q a hqa').2.proc
  have e2 : ((l.last E SpecB (leave E SpecB (fun _ => Spec.empty) (before ++ later))).site.boxes q).proc.tasks = (Weave.lone E l.clk S t q a).tasks :=
    congrArg Proc.tasks e
  unfold Snap.own
  show List.filter _ ((l.last E SpecB (leave E SpecB (fun _ => Spec.empty) (before ++ later))).site.boxes q).proc.tasks = []
  rw [e2]
  exact h5

/-- A process that submits no job of a type has no work queue of the type, and leaves its jobs as they were. -/
theorem unused (h1 : Lone E SpecB (fun _ => Spec.empty) before) {l : Boot D O} (hfl : l.Fit kind N) {ty : Nat}
    (h2 : (l.last E SpecB (leave E SpecB (fun _ => Spec.empty) before)).site.hub.engines.length ≤ 1)
    (hns : ∀ c req, .site (.begin c req) ∈ l.ops → ¬ req.Submits ty) :
    (∀ a ∈ (l.last E SpecB (leave E SpecB (fun _ => Spec.empty) before)).site.hub.queues, a.ty ≠ ty) ∧
      ∀ β, SamePart (N ty) (kind · = ty) ((l.last E SpecB (leave E SpecB (fun _ => Spec.empty) before)).site.stores β) (leave E SpecB (fun _ => Spec.empty) before β) := by
  have hno : ∀ a ∈ (l.last E SpecB (leave E SpecB (fun _ => Spec.empty) before)).site.hub.queues, a.ty ≠ ty := by
    refine (Weave.spelled_run (E := E) (clk := l.clk) (P := fun ty' _ => ty' ≠ ty) (Weave.tidy_init _) Hub.spelled_init l.ops fun c req hm => ?_).queues
    have h := hns c req hm
    cases req with
    | submit ty' => exact fun e => h e
    | update ty' => exact fun ⟨_, h⟩ => h
    | _ => trivial
  refine ⟨hno, fun β => ?_⟩
  obtain ⟨S, hok, hS⟩ := base_of (first L hN before hb h1)
  have hnm := named (E := E) (B := SpecB) l hfl (leave E SpecB (fun _ => Spec.empty) before)
  obtain ⟨t, hpair, -⟩ := (Weave.follow_init (clk := l.clk) (S := S) (Q := free) (s0 := fun b => Sys.init SpecB (S.start b))
    (leave E SpecB (fun _ => Spec.empty) before)).run L (Weave.pairFrom_init fun b hb => (hS b hb).part) l.ops
    (fun c req hm => (hfl c req hm).1) (fun b _ c => .init c) h2 (fun b hm => (hok b).2 (hnm b hm)) (weave_free ..)
  have hne : ∀ (q : Nat) (a : QueueActor), t.hub.queues[q]? = some a → a.backend = β → a.name ≠ N ty ∧ a.ty ≠ ty := by
    intro q a ha _
    have hm := List.mem_of_getElem? ha
    rw [← hpair.serial.face.hub] at hm
    exact ⟨fun e => hno a hm (hN _ _ (by rw [← hnm a hm, e])), hno a hm⟩
  have hA : S.ok ⟨ty, N ty, β⟩ := (hok _).2 rfl
  exact (hpair.serial.blank β (N ty) ty hne).trans ((hpair.alone.blank ⟨ty, N ty, β⟩ hA hne).trans (hS ⟨ty, N ty, β⟩ hA).part.symm)

/-- A later process executes it. -/
theorem picked {later : List (Boot D O)} (hl : ∀ l ∈ later, l.Fit kind N) {l : Boot D O} (hfl : l.Fit kind N) {p r : List (WeaveOp D O)} (he : l.ops = p ++ r)
    (h1 : Lone E SpecB (fun _ => Spec.empty) (before ++ later ++ [l]))
    (hno : ∀ l' ∈ later ++ [{ l with ops := p }], ∀ c req, .site (.begin c req) ∈ l'.ops → ¬ req.Concerns k) {a : QueueActor} (ha : a.name = N a.ty) (hk : kind k = a.ty)
    (hr : ∀ m, Moment m (later ++ [{ l with ops := p }]) →
      k ∉ (found E .spec (leave E SpecB (fun _ => Spec.empty) (before ++ m) a.backend) a.ty a.name).lists .running)
    {j : Job D} (hj : (found E .spec (leave E SpecB (fun _ => Spec.empty) before a.backend) a.ty a.name).job k = some j)
    (hc : k ∈ (found E .spec (leave E SpecB (fun _ => Spec.empty) before a.backend) a.ty a.name).lists .queued) {q : Nat} {resp : Resp D} :
    let s := leave E SpecB (fun _ => Spec.empty) (before ++ later)
    let f := Boot.last E SpecB { l with ops := p } s
    let f' := l.last E SpecB s
    let v := f.site.snap .spec E q a
    let v' := f'.site.snap .spec E q a
    f.site.hub.queues[q]? = some a → f.inside q = none → f'.inside q = none → turnsOf q f'.site.trace = turnsOf q f.site.trace ++ [(.tick, resp)] →
    v.alive = true → (v.lists .queued).length < 2 ^ 31 → (v.lists .queued).length ≤ v.free → (∀ i, v.reads ≤ i → i < v'.reads → j.Due (l.clk q i)) →
    k ∈ v'.inFlight ∧ k ∈ v'.lists .running ∧ v'.status k = some .running := by
  intro s f f' v v' hq hi hi' htr halive hlen hcap hdue
  obtain ⟨h2, h3⟩ := lone_append h1
  have ef : f' = f.run E SpecB l.clk r := by
    show (Weave.init SpecB s).run E SpecB l.clk l.ops = ((Weave.init SpecB s).run E SpecB l.clk p).run E SpecB l.clk r
    rw [he]; exact List.foldl_append ..
  have htidy : Weave.Tidy f := Weave.tidy_run (Weave.tidy_init _) p
  have hm1 : f.site.hub.engines.length ≤ 1 := Nat.le_trans (Weave.run_hub (E := E) (clk := l.clk) r htidy) (by rw [← ef]; exact h3.1)
  have hfp : ({ l with ops := p } : Boot D O).Fit kind N := fun c req hm => hfl c req (by rw [he]; exact List.mem_append_left _ hm)
  have h1' : Lone E SpecB (fun _ => Spec.empty) (before ++ (later ++ [{ l with ops := p }])) := by
    rw [← List.append_assoc]
    exact lone_join h2 ⟨hm1, trivial⟩
  have hl2 : ∀ l' ∈ later ++ [{ l with ops := p }], l'.Fit kind N := fun l' hm => by
    rcases List.mem_append.1 hm with hm | hm
    · exact hl l' hm
    · rw [List.mem_singleton.1 hm]; exact hfp
  obtain ⟨S0, hok0, hS0, hB, hw⟩ := waits_on L hN hb hl2 h1' hno ha hk hr hj
  obtain ⟨hB1, hB2⟩ := begins_append hB
  have hst := fun b (hb : b.name = N b.ty) => (hS0 b ((hok0 b).2 hb)).rebase (Q' := Weave.spare k a) (s0' := fun b => Sys.init SpecB (S0.start b)) rfl
  obtain ⟨S, hok, hS⟩ := base_of (standing (Q := Weave.spare k a) L hN later hl (lone_append h2).2 hB1 (fun b hb => ⟨_, hst b hb⟩))
  rw [← leave_append] at hB2 hS
  have hnm := named (E := E) (B := SpecB) _ hfp s
  obtain ⟨t, hp, hf⟩ := (Weave.follow_init (clk := l.clk) (S := S) (Q := Weave.spare k a) (s0 := fun b => Sys.init SpecB (S0.start b)) s).run L
    (Weave.pairFrom_init fun b hb => (hS b hb).part) p (fun c req hm => (hfp c req hm).1) (fun b hb => (hS b hb).trail) hm1
    (fun b hm => (hok b).2 (hnm b hm)) hB2.1
  change Weave.PairFrom E l.clk kind S f t at hp
  obtain ⟨t', hp'⟩ := hp.run L r (fun c req hm => (hfl c req (by rw [he]; exact List.mem_append_right _ hm)).1) (by rw [← ef]; exact h3.1)
    (by rw [← ef]; exact fun b hm => (hok b).2 (named (E := E) (B := SpecB) l hfl s b hm))
  rw [← ef] at hp'
  have hq' : f'.site.hub.queues[q]? = some a := by rw [ef]; exact Weave.run_queues htidy r hq
  obtain ⟨k1, k2, k3, k4, k5, k6⟩ := hp.snap hq hi
  obtain ⟨m1, m2, m3, m4, m5, m6⟩ := hp'.snap hq' hi'
  have hlone : Weave.lone E l.clk S t' q a = (Sys.step (E a.ty) a.name SpecB (l.clk q) (Weave.lone E l.clk S t q a) (.tick : Op D O)).1 := by
    unfold Weave.lone
    rw [← hp'.serial.face.trace, htr, ← hp.serial.face.trace, List.map_append, List.map_cons, List.map_nil, runOps_snoc]
  have hqt := hq
  rw [hp.serial.face.hub] at hqt
  obtain ⟨c', n, ev, -, hl'⟩ := hf.trail q a hqt
  obtain ⟨-, g2, g3⟩ := waits_lives (b := .spec) (L a.ty) (s := Sys.init SpecB (S0.start a)) ⟨_, rfl⟩ ((hS0 a ((hok0 a).2 ha)).tidy L) hw
    (fun v op hq => ⟨hq.1, hq.2 rfl⟩) hl'
  have hend := hr _ (moment_self _)
  have elast : leave E SpecB (fun _ => Spec.empty) (before ++ (later ++ [{ l with ops := p }])) = f.site.stores := by
    rw [← List.append_assoc, leave_append]; rfl
  rw [elast] at hend
  have hend : k ∉ v.lists .running := hend
  rw [k1] at hend
  have g4 := g3.resolve_right hend
  have g5 : (Impl.spec.snap (E a.ty) a.name (Weave.lone E l.clk S t q a)).Waits k j _ := ⟨g4.count, g4.job, g4.own⟩
  have g6 : (Impl.spec.snap (E a.ty) a.name (Weave.lone E l.clk S t q a)).Tidy := ⟨g2.keyed, g2.exec, g2.dead⟩
  have g7 := g5.picked (O := O) (b := .spec) (clk := l.clk q) (L a.ty) ⟨_, rfl⟩ g6 (List.count_pos_iff.2 hc)
  change Weave.lone E l.clk S t' q a = (Sys.step (E a.ty) a.name Impl.spec.B (l.clk q) (Weave.lone E l.clk S t q a) (.tick : Op D O)).1 at hlone
  simp only [← hlone] at g7
  obtain ⟨r1, r2, r3⟩ := g7 (k5.symm.trans halive) (by rw [← k1]; exact hlen) (by unfold Snap.free; rw [← k1, ← k4]; exact hcap)
    (fun i h1 h2 => hdue i (by rw [k6]; exact h1) (by rw [m6]; exact h2))
  refine ⟨?_, by rw [m1]; exact r2, ?_⟩
  · unfold Snap.inFlight; rw [m3]; exact r1
  · unfold Snap.status; rw [m2 k hk]; exact r3

end
end Boot
end AJ
