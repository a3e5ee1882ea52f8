import Verif.Proofs.Late
import Verif.Proofs.Spelled
import Verif.Proofs.WeaveRun
import Verif.Proofs.WeaveSend
import Verif.Proofs.SiteTouch
import Verif.Spec.Reboot

/-! # Processes one after the other: proofs -/

namespace AJ
open Prog

/-! ## On the way through a program -/

section
variable {α : Type} {B : Backend} {clk : Nat → Time}

/-- From `p` in `w`, on the way through the program, `p'` in `w'`. -/
inductive Passes (B : Backend) (clk : Nat → Time) (p : Prog α) (w : World B) : Prog α → World B → Prop where
  | refl : Passes B clk p w p w
  | step {p' : Prog α} {w' : World B} : Passes B clk p w p' w' → Passes B clk p w (p'.step1 B clk w').1 (p'.step1 B clk w').2

theorem crash_refl (p : Prog α) (w : World B) : p.Crash B clk w w := by
  cases p <;> first | rfl | exact .inl rfl

theorem Passes.crash {p p' : Prog α} {w w' : World B} (h : Passes B clk p w p' w') : p.Crash B clk w w' := by
  have key : ∀ w'', p'.Crash B clk w' w'' → p.Crash B clk w w'' := by
    induction h with
    | refl => exact fun _ h => h
    | @step p' w' _ ih =>
      refine fun w'' h => ih w'' ?_
      cases p' <;> first | exact h | exact .inr h
  exact key _ (crash_refl _ _)

end

/-- One step where the part is the same. -/
theorem step1_same {D : Type} {E : Env D} {name : Str} {K : Str → Prop} {clk : Nat → Time} {α : Type} {post : α → Prop} {p : Prog α}
    (hk : Keeps E name K post p) {w w' : World SpecB} (hs : SamePart name K w.s w'.s) (ht : w.t = w'.t) (hl : w.log = w'.log) :
    (p.step1 SpecB clk w).1 = (p.step1 SpecB clk w').1 ∧ (p.step1 SpecB clk w).2.t = (p.step1 SpecB clk w').2.t ∧
      (p.step1 SpecB clk w).2.log = (p.step1 SpecB clk w').2.log ∧ SamePart name K (p.step1 SpecB clk w).2.s (p.step1 SpecB clk w').2.s := by
  cases p with
  | call op k =>
    obtain ⟨h1, h2⟩ := own_agree hk.1 hs
    exact ⟨congrArg k h1, ht, hl, h2⟩
  | now k => exact ⟨congrArg (fun t => k (clk t)) ht, congrArg (· + 1) ht, hl, hs⟩
  | emit e k => exact ⟨rfl, ht, congrArg (· ++ [e]) hl, hs⟩
  | ret a => exact ⟨rfl, ht, hl, hs⟩
  | fail e => exact ⟨rfl, ht, hl, hs⟩
  | panic => exact ⟨rfl, ht, hl, hs⟩
  | diverge => exact ⟨rfl, ht, hl, hs⟩

/-! ## A process on what is left -/

/-- Steps that are not about turns are seen at no work queue. -/
theorem Site.turns_plain {D O : Type} {E : Nat → Env D} {clk : Nat → Nat → Time} {B : Backend} (t : Site D O B) {op : SiteOp D O} (hop : op.plain = true)
    (q : Nat) : turnsOf q (t.step E B clk op).trace = turnsOf q t.trace := by
  have one : ∀ (tr : List (SiteEvent D O)) (e : SiteEvent D O), e.at q = none → turnsOf q (tr ++ [e]) = turnsOf q tr := by
    intro tr e he
    rw [turnsOf_append]
    simp [turnsOf, he]
  cases op with
  | begin c req =>
    show turnsOf q (begin B _ c req).trace = _
    unfold begin
    cases t.users c <;> first | rfl | exact one _ _ rfl
  | client c x =>
    show turnsOf q (client B _ c x).trace = _
    unfold client
    split <;> rfl
  | engine e => rfl
  | post c =>
    show turnsOf q (post B _ c).trace = _
    unfold post
    split
    · split
      · rfl
      · split <;> rfl
      · exact one _ _ rfl
      · rfl
    · rfl
  | handle => cases hop
  | turn => cases hop
  | take c =>
    show turnsOf q (take B _ c).trace = _
    unfold take
    split
    · dsimp only
      split
      · rfl
      · exact one _ _ rfl
    · exact one _ _ rfl
    · rfl

namespace Weave
variable {D O : Type} {E : Nat → Env D} {clk : Nat → Nat → Time} {kind : Str → Nat}

/-- The step of an interleaved process, by cases, and the serial one. -/
theorem step_kinds {B : Backend} {f : Weave D O B} (hf : Tidy f) (o : WeaveOp D O) :
    (∃ op : SiteOp D O, op.plain = true ∧ o = .site op ∧ f.closed o = [op]) ∨
    (f.step E B clk o = f ∧ f.closed o = []) ∨
    (∃ q a who op, f.inside q = none ∧ f.site.hub.queues[q]? = some a ∧ Taken' f.site q ⟨who, op, .panic⟩ ∧
      f.step E B clk o = f.enter E B q a who op ∧ f.closed o = []) ∨
    (∃ q a x, f.inside q = some x ∧ f.site.hub.queues[q]? = some a ∧ f.step E B clk o = f.move B clk q a x ∧ f.closed o = []) ∨
    ∃ q a x p r, f.inside q = some x ∧ f.site.hub.queues[q]? = some a ∧ x.rest = .ret (p, r) ∧ f.step E B clk o = f.leave B q x.who x.op p r ∧
      f.closed o = [match x.who with
        | none => .turn q x.op
        | some (_, i) => .handle q i] := by
  cases o with
  | site op =>
    cases hop : op.plain with
    | true => exact .inl ⟨op, hop, rfl, by cases op <;> first | rfl | cases hop⟩
    | false =>
      cases op with
      | handle q i =>
        have e : f.step E B clk (.site (.handle q i)) = f.handle E B q i := rfl
        rw [e]
        rcases handle_cases (E := E) hf (q := q) (i := i) with e | ⟨a, c, op, i', k1, k2, k3, k4, e⟩ <;> rw [e]
        · exact .inr (.inl ⟨rfl, rfl⟩)
        · refine .inr (.inr (.inl ⟨q, a, _, op, k1, k2, ⟨⟨a, k2⟩, fun h => (by cases h), fun c' i'' h => ?_⟩, rfl, rfl⟩))
          cases h
          exact ⟨k4, fun hal => by rw [k3, if_pos hal]⟩
      | turn q op =>
        have e : f.step E B clk (.site (.turn q op)) = f.turn E B q op := rfl
        rw [e]
        rcases turn_cases (E := E) (f := f) (q := q) (op := op) with e | ⟨a, k1, k2, k3, e⟩ <;> rw [e]
        · exact .inr (.inl ⟨rfl, rfl⟩)
        · exact .inr (.inr (.inl ⟨q, a, _, op, k1, k2, ⟨⟨a, k2⟩, fun _ => k3, fun c' i'' h => (by cases h)⟩, rfl, rfl⟩))
      | _ => cases hop
  | go q =>
    have e : f.step E B clk (.go q) = f.go B clk q := rfl
    rw [e]
    unfold go closed
    dsimp only
    cases hx : f.inside q with
    | none => exact .inr (.inl ⟨rfl, rfl⟩)
    | some x =>
      obtain ⟨a, ha⟩ := (hf.inside q x hx).queue
      simp only [ha]
      obtain ⟨who, op, rest⟩ := x
      cases rest with
      | ret y => exact .inr (.inr (.inr (.inr ⟨q, a, _, y.1, y.2, hx, ha, rfl, rfl, by cases who <;> rfl⟩)))
      | _ => exact .inr (.inr (.inr (.inl ⟨q, a, _, hx, ha, rfl, rfl⟩)))

variable {S : Site.Base E kind}

theorem pairFrom_init {s : Nat → SpecState} (h : ∀ a, S.ok a → SamePart a.name (kind · = a.ty) (s a.backend) (S.start a)) :
    PairFrom E clk kind S (init SpecB s : Weave D O SpecB) (Site.init SpecB s) :=
  ⟨serial_init, tidy_init _, Site.links_init _, Site.alone_from h, Hub.single_init⟩

variable {f : Weave D O SpecB} {t : Site D O SpecB}

theorem PairFrom.step (L : ∀ ty, (E ty).Lawful) (h : PairFrom E clk kind S f t) (o : WeaveOp D O) (ho : ∀ c req, o = .site (.begin c req) → req.On kind)
    (h1 : (f.step E SpecB clk o).site.hub.engines.length ≤ 1) (hk : ∀ a ∈ (f.step E SpecB clk o).site.hub.queues, S.ok a) :
    PairFrom E clk kind S (f.step E SpecB clk o) (t.run E SpecB clk (f.closed o)) := by
  have h3 := h.serial.step L h.tidy h.links h.alone h.single o h1
  have h4 : (t.run E SpecB clk (f.closed o)).hub.engines.length ≤ 1 := by rw [← h3.face.hub]; exact h1
  exact ⟨h3, tidy_step h.tidy o, Site.links_run h.links _, Site.alone_runFrom L h.links h.alone h.single _ (fun c req hm => ho c req (closed_begin hm)) h4
    (by rw [← h3.face.hub]; exact hk), Site.single_run h.single _ h4⟩

/-- The work queue as it would be had it taken its turns alone. -/
def lone (E : Nat → Env D) (clk : Nat → Nat → Time) (S : Site.Base E kind) (t : Site D O SpecB) (q : Nat) (a : QueueActor) : Sys D SpecB :=
  (Sys.runOps (E a.ty) a.name SpecB (clk q) (Sys.init SpecB (S.start a)) ((turnsOf q t.trace).map Prod.fst)).1

theorem lone_turns {t' : Site D O SpecB} {q : Nat} (h : turnsOf q t'.trace = turnsOf q t.trace) (a : QueueActor) : lone E clk S t' q a = lone E clk S t q a := by
  unfold lone
  rw [h]

abbrev Rule (D O : Type) := QueueActor → (JobStatus → List Str) → Op D O → Prop

/-- Every work queue goes on from `s0` by turns and crashes that `Q` allows; inside a turn it is on its way. -/
structure Follow (E : Nat → Env D) (clk : Nat → Nat → Time) (kind : Str → Nat) (S : Site.Base E kind) (Q : Rule D O) (s0 : QueueActor → Sys D SpecB)
    (f : Weave D O SpecB) (t : Site D O SpecB) : Prop where
  trail : ∀ (q : Nat) (a : QueueActor), t.hub.queues[q]? = some a → Trail (E a.ty) a.name (Q a) (s0 a) (clk q) (lone E clk S t q a)
  busy : ∀ (q : Nat) (a : QueueActor) x, t.hub.queues[q]? = some a → f.inside q = some x →
    Q a (Impl.spec.snap (E a.ty) a.name (lone E clk S t q a)).lists x.op ∧
    ∃ w, Passes SpecB (clk q) ((lone E clk S t q a).proc.turn (E a.ty) a.name x.op) (lone E clk S t q a).w x.rest w ∧
      w.t = (f.site.boxes q).reads ∧ w.log = (f.site.boxes q).log ∧ SamePart a.name (kind · = a.ty) (f.site.stores a.backend) w.s

variable {Q : Rule D O} {s0 : QueueActor → Sys D SpecB}

theorem follow_init (s : Nat → SpecState) : Follow E clk kind S Q s0 (init SpecB s : Weave D O SpecB) (Site.init SpecB s) :=
  ⟨fun _ _ h => (by simp [Site.init] at h), fun _ _ _ h => (by simp [Site.init] at h)⟩

/-- What the work queue has before it, between turns. -/
theorem PairFrom.idle (h : PairFrom E clk kind S f t) {q : Nat} {a : QueueActor} (ha : t.hub.queues[q]? = some a) (hi : f.inside q = none) :
    (f.site.boxes q).proc = (lone E clk S t q a).proc ∧ (lone E clk S t q a).w.t = (f.site.boxes q).reads ∧ (lone E clk S t q a).w.log = (f.site.boxes q).log ∧
      SamePart a.name (kind · = a.ty) (f.site.stores a.backend) (lone E clk S t q a).w.s := by
  obtain ⟨-, h2⟩ := h.alone.queue q a ha
  obtain ⟨h3, h4⟩ := h.serial.idle q hi
  refine ⟨(h.serial.procs q).trans ?_, ?_, ?_, (h.serial.calm q a ha hi).trans h2.part⟩
  · exact h2.proc
  · exact h2.reads.symm.trans h3.symm
  · exact h2.log.symm.trans h4.symm

theorem Follow.step (L : ∀ ty, (E ty).Lawful) (h : Follow E clk kind S Q s0 f t) (hp : PairFrom E clk kind S f t) (o : WeaveOp D O)
    (hs : ∀ a, S.ok a → ∀ c, Trail (E a.ty) a.name (Q a) (s0 a) c (Sys.init SpecB (S.start a)))
    (h1 : (f.step E SpecB clk o).site.hub.engines.length ≤ 1) (hk : ∀ a ∈ (f.step E SpecB clk o).site.hub.queues, S.ok a)
    (hQ : ∀ (q : Nat) (a : QueueActor) x, f.site.hub.queues[q]? = some a → f.inside q = none → (f.step E SpecB clk o).inside q = some x →
      Q a (fun st => (f.site.stores a.backend).q (formatQueueName a.name st)) x.op) :
    Follow E clk kind S Q s0 (f.step E SpecB clk o) (t.run E SpecB clk (f.closed o)) := by
  have ho : t.hub.Once := hp.single.once (by
    rw [← hp.serial.face.hub]
    exact Nat.le_trans (hub_step hp.tidy o) h1)
  have hne : ∀ {p q : Nat} {a b : QueueActor}, t.hub.queues[q]? = some a → t.hub.queues[p]? = some b → p ≠ q → b.name ≠ a.name ∧ b.ty ≠ a.ty := fun ha hp hpq =>
    ⟨fun e => hpq (ho.names _ _ _ _ hp ha e), fun e => hpq (ho.types _ _ _ _ hp ha e)⟩
  have hser := hp.serial.step L hp.tidy hp.links hp.alone hp.single o h1
  rcases step_kinds (E := E) (clk := clk) hp.tidy o with ⟨op, hop, rfl, e⟩ | ⟨e1, e⟩ | ⟨q, a, who, op, hi, ha, htk, e1, e⟩ | ⟨q, a, x, hx, ha, e1, e⟩ |
    ⟨q, a, x, p, r, hx, ha, hr, e1, e⟩
  · rw [e] at hser ⊢
    have e2 : t.run E SpecB clk [op] = t.step E SpecB clk op := rfl
    rw [e2] at hser ⊢
    have htr := fun q => Site.turns_plain (E := E) (clk := clk) t hop q
    have hc := Site.calm_plain (E := E) (clk := clk) f.site hop
    obtain ⟨more, hm⟩ := (Site.calm_plain (E := E) (clk := clk) t hop).queues
    have hold : ∀ {q : Nat} {a : QueueActor}, t.hub.queues[q]? = some a → (t.step E SpecB clk op).hub.queues[q]? = some a := by
      intro q a h1
      rw [hm, List.getElem?_append_left (List.getElem?_eq_some_iff.1 h1).1]; exact h1
    refine ⟨fun q a ha => ?_, fun q a x ha hx => ?_⟩
    · rw [lone_turns (htr q)]
      by_cases hq : q < t.hub.queues.length
      · rw [hm, List.getElem?_append_left hq] at ha
        exact h.trail q a ha
      · have : lone E clk S t q a = Sys.init SpecB (S.start a) := by
          unfold lone
          rw [(hp.alone.fresh q (Nat.le_of_not_lt hq)).2.2.2]
          rfl
        rw [this]
        refine hs a (hk a ?_) _
        rw [hser.face.hub]
        exact List.mem_of_getElem? ha
    · rw [lone_turns (htr q)]
      rw [step_plain hop] at hx ⊢
      obtain ⟨a', ha'⟩ := (hp.tidy.inside q x hx).queue
      rw [hp.serial.face.hub] at ha'
      have h3 := hold ha'
      rw [ha] at h3
      cases h3
      obtain ⟨k1, w, k2, k3, k4, k5⟩ := h.busy q a x ha' hx
      refine ⟨k1, w, k2, ?_, ?_, ?_⟩
      · show _ = ((f.site.step E SpecB clk op).boxes q).reads
        rw [(hc.box q).2.1]; exact k3
      · show _ = ((f.site.step E SpecB clk op).boxes q).log
        rw [(hc.box q).2.2]; exact k4
      · show SamePart _ _ ((f.site.step E SpecB clk op).stores a.backend) _
        rw [hc.stores]; exact k5
  · rw [e, e1]; exact h
  · rw [e, e1]
    change Follow E clk kind S Q s0 _ t
    have hq := fun x => hQ q a x ha hi
    rw [e1] at hq
    have hself : (f.enter E SpecB q a who op).inside q = some ⟨who, op, (f.site.boxes q).proc.turn (E a.ty) a.name op⟩ := upd_same _ _ _
    rw [hp.serial.face.hub] at ha
    refine ⟨h.trail, fun o b x hb hx => ?_⟩
    by_cases eo : o = q
    · subst eo
      rw [ha] at hb
      cases hb
      rw [hself] at hx
      have := hq _ hself
      cases hx
      obtain ⟨k1, k2, k3, k4⟩ := hp.idle ha hi
      refine ⟨?_, (lone E clk S t o a).w, ?_, k2, k3, k4⟩
      · have e3 : (Impl.spec.snap (E a.ty) a.name (lone E clk S t o a)).lists = fun st => (f.site.stores a.backend).q (formatQueueName a.name st) := by
          funext st
          exact (k4.lists st).symm
        rw [e3]
        exact this
      · show Passes SpecB (clk o) _ _ ((f.site.boxes o).proc.turn (E a.ty) a.name op) _
        rw [k1]
        exact .refl
    · have hx : upd f.inside q _ o = some x := hx
      simp only [upd, if_neg eo] at hx
      exact h.busy o b x hb hx
  · rw [e, e1]
    change Follow E clk kind S Q s0 _ t
    rw [hp.serial.face.hub] at ha
    have hb := hp.serial.busy q a x ha hx
    refine ⟨h.trail, fun o b y hob hy => ?_⟩
    have hstore : ∀ β, (f.move SpecB clk q a x).site.stores β =
        if β = a.backend then (x.rest.step1 SpecB (clk q) (world f.site q a)).2.s else f.site.stores β := fun β => rfl
    by_cases eo : o = q
    · subst eo
      rw [ha] at hob
      cases hob
      have hself : (f.move SpecB clk o a x).inside o = some { x with rest := (x.rest.step1 SpecB (clk o) (world f.site o a)).1 } := by
        show upd f.inside o _ o = _
        simp [upd, world]
      rw [hself] at hy
      cases hy
      obtain ⟨k1, w, k2, k3, k4, k5⟩ := h.busy o a x ha hx
      obtain ⟨m1, m2, m3, m4⟩ := step1_same (clk := clk o) hb.keeps (w := world f.site o a) (w' := w) k5 k3.symm k4.symm
      have ebox : (f.move SpecB clk o a x).site.boxes o = { f.site.boxes o with
          reads := (x.rest.step1 SpecB (clk o) (world f.site o a)).2.t, log := (x.rest.step1 SpecB (clk o) (world f.site o a)).2.log } := by
        show upd f.site.boxes o _ o = _
        rw [upd_same]; rfl
      refine ⟨k1, (x.rest.step1 SpecB (clk o) w).2, ?_, ?_, ?_, ?_⟩
      · show Passes SpecB (clk o) _ _ (x.rest.step1 SpecB (clk o) (world f.site o a)).1 _
        rw [m1]
        exact k2.step
      · rw [ebox]; exact m2.symm
      · rw [ebox]; exact m3.symm
      · rw [hstore, if_pos rfl]; exact m4
    · have hy : upd f.inside q _ o = some y := hy
      simp only [upd, if_neg eo] at hy
      obtain ⟨k1, w, k2, k3, k4, k5⟩ := h.busy o b y hob hy
      have ebox : (f.move SpecB clk q a x).site.boxes o = f.site.boxes o := by
        show upd f.site.boxes q _ o = _
        simp [upd, eo]
      refine ⟨k1, w, k2, by rw [ebox]; exact k3, by rw [ebox]; exact k4, ?_⟩
      refine SamePart.trans ?_ k5
      rw [hstore]
      split
      · next e' =>
        rw [e']
        obtain ⟨hn, hty⟩ := hne ha hob eo
        have hk := hb.keeps
        cases hr : x.rest with
        | call op k =>
          rw [hr] at hk
          exact (other_agree (Ne.symm hn) (fun k (h6 : kind k = b.ty) (h7 : kind k = a.ty) => hty (h6.symm.trans h7)) hk.1 _).symm
        | _ => exact .refl _
      · exact .refl _
  · rw [e, e1]
    rw [hp.serial.face.hub] at ha
    have htk : Taken' t q x := by
      have := hp.tidy.inside q x hx
      refine ⟨⟨a, ha⟩, this.own, fun c i hw => ?_⟩
      rw [← hp.serial.face.mail, ← hp.serial.procs]
      exact this.asked c i hw
    obtain ⟨c1, -, c3, -⟩ := close_site hp.links E clk ha htk
    obtain ⟨l1, l2, l3, l4, l5, l6⟩ := leave_site hp.tidy hx p r
    have e2 : ∀ o : SiteOp D O, t.run E SpecB clk [o] = t.step E SpecB clk o := fun _ => rfl
    rw [e2]
    revert c1 c3
    generalize t.step E SpecB clk (match x.who with
      | none => .turn q x.op
      | some (_, i) => .handle q i) = t'
    intro c1 c3
    have hturns : ∀ p, turnsOf p t'.trace = turnsOf p t.trace ++ if q = p then [(x.op, (Sys.step (E a.ty) a.name SpecB (clk q) (t.sys q a) x.op).2)] else [] := by
      intro p
      rw [c3, turnsOf_append]
      congr 1
      simp only [turnsOf, SiteEvent.at, List.filterMap_cons, List.filterMap_nil]
      split
      · next e => split at e
                  · cases e
                  · next e' => rw [if_neg e']
      · next e => split at e
                  · next e' => cases e; rw [if_pos e']
                  · cases e
    have hother : ∀ o, o ≠ q → ∀ b, lone E clk S t' o b = lone E clk S t o b := fun o eo b => lone_turns (by rw [hturns, if_neg (Ne.symm eo), List.append_nil]) b
    have hself : lone E clk S t' q a = (Sys.step (E a.ty) a.name SpecB (clk q) (lone E clk S t q a) x.op).1 := by
      unfold lone
      rw [hturns, if_pos rfl, List.map_append, List.map_cons, List.map_nil, runOps_snoc]
    refine ⟨fun o b hb => ?_, fun o b y hb hy => ?_⟩
    · rw [c1] at hb
      by_cases eo : o = q
      · subst eo
        rw [ha] at hb
        cases hb
        rw [hself]
        exact (h.trail o a ha).turn (h.busy o a x ha hx).1
      · rw [hother o eo]; exact h.trail o b hb
    · rw [c1] at hb
      have hy : upd f.inside q none o = some y := hy
      by_cases eo : o = q
      · subst eo; rw [upd_same] at hy; cases hy
      · simp only [upd, if_neg eo] at hy
        rw [hother o eo, l4 o eo, l2]
        exact h.busy o b y hb hy

/-- In every turn that is begun, what `Q` says of the work queue, its lists and the message. -/
def Begins (E : Nat → Env D) (clk : Nat → Nat → Time) (Q : Rule D O) : Weave D O SpecB → List (WeaveOp D O) → Prop
  | _, [] => True
  | f, o :: ops => (∀ (q : Nat) (a : QueueActor) x, f.site.hub.queues[q]? = some a → f.inside q = none → (f.step E SpecB clk o).inside q = some x →
      Q a (fun st => (f.site.stores a.backend).q (formatQueueName a.name st)) x.op) ∧ Begins E clk Q (f.step E SpecB clk o) ops

theorem Follow.run (L : ∀ ty, (E ty).Lawful) (h : Follow E clk kind S Q s0 f t) (hp : PairFrom E clk kind S f t) (ops : List (WeaveOp D O))
    (hops : ∀ c req, .site (.begin c req) ∈ ops → req.On kind)
    (hs : ∀ a, S.ok a → ∀ c, Trail (E a.ty) a.name (Q a) (s0 a) c (Sys.init SpecB (S.start a)))
    (h1 : (f.run E SpecB clk ops).site.hub.engines.length ≤ 1) (hk : ∀ a ∈ (f.run E SpecB clk ops).site.hub.queues, S.ok a)
    (hQ : Begins E clk Q f ops) :
    ∃ t', PairFrom E clk kind S (f.run E SpecB clk ops) t' ∧ Follow E clk kind S Q s0 (f.run E SpecB clk ops) t' := by
  induction ops generalizing f t with
  | nil => exact ⟨t, hp, h⟩
  | cons o ops ih =>
    have hf := tidy_step (E := E) (clk := clk) hp.tidy o
    have h2 : (f.step E SpecB clk o).site.hub.engines.length ≤ 1 := Nat.le_trans (run_hub ops hf) h1
    have hk' : ∀ a ∈ (f.step E SpecB clk o).site.hub.queues, S.ok a := by
      intro a ha
      obtain ⟨q, hq⟩ := List.mem_iff_getElem?.1 ha
      exact hk a (List.mem_of_getElem? (run_queues hf ops hq))
    exact ih (h.step L hp o hs h2 hk' hQ.1) (hp.step L o (fun c req e => hops c req (e ▸ List.mem_cons_self ..)) h2 hk')
      (fun c req hm => hops c req (List.mem_cons_of_mem _ hm)) h1 hk hQ.2

/-- What the process leaves behind is what each work queue, alone, would leave behind. -/
theorem Follow.dies (h : Follow E clk kind S Q s0 f t) (hp : PairFrom E clk kind S f t)
    (hs : ∀ a, S.ok a → ∀ c, Trail (E a.ty) a.name (Q a) (s0 a) c (Sys.init SpecB (S.start a)))
    (hsep : ∀ a a', S.ok a → S.ok a' → a'.backend = a.backend → a' = a ∨ a'.name ≠ a.name ∧ a'.ty ≠ a.ty)
    (hk : ∀ a ∈ f.site.hub.queues, S.ok a)
    (hQ : ∀ a : QueueActor, ∃ op, Q a (fun st => (f.site.stores a.backend).q (formatQueueName a.name st)) op) (a : QueueActor) (ha : S.ok a) :
    ∃ s : SpecState, SamePart a.name (kind · = a.ty) (f.site.stores a.backend) s ∧ Own (E a.ty) a.name (kind · = a.ty) s ∧
      ∀ c, Trail (E a.ty) a.name (Q a) (s0 a) c (Sys.init SpecB s) := by
  rw [hp.serial.face.hub] at hk
  by_cases hq : ∃ q : Nat, t.hub.queues[q]? = some a
  · obtain ⟨q, hq⟩ := hq
    cases hx : f.inside q with
    | none =>
      obtain ⟨-, -, -, k4⟩ := hp.idle hq hx
      refine ⟨_, k4, (hp.alone.own q a hq).agree ((hp.serial.calm q a hq hx).symm.trans k4), fun c => ?_⟩
      obtain ⟨op, hop⟩ := hQ a
      rw [show (fun st => (f.site.stores a.backend).q (formatQueueName a.name st)) = (Impl.spec.snap (E a.ty) a.name (lone E clk S t q a)).lists from
        funext k4.lists] at hop
      exact (h.trail q a hq).dies hop (.between op) c
    | some x =>
      obtain ⟨k1, w, k2, k3, k4, k5⟩ := h.busy q a x hq hx
      refine ⟨w.s, k5, (hp.serial.busy q a x hq hx).own.agree k5, fun c => ?_⟩
      exact (h.trail q a hq).dies k1 (crash_turn k2.crash) c
  · have hne : ∀ (q : Nat) (a' : QueueActor), t.hub.queues[q]? = some a' → a'.backend = a.backend → a'.name ≠ a.name ∧ a'.ty ≠ a.ty := by
      intro q a' h1 h2
      rcases hsep a a' ha (hk a' (List.mem_of_getElem? h1)) h2 with rfl | h3
      · exact absurd ⟨q, h1⟩ hq
      · exact h3
    refine ⟨S.start a, (hp.serial.blank a.backend a.name a.ty hne).trans (hp.alone.blank a ha hne), S.own a ha, hs a ha⟩

end Weave

/-! ## Several processes -/

namespace Boot
variable {D O : Type} {E : Nat → Env D} {kind : Str → Nat} {N : Nat → Str}

/-- In every turn that is begun in these processes, what `Q` says of the work queue, its lists and the message; and at the end of
each process `Q` would allow some message. -/
def Begins (E : Nat → Env D) (Q : Weave.Rule D O) : (Nat → SpecState) → List (Boot D O) → Prop
  | _, [] => True
  | s, l :: ls => Weave.Begins E l.clk Q (Weave.init SpecB s) l.ops ∧
    (∀ a : QueueActor, ∃ op, Q a (fun st => ((l.last E SpecB s).site.stores a.backend).q (formatQueueName a.name st)) op) ∧
    Begins E Q (l.last E SpecB s).site.stores ls

/-- All work queues of the names `N` on what is left in `s`. -/
structure Standing (E : Nat → Env D) (kind : Str → Nat) (N : Nat → Str) (Q : Weave.Rule D O) (s0 : QueueActor → Sys D SpecB) (s : Nat → SpecState)
    (a : QueueActor) (x : SpecState) : Prop where
  part : SamePart a.name (kind · = a.ty) (s a.backend) x
  own : Own (E a.ty) a.name (kind · = a.ty) x
  trail : ∀ c, Trail (E a.ty) a.name (Q a) (s0 a) c (Sys.init SpecB x)

/-- The names of the work queues of a process. -/
theorem named {B : Backend} (l : Boot D O) (hl : l.Fit kind N) (s : Nat → B.S) : ∀ a ∈ (l.last E B s).site.hub.queues, a.name = N a.ty := by
  refine (Weave.spelled_run (E := E) (clk := l.clk) (P := fun ty n => n = N ty) (Weave.tidy_init s) Hub.spelled_init l.ops fun c req hm => ?_).queues
  have h := (hl c req hm).2
  cases req with
  | submit => exact h
  | update => exact fun _ => h
  | _ => trivial

theorem standing (L : ∀ ty, (E ty).Lawful) (hN : ∀ i j, N i = N j → i = j) {Q : Weave.Rule D O}
    {s0 : QueueActor → Sys D SpecB} (ls : List (Boot D O)) (hfit : ∀ l ∈ ls, l.Fit kind N) {s : Nat → SpecState} (h1 : Lone E SpecB s ls)
    (hB : Begins E Q s ls) (h : ∀ a : QueueActor, a.name = N a.ty → ∃ x, Standing E kind N Q s0 s a x) :
    ∀ a : QueueActor, a.name = N a.ty → ∃ x, Standing E kind N Q s0 (leave E SpecB s ls) a x := by
  induction ls generalizing s with
  | nil => exact h
  | cons l ls ih =>
    refine ih (fun l' hl' => hfit l' (List.mem_cons_of_mem _ hl')) h1.2 hB.2.2 ?_
    classical
    let S : Site.Base E kind := ⟨fun a => a.name = N a.ty, fun a => if ha : a.name = N a.ty then (h a ha).choose else Spec.empty, fun a ha => by
      simp only [dif_pos ha]; exact (h a ha).choose_spec.own⟩
    have hS : ∀ a, S.ok a → Standing E kind N Q s0 s a (S.start a) := fun a (ha : a.name = N a.ty) => by
      show Standing E kind N Q s0 s a (if ha : a.name = N a.ty then (h a ha).choose else Spec.empty)
      rw [dif_pos ha]; exact (h a ha).choose_spec
    have hfl := hfit l (List.mem_cons_self ..)
    have hk := named (E := E) (B := SpecB) l hfl s
    obtain ⟨t', hp, hf⟩ := (Weave.follow_init (clk := l.clk) (S := S) (Q := Q) (s0 := s0) s).run L (Weave.pairFrom_init fun a ha => (hS a ha).part) l.ops
      (fun c req hm => (hfl c req hm).1) (fun a ha => (hS a ha).trail) h1.1 hk hB.1
    intro a ha
    have hsep : ∀ a a', S.ok a → S.ok a' → a'.backend = a.backend → a' = a ∨ a'.name ≠ a.name ∧ a'.ty ≠ a.ty := by
      intro a a' (ha : a.name = N a.ty) (ha' : a'.name = N a'.ty) hb
      by_cases e : a'.ty = a.ty
      · left
        obtain ⟨ty, n, β⟩ := a
        obtain ⟨ty', n', β'⟩ := a'
        simp only at ha ha' hb e
        subst hb e ha ha'
        rfl
      · exact .inr ⟨fun e' => e (hN _ _ (by rw [← ha, ← ha', e'])), e⟩
    obtain ⟨x, h2, h3, h4⟩ := hf.dies hp (fun a ha => (hS a ha).trail) hsep hk hB.2.1 a ha
    exact ⟨x, h2, h3, h4⟩

/-! ## Requests that do not concern a job -/

end Boot

namespace Site
variable {D O : Type} {E : Nat → Env D} {clk : Nat → Nat → Time} {kind : Str → Nat} {k : Str}

/-- No message on its way concerns job `k`. -/
structure Spares (k : Str) (past : List (SiteOp D O)) (t : Site D O SpecB) : Prop where
  origin : Origin past t
  past : ∀ d req, .begin d req ∈ past → ¬ req.Concerns k
  clean : ∀ d, Clean k (t.users d)

theorem Spares.init {s : Nat → SpecState} : Spares k [] (init SpecB s : Site D O SpecB) :=
  ⟨origin_init, fun _ _ h => (by cases h), fun _ => trivial⟩

variable {past : List (SiteOp D O)} {t : Site D O SpecB} {S : Base E kind}

theorem Spares.step (h : Spares k past t) (hl : Links t) (ha : AloneFrom E clk kind S t) (o : SiteOp D O) (ho : ∀ d req, o = .begin d req → ¬ req.Concerns k) :
    Spares k (past ++ [o]) (t.step E SpecB clk o) := by
  refine ⟨origin_step hl h.origin o, fun d req hm => ?_, fun d => step_clean hl ha o (fun d req e hr => ho d req e (.inl hr)) d (h.clean d)⟩
  rcases List.mem_append.1 hm with hm | hm
  · exact h.past d req hm
  · exact ho d req (List.mem_singleton.1 hm).symm

theorem Spares.short (h : Spares k past t) (hl : Links t) (ha : AloneFrom E clk kind S t) (l : List (SiteOp D O)) (hlen : l.length ≤ 1)
    (hb : ∀ d req, .begin d req ∈ l → ¬ req.Concerns k) : ∃ past', Spares k past' (t.run E SpecB clk l) := by
  cases l with
  | nil => exact ⟨past, h⟩
  | cons x r =>
    cases r with
    | nil => exact ⟨_, h.step hl ha x fun d req e => hb d req (e ▸ List.mem_cons_self ..)⟩
    | cons y r => simp only [List.length_cons] at hlen; omega

theorem Spares.posted (h : Spares k past t) (hl : Links t) {q i c : Nat} {op : Op D O} (hm : (t.boxes q).mailbox[i]? = some (c, op)) : NotAbout k op := by
  obtain ⟨req, again, hu⟩ := (hl.mail q c op).1 (List.mem_of_getElem? hm)
  have hc := h.clean c
  rw [hu] at hc
  have hp := h.origin.users c
  rw [hu] at hp
  have ht : Tale t.hub.queues c (t.trace.filter (·.of c)) (t.users c) := hl.tale c
  rw [hu] at ht
  obtain ⟨-, -, -, -, evs, -, hunder⟩ := ht
  refine ⟨fun j cf e hj => hc.1 (by subst e; exact hj), fun e => hc.1 (by subst e; rfl), fun e => ?_⟩
  subst e
  generalize hso : some (Op.retry k : Op D O) = so at hunder
  cases hunder with
  | first =>
    refine h.past c req hp (.inr ?_)
    cases req <;> cases hso
    exact ⟨_, rfl⟩
  | again => cases hso

end Site

namespace Weave
variable {D O : Type} {E : Nat → Env D} {clk : Nat → Nat → Time} {kind : Str → Nat} {S : Site.Base E kind} {f : Weave D O SpecB} {t : Site D O SpecB} {k : Str}

/-- Not about `k`; and if it is the work queue `a0`, `k` is not running. -/
def spare (k : Str) (a0 : QueueActor) : Rule D O := fun a v op => NotAbout k op ∧ (a = a0 → k ∉ v .running)

theorem begins (L : ∀ ty, (E ty).Lawful) (hp : PairFrom E clk kind S f t) {past : List (SiteOp D O)} (hsp : Site.Spares k past t) (ops : List (WeaveOp D O))
    (hops : ∀ c req, .site (.begin c req) ∈ ops → req.On kind ∧ ¬ req.Concerns k) (h1 : (f.run E SpecB clk ops).site.hub.engines.length ≤ 1)
    (hk : ∀ a ∈ (f.run E SpecB clk ops).site.hub.queues, S.ok a) {a0 : QueueActor}
    (hr : ∀ p, p <+: ops → k ∉ ((f.run E SpecB clk p).site.stores a0.backend).q (formatQueueName a0.name .running)) :
    Begins E clk (spare k a0) f ops := by
  induction ops generalizing f t past with
  | nil => trivial
  | cons o ops ih =>
    have hf := tidy_step (E := E) (clk := clk) hp.tidy o
    have h2 : (f.step E SpecB clk o).site.hub.engines.length ≤ 1 := Nat.le_trans (run_hub ops hf) h1
    have hk' : ∀ a ∈ (f.step E SpecB clk o).site.hub.queues, S.ok a := by
      intro a ha
      obtain ⟨q, hq⟩ := List.mem_iff_getElem?.1 ha
      exact hk a (List.mem_of_getElem? (run_queues hf ops hq))
    have hp' := hp.step L o (fun c req e => (hops c req (e ▸ List.mem_cons_self ..)).1) h2 hk'
    have hsp' : ∃ past', Site.Spares k past' (t.run E SpecB clk (f.closed o)) :=
      hsp.short hp.links hp.alone (f.closed o) (closed_length f o) fun d req hm => (hops d req (closed_begin hm ▸ List.mem_cons_self ..)).2
    obtain ⟨past', hsp'⟩ := hsp'
    refine ⟨fun q a x ha hi hx => ?_, ih hp' hsp' (fun c req hm => hops c req (List.mem_cons_of_mem _ hm)) h1 hk fun p hpre => hr (o :: p) ?_⟩
    · refine ⟨?_, fun e => ?_⟩
      · have hnot : ∀ op : Op D O, op.inner = true → NotAbout k op := by
          intro op hop
          refine ⟨fun j cf e _ => ?_, fun e => ?_, fun e => ?_⟩ <;> (subst e; cases hop)
        have hnew := hf.inside q x hx
        cases hw : x.who with
        | none => exact hnot _ (hnew.own hw)
        | some w =>
          obtain ⟨c, i⟩ := w
          have := (hnew.asked c i hw).1
          rw [hp'.serial.face.mail] at this
          exact hsp'.posted hp'.links this
      · subst e
        exact hr [] (List.nil_prefix)
    · obtain ⟨r, rfl⟩ := hpre
      exact ⟨r, rfl⟩

end Weave

namespace Boot
variable {D O : Type} {E : Nat → Env D} {kind : Str → Nat} {N : Nat → Str} {k : Str}

/-- Nothing is asked. -/
def free : Weave.Rule D O := fun _ _ _ => True

theorem weave_free (clk : Nat → Nat → Time) (f : Weave D O SpecB) (ops : List (WeaveOp D O)) : Weave.Begins E clk free f ops := by
  induction ops generalizing f with
  | nil => trivial
  | cons o ops ih => exact ⟨fun _ _ _ _ _ _ => trivial, ih _⟩

theorem begins_free (s : Nat → SpecState) (ls : List (Boot D O)) : Begins E free s ls := by
  induction ls generalizing s with
  | nil => trivial
  | cons l ls ih => exact ⟨weave_free .., fun _ => ⟨.tick, trivial⟩, ih _⟩

theorem moment_first {l : Boot D O} {ls : List (Boot D O)} {p : List (WeaveOp D O)} (h : p <+: l.ops) : Moment [{ l with ops := p }] (l :: ls) :=
  .inr ⟨[], l, ls, p, rfl, h, rfl⟩

theorem moment_cons {l : Boot D O} {m ls : List (Boot D O)} (h : Moment m ls) : Moment (l :: m) (l :: ls) := by
  rcases h with rfl | ⟨done, l', rest, p, rfl, h2, rfl⟩
  · exact .inr ⟨[], l, ls, l.ops, rfl, List.prefix_refl _, rfl⟩
  · exact .inr ⟨l :: done, l', rest, p, rfl, h2, rfl⟩

theorem moment_self (ls : List (Boot D O)) : Moment ls ls := by
  induction ls with
  | nil => exact .inl rfl
  | cons l ls ih => exact moment_cons ih

/-- A base from what each work queue would leave. -/
theorem base_of {Q : Weave.Rule D O} {s0 : QueueActor → Sys D SpecB} {s : Nat → SpecState}
    (h : ∀ a : QueueActor, a.name = N a.ty → ∃ x, Standing E kind N Q s0 s a x) :
    ∃ S : Site.Base E kind, (∀ a, S.ok a ↔ a.name = N a.ty) ∧ ∀ a, S.ok a → Standing E kind N Q s0 s a (S.start a) := by
  classical
  refine ⟨⟨fun a => a.name = N a.ty, fun a => if ha : a.name = N a.ty then (h a ha).choose else Spec.empty, fun a ha => ?_⟩, fun _ => Iff.rfl, fun a ha => ?_⟩
  · simp only [dif_pos ha]; exact (h a ha).choose_spec.own
  · show Standing E kind N Q s0 s a (if ha : a.name = N a.ty then (h a ha).choose else Spec.empty)
    rw [dif_pos ha]; exact (h a ha).choose_spec

theorem begins_spare (L : ∀ ty, (E ty).Lawful) (hN : ∀ i j, N i = N j → i = j) {s0 : QueueActor → Sys D SpecB} (ls : List (Boot D O))
    (hfit : ∀ l ∈ ls, l.Fit kind N) (hno : ∀ l ∈ ls, ∀ c req, .site (.begin c req) ∈ l.ops → ¬ req.Concerns k) {s : Nat → SpecState}
    (h1 : Lone E SpecB s ls) (h : ∀ a : QueueActor, a.name = N a.ty → ∃ x, Standing (O := O) E kind N free s0 s a x) {a0 : QueueActor}
    (hr : ∀ m, Moment m ls → k ∉ (leave E SpecB s m a0.backend).q (formatQueueName a0.name .running)) :
    Begins E (Weave.spare k a0) s ls := by
  induction ls generalizing s with
  | nil => trivial
  | cons l ls ih =>
    have hfl := hfit l (List.mem_cons_self ..)
    have hnext := standing (Q := free) L hN [l] (fun l' hl' => by rw [List.mem_singleton.1 hl']; exact hfl) (s := s) ⟨h1.1, trivial⟩
      (begins_free ..) h
    refine ⟨?_, fun a => ⟨.tick, ⟨fun _ _ e => (by cases e), fun e => (by cases e), fun e => (by cases e)⟩, fun e => ?_⟩, ih (fun l' hl' => hfit l' (List.mem_cons_of_mem _ hl')) (fun l' hl' => hno l' (List.mem_cons_of_mem _ hl')) h1.2 hnext
      fun m hm => hr (l :: m) (moment_cons hm)⟩
    swap
    · subst e
      exact hr [l] (moment_cons (.inl rfl))
    obtain ⟨S, hok, hS⟩ := base_of h
    exact Weave.begins L (Weave.pairFrom_init fun a ha => (hS a ha).part) .init l.ops
      (fun c req hm => ⟨(hfl c req hm).1, hno l (List.mem_cons_self ..) c req hm⟩) h1.1
      (fun a ha => (hok a).2 (named (E := E) (B := SpecB) l hfl s a ha)) fun p hp => hr _ (moment_first hp)

/-- On empty backends. -/
theorem standing_empty (Q : Weave.Rule D O) (a : QueueActor) :
    Standing E kind N Q (fun _ => Sys.init SpecB Spec.empty) (fun _ => Spec.empty) a Spec.empty :=
  ⟨.refl _, ⟨fun _ _ h => (by cases h), fun _ _ _ h => (by cases h)⟩, fun c => .init c⟩

theorem leave_append {B : Backend} (s : Nat → B.S) (ls ls' : List (Boot D O)) : leave E B s (ls ++ ls') = leave E B (leave E B s ls) ls' :=
  List.foldl_append ..

theorem lone_append {B : Backend} {s : Nat → B.S} {ls ls' : List (Boot D O)} (h : Lone E B s (ls ++ ls')) : Lone E B s ls ∧ Lone E B (leave E B s ls) ls' := by
  induction ls generalizing s with
  | nil => exact ⟨trivial, h⟩
  | cons l ls ih => exact ⟨⟨h.1, (ih h.2).1⟩, (ih h.2).2⟩

/-- The same processes on two backends. -/
theorem leave_rel (b : Impl) {s : Nat → b.B.S} {s' : Nat → SpecState} (h : ∀ β, b.sim.R (s β) (s' β)) (ls : List (Boot D O)) :
    (∀ β, b.sim.R (leave E b.B s ls β) (leave E SpecB s' ls β)) ∧ (Lone E b.B s ls ↔ Lone E SpecB s' ls) := by
  induction ls generalizing s s' with
  | nil => exact ⟨h, Iff.rfl⟩
  | cons l ls ih =>
    have hi : Weave.Rel b (Weave.init b.B s : Weave D O b.B) (Weave.init SpecB s') := ⟨⟨rfl, rfl, h, rfl, rfl⟩, rfl, fun _ _ h => (by cases h)⟩
    have hr := hi.run (E := E) (clk := l.clk) l.ops
    obtain ⟨h1, h2⟩ := ih hr.site.stores
    have hh : (l.last E b.B s).site.hub = (l.last E SpecB s').site.hub := hr.site.hub
    refine ⟨h1, and_congr ?_ h2⟩
    rw [hh]

theorem found_rel (b : Impl) {s : b.B.S} {s' : SpecState} (h : b.sim.R s s') (ty : Nat) (n : Str) : found E b s ty n = found E .spec s' ty n :=
  Impl.snap_eq ⟨⟨h, rfl, rfl⟩, rfl, rfl, rfl⟩

theorem found_part {s s' : SpecState} {ty : Nat} {n : Str} (h : SamePart n (kind · = ty) s s') :
    (found E .spec s ty n).lists = (found E .spec s' ty n).lists ∧ ∀ k, kind k = ty → (found E .spec s ty n).job k = (found E .spec s' ty n).job k :=
  ⟨funext fun st => h.lists st, fun k hk => congrArg (Option.bind · (E ty).codec.dec) (h.stored k hk)⟩

end Boot
end AJ
