import Verif.Spec.Grant
import Verif.Proofs.Survive

/-! # Scans that take as many rounds as they need -/

namespace AJ
open Prog

/-! ## Programs that go on where others give up -/

/-- The second program does what the first does, except that it may go on where the first diverges. -/
def Prog.Cut {α : Type} : Prog α → Prog α → Prop
  | .diverge, _ => True
  | .ret a, p => p = .ret a
  | .fail e, p => p = .fail e
  | .panic, p => p = .panic
  | .call op k, p => ∃ k', p = .call op k' ∧ ∀ r, Prog.Cut (k r) (k' r)
  | .now k, p => ∃ k', p = .now k' ∧ ∀ t, Prog.Cut (k t) (k' t)
  | .emit e k, p => ∃ k', p = .emit e k' ∧ Prog.Cut k k'

section
variable {α β : Type}

theorem Prog.Cut.refl (p : Prog α) : p.Cut p := by
  induction p with
  | call op k ih => exact ⟨k, rfl, ih⟩
  | now k ih => exact ⟨k, rfl, ih⟩
  | emit e k ih => exact ⟨k, rfl, ih⟩
  | diverge => trivial
  | _ => rfl

theorem Prog.Cut.bind {p p' : Prog α} (h : p.Cut p') {k k' : α → Prog β} (hk : ∀ a, (k a).Cut (k' a)) : (p.bind k).Cut (p'.bind k') := by
  induction p generalizing p' with
  | call op c ih => obtain ⟨c', rfl, hc⟩ := h; exact ⟨_, rfl, fun r => ih r (hc r)⟩
  | now c ih => obtain ⟨c', rfl, hc⟩ := h; exact ⟨_, rfl, fun t => ih t (hc t)⟩
  | emit e c ih => obtain ⟨c', rfl, hc⟩ := h; exact ⟨_, rfl, ih hc⟩
  | diverge => trivial
  | ret a => cases h; exact hk a
  | fail e => cases h; rfl
  | panic => cases h; rfl

/-- The program has come to its end. -/
def Prog.ended : Prog α → Bool
  | .call .. => false
  | .now .. => false
  | .emit .. => false
  | _ => true

theorem Prog.Cut.ended {p p' : Prog α} (h : p.Cut p') (he : p.ended = true) (hd : p ≠ .diverge) : p' = p := by
  cases p with
  | diverge => exact absurd rfl hd
  | call => cases he
  | now => cases he
  | emit => cases he
  | _ => exact h

/-- One step of both. -/
theorem Prog.Cut.step {p p' : Prog α} (h : p.Cut p') (he : p.ended = false) {B : Backend} {clk : Nat → Time} (w : World B) (k : Out α → Prog β) :
    ((p.attempt.bind k).step1 B clk w) = ((p.step1 B clk w).1.attempt.bind k, (p.step1 B clk w).2) ∧
    ((p'.attempt.bind k).step1 B clk w) = ((p'.step1 B clk w).1.attempt.bind k, (p.step1 B clk w).2) ∧
    (p.step1 B clk w).1.Cut (p'.step1 B clk w).1 ∧ (∀ y, p.attempt.bind k ≠ .ret y) ∧ ∀ y, p'.attempt.bind k ≠ .ret y := by
  cases p with
  | call op c => obtain ⟨c', rfl, hc⟩ := h; exact ⟨rfl, rfl, hc _, fun _ => nofun, fun _ => nofun⟩
  | now c => obtain ⟨c', rfl, hc⟩ := h; exact ⟨rfl, rfl, hc _, fun _ => nofun, fun _ => nofun⟩
  | emit e c => obtain ⟨c', rfl, hc⟩ := h; exact ⟨rfl, rfl, hc, fun _ => nofun, fun _ => nofun⟩
  | _ => cases he

end

section
variable {D : Type} (E : Env D) (name : Str)

theorem cut_pickLoop (total n m : Nat) (h : n ≤ m) (cursor : Int) (ready : List (Job D)) :
    (WorkQueue.pickLoop E name total n cursor ready).Cut (WorkQueue.pickLoop E name total m cursor ready) := by
  induction n generalizing m cursor ready with
  | zero => trivial
  | succ n ih =>
    obtain ⟨m, rfl⟩ : ∃ k, m = k + 1 := ⟨m - 1, by omega⟩
    refine (Cut.refl _).bind fun ids => (Cut.refl _).bind fun c => (Cut.refl _).bind fun r => ?_
    split
    · exact .refl _
    · split
      · exact .refl _
      · exact ih m (by omega) _ _

theorem cut_pick (n m : Nat) (h : n ≤ m) (cfg : WorkQueueConfig) :
    (WorkQueue.pickJobsToProcess E name n cfg).Cut (WorkQueue.pickJobsToProcess E name m cfg) := by
  refine (Cut.refl _).bind fun r => ?_
  have key : ∀ z : Nat, (if z ≥ cfg.maxProcessingJobs then pure [] else WorkQueue.tryPickSpecificReadyJobs E name n (cfg.maxProcessingJobs - z)).Cut
      (if z ≥ cfg.maxProcessingJobs then pure [] else WorkQueue.tryPickSpecificReadyJobs E name m (cfg.maxProcessingJobs - z)) := by
    intro z
    by_cases hz : z ≥ cfg.maxProcessingJobs
    · rw [if_pos hz, if_pos hz]; exact .refl _
    · rw [if_neg hz, if_neg hz]; exact (Cut.refl _).bind fun l => cut_pickLoop E name _ _ _ h _ _
  exact key _

end

/-! ## The process -/

namespace Weave
variable {D O : Type} {E : Nat → Env D} {clk : Nat → Nat → Time} {kind : Str → Nat} {b : Impl}

/-- The turn in progress of work queue `q`: none; the same in both; or a scan that has rounds left for all that is to come. -/
inductive Fit (b : Impl) (E : Nat → Env D) (clk : Nat → Nat → Time) (kind : Str → Nat) (g : Site D O SpecB) (q : Nat) :
    Option (Inside D O) → Option (Inside D O) → Prop
  | none : Fit b E clk kind g q none none
  | same (x : Inside D O) : Fit b E clk kind g q (some x) (some x)
  | scan (a : QueueActor) (who : Option (Nat × Nat)) (op : Op D O) (p p' : Prog (List (Job D))) (k : Out (List (Job D)) → Prog (Proc D × Resp D))
      (ha : g.hub.queues[q]? = some a) (hc : p.Cut p') (hk : Keeps (E a.ty) a.name (kind · = a.ty) (fun _ => True) p) (ho : p.AllOps b.ok)
      (hd : (p.run SpecB (clk q) (world g q a)).1 ≠ .diverged) : Fit b E clk kind g q (some ⟨who, op, p'.attempt.bind k⟩) (some ⟨who, op, p.attempt.bind k⟩)

theorem Fit.head {g : Site D O SpecB} {q : Nat} {x y : Option (Inside D O)} (h : Fit b E clk kind g q x y) : x.map Inside.head = y.map Inside.head := by
  cases h <;> rfl

theorem Fit.isNone {g : Site D O SpecB} {q : Nat} {x y : Option (Inside D O)} (h : Fit b E clk kind g q x y) : x = .none ↔ y = .none := by
  cases h <;> simp

/-- The process with scans of any length, and the one with counted rounds. -/
structure Loose (b : Impl) (E : Nat → Env D) (clk : Nat → Nat → Time) (kind : Str → Nat) (f : Weave D O b.B) (g : Weave D O SpecB) : Prop where
  site : Site.Rel b f.site g.site
  fits : ∀ q, Fit b E clk kind g.site q (f.inside q) (g.inside q)

variable {S : Site.Base E kind} {g : Weave D O SpecB} {t : Site D O SpecB}

/-- What steps of others do to a work queue inside a turn. -/
theorem PairFrom.others (hp : PairFrom E clk kind S g t) (h1 : g.site.hub.engines.length ≤ 1) {p : Nat} {a : QueueActor} (ha : g.site.hub.queues[p]? = some a)
    {q : Nat} (hq : p ≠ q) {a' : QueueActor} {x : Inside D O} (ha' : g.site.hub.queues[q]? = some a') (hx : g.inside q = some x) :
    SamePart a.name (kind · = a.ty) (g.site.stores a.backend) ((g.move SpecB clk q a' x).site.stores a.backend) := by
  have e := hp.serial.face.hub
  have ho := hp.single.once (by rw [← e]; exact h1)
  have hb := hp.serial.busy q a' x (by rw [← e]; exact ha') hx
  have hn : a.name ≠ a'.name := fun h => hq (ho.names _ _ _ _ (by rw [← e]; exact ha) (by rw [← e]; exact ha') h)
  have hty : a.ty ≠ a'.ty := fun h => hq (ho.types _ _ _ _ (by rw [← e]; exact ha) (by rw [← e]; exact ha') h)
  show SamePart _ _ _ (if a.backend = a'.backend then (x.rest.step1 SpecB (clk q) (world g.site q a')).2.s else g.site.stores a.backend)
  split
  · next e =>
    rw [e]
    have hk := hb.keeps
    cases hr : x.rest with
    | call op k =>
      rw [hr] at hk
      exact other_agree (Ne.symm hn) (fun k (h6 : kind k = a.ty) (h7 : kind k = a'.ty) => hty (h6.symm.trans h7)) hk.1 _
    | _ => exact .refl _
  · exact .refl _

/-- A turn in progress, when its work queue has the same before it as it had. -/
theorem Fit.keep {p : Nat} {x y : Option (Inside D O)} (h : Fit b E clk kind g.site p x y) (hp : PairFrom E clk kind S g t) (hy : g.inside p = y)
    {g' : Site D O SpecB} (hq : ∀ a, g.site.hub.queues[p]? = some a → g'.hub.queues[p]? = some a)
    (hb : (g'.boxes p).reads = (g.site.boxes p).reads ∧ (g'.boxes p).log = (g.site.boxes p).log)
    (hs : ∀ a, g.site.hub.queues[p]? = some a → SamePart a.name (kind · = a.ty) (g.site.stores a.backend) (g'.stores a.backend)) :
    Fit b E clk kind g' p x y := by
  cases h with
  | none => exact .none
  | same x => exact .same x
  | scan a who op r r' k ha hc hk ho hd =>
    refine .scan a who op r r' k (hq a ha) hc hk ho ?_
    have hbusy := hp.serial.busy p a _ (by rw [← hp.serial.face.hub]; exact ha) hy
    have := (keeps_end (clk := clk p) hk (n := (g.site.boxes p).reads) (l := (g.site.boxes p).log) hbusy.own (hs a ha)).out
    unfold world at hd ⊢
    rw [hb.1, hb.2, ← this]
    exact hd

theorem fits_upd {g : Site D O SpecB} {i j : Nat → Option (Inside D O)} (h : ∀ p, Fit b E clk kind g p (i p) (j p)) {q : Nat} {x y : Option (Inside D O)}
    (hq : Fit b E clk kind g q x y) (p : Nat) : Fit b E clk kind g p (upd i q x p) (upd j q y p) := by
  unfold upd
  split
  · next e => subst e; exact hq
  · exact h p

variable {f : Weave D O b.B}

theorem Loose.plain (h : Loose b E clk kind f g) (hp : PairFrom E clk kind S g t) {op : SiteOp D O} (hop : op.plain = true) :
    Loose b E clk kind (f.step E b.B clk (.site op)) (g.step E SpecB clk (.site op)) := by
  rw [step_plain hop, step_plain hop]
  have hc := Site.calm_plain (E := E) (clk := clk) g.site hop
  refine ⟨h.site.step op, fun p => (h.fits p).keep hp rfl (fun a ha => ?_) (hc.box p).2 fun a _ => ?_⟩
  · obtain ⟨more, e⟩ := hc.queues
    show (g.site.step E SpecB clk op).hub.queues[p]? = _
    rw [e, List.getElem?_append_left (List.getElem?_eq_some_iff.1 ha).1]
    exact ha
  · show SamePart _ _ _ ((g.site.step E SpecB clk op).stores _)
    rw [hc.stores]
    exact .refl _

theorem Loose.handle (h : Loose b E clk kind f g) (q i : Nat) :
    Loose b E clk kind (f.handle E b.B q i) (g.handle E SpecB q i) := by
  have keep : f.handle E b.B q i = f → g.handle E SpecB q i = g → Loose b E clk kind (f.handle E b.B q i) (g.handle E SpecB q i) :=
    fun e1 e2 => by rw [e1, e2]; exact h
  cases hi : g.inside q with
  | some x =>
    have hi' : ∃ y, f.inside q = some y := by
      cases hf : f.inside q with
      | some y => exact ⟨y, rfl⟩
      | none => have := (h.fits q).isNone.1 hf; rw [hi] at this; cases this
    obtain ⟨y, hy⟩ := hi'
    exact keep (by unfold Weave.handle; rw [hy]) (by unfold Weave.handle; rw [hi])
  | none =>
    have hf := (h.fits q).isNone.2 hi
    cases ha : g.site.hub.queues[q]? with
    | none => exact keep (by unfold Weave.handle; rw [hf, h.site.hub, ha]) (by unfold Weave.handle; rw [hi, ha])
    | some a =>
      cases hm : (g.site.boxes q).mailbox[(if (g.site.boxes q).proc.alive then 0 else i)]? with
      | none => exact keep (by unfold Weave.handle; rw [hf, h.site.hub, ha, h.site.boxes]; dsimp only; rw [hm]) (by unfold Weave.handle; rw [hi, ha]; dsimp only; rw [hm])
      | some w =>
        obtain ⟨c, o⟩ := w
        have e1 : f.handle E b.B q i = match g.site.users c with
            | .posted .. => f.enter E b.B q a (some (c, if (g.site.boxes q).proc.alive then 0 else i)) o
            | _ => f := by
          unfold Weave.handle; rw [hf, h.site.hub, ha, h.site.boxes]; dsimp only; rw [hm]; dsimp only; rw [h.site.users]; cases g.site.users c <;> rfl
        have e2 : g.handle E SpecB q i = match g.site.users c with
            | .posted .. => g.enter E SpecB q a (some (c, if (g.site.boxes q).proc.alive then 0 else i)) o
            | _ => g := by
          unfold Weave.handle; rw [hi, ha]; dsimp only; rw [hm]; dsimp only; cases g.site.users c <;> rfl
        rw [e1, e2]
        cases g.site.users c with
        | posted =>
          refine ⟨h.site, fits_upd h.fits ?_⟩
          rw [h.site.boxes]
          exact .same _
        | _ => exact h

theorem Loose.turn (h : Loose b E clk kind f g) (q : Nat) (op : Op D O) (rounds : Nat)
    (hn : f.scans (.site (.turn q op)) = none) : Loose b E clk kind (f.turnIn E b.B q op rounds) (g.turn E SpecB q op) := by
  have keep : f.turnIn E b.B q op rounds = f → g.turn E SpecB q op = g → Loose b E clk kind (f.turnIn E b.B q op rounds) (g.turn E SpecB q op) :=
    fun e1 e2 => by rw [e1, e2]; exact h
  cases hi : g.inside q with
  | some x =>
    have hi' : ∃ y, f.inside q = some y := by
      cases hf : f.inside q with
      | some y => exact ⟨y, rfl⟩
      | none => have := (h.fits q).isNone.1 hf; rw [hi] at this; cases this
    obtain ⟨y, hy⟩ := hi'
    exact keep (by unfold Weave.turnIn; rw [hy]) (by unfold Weave.turn; rw [hi])
  | none =>
    have hf := (h.fits q).isNone.2 hi
    cases ha : g.site.hub.queues[q]? with
    | none => exact keep (by unfold Weave.turnIn; rw [hf, h.site.hub, ha]) (by unfold Weave.turn; rw [hi, ha])
    | some a =>
      have e : (f.site.boxes q).proc.turnIn (E a.ty) a.name op rounds = (g.site.boxes q).proc.turn (E a.ty) a.name op := by
        rw [h.site.boxes]
        cases op with
        | tick =>
          simp only [scans, hf, h.site.hub, ha, h.site.boxes] at hn
          have : (g.site.boxes q).proc.alive = false := by
            cases e : (g.site.boxes q).proc.alive with
            | false => rfl
            | true => rw [e] at hn; cases hn
          simp [Proc.turnIn, Proc.turn, this, Sys.deadResp]
        | _ => rfl
      unfold Weave.turnIn Weave.turn
      rw [hf, h.site.hub, ha, hi]
      dsimp only
      split
      · refine ⟨h.site, fits_upd h.fits ?_⟩
        rw [e]
        exact .same _
      · exact h

private theorem upd_upd {α : Type} (f : Nat → α) (q : Nat) (x y : α) : upd (upd f q x) q y = upd f q y := by
  funext p
  unfold upd
  split <;> rfl

private theorem upd_self {α : Type} (f : Nat → α) (q : Nat) : upd f q (f q) = f := by
  funext p
  unfold upd
  split
  · next e => rw [e]
  · rfl

private theorem go_count {q : Nat} {a : QueueActor} (who : Option (Nat × Nat)) (op : Op D O) (nm : Str) (k : Except Error Nat → Prog (Proc D × Resp D))
    (ha : g.site.hub.queues[q]? = some a) :
    ({ g with inside := upd g.inside q (some ⟨who, op, .call (.queueCount nm) k⟩) } : Weave D O SpecB).go SpecB clk q =
      { g with inside := upd g.inside q (some ⟨who, op, k (.ok ((g.site.stores a.backend).q nm).length)⟩) } := by
  unfold Weave.go
  simp only [upd_same, ha]
  unfold Weave.move
  obtain ⟨⟨hub, boxes, stores, users, trace⟩, inside⟩ := g
  show Weave.mk ⟨hub, upd boxes q (boxes q), upd stores a.backend (stores a.backend), users, trace⟩ (upd (upd inside q _) q _) = _
  rw [upd_upd, upd_self, upd_self]
  rfl

/-- A tick begins, and reads its rounds. -/
theorem Loose.scan (L : ∀ ty, (E ty).Lawful) (h : Loose b E clk kind f g) (q : Nat) (rounds : Nat) (hn : f.scans (.site (.turn q .tick)) = some q)
    (hr : f.Ample E b (.site (.turn q .tick), rounds)) : Loose b E clk kind (f.turnIn E b.B q .tick rounds) ((g.turn E SpecB q .tick).go SpecB clk q) := by
  have hn' := hn
  cases hf : f.inside q with
  | some x => simp only [scans, hf] at hn'; cases hn'
  | none =>
    have hi := (h.fits q).isNone.1 hf
    cases ha : f.site.hub.queues[q]? with
    | none => simp only [scans, hf, ha] at hn'; cases hn'
    | some a =>
      simp only [scans, hf, ha] at hn'
      have hal : (g.site.boxes q).proc.alive = true := by
        rw [h.site.boxes] at hn'
        cases e : (g.site.boxes q).proc.alive with
        | true => rfl
        | false => rw [e] at hn'; cases hn'
      have hlen := hr q a hn ha
      rw [Site.snap_rel h.site] at hlen
      have ha' : g.site.hub.queues[q]? = some a := by rw [← h.site.hub]; exact ha
      let n := ((g.site.stores a.backend).q (formatQueueName a.name .queued)).length
      let k : Out (List (Job D)) → Prog (Proc D × Resp D) := fun
          | .ok jobs => .ret ({ (g.site.boxes q).proc with tasks := (g.site.boxes q).proc.tasks ++ jobs.map (fun j => ⟨j, none⟩) }, .silent)
          | .err _ => .ret ((g.site.boxes q).proc, .silent)
          | _ => .ret ((g.site.boxes q).proc.down, .silent)
      have e1 : (f.turnIn E b.B q .tick rounds) = { f with inside := upd f.inside q (some ⟨none, .tick,
          (WorkQueue.pickJobsToProcess (E a.ty) a.name rounds (g.site.boxes q).proc.cfg).attempt.bind k⟩) } := by
        unfold Weave.turnIn
        rw [hf, ha]
        dsimp only [Op.inner]
        rw [h.site.boxes]
        dsimp only [Proc.turnIn]
        rw [if_pos hal]
        rfl
      have e2 : (g.turn E SpecB q .tick).go SpecB clk q = { g with inside := upd g.inside q (some ⟨none, .tick,
          (WorkQueue.pickJobsToProcess (E a.ty) a.name (n + 1) (g.site.boxes q).proc.cfg).attempt.bind k⟩) } := by
        have e3 : g.turn E SpecB q .tick = { g with inside := upd g.inside q (some ⟨none, .tick, (g.site.boxes q).proc.turn (E a.ty) a.name (.tick : Op D O)⟩) } := by
          unfold Weave.turn
          rw [hi, ha']
          rfl
        have e4 : (g.site.boxes q).proc.turn (E a.ty) a.name (.tick : Op D O) = .call (.queueCount (formatQueueName a.name .queued)) fun r =>
            (WorkQueue.pickJobsToProcess (E a.ty) a.name (match r with
              | .ok n => n + 1
              | .error _ => 1) (g.site.boxes q).proc.cfg).attempt.bind k := by
          unfold Proc.turn
          rw [if_pos hal]
          refine congrArg (Prog.call (.queueCount (formatQueueName a.name .queued))) (funext fun r => ?_)
          cases r <;> rfl
        rw [e3, e4, go_count _ _ _ _ ha']
      rw [e1, e2]
      refine ⟨h.site, fits_upd h.fits (.scan a none .tick _ _ k ha' (cut_pick _ _ _ _ hlen _)
        ((WorkQueue.keeps_pick (L a.ty) _ _).weaken fun _ _ => trivial) ((WorkQueue.aj_pickJobs _ _ _ _).mono (b.okAj a.name)) ?_)⟩
      rcases WorkQueue.run_pickJobs (E a.ty) a.name (clk q) (n + 1) (g.site.boxes q).proc.cfg (world g.site q a) (Nat.lt_succ_self _) with ⟨k, h, _⟩ | ⟨h, _⟩ <;> rw [h] <;> simp

private theorem move_fits (h : Loose b E clk kind f g) (hp : PairFrom E clk kind S g t) (h1 : g.site.hub.engines.length ≤ 1) {q : Nat} {a : QueueActor}
    (ha : g.site.hub.queues[q]? = some a) {x y : Inside D O} (hx : g.inside q = some x)
    (hw : (y.rest.step1 b.B (clk q) (world f.site q a)).2 = (x.rest.step1 b.B (clk q) (world f.site q a)).2)
    (hok : ∀ q x, g.inside q = some x → x.rest.AllOps b.ok)
    (hq : Fit b E clk kind (g.move SpecB clk q a x).site q (some { y with rest := (y.rest.step1 b.B (clk q) (world f.site q a)).1 })
      (some { x with rest := (x.rest.step1 SpecB (clk q) (world g.site q a)).1 })) :
    Loose b E clk kind (f.move b.B clk q a y) (g.move SpecB clk q a x) := by
  have hrel : Rel b ⟨f.site, g.inside⟩ g := ⟨h.site, rfl, hok⟩
  have hm := (hrel.move (clk := clk) a hx).site
  have e : (f.move b.B clk q a y).site = ((⟨f.site, g.inside⟩ : Weave D O b.B).move b.B clk q a x).site := by
    unfold Weave.move
    unfold world at hw
    dsimp only
    rw [hw]
  refine ⟨by rw [e]; exact hm, fun p => ?_⟩
  show Fit b E clk kind _ p (upd f.inside q _ p) (upd g.inside q _ p)
  by_cases hpq : p = q
  · subst hpq
    rw [upd_same, upd_same]
    exact hq
  · have e1 : ∀ (i : Nat → Option (Inside D O)) z, upd i q z p = i p := fun i z => by simp [upd, hpq]
    rw [e1, e1]
    refine (h.fits p).keep hp rfl (fun _ h => h) ?_ fun a' ha' => hp.others h1 ha' hpq ha hx
    have : (g.move SpecB clk q a x).site.boxes p = g.site.boxes p := by
      show upd g.site.boxes q _ p = _
      simp [upd, hpq]
    rw [this]
    exact ⟨rfl, rfl⟩

theorem Loose.go (h : Loose b E clk kind f g) (hp : PairFrom E clk kind S g t) (h1 : g.site.hub.engines.length ≤ 1)
    (hok : ∀ q x, g.inside q = some x → x.rest.AllOps b.ok) (q : Nat) : Loose b E clk kind (f.go b.B clk q) (g.go SpecB clk q) := by
  cases hi : g.inside q with
  | none =>
    have hf := (h.fits q).isNone.2 hi
    have e1 : f.go b.B clk q = f := by unfold Weave.go; rw [hf]
    have e2 : g.go SpecB clk q = g := by unfold Weave.go; rw [hi]
    rw [e1, e2]
    exact h
  | some x =>
    obtain ⟨a, ha⟩ := (hp.tidy.inside q x hi).queue
    have ha' : f.site.hub.queues[q]? = some a := by rw [h.site.hub]; exact ha
    have key : f.inside q = some x → Loose b E clk kind (f.go b.B clk q) (g.go SpecB clk q) := by
      intro hf
      cases hr : x.rest with
      | ret y =>
        have e1 : f.go b.B clk q = f.leave b.B q x.who x.op y.1 y.2 := by unfold Weave.go; rw [hf, ha']; dsimp only; rw [hr]
        have e2 : g.go SpecB clk q = g.leave SpecB q x.who x.op y.1 y.2 := by unfold Weave.go; rw [hi, ha]; dsimp only; rw [hr]
        rw [e1, e2]
        have hrel : Rel b ⟨f.site, g.inside⟩ g := ⟨h.site, rfl, hok⟩
        obtain ⟨k1, k2, -, k4, -, -⟩ := leave_site hp.tidy hi y.1 y.2
        refine ⟨(hrel.leave q x.who x.op y.1 y.2).site, fun p => ?_⟩
        show Fit b E clk kind _ p (upd f.inside q none p) (upd g.inside q none p)
        by_cases hpq : p = q
        · subst hpq
          rw [upd_same, upd_same]
          exact .none
        · have e1 : ∀ (i : Nat → Option (Inside D O)) z, upd i q z p = i p := fun i z => by simp [upd, hpq]
          rw [e1, e1]
          refine (h.fits p).keep hp rfl (fun _ h => by rw [k1]; exact h) (by rw [k4 p hpq]; exact ⟨rfl, rfl⟩) fun a' _ => ?_
          rw [k2]
          exact .refl _
      | _ =>
        all_goals
          have e1 : f.go b.B clk q = f.move b.B clk q a x := by unfold Weave.go; rw [hf, ha']; dsimp only; rw [hr]
          have e2 : g.go SpecB clk q = g.move SpecB clk q a x := by unfold Weave.go; rw [hi, ha]; dsimp only; rw [hr]
          rw [e1, e2]
          refine move_fits h hp h1 ha hi rfl hok ?_
          have hw : b.sim.RW (world f.site q a) (world g.site q a) := ⟨h.site.stores _, by rw [world, h.site.boxes]; rfl, by rw [world, h.site.boxes]; rfl⟩
          rw [(step1_rel (clk := clk q) (hok q x hi) hw).1]
          exact .same _
    have hfit := h.fits q
    rw [hi] at hfit
    generalize hfx : f.inside q = fx at hfit
    cases hfit with
    | same => exact key hfx
    | scan a0 who op p p' k ha0 hc hk ho hd =>
      rw [ha] at ha0
      cases ha0
      by_cases he : p.ended = true
      · have e : p' = p := hc.ended he fun e => by rw [e] at hd; exact hd rfl
        rw [e] at hfx
        exact key hfx
      · simp only [Bool.not_eq_true] at he
        obtain ⟨s1, s2, s3, s4, s5⟩ := hc.step he (B := b.B) (clk := clk q) (world f.site q a) k
        obtain ⟨r1, -, -, -, -⟩ := hc.step he (B := SpecB) (clk := clk q) (world g.site q a) k
        have e1 : f.go b.B clk q = f.move b.B clk q a ⟨who, op, p'.attempt.bind k⟩ := by
          unfold Weave.go; rw [hfx, ha']; dsimp only
          split
          · next e => exact absurd e (s5 _)
          · rfl
        have e2 : g.go SpecB clk q = g.move SpecB clk q a ⟨who, op, p.attempt.bind k⟩ := by
          unfold Weave.go; rw [hi, ha]; dsimp only
          split
          · next e => exact absurd e (s4 _)
          · rfl
        rw [e1, e2]
        have hw : b.sim.RW (world f.site q a) (world g.site q a) := ⟨h.site.stores _, by rw [world, h.site.boxes]; rfl, by rw [world, h.site.boxes]; rfl⟩
        obtain ⟨r2, -, r3⟩ := step1_rel (clk := clk q) ho hw
        refine move_fits h hp h1 ha hi (by rw [s1, s2]) hok ?_
        rw [r1, s2]
        rw [r2] at s3
        have hb := hp.serial.busy q a _ (by rw [← hp.serial.face.hub]; exact ha) hi
        obtain ⟨k1, -⟩ := Rely.step1 (B := SpecB) (clk := clk q) (own_keep (E := E a.ty) (name := a.name) (K := (kind · = a.ty))) hk
          (w := world g.site q a) hb.own
        refine .scan a who op _ _ k ha s3 k1 r3 ?_
        have hworld : world (g.move SpecB clk q a ⟨who, op, p.attempt.bind k⟩).site q a = (p.step1 SpecB (clk q) (world g.site q a)).2 := by
          have e3 : ((p.attempt.bind k).step1 SpecB (clk q) (world g.site q a)).2 = (p.step1 SpecB (clk q) (world g.site q a)).2 := by rw [r1]
          rw [← e3]
          unfold world Weave.move
          dsimp only
          rw [upd_same, upd_same]
        rw [hworld, Prog.step1_run]
        exact hd

theorem Loose.step (L : ∀ ty, (E ty).Lawful) (h : Loose b E clk kind f g) (hp : PairFrom E clk kind S g t) (h1 : g.site.hub.engines.length ≤ 1)
    (hok : ∀ q x, g.inside q = some x → x.rest.AllOps b.ok) (o : WeaveOp D O × Nat) (hr : f.Ample E b o) :
    Loose b E clk kind (f.stepIn E b.B clk o) (g.run E SpecB clk (f.spelt o.1)) := by
  obtain ⟨o, rounds⟩ := o
  rcases plain_or o with ⟨o', rfl, hop⟩ | hop
  · have e1 : f.scans (.site o') = none := by cases o' <;> first | rfl | cases hop
    have e2 : f.stepIn E b.B clk (.site o', rounds) = f.step E b.B clk (.site o') := by cases o' <;> first | rfl | cases hop
    unfold spelt
    rw [e1, e2]
    exact h.plain hp hop
  · cases o with
    | go q => exact h.go hp h1 hok q
    | site o =>
      cases o with
      | handle q i => exact h.handle q i
      | turn q op =>
        unfold spelt
        cases hs : f.scans (.site (.turn q op)) with
        | none => exact h.turn q op rounds hs
        | some q' =>
          have e : q' = q ∧ op = .tick := by
            cases op with
            | tick =>
              simp only [scans] at hs
              split at hs
              · split at hs
                · cases hs; exact ⟨rfl, rfl⟩
                · cases hs
              · cases hs
            | _ => cases hs
          obtain ⟨rfl, rfl⟩ := e
          exact h.scan L q' rounds hs hr
      | _ => exact absurd (hop _ rfl) (by simp [SiteOp.plain])

/-- Only plain steps change the registry. -/
theorem stepIn_hub {B : Backend} (f : Weave D O B) (o : WeaveOp D O × Nat) :
    (f.stepIn E B clk o).site.hub = f.site.hub ∨ ∃ op : SiteOp D O, o.1 = .site op ∧ op.plain = true ∧ f.stepIn E B clk o = f.step E B clk o.1 := by
  obtain ⟨o, rounds⟩ := o
  cases o with
  | go q =>
    refine .inl ?_
    show (f.go B clk q).site.hub = _
    unfold Weave.go
    split
    · split
      · unfold Weave.leave
        dsimp only
        split
        · rfl
        · split <;> rfl
      · rfl
    · rfl
  | site o =>
    cases o with
    | handle q i =>
      refine .inl ?_
      show (f.handle E B q i).site.hub = _
      unfold Weave.handle
      split
      · dsimp only
        split
        · rfl
        · split <;> rfl
      · rfl
    | turn q op =>
      refine .inl ?_
      show (f.turnIn E B q op rounds).site.hub = _
      unfold Weave.turnIn
      split
      · split <;> rfl
      · rfl
    | _ => exact .inr ⟨_, rfl, rfl, rfl⟩

theorem stepIn_more {B : Backend} (f : Weave D O B) (o : WeaveOp D O × Nat) :
    f.site.hub.engines.length ≤ (f.stepIn E B clk o).site.hub.engines.length ∧ ∀ a ∈ f.site.hub.queues, a ∈ (f.stepIn E B clk o).site.hub.queues := by
  rcases stepIn_hub (E := E) (clk := clk) f o with e | ⟨op, e1, e2, e3⟩
  · rw [e]; exact ⟨Nat.le_refl _, fun _ h => h⟩
  · rw [e3, e1, step_plain e2]
    exact ⟨Site.step_length _ _, Site.step_more _ _⟩

theorem runIn_more {B : Backend} (ops : List (WeaveOp D O × Nat)) (f : Weave D O B) :
    f.site.hub.engines.length ≤ (f.runIn E B clk ops).site.hub.engines.length ∧ ∀ a ∈ f.site.hub.queues, a ∈ (f.runIn E B clk ops).site.hub.queues := by
  induction ops generalizing f with
  | nil => exact ⟨Nat.le_refl _, fun _ h => h⟩
  | cons o ops ih =>
    obtain ⟨h1, h2⟩ := stepIn_more (E := E) (clk := clk) f o
    obtain ⟨h3, h4⟩ := ih (f.stepIn E B clk o)
    exact ⟨Nat.le_trans h1 h3, fun a ha => h4 a (h2 a ha)⟩

theorem mem_spelt {B : Backend} {f : Weave D O B} {o : WeaveOp D O} {c : Nat} {req : Req D} (h : .site (.begin c req) ∈ f.spelt o) : o = .site (.begin c req) := by
  unfold spelt at h
  split at h <;> simp at h <;> exact h.symm

/-- All that is known of the process with scans of any length. -/
structure Known (b : Impl) (E : Nat → Env D) (clk : Nat → Nat → Time) (kind : Str → Nat) (S : Site.Base E kind) (f : Weave D O b.B) (g : Weave D O SpecB) : Prop where
  loose : Loose b E clk kind f g
  pair : ∃ t, PairFrom E clk kind S g t
  ok : ∀ q x, g.inside q = some x → x.rest.AllOps b.ok

theorem spec_ok (b : Impl) {g : Weave D O SpecB} (h : ∀ q x, g.inside q = some x → x.rest.AllOps b.ok) {f : Weave D O b.B} (hs : Site.Rel b f.site g.site)
    (ops : List (WeaveOp D O)) (q : Nat) (x : Inside D O) (hx : (g.run E SpecB clk ops).inside q = some x) : x.rest.AllOps b.ok :=
  ((⟨hs, rfl, h⟩ : Rel b ⟨f.site, g.inside⟩ g).run (E := E) (clk := clk) ops).ok q x hx

theorem Known.step' (L : ∀ ty, (E ty).Lawful) (h : Known b E clk kind S f g) (o : WeaveOp D O × Nat) (hr : f.Ample E b o)
    (ho : ∀ c req, o.1 = .site (.begin c req) → req.On kind) (h0 : g.site.hub.engines.length ≤ 1)
    (h1 : (g.run E SpecB clk (f.spelt o.1)).site.hub.engines.length ≤ 1)
    (hk : ∀ a ∈ (g.run E SpecB clk (f.spelt o.1)).site.hub.queues, S.ok a) : Known b E clk kind S (f.stepIn E b.B clk o) (g.run E SpecB clk (f.spelt o.1)) := by
  obtain ⟨t, hp⟩ := h.pair
  exact ⟨h.loose.step L hp h0 h.ok o hr, hp.run L _ (fun c req hm => ho c req (mem_spelt hm)) h1 hk, spec_ok b h.ok h.loose.site _⟩

theorem Known.step (L : ∀ ty, (E ty).Lawful) (h : Known b E clk kind S f g) (o : WeaveOp D O × Nat) (hr : f.Ample E b o)
    (ho : ∀ c req, o.1 = .site (.begin c req) → req.On kind) (h1 : (f.stepIn E b.B clk o).site.hub.engines.length ≤ 1)
    (hk : ∀ a ∈ (f.stepIn E b.B clk o).site.hub.queues, S.ok a) : Known b E clk kind S (f.stepIn E b.B clk o) (g.run E SpecB clk (f.spelt o.1)) := by
  obtain ⟨t, hp⟩ := h.pair
  have h0 : g.site.hub.engines.length ≤ 1 := by rw [← h.loose.site.hub]; exact Nat.le_trans (stepIn_more f o).1 h1
  have hl := h.loose.step L hp h0 h.ok o hr
  exact h.step' L o hr ho h0 (by rw [← hl.site.hub]; exact h1) (by rw [← hl.site.hub]; exact hk)

theorem Known.run (L : ∀ ty, (E ty).Lawful) (h : Known b E clk kind S f g) (ops : List (WeaveOp D O × Nat)) (hr : f.AllAmple E clk b ops)
    (ho : ∀ c req n, (.site (.begin c req), n) ∈ ops → req.On kind) (h1 : (f.runIn E b.B clk ops).site.hub.engines.length ≤ 1)
    (hk : ∀ a ∈ (f.runIn E b.B clk ops).site.hub.queues, S.ok a) : Known b E clk kind S (f.runIn E b.B clk ops) (g.run E SpecB clk (f.spelling E clk ops)) := by
  induction ops generalizing f g with
  | nil => exact h
  | cons o ops ih =>
    obtain ⟨h2, h3⟩ := runIn_more (E := E) (clk := clk) ops (f.stepIn E b.B clk o)
    show Known b E clk kind S ((f.stepIn E b.B clk o).runIn E b.B clk ops) (g.run E SpecB clk (f.spelt o.1 ++ _))
    rw [run_append]
    refine ih (h.step L o hr.1 (fun c req e => ho c req o.2 ?_) (Nat.le_trans h2 h1) fun a ha => hk a (h3 a ha)) hr.2
      (fun c req n hm => ho c req n (List.mem_cons_of_mem _ hm)) h1 hk
    rw [← e]
    exact List.mem_cons_self ..

end Weave
end AJ
