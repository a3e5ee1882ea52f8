import Verif.Proofs.Site

/-! # A whole process: every work queue as if it were alone -/

namespace AJ
open Prog

/-! ## One turn -/

section
variable {D O : Type} {E : Env D} {name : Str} {K : Str → Prop} {clk : Nat → Time}

/-- A program that keeps to its part, run where the part is the same. -/
theorem keeps_run {α : Type} {post : α → Prop} {p : Prog α} (hk : Keeps E name K post p) {w w' : World SpecB} (ho : Own E name K w.s)
    (hs : SamePart name K w.s w'.s) (ht : w.t = w'.t) (hl : w.log = w'.log) :
    (p.run SpecB clk w).1 = (p.run SpecB clk w').1 ∧ (p.run SpecB clk w).2.t = (p.run SpecB clk w').2.t ∧
      (p.run SpecB clk w).2.log = (p.run SpecB clk w').2.log ∧ SamePart name K (p.run SpecB clk w).2.s (p.run SpecB clk w').2.s ∧
      Own E name K (p.run SpecB clk w).2.s ∧ (∀ a, (p.run SpecB clk w).1 = .ok a → post a) ∧
      ∀ name' K', name ≠ name' → (∀ k, K' k → ¬ K k) → SamePart name' K' w.s (p.run SpecB clk w).2.s := by
  induction p generalizing w w' with
  | ret a => exact ⟨rfl, ht, hl, hs, ho, fun b hb => (by cases hb; exact hk), fun _ _ _ _ => .refl _⟩
  | fail e => exact ⟨rfl, ht, hl, hs, ho, fun b hb => (by cases hb), fun _ _ _ _ => .refl _⟩
  | panic => exact ⟨rfl, ht, hl, hs, ho, fun b hb => (by cases hb), fun _ _ _ _ => .refl _⟩
  | diverge => exact ⟨rfl, ht, hl, hs, ho, fun b hb => (by cases hb), fun _ _ _ _ => .refl _⟩
  | now k ih =>
    have := ih (clk w.t) (hk (clk w.t)) (w := { w with t := w.t + 1 }) (w' := { w' with t := w'.t + 1 }) ho hs (congrArg (· + 1) ht) hl
    have e : (Prog.now k).run SpecB clk w' = (k (clk w.t)).run SpecB clk { w' with t := w'.t + 1 } := by
      show (k (clk w'.t)).run SpecB clk _ = _
      rw [ht]
    rw [e]
    exact this
  | emit e k ih => exact ih hk (w := { w with log := w.log ++ [e] }) (w' := { w' with log := w'.log ++ [e] }) ho hs ht (congrArg (· ++ [e]) hl)
  | call op k ih =>
    obtain ⟨h1, h2⟩ := own_agree hk.1 hs
    obtain ⟨h3, h4⟩ := own_keep op w.s hk.1 ho
    have := ih (SpecB.exec op w.s).1 (hk.2 _ h4) (w := { w with s := (SpecB.exec op w.s).2 }) (w' := { w' with s := (SpecB.exec op w'.s).2 }) h3 h2 ht hl
    have e : (Prog.call op k).run SpecB clk w' = (k (SpecB.exec op w.s).1).run SpecB clk { w' with s := (SpecB.exec op w'.s).2 } := by
      show (k (SpecB.exec op w'.s).1).run SpecB clk { w' with s := (SpecB.exec op w'.s).2 } = _
      rw [h1]
    rw [e]
    obtain ⟨a1, a2, a3, a4, a5, a6, a7⟩ := this
    exact ⟨a1, a2, a3, a4, a5, a6, fun n' K' hn hK => (other_agree hn hK hk.1 w.s).trans (a7 n' K' hn hK)⟩

/-- The same for work queue `name` with ids in `K`. -/
structure SameSys (name : Str) (K : Str → Prop) (s s' : Sys D SpecB) : Prop where
  proc : s.proc = s'.proc
  reads : s.w.t = s'.w.t
  log : s.w.log = s'.w.log
  part : SamePart name K s.w.s s'.w.s

theorem turn_same (L : E.Lawful) {s s' : Sys D SpecB} (hs : SameSys name K s s') (ho : Own E name K s.w.s) (hp : s.proc.On K) {op : Op D O}
    (hop : op.On K) :
    (Sys.step E name SpecB clk s op).2 = (Sys.step E name SpecB clk s' op).2 ∧
      SameSys name K (Sys.step E name SpecB clk s op).1 (Sys.step E name SpecB clk s' op).1 ∧
      Own E name K (Sys.step E name SpecB clk s op).1.w.s ∧ (Sys.step E name SpecB clk s op).1.proc.On K ∧
      ∀ name' K', name ≠ name' → (∀ k, K' k → ¬ K k) → SamePart name' K' s.w.s (Sys.step E name SpecB clk s op).1.w.s := by
  obtain ⟨a1, a2, a3, a4, a5, a6, a7⟩ := keeps_run (clk := clk) (keeps_turn (name := name) L hp hop) ho hs.part hs.reads hs.log
  have e := run_turn (E := E) (name := name) (clk := clk) s op
  have e' := run_turn (E := E) (name := name) (clk := clk) s' op
  rw [← hs.proc] at e'
  rw [e, e'] at a1 a2 a3 a4
  rw [e] at a5 a6 a7
  simp only [Out.ok.injEq, Prod.mk.injEq] at a1
  exact ⟨a1.2, ⟨a1.1, a2, a3, a4⟩, a5, a6 _ rfl, a7⟩

/-- A job is read under its id. -/
theorem get_id {s : Sys D SpecB} (ho : Own E name K s.w.s) {id : Str} (hid : K id) {j : Job D}
    (h : (Sys.step E name SpecB clk s (.get id : Op D O)).2 = .job (some j)) : j.id = id := by
  obtain ⟨w, cfg, tasks, alive⟩ := s
  cases alive with
  | false => cases h
  | true =>
    obtain ⟨-, -, -, -, -, a6, -⟩ := keeps_run (clk := clk) (keeps_get (E := E) (name := name) (K := K) id hid) ho (.refl w.s) rfl rfl
    have h : (Sys.handle SpecB clk ⟨w, cfg, tasks, true⟩ (WorkQueue.getJob E id) (.job none) (fun r => match r with
        | .ok j => .job j
        | .error _ => .job none)).2 = .job (some j) := h
    unfold Sys.handle at h
    have e : (getFromStorage E id).run SpecB clk w = (WorkQueue.getJob E id).run SpecB clk w := rfl
    rw [e] at a6
    revert h a6
    generalize (WorkQueue.getJob E id).run SpecB clk w = x
    obtain ⟨r, w'⟩ := x
    intro a6 h
    cases r with
    | ok a =>
      simp only [Resp.job.injEq] at h
      exact a6 a rfl j h
    | err e => cases h
    | panicked => cases h
    | diverged => cases h

theorem runOps_snoc {B : Backend} (s : Sys D B) (ops : List (Op D O)) (op : Op D O) :
    Sys.runOps E name B clk s (ops ++ [op]) =
      ((Sys.step E name B clk (Sys.runOps E name B clk s ops).1 op).1,
        (Sys.runOps E name B clk s ops).2 ++ [(Sys.step E name B clk (Sys.runOps E name B clk s ops).1 op).2]) := by
  induction ops generalizing s with
  | nil => rfl
  | cons o ops ih =>
    show (let (s1, r) := Sys.step E name B clk s o; let (s2, rs) := Sys.runOps E name B clk s1 (ops ++ [op]); (s2, r :: rs)) = _
    dsimp only
    rw [ih]
    rfl

end

theorem turnsOf_append {D O : Type} (q : Nat) (tr tr' : List (SiteEvent D O)) : turnsOf q (tr ++ tr') = turnsOf q tr ++ turnsOf q tr' := by
  simp [turnsOf]

/-! ## The process -/

namespace Site
variable {D O : Type} {E : Nat → Env D} {clk : Nat → Nat → Time} {kind : Str → Nat}

/-- The client's messages are about ids of the type of its request. -/
def UserOn (kind : Str → Nat) : User D O → Prop
  | .free => True
  | .asking req op _ => req.On kind ∧ ∀ o ty, op = some o → req.call.ty? = some ty → o.On (kind · = ty)
  | .posted req op _ _ => req.On kind ∧ ∀ ty, req.call.ty? = some ty → op.On (kind · = ty)
  | .told req again r => req.On kind ∧ ∀ ty n id d x j, req = .update ty n id d x → again = false → r = .job (some j) → kind j.id = ty
  | .done _ _ => True

/-- The work queues that may come up, and what each of them would find were it alone. -/
structure Base (E : Nat → Env D) (kind : Str → Nat) where
  ok : QueueActor → Prop
  start : QueueActor → SpecState
  own : ∀ a, ok a → Own (E a.ty) a.name (kind · = a.ty) (start a)

/-- All of them, on nothing. -/
def Base.empty (E : Nat → Env D) (kind : Str → Nat) : Base E kind :=
  ⟨fun _ => True, fun _ => Spec.empty, fun _ _ => ⟨fun _ _ h => (by cases h), fun _ _ _ h => (by cases h)⟩⟩

/-- Every work queue is where it would be had it taken its turns alone. -/
structure AloneFrom (E : Nat → Env D) (clk : Nat → Nat → Time) (kind : Str → Nat) (S : Base E kind) (t : Site D O SpecB) : Prop where
  fresh : ∀ q : Nat, t.hub.queues.length ≤ q → (t.boxes q).proc = {} ∧ (t.boxes q).reads = 0 ∧ (t.boxes q).log = [] ∧ turnsOf q t.trace = []
  own : ∀ (q : Nat) (a : QueueActor), t.hub.queues[q]? = some a → Own (E a.ty) a.name (kind · = a.ty) (t.stores a.backend)
  on : ∀ (q : Nat) (a : QueueActor), t.hub.queues[q]? = some a → (t.boxes q).proc.On (kind · = a.ty)
  queue : ∀ (q : Nat) (a : QueueActor), t.hub.queues[q]? = some a →
    let r := Sys.runOps (E a.ty) a.name SpecB (clk q) (Sys.init SpecB (S.start a)) ((turnsOf q t.trace).map Prod.fst)
    r.2 = (turnsOf q t.trace).map Prod.snd ∧ SameSys a.name (kind · = a.ty) (t.sys q a) r.1
  blank : ∀ a, S.ok a → (∀ (q : Nat) (a' : QueueActor), t.hub.queues[q]? = some a' → a'.backend = a.backend → a'.name ≠ a.name ∧ a'.ty ≠ a.ty) →
    SamePart a.name (kind · = a.ty) (t.stores a.backend) (S.start a)
  users : ∀ c, UserOn kind (t.users c)

/-- The same, where the backends are empty at first. -/
abbrev Alone (E : Nat → Env D) (clk : Nat → Nat → Time) (kind : Str → Nat) (t : Site D O SpecB) : Prop := AloneFrom E clk kind (Base.empty E kind) t

theorem alone_init : Alone E clk kind (init SpecB (fun _ => Spec.empty) : Site D O SpecB) :=
  ⟨fun _ _ => ⟨rfl, rfl, rfl, rfl⟩, fun _ _ h => (by simp [init] at h), fun _ _ h => (by simp [init] at h), fun _ _ h => (by simp [init] at h),
    fun _ _ _ => .refl _, fun _ => trivial⟩

/-- On what is left of an earlier process. -/
theorem alone_from {S : Base E kind} {s : Nat → SpecState} (h : ∀ a, S.ok a → SamePart a.name (kind · = a.ty) (s a.backend) (S.start a)) :
    AloneFrom E clk kind S (init SpecB s : Site D O SpecB) :=
  ⟨fun _ _ => ⟨rfl, rfl, rfl, rfl⟩, fun _ _ h => (by simp [init] at h), fun _ _ h => (by simp [init] at h), fun _ _ h => (by simp [init] at h),
    fun a ha _ => h a ha, fun _ => trivial⟩

variable {t : Site D O SpecB} {S : Base E kind}

/-- The registry goes on. -/
theorem AloneFrom.hub (h : AloneFrom E clk kind S t) {hub : Hub} {more : List QueueActor} (hq : hub.queues = t.hub.queues ++ more) (ho : hub.Once) (hk : ∀ a ∈ hub.queues, S.ok a) :
    AloneFrom E clk kind S { t with hub := hub } := by
  have hold : ∀ {q : Nat} {a : QueueActor}, t.hub.queues[q]? = some a → hub.queues[q]? = some a := by
    intro q a h1
    rw [hq, List.getElem?_append_left (List.getElem?_eq_some_iff.1 h1).1]; exact h1
  have hcase : ∀ {q : Nat} {a : QueueActor}, hub.queues[q]? = some a → t.hub.queues[q]? = some a ∨ t.hub.queues.length ≤ q := by
    intro q a h1
    by_cases e : q < t.hub.queues.length
    · rw [hq, List.getElem?_append_left e] at h1; exact .inl h1
    · exact .inr (Nat.le_of_not_lt e)
  have hnew : ∀ {q : Nat} {a : QueueActor}, hub.queues[q]? = some a → t.hub.queues.length ≤ q →
      SamePart a.name (kind · = a.ty) (t.stores a.backend) (S.start a) := by
    intro q a h1 h2
    refine h.blank a (hk a (List.mem_of_getElem? h1)) fun p b hp _ => ⟨fun e => ?_, fun e => ?_⟩
    · have := ho.names p q b a (hold hp) h1 e
      exact absurd (List.getElem?_eq_some_iff.1 hp).1 (by omega)
    · have := ho.types p q b a (hold hp) h1 e
      exact absurd (List.getElem?_eq_some_iff.1 hp).1 (by omega)
  refine ⟨fun q hq' => h.fresh q ?_, fun q a ha => ?_, fun q a ha => ?_, fun q a ha => ?_, fun b hb hn => ?_, h.users⟩
  · have : hub.queues.length ≤ q := hq'
    rw [hq, List.length_append] at this; omega
  · rcases hcase ha with h1 | h1
    · exact h.own q a h1
    · exact (S.own a (hk a (List.mem_of_getElem? ha))).agree (hnew ha h1).symm
  · rcases hcase ha with h1 | h1
    · exact h.on q a h1
    · show (t.boxes q).proc.On _
      rw [(h.fresh q h1).1]
      intro x hx
      cases hx
  · rcases hcase ha with h1 | h1
    · exact h.queue q a h1
    · obtain ⟨h2, h3, h4, h5⟩ := h.fresh q h1
      have h6 := hnew ha h1
      show (_ ∧ SameSys _ _ (t.sys q a) _)
      show let r := Sys.runOps (E a.ty) a.name SpecB (clk q) (Sys.init SpecB (S.start a)) ((turnsOf q t.trace).map Prod.fst); r.2 = (turnsOf q t.trace).map Prod.snd ∧ _
      rw [h5]
      refine ⟨rfl, ?_, ?_, ?_, h6⟩
      · show Proc.mk (t.boxes q).proc.cfg (t.boxes q).proc.tasks (t.boxes q).proc.alive = _
        rw [h2]; rfl
      · exact h3
      · exact h4
  · exact h.blank b hb fun q a ha => hn q a (hold ha)

/-- Nothing happens at the work queues. -/
theorem AloneFrom.same (h : AloneFrom E clk kind S t) {t' : Site D O SpecB} (hq : t'.hub.queues = t.hub.queues) (hs : t'.stores = t.stores)
    (hb : ∀ q, (t'.boxes q).proc = (t.boxes q).proc ∧ (t'.boxes q).reads = (t.boxes q).reads ∧ (t'.boxes q).log = (t.boxes q).log)
    (ht : ∀ q, turnsOf q t'.trace = turnsOf q t.trace) (hu : ∀ c, UserOn kind (t'.users c)) : AloneFrom E clk kind S t' := by
  refine ⟨fun q => ?_, fun q a => ?_, fun q a => ?_, fun q a ha => ?_, fun b => ?_, hu⟩
  · rw [hq, (hb q).1, (hb q).2.1, (hb q).2.2, ht]; exact h.fresh q
  · rw [hq, hs]; exact h.own q a
  · rw [hq, (hb q).1]; exact h.on q a
  · rw [hq] at ha
    have hsys : t'.sys q a = t.sys q a := by
      unfold Site.sys
      rw [hs, (hb q).1, (hb q).2.1, (hb q).2.2]
    rw [ht, hsys]
    exact h.queue q a ha
  · rw [hq, hs]; exact h.blank b

/-- A work queue takes a turn. -/
theorem alone_play (L : ∀ ty, (E ty).Lawful) (ho : t.hub.Once) (h : AloneFrom E clk kind S t) {q : Nat} {a : QueueActor} (ha : t.hub.queues[q]? = some a)
    (who : Option Nat) {op : Op D O} (hop : op.On (kind · = a.ty)) : AloneFrom E clk kind S (t.play E SpecB clk q a who op).1 := by
  obtain ⟨hr, hs⟩ := h.queue q a ha
  obtain ⟨h1, h2, h3, h4, h5⟩ := turn_same (clk := clk q) (L a.ty) hs (h.own q a ha) (h.on q a ha) hop
  have hturn : (t.play E SpecB clk q a who op).1.trace = t.trace ++ [.turn q who op (Sys.step (E a.ty) a.name SpecB (clk q) (t.sys q a) op).2] := rfl
  have hqs : (t.play E SpecB clk q a who op).1.hub.queues = t.hub.queues := rfl
  have hstore : ∀ β, (t.play E SpecB clk q a who op).1.stores β =
      if β = a.backend then (Sys.step (E a.ty) a.name SpecB (clk q) (t.sys q a) op).1.w.s else t.stores β := fun β => rfl
  have hbox : ∀ p, p ≠ q → (t.play E SpecB clk q a who op).1.boxes p = t.boxes p := by
    intro p hp
    show upd t.boxes q _ p = _
    simp [upd, hp]
  have hself : (t.play E SpecB clk q a who op).1.sys q a = (Sys.step (E a.ty) a.name SpecB (clk q) (t.sys q a) op).1 := by
    have e1 : (t.play E SpecB clk q a who op).1.boxes q = { t.boxes q with
        proc := (Sys.step (E a.ty) a.name SpecB (clk q) (t.sys q a) op).1.proc
        reads := (Sys.step (E a.ty) a.name SpecB (clk q) (t.sys q a) op).1.w.t
        log := (Sys.step (E a.ty) a.name SpecB (clk q) (t.sys q a) op).1.w.log } := by
      show upd t.boxes q _ q = _
      rw [upd_same]; rfl
    unfold Site.sys
    rw [e1, hstore, if_pos rfl]
    rfl
  have hturns : ∀ p, turnsOf p (t.play E SpecB clk q a who op).1.trace =
      turnsOf p t.trace ++ if q = p then [(op, (Sys.step (E a.ty) a.name SpecB (clk q) (t.sys q a) op).2)] else [] := by
    intro p
    rw [hturn, turnsOf_append]
    congr 1
    simp only [turnsOf, SiteEvent.at, List.filterMap_cons, List.filterMap_nil]
    split
    · next e => split at e
                · cases e
                · next e' => rw [if_neg e']
    · next e => split at e
                · next e' => cases e; rw [if_pos e']
                · cases e
  have hother : ∀ β n ty, n ≠ a.name → ty ≠ a.ty → SamePart n (kind · = ty) (t.stores β) ((t.play E SpecB clk q a who op).1.stores β) := by
    intro β n ty hn hty
    rw [hstore]
    split
    · next e => subst e; exact h5 n (kind · = ty) (Ne.symm hn) fun k h6 h7 => hty (h6.symm.trans h7)
    · exact .refl _
  have hne : ∀ {p : Nat} {b : QueueActor}, t.hub.queues[p]? = some b → p ≠ q → b.name ≠ a.name ∧ b.ty ≠ a.ty := fun hp hpq =>
    ⟨fun e => hpq (ho.names _ _ _ _ hp ha e), fun e => hpq (ho.types _ _ _ _ hp ha e)⟩
  refine ⟨fun p hp => ?_, fun p b hb => ?_, fun p b hb => ?_, fun p b hb => ?_, fun b hb hn => ?_, h.users⟩
  · have hpq : p ≠ q := by
      rintro rfl
      have := (List.getElem?_eq_some_iff.1 ha).1
      rw [hqs] at hp
      omega
    rw [hbox p hpq, hturns, if_neg (Ne.symm hpq), List.append_nil]
    exact h.fresh p hp
  · replace hb : t.hub.queues[p]? = some b := hb
    by_cases hpq : p = q
    · subst hpq
      rw [ha] at hb
      cases hb
      rw [hstore, if_pos rfl]
      exact h3
    · exact (h.own p b hb).agree (hother b.backend b.name b.ty (hne hb hpq).1 (hne hb hpq).2)
  · replace hb : t.hub.queues[p]? = some b := hb
    by_cases hpq : p = q
    · subst hpq
      rw [ha] at hb
      cases hb
      have : ((t.play E SpecB clk p a who op).1.boxes p).proc = ((t.play E SpecB clk p a who op).1.sys p a).proc := rfl
      rw [this, hself]
      exact h4
    · rw [hbox p hpq]; exact h.on p b hb
  · replace hb : t.hub.queues[p]? = some b := hb
    by_cases hpq : p = q
    · subst hpq
      rw [ha] at hb
      cases hb
      rw [hturns, if_pos rfl, hself, List.map_append, List.map_append]
      simp only [List.map_cons, List.map_nil]
      rw [runOps_snoc]
      refine ⟨?_, h2⟩
      rw [hr, h1]
    · rw [hturns, if_neg (Ne.symm hpq), List.append_nil]
      obtain ⟨h6, h7⟩ := h.queue p b hb
      refine ⟨h6, ?_, ?_, ?_, ?_⟩
      · rw [← h7.proc]; simp only [Sys.proc, Site.sys, hbox p hpq]
      · rw [← h7.reads]; show ((t.play E SpecB clk q a who op).1.boxes p).reads = _; rw [hbox p hpq]; rfl
      · rw [← h7.log]; show ((t.play E SpecB clk q a who op).1.boxes p).log = _; rw [hbox p hpq]; rfl
      · exact (hother b.backend b.name b.ty (hne hb hpq).1 (hne hb hpq).2).symm.trans h7.part
  · have hn : ∀ (q : Nat) (a' : QueueActor), t.hub.queues[q]? = some a' → a'.backend = b.backend → a'.name ≠ b.name ∧ a'.ty ≠ b.ty := hn
    refine SamePart.trans ?_ (h.blank b hb hn)
    by_cases e : a.backend = b.backend
    · exact (hother b.backend b.name b.ty (hn q a ha e).1.symm (hn q a ha e).2.symm).symm
    · rw [hstore, if_neg (Ne.symm e)]; exact .refl _

theorem req_on {req : Req D} (h : req.On kind) {op : Op D O} {ty : Nat} (hop : req.op = some op) (hty : req.call.ty? = some ty) :
    op.On (kind · = ty) := by
  cases req with
  | start => cases hop
  | config => cases hop; trivial
  | update => cases hop; cases hty; exact h.1
  | _ => cases hop; cases hty; exact h

/-- A client goes on. -/
theorem AloneFrom.user (h : AloneFrom E clk kind S t) {c : Nat} {u : User D O} (hu : UserOn kind u) : AloneFrom E clk kind S (t.go SpecB c u) := by
  refine h.same rfl rfl (fun _ => ⟨rfl, rfl, rfl⟩) (fun _ => rfl) fun d => ?_
  show UserOn kind (upd t.users c u d)
  unfold upd
  split
  · exact hu
  · exact h.users d

theorem AloneFrom.see (h : AloneFrom E clk kind S t) {e : SiteEvent D O} (he : ∀ q, e.at q = none) : AloneFrom E clk kind S (t.see SpecB e) :=
  h.same rfl rfl (fun _ => ⟨rfl, rfl, rfl⟩) (fun q => by
    show turnsOf q (t.trace ++ [e]) = _
    rw [turnsOf_append]
    simp [turnsOf, he]) h.users

theorem alone_stepFrom (L : ∀ ty, (E ty).Lawful) (hl : Links t) (h : AloneFrom E clk kind S t) (op : SiteOp D O)
    (hop : ∀ c req, op = .begin c req → req.On kind) (ho : t.hub.Once) (ho' : (t.step E SpecB clk op).hub.Once)
    (hk : ∀ a ∈ (t.step E SpecB clk op).hub.queues, S.ok a) :
    AloneFrom E clk kind S (t.step E SpecB clk op) := by
  have hub : ∀ o : HubOp, ((t.hub.step o).Once ∧ ∀ a ∈ (t.hub.step o).queues, S.ok a) → AloneFrom E clk kind S { t with hub := t.hub.step o } := fun o h1 =>
    h.hub (t.hub.step_more o).choose_spec h1.1 h1.2
  replace ho' := And.intro ho' hk
  clear hk
  cases op with
  | begin c req =>
    have hon := hop c req rfl
    have hb : ((t.hub.begin c req.call).Once ∧ ∀ a ∈ (t.hub.begin c req.call).queues, S.ok a) → AloneFrom E clk kind S
        (({ t with hub := t.hub.begin c req.call }.go SpecB c (.asking req req.op false)).see SpecB (.call c req)) := fun h1 =>
      ((hub (.begin c req.call) h1).user (c := c) (u := .asking req req.op false) ⟨hon, fun o ty h1 h2 => req_on hon h1 h2⟩).see fun _ => rfl
    revert ho'
    show ((t.begin SpecB c req).hub.Once ∧ ∀ a ∈ (t.begin SpecB c req).hub.queues, S.ok a) → AloneFrom E clk kind S (t.begin SpecB c req)
    unfold begin
    cases t.users c with
    | free => exact hb
    | done => exact hb
    | asking => exact fun _ => h
    | posted => exact fun _ => h
    | told => exact fun _ => h
  | client c x =>
    revert ho'
    show ((t.client SpecB c x).hub.Once ∧ ∀ a ∈ (t.client SpecB c x).hub.queues, S.ok a) → AloneFrom E clk kind S (t.client SpecB c x)
    unfold client
    split
    · exact fun _ => h
    · exact hub (.client c x)
  | engine e => exact hub (.engine e) ho'
  | post c =>
    show AloneFrom E clk kind S (t.post SpecB c)
    unfold post
    split
    · next req op again hu =>
      have hc := h.users c
      rw [hu] at hc
      have send : ∀ o q, op = some o → AloneFrom E clk kind S (t.send SpecB c req o again q) := by
        intro o q ho
        have hb : ∀ p, ((upd t.boxes q { t.boxes q with mailbox := (t.boxes q).mailbox ++ [(c, o)] }) p).proc = (t.boxes p).proc ∧
            ((upd t.boxes q { t.boxes q with mailbox := (t.boxes q).mailbox ++ [(c, o)] }) p).reads = (t.boxes p).reads ∧
            ((upd t.boxes q { t.boxes q with mailbox := (t.boxes q).mailbox ++ [(c, o)] }) p).log = (t.boxes p).log := by
          intro p
          unfold upd
          split
          · next e => subst e; exact ⟨rfl, rfl, rfl⟩
          · exact ⟨rfl, rfl, rfl⟩
        exact (h.same (t' := { t with boxes := upd t.boxes q { t.boxes q with mailbox := (t.boxes q).mailbox ++ [(c, o)] } }) rfl rfl hb
          (fun _ => rfl) h.users).user ⟨hc.1, fun ty hty => hc.2 o ty ho hty⟩
      split
      · exact send _ _ rfl
      · split
        · exact h
        · exact send _ _ rfl
      · next call r _ _ => exact (h.user (c := c) (u := .done req (.short r)) trivial).see fun _ => rfl
      · exact h
    · exact h
  | handle q i =>
    show AloneFrom E clk kind S (t.handle E SpecB clk q i)
    unfold handle
    split
    · exact h
    · next a ha =>
      dsimp only
      generalize (if (t.boxes q).proc.alive then 0 else i) = i
      split
      · exact h
      · next c op hi =>
        obtain ⟨req, again, hu⟩ := (hl.mail q c op).1 (List.mem_of_getElem? hi)
        rw [hu]
        dsimp only
        have hc := h.users c
        rw [hu] at hc
        have hlink := hl.users c
        rw [hu] at hlink
        obtain ⟨a', h1, hty⟩ := hlink.2.typed hl.typed
        rw [ha] at h1
        cases h1
        have hp := alone_play L ho h ha (some c) (hc.2 _ hty)
        obtain ⟨past, now, -, -, evs, -, hunder⟩ : Tale _ c _ (.posted req op again q) := by have := hl.tale c; rwa [hu] at this
        have hr : (t.play E SpecB clk q a (some c) op).2 = (Sys.step (E a.ty) a.name SpecB (clk q) (t.sys q a) op).2 := rfl
        revert hp hr
        generalize t.play E SpecB clk q a (some c) op = y
        obtain ⟨t', r⟩ := y
        intro hp hr'
        dsimp only at hp hr' ⊢
        refine AloneFrom.user (u := .told req again r)
          (t := { t' with boxes := upd t'.boxes q ({ t'.boxes q with mailbox := (t'.boxes q).mailbox.eraseIdx i }) })
          (hp.same rfl rfl (fun p => ?_) (fun _ => rfl) hp.users) ⟨hc.1, ?_⟩
        · dsimp only [upd]
          split
          · next e => subst e; exact ⟨rfl, rfl, rfl⟩
          · exact ⟨rfl, rfl, rfl⟩
        · rintro ty n id d x j rfl rfl hr
          generalize hso : some op = so at hunder
          cases hunder
          have : op = .get id := by cases hso; rfl
          subst this
          have hid : kind id = ty := hc.1.1
          have hty : ty = a.ty := by cases hty; rfl
          have := get_id (clk := clk q) (s := t.sys q a) (h.own q a ha) (id := id) (hid.trans hty) (hr'.symm.trans hr)
          rw [this]; exact hid
  | turn q op =>
    show AloneFrom E clk kind S (t.turn E SpecB clk q op)
    unfold turn
    split
    · exact h
    · next a ha =>
      split
      · next hin =>
        refine alone_play L ho h ha none ?_
        cases op <;> trivial
      · exact h
  | take c =>
    revert ho'
    show ((t.take SpecB c).hub.Once ∧ ∀ a ∈ (t.take SpecB c).hub.queues, S.ok a) → AloneFrom E clk kind S (t.take SpecB c)
    unfold take
    split
    · next ty name id data context r hu =>
      have hc := h.users c
      rw [hu] at hc
      dsimp only
      split
      · next op hop =>
        obtain ⟨j, hj, hop'⟩ : ∃ j, r = .job (some j) ∧ op = updated j data context := by
          cases r with
          | job j =>
            cases j with
            | none => cases hop
            | some j => exact ⟨j, rfl, by cases hop; rfl⟩
          | unit => cases hop
          | bool => cases hop
          | silent => cases hop
        subst hj
        subst hop'
        intro h1
        refine (hub (.client c true) h1).user (u := .asking (.update ty name id data context) (some (updated j data context)) true) ⟨hc.1, fun o ty' h2 h3 => ?_⟩
        cases h2
        cases h3
        show kind (context.getD j.context).jobId = ty
        cases hx : context with
        | none => exact hc.2 ty name id data context j rfl rfl rfl
        | some x => exact hc.1.2 x hx
      · exact fun h1 => ((hub (.client c false) h1).user (c := c) (u := .done (.update ty name id data context) (.answer (.unit (.ok ())))) trivial).see fun _ => rfl
    · next req again r _ _ => exact fun _ => (h.user (c := c) (u := .done req (.answer r)) trivial).see fun _ => rfl
    · exact fun _ => h

end Site

/-! ## One engine -/

namespace Site
variable {D O : Type} {E : Nat → Env D} {B : Backend} {clk : Nat → Nat → Time}

/-- A step of the process is at most one step of the registry. -/
theorem step_hub (t : Site D O B) (op : SiteOp D O) : (t.step E B clk op).hub = t.hub ∨ ∃ o, (t.step E B clk op).hub = t.hub.step o := by
  cases op with
  | begin c req =>
    show (t.begin B c req).hub = _ ∨ ∃ o, (t.begin B c req).hub = _
    unfold begin
    cases t.users c with
    | free => exact .inr ⟨.begin c req.call, rfl⟩
    | done => exact .inr ⟨.begin c req.call, rfl⟩
    | asking => exact .inl rfl
    | posted => exact .inl rfl
    | told => exact .inl rfl
  | client c x =>
    show (t.client B c x).hub = _ ∨ ∃ o, (t.client B c x).hub = _
    unfold client
    split
    · exact .inl rfl
    · exact .inr ⟨.client c x, rfl⟩
  | engine e => exact .inr ⟨.engine e, rfl⟩
  | post c =>
    left
    show (t.post B c).hub = _
    unfold post
    split
    · split
      · rfl
      · split <;> rfl
      · rfl
      · rfl
    · rfl
  | handle q i =>
    left
    show (t.handle E B clk q i).hub = _
    unfold handle
    split
    · rfl
    · dsimp only
      split
      · rfl
      · split <;> rfl
  | turn q op =>
    left
    show (t.turn E B clk q op).hub = _
    unfold turn
    split
    · rfl
    · split <;> rfl
  | take c =>
    show (t.take B c).hub = _ ∨ ∃ o, (t.take B c).hub = _
    unfold take
    split
    · dsimp only
      split
      · exact .inr ⟨.client c true, rfl⟩
      · exact .inr ⟨.client c false, rfl⟩
    · exact .inl rfl
    · exact .inl rfl

theorem step_length (t : Site D O B) (op : SiteOp D O) : t.hub.engines.length ≤ (t.step E B clk op).hub.engines.length := by
  rcases step_hub (E := E) (clk := clk) t op with h | ⟨o, h⟩ <;> rw [h]
  · exact Nat.le_refl _
  · exact Hub.step_length _ _

theorem run_length (t : Site D O B) (ops : List (SiteOp D O)) : t.hub.engines.length ≤ (t.run E B clk ops).hub.engines.length := by
  induction ops generalizing t with
  | nil => exact Nat.le_refl _
  | cons op ops ih => exact Nat.le_trans (step_length t op) (ih _)

theorem step_single {t : Site D O B} (hs : t.hub.Single) (h1 : t.hub.engines.length ≤ 1) (op : SiteOp D O) : (t.step E B clk op).hub.Single := by
  rcases step_hub (E := E) (clk := clk) t op with h | ⟨o, h⟩ <;> rw [h]
  · exact hs
  · exact Hub.step_single hs h1 o

theorem alone_step (L : ∀ ty, (E ty).Lawful) {kind : Str → Nat} {t : Site D O SpecB} (hl : Links t) (h : Alone E clk kind t) (op : SiteOp D O)
    (hop : ∀ c req, op = .begin c req → req.On kind) (ho : t.hub.Once) (ho' : (t.step E SpecB clk op).hub.Once) :
    Alone E clk kind (t.step E SpecB clk op) := alone_stepFrom L hl h op hop ho ho' fun _ _ => trivial

theorem step_more (t : Site D O B) (op : SiteOp D O) : ∀ a ∈ t.hub.queues, a ∈ (t.step E B clk op).hub.queues := by
  intro a ha
  rcases step_hub (E := E) (clk := clk) t op with h | ⟨o, h⟩ <;> rw [h]
  · exact ha
  · obtain ⟨more, hm⟩ := t.hub.step_more o
    rw [hm]
    exact List.mem_append_left _ ha

theorem run_more (t : Site D O B) (ops : List (SiteOp D O)) : ∀ a ∈ t.hub.queues, a ∈ (t.run E B clk ops).hub.queues := by
  induction ops generalizing t with
  | nil => exact fun _ h => h
  | cons op ops ih => exact fun a ha => ih _ a (step_more t op a ha)

theorem alone_runFrom (L : ∀ ty, (E ty).Lawful) {kind : Str → Nat} {S : Base E kind} {t : Site D O SpecB} (hl : Links t) (h : AloneFrom E clk kind S t)
    (hs : t.hub.Single) (ops : List (SiteOp D O)) (hops : ∀ c req, .begin c req ∈ ops → req.On kind) (h1 : (t.run E SpecB clk ops).hub.engines.length ≤ 1)
    (hk : ∀ a ∈ (t.run E SpecB clk ops).hub.queues, S.ok a) : AloneFrom E clk kind S (t.run E SpecB clk ops) := by
  induction ops generalizing t with
  | nil => exact h
  | cons op ops ih =>
    have h2 : (t.step E SpecB clk op).hub.engines.length ≤ 1 := Nat.le_trans (run_length _ ops) h1
    have h3 : t.hub.engines.length ≤ 1 := Nat.le_trans (step_length t op) h2
    have hs' := step_single (E := E) (clk := clk) hs h3 op
    exact ih (links_step hl op) (alone_stepFrom L hl h op (fun c req e => hops c req (e ▸ List.mem_cons_self ..)) (hs.once h3) (hs'.once h2)
      (fun a ha => hk a (run_more _ ops a ha))) hs' (fun c req hm => hops c req (List.mem_cons_of_mem _ hm)) h1 hk

theorem alone_run (L : ∀ ty, (E ty).Lawful) {kind : Str → Nat} {t : Site D O SpecB} (hl : Links t) (h : Alone E clk kind t) (hs : t.hub.Single)
    (ops : List (SiteOp D O)) (hops : ∀ c req, .begin c req ∈ ops → req.On kind) (h1 : (t.run E SpecB clk ops).hub.engines.length ≤ 1) :
    Alone E clk kind (t.run E SpecB clk ops) := alone_runFrom L hl h hs ops hops h1 fun _ _ => trivial

end Site

/-! ## Every backend -/

namespace Site
variable {D O : Type} {E : Nat → Env D} {clk : Nat → Nat → Time} {b : Impl}

/-- The same process on two backends. -/
structure Rel (b : Impl) (t : Site D O b.B) (n : Site D O SpecB) : Prop where
  hub : t.hub = n.hub
  boxes : t.boxes = n.boxes
  stores : ∀ β, b.sim.R (t.stores β) (n.stores β)
  users : t.users = n.users
  trace : t.trace = n.trace

theorem Rel.play {t : Site D O b.B} {n : Site D O SpecB} (h : Rel b t n) (q : Nat) (a : QueueActor) (who : Option Nat) (op : Op D O) :
    Rel b (t.play E b.B clk q a who op).1 (n.play E SpecB clk q a who op).1 ∧
      (t.play E b.B clk q a who op).2 = (n.play E SpecB clk q a who op).2 := by
  have hs : b.sim.RS (t.sys q a) (n.sys q a) := by
    refine ⟨⟨h.stores _, ?_, ?_⟩, ?_, ?_, ?_⟩ <;> simp only [Site.sys, h.boxes]
  obtain ⟨h1, h2⟩ := Impl.rs_step (E := E a.ty) (name := a.name) (clk := clk q) hs op
  refine ⟨⟨h.hub, ?_, fun β => ?_, h.users, ?_⟩, h1⟩
  · show upd t.boxes q { t.boxes q with
        proc := (Sys.step (E a.ty) a.name b.B (clk q) (t.sys q a) op).1.proc
        reads := (Sys.step (E a.ty) a.name b.B (clk q) (t.sys q a) op).1.w.t
        log := (Sys.step (E a.ty) a.name b.B (clk q) (t.sys q a) op).1.w.log } = upd n.boxes q { n.boxes q with
        proc := (Sys.step (E a.ty) a.name SpecB (clk q) (n.sys q a) op).1.proc
        reads := (Sys.step (E a.ty) a.name SpecB (clk q) (n.sys q a) op).1.w.t
        log := (Sys.step (E a.ty) a.name SpecB (clk q) (n.sys q a) op).1.w.log }
    rw [h.boxes, h2.w.t, h2.w.log]
    unfold Sys.proc
    rw [h2.cfg, h2.tasks, h2.alive]
  · show b.sim.R (upd t.stores a.backend (Sys.step (E a.ty) a.name b.B (clk q) (t.sys q a) op).1.w.s β)
      (upd n.stores a.backend (Sys.step (E a.ty) a.name SpecB (clk q) (n.sys q a) op).1.w.s β)
    unfold upd
    split
    · exact h2.w.s
    · exact h.stores β
  · show t.trace ++ [_] = n.trace ++ [_]
    rw [h.trace]
    exact congrArg (fun r => n.trace ++ [SiteEvent.turn q who op r]) h1

theorem Rel.step {t : Site D O b.B} {n : Site D O SpecB} (h : Rel b t n) (op : SiteOp D O) :
    Rel b (t.step E b.B clk op) (n.step E SpecB clk op) := by
  obtain ⟨hub, boxes, stores, users, trace⟩ := t
  obtain ⟨hub', boxes', stores', users', trace'⟩ := n
  obtain ⟨h1, h2, h3, h4, h5⟩ := h
  simp only at h1 h2 h4 h5
  subst h1 h2 h4 h5
  have h0 : Rel b (⟨hub, boxes, stores, users, trace⟩ : Site D O b.B) ⟨hub, boxes, stores', users, trace⟩ := ⟨rfl, rfl, h3, rfl, rfl⟩
  cases op with
  | begin c req =>
    show Rel b (begin b.B _ c req) (begin SpecB _ c req)
    unfold begin
    dsimp only
    cases users c <;> exact ⟨rfl, rfl, h3, rfl, rfl⟩
  | client c x =>
    show Rel b (client b.B _ c x) (client SpecB _ c x)
    unfold client
    dsimp only
    cases hub.clients c <;> exact ⟨rfl, rfl, h3, rfl, rfl⟩
  | engine e => exact ⟨rfl, rfl, h3, rfl, rfl⟩
  | post c =>
    show Rel b (post b.B _ c) (post SpecB _ c)
    unfold post
    dsimp only
    cases users c with
    | asking req op again =>
      dsimp only
      cases hub.clients c with
      | done call r => cases r <;> cases op <;> exact ⟨rfl, rfl, h3, rfl, rfl⟩
      | reading => cases op <;> cases again <;> exact ⟨rfl, rfl, h3, rfl, rfl⟩
      | _ => exact ⟨rfl, rfl, h3, rfl, rfl⟩
    | _ => exact ⟨rfl, rfl, h3, rfl, rfl⟩
  | handle q i =>
    show Rel b (handle E b.B clk _ q i) (handle E SpecB clk _ q i)
    unfold handle
    dsimp only
    cases hub.queues[q]? with
    | none => exact h0
    | some a =>
      dsimp only
      generalize (if (boxes q).proc.alive then 0 else i) = i
      cases (boxes q).mailbox[i]? with
      | none => exact h0
      | some m =>
        obtain ⟨c, op⟩ := m
        dsimp only
        cases users c with
        | posted req op' again q' =>
          obtain ⟨h6, h7⟩ := h0.play (E := E) (clk := clk) q a (some c) op
          dsimp only
          rw [h7]
          refine ⟨h6.hub, ?_, h6.stores, ?_, h6.trace⟩
          · show upd _ q _ = upd _ q _
            rw [h6.boxes]
          · show upd _ c _ = upd _ c _
            rw [h6.users]
        | _ => exact h0
  | turn q op =>
    show Rel b (turn E b.B clk _ q op) (turn E SpecB clk _ q op)
    unfold turn
    dsimp only
    cases hub.queues[q]? with
    | none => exact h0
    | some a =>
      dsimp only
      split
      · exact (h0.play q a none op).1
      · exact h0
  | take c =>
    show Rel b (take b.B _ c) (take SpecB _ c)
    unfold take
    dsimp only
    cases users c with
    | told req again r =>
      cases req with
      | update ty name id data context =>
        cases again with
        | false =>
          dsimp only
          split <;> exact ⟨rfl, rfl, h3, rfl, rfl⟩
        | true => exact ⟨rfl, rfl, h3, rfl, rfl⟩
      | _ => exact ⟨rfl, rfl, h3, rfl, rfl⟩
    | _ => exact ⟨rfl, rfl, h3, rfl, rfl⟩

theorem Rel.run {t : Site D O b.B} {n : Site D O SpecB} (h : Rel b t n) (ops : List (SiteOp D O)) :
    Rel b (t.run E b.B clk ops) (n.run E SpecB clk ops) := by
  induction ops generalizing t n with
  | nil => exact h
  | cons op ops ih => exact ih (h.step op)

end Site
end AJ
