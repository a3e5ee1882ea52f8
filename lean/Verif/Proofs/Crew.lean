import Verif.Spec.Crew
import Verif.Proofs.Adrift

/-! # Any number of processes that take turns

They behave like one process that has the tasks of all of them, and in addition those that were lost. -/

namespace AJ
open W

variable {D O : Type} {E : Env D} {name : Str} {clk : Nat → Time} {b : Impl} {k : Str}

private theorem perm_at {α : Type} {l m r : List α} (h : m.Perm (l ++ r)) {i : Nat} {u : α} (hu : l[i]? = some u) :
    ∃ i', m[i']? = some u ∧ (m.eraseIdx i').Perm (l.eraseIdx i ++ r) ∧ ∀ u', (m.set i' u').Perm (l.set i u' ++ r) := by
  have hm : u ∈ m := h.mem_iff.mpr (List.mem_append_left _ (List.mem_of_getElem? hu))
  obtain ⟨i', hi'⟩ := List.getElem?_of_mem hm
  obtain ⟨a, b, h1, h2, h3⟩ := split_at hu
  obtain ⟨c, d, h4, h5, h6⟩ := split_at hi'
  have key : (c ++ d).Perm (a ++ b ++ r) := by
    have h7 : (u :: (c ++ d)).Perm (u :: (a ++ b ++ r)) := by
      refine List.perm_middle.symm.trans ?_
      rw [← h4]
      refine h.trans ?_
      rw [h1, List.append_assoc, List.cons_append, List.append_assoc]
      exact List.perm_middle
    exact h7.cons_inv
  refine ⟨i', hi', by rw [h6, h3]; exact key, fun u' => ?_⟩
  rw [h5, h2]
  refine List.perm_middle.trans ((key.cons u').trans ?_)
  rw [List.append_assoc, List.append_assoc, List.cons_append]
  exact List.perm_middle.symm

/-- The turn is the same request, or none in both cases. -/
def Op.Same (op op' : Op D O) : Prop :=
  (∀ j c, op' = .enqueue j c → op = .enqueue j c) ∧ (∀ c, op' = .config c → op = .config c)

theorem Op.Same.orderly {op op' : Op D O} (h : op.Same op') {v v' : Snap D} (hl : v'.lists = v.lists) (hj : v'.job = v.job)
    (ho : Orderly k v op) : Orderly k v' op' := by
  intro j c e hid
  have := ho j c (h.1 j c e) hid
  rw [hl, hj]
  exact this

/-- A turn of a process with tasks `s.tasks` that it survives is one turn of a process that has further tasks. -/
theorem merge_turn {s m : Sys D b.B} {rest : List (Task D)} (hw : m.w = s.w) (hc : m.cfg = s.cfg) (hs : s.alive = true) (hm : m.alive = true)
    (ht : m.tasks.Perm (s.tasks ++ rest)) (op : Op D O)
    (ha : (Sys.step E name b.B clk s op).1.alive = true) :
    ∃ op' : Op D O, op.Same op' ∧
      (Sys.step E name b.B clk m op').1.w = (Sys.step E name b.B clk s op).1.w ∧
      (Sys.step E name b.B clk m op').1.alive = true ∧
      (Sys.step E name b.B clk m op').1.cfg = (Sys.step E name b.B clk s op).1.cfg ∧
      (Sys.step E name b.B clk m op').1.tasks.Perm ((Sys.step E name b.B clk s op).1.tasks ++ rest) := by
  obtain ⟨w, cfg, tasks, alive⟩ := s
  obtain ⟨w', cfg', tasks', alive'⟩ := m
  simp only at hw hc hs hm ht
  subst hw hc hs hm
  have same : ∀ op : Op D O, op.Same op := fun op => ⟨fun _ _ e => e, fun _ e => e⟩
  have hhandle : ∀ {α : Type} (p : Prog α) (f : Except Error α → Resp D) (dead : Resp D),
      (Sys.handle b.B clk (⟨w', cfg', tasks, true⟩ : Sys D b.B) p dead f).1.alive = true →
      (Sys.handle b.B clk (⟨w', cfg', tasks', true⟩ : Sys D b.B) p dead f).1.w = (Sys.handle b.B clk (⟨w', cfg', tasks, true⟩ : Sys D b.B) p dead f).1.w ∧
      (Sys.handle b.B clk (⟨w', cfg', tasks', true⟩ : Sys D b.B) p dead f).1.alive = true ∧
      (Sys.handle b.B clk (⟨w', cfg', tasks', true⟩ : Sys D b.B) p dead f).1.cfg = (Sys.handle b.B clk (⟨w', cfg', tasks, true⟩ : Sys D b.B) p dead f).1.cfg ∧
      (Sys.handle b.B clk (⟨w', cfg', tasks', true⟩ : Sys D b.B) p dead f).1.tasks.Perm
        ((Sys.handle b.B clk (⟨w', cfg', tasks, true⟩ : Sys D b.B) p dead f).1.tasks ++ rest) := by
    intro α p f dead h
    unfold Sys.handle at h ⊢
    simp only at h ⊢
    generalize p.run b.B clk w' = q at h ⊢
    obtain ⟨r, w1⟩ := q
    cases r with
    | ok a => exact ⟨rfl, rfl, rfl, ht⟩
    | err e => exact ⟨rfl, rfl, rfl, ht⟩
    | panicked => cases h
    | diverged => cases h
  cases op with
  | enqueue job cfg => exact ⟨.enqueue job cfg, same _, hhandle _ _ _ ha⟩
  | cancel id => exact ⟨.cancel id, same _, hhandle _ _ _ ha⟩
  | get id => exact ⟨.get id, same _, hhandle (WorkQueue.getJob E id) (fun r => match r with
      | .ok j => .job j
      | .error _ => .job none) (Sys.deadResp (.get id : Op D O)) ha⟩
  | retry id => exact ⟨.retry id, same _, hhandle _ _ _ ha⟩
  | config c => exact ⟨.config c, same _, rfl, rfl, rfl, ht⟩
  | tick =>
    refine ⟨.tick, same _, ?_⟩
    simp only [Sys.step, if_true] at ha ⊢
    generalize (WorkQueue.pickJobsToProcess E name (Sys.tickFuel name b.B w'.s) cfg').run b.B clk w' = q at ha ⊢
    obtain ⟨r, w1⟩ := q
    cases r with
    | ok jobs =>
      refine ⟨rfl, rfl, rfl, ?_⟩
      show (tasks' ++ _).Perm (tasks ++ _ ++ rest)
      refine (ht.append_right _).trans ?_
      rw [List.append_assoc, List.append_assoc]
      exact List.perm_append_comm.append_left _
    | err e => exact ⟨rfl, rfl, rfl, ht⟩
    | panicked => cases ha
    | diverged => cases ha
  | start i =>
    have other : ∀ i', (.start i : Op D O).Same (.start i') := fun i' => ⟨fun _ _ e => (by cases e), fun _ e => (by cases e)⟩
    cases hu : tasks[i]? with
    | none =>
      refine ⟨.start tasks'.length, other _, ?_⟩
      simp only [Sys.step, if_true, hu, List.getElem?_length] at ha ⊢
      exact ⟨trivial, trivial, trivial, ht⟩
    | some u =>
      obtain ⟨i', h1, h2, h3⟩ := perm_at ht hu
      refine ⟨.start i', other _, ?_⟩
      obtain ⟨orig, ex⟩ := u
      simp only [Sys.step, if_true, hu, h1] at ha ⊢
      cases ex with
      | some j => exact ⟨rfl, rfl, rfl, ht⟩
      | none =>
        simp only at ha ⊢
        generalize (WorkQueue.executeStart name orig).run b.B clk w' = q at ha ⊢
        obtain ⟨r, w1⟩ := q
        rcases r with (_ | j) | _ | _ | _
        · exact ⟨rfl, rfl, rfl, h2⟩
        · exact ⟨rfl, rfl, rfl, h3 _⟩
        · cases ha
        · cases ha
        · cases ha
  | finish i x =>
    have other : ∀ i', (.finish i x : Op D O).Same (.finish i' x) := fun i' => ⟨fun _ _ e => (by cases e), fun _ e => (by cases e)⟩
    cases hu : tasks[i]? with
    | none =>
      refine ⟨.finish tasks'.length x, other _, ?_⟩
      simp only [Sys.step, if_true, hu, List.getElem?_length] at ha ⊢
      exact ⟨trivial, trivial, trivial, ht⟩
    | some u =>
      obtain ⟨i', h1, h2, h3⟩ := perm_at ht hu
      refine ⟨.finish i' x, other _, ?_⟩
      obtain ⟨orig, ex⟩ := u
      simp only [Sys.step, if_true, hu, h1] at ha ⊢
      cases ex with
      | none => exact ⟨rfl, rfl, rfl, ht⟩
      | some job =>
        simp only at ha ⊢
        generalize (WorkQueue.taskFinish E name x orig job).run b.B clk w' = q at ha ⊢
        obtain ⟨r, w1⟩ := q
        rcases r with a | _ | _ | _
        · exact ⟨rfl, rfl, rfl, h2⟩
        · cases ha
        · cases ha
        · cases ha
  | userPanic i =>
    have other : ∀ i', (.userPanic i : Op D O).Same (.userPanic i') := fun i' => ⟨fun _ _ e => (by cases e), fun _ e => (by cases e)⟩
    have none' : tasks'[tasks'.length]? = none := List.getElem?_length _
    refine ⟨.userPanic tasks'.length, other _, ?_⟩
    cases hu : tasks[i]? with
    | none =>
      simp only [Sys.step, if_true, hu, none'] at ha ⊢
      exact ⟨trivial, trivial, trivial, ht⟩
    | some u =>
      obtain ⟨orig, ex⟩ := u
      simp only [Sys.step, if_true, hu, none'] at ha ⊢
      cases ex with
      | some j => cases ha
      | none => exact ⟨rfl, trivial, rfl, ht⟩

/-- An actor that dies in a turn leaves what is stored as it was. -/
theorem dies_any {s : Sys D b.B} (hg : b.Good s.w.s) (op : Op D O) (ha : s.alive = true)
    (hd : (Sys.step E name b.B clk s op).1.alive = false) :
    (b.snap E name s).Dies (b.snap E name (Sys.step E name b.B clk s op).1) := by
  refine Impl.lift_any (Q := fun v _ _ v' => v.alive = true → v'.alive = false → v.Dies v') (fun t op ha hd => ?_) hg op ha hd
  have ha : t.alive = true := ha
  have hd : (Sys.step E name SpecB clk t op).1.alive = false := hd
  show (Sys.obs E name t).Dies (Sys.obs E name (Sys.step E name SpecB clk t op).1)
  have hst := Sys.step_cases (E := E) (name := name) (clk := clk) t ha op
  generalize Sys.step E name SpecB clk t op = p at hst hd
  cases hst with
  | tickPanic => exact ⟨rfl, rfl, rfl, rfl⟩
  | userPanic => exact ⟨rfl, rfl, rfl, rfl⟩
  | finishPanic i x orig job w hi hf => exact ⟨rfl, rfl, hf.panic_same.2, hf.panic_same.1⟩
  | _ => exact absurd (show t.alive = false from hd) (by rw [ha]; simp)

/-- A turn with orderly submissions of `k`, from a state in which `k` is in order or lost. -/
theorem orderly_any (L : E.Lawful) {s : Sys D b.B} (hg : b.Good s.w.s) (hT : (b.snap E name s).Tidy) (op : Op D O)
    (h : Solo k (b.snap E name s) ∨ Lost k (b.snap E name s)) (ho : Orderly k (b.snap E name s) op) :
    Solo k (b.snap E name (Sys.step E name b.B clk s op).1) ∨ Lost k (b.snap E name (Sys.step E name b.B clk s op).1) :=
  Impl.lift_any (Q := fun v op _ v' => v.Tidy → (Solo k v ∨ Lost k v) → Orderly k v op → Solo k v' ∨ Lost k v')
    (fun _ op hT h ho => Lost.or_step L (tidy_iff.mp hT) h op ho) hg op hT h ho

/-- One process that has the tasks of all processes of the crew, and those that were lost with their processes. -/
structure Merged (c : Crew D b.B) (m : Sys D b.B) (lost : List (Task D)) : Prop where
  w : m.w = c.w
  alive : m.alive = true
  tasks : m.tasks.Perm (c.procs.flatMap Proc.tasks ++ lost)
  /-- Nothing is lost as long as all processes live. -/
  safe : (∀ p ∈ c.procs, p.alive = true) → lost = []

/-- What is kept by the histories of a crew: `I` holds of the merged process. -/
structure CrewKept (E : Env D) (name : Str) (I : Snap D → Prop) (c : Crew D b.B) : Prop where
  good : b.Good c.w.s
  dead : ∀ p ∈ c.procs, p.alive = false → p.tasks = []
  merged : ∃ m lost, Merged c m lost ∧ (b.snap E name m).Tidy ∧ I (b.snap E name m)

theorem flatMap_set {α β : Type} {f : α → List β} {l : List α} {i : Nat} {x : α} (h : l[i]? = some x) :
    ∃ rest, (l.flatMap f).Perm (f x ++ rest) ∧ ∀ y, ((l.set i y).flatMap f).Perm (f y ++ rest) := by
  obtain ⟨a, d, h1, h2, _⟩ := split_at h
  refine ⟨a.flatMap f ++ d.flatMap f, ?_, fun y => ?_⟩
  · rw [h1, List.flatMap_append, List.flatMap_cons, ← List.append_assoc, ← List.append_assoc]
    exact List.perm_append_comm.append_right _
  · rw [h2, List.flatMap_append, List.flatMap_cons, ← List.append_assoc, ← List.append_assoc]
    exact List.perm_append_comm.append_right _

/-- An invariant of single processes that does not depend on their configuration, nor on the order of their tasks, nor
on clock and messages, is one of crews. -/
theorem crew_kept {P : Snap D → Op D O → Prop} {I : Snap D → Prop} (L : E.Lawful)
    (h0 : I (b.snap E name (Sys.init b.B b.empty : Sys D b.B)))
    (hI : ∀ v v', v'.lists = v.lists → v'.job = v.job → v'.tasks = v.tasks → v'.alive = v.alive → I v → I v')
    (hstep : ∀ (s m : Sys D b.B) (op op' : Op D O), b.Good m.w.s → (b.snap E name m).Tidy → m.alive = true → m.w = s.w → m.cfg = s.cfg →
      P (b.snap E name s) op → op.Same op' → (Sys.step E name b.B clk m op').1.alive = true →
      I (b.snap E name m) → I (b.snap E name (Sys.step E name b.B clk m op').1))
    {c : Crew D b.B} (h : CrewReach (O := O) b E name clk P c) : CrewKept E name I c := by
  induction h with
  | start => exact ⟨Reach.good (O := O) (E := E) (name := name) (clk := clk) (P := fun _ _ => True) .start, fun p hp => (by cases hp), Sys.init b.B b.empty, [], ⟨rfl, rfl, .refl _, fun _ => rfl⟩, tidy_reach (O := O) (clk := clk) (P := fun _ _ => True) L .start, h0⟩
  | @step c op _ hp ih =>
    obtain ⟨hg, hd, m, lost, hm, hT, hi⟩ := ih
    cases op with
    | join =>
      refine ⟨hg, fun p hp => ?_, m, lost, ⟨hm.w, hm.alive, ?_, fun h => hm.safe fun p hp => h p (List.mem_append_left _ hp)⟩, hT, hi⟩
      · rcases List.mem_append.mp hp with hp | hp
        · exact hd p hp
        · rw [List.mem_singleton.mp hp]; exact fun _ => rfl
      · refine hm.tasks.trans ?_
        show (_ ++ lost).Perm ((c.procs ++ [({} : Proc D)]).flatMap Proc.tasks ++ lost)
        rw [List.flatMap_append]
        simp
    | kill i =>
      cases hpi : c.procs[i]? with
      | none =>
        have e : Crew.step E name b.B clk c (.kill i : CrewOp D O) = c := by simp only [Crew.step, hpi]
        rw [e]; exact ⟨hg, hd, m, lost, hm, hT, hi⟩
      | some p =>
        have e : Crew.step E name b.B clk c (.kill i : CrewOp D O) = { c with procs := c.procs.set i { p with tasks := [], alive := false } } := by
          simp only [Crew.step, hpi]
        rw [e]
        obtain ⟨rest, h1, h2⟩ := flatMap_set (f := Proc.tasks) hpi
        refine ⟨hg, fun q hq => ?_, m, p.tasks ++ lost, ⟨hm.w, hm.alive, ?_, fun h => ?_⟩, hT, hi⟩
        · rcases List.mem_or_eq_of_mem_set hq with hq | rfl
          · exact hd q hq
          · exact fun _ => rfl
        · refine hm.tasks.trans ((h1.append_right _).trans ?_)
          refine List.Perm.trans ?_ ((h2 _).append_right _).symm
          show (p.tasks ++ rest ++ lost).Perm ([] ++ rest ++ (p.tasks ++ lost))
          rw [List.nil_append, ← List.append_assoc]
          exact List.perm_append_comm.append_right _
        · have := h _ (List.mem_set (List.getElem?_eq_some_iff.mp hpi).1 _)
          cases this
    | turn i op =>
      cases hpi : c.procs[i]? with
      | none =>
        have e : Crew.step E name b.B clk c (.turn i op) = c := by simp only [Crew.step, hpi]
        rw [e]; exact ⟨hg, hd, m, lost, hm, hT, hi⟩
      | some p =>
        have e : Crew.step E name b.B clk c (.turn i op) = ⟨(Sys.step E name b.B clk (p.sys c.w) op).1.w,
            c.procs.set i ⟨(Sys.step E name b.B clk (p.sys c.w) op).1.cfg, (Sys.step E name b.B clk (p.sys c.w) op).1.tasks,
              (Sys.step E name b.B clk (p.sys c.w) op).1.alive⟩⟩ := by
          simp only [Crew.step, hpi]
        rw [e]
        have hP := hp i op p rfl hpi
        obtain ⟨rest, h1, h2⟩ := flatMap_set (f := Proc.tasks) hpi
        have hgs : b.Good (p.sys c.w).w.s := hg
        have hg' : b.Good (Sys.step E name b.B clk (p.sys c.w) op).1.w.s := good_step hgs _
        have hperm : m.tasks.Perm (p.tasks ++ (rest ++ lost)) := by
          refine hm.tasks.trans ((h1.append_right _).trans ?_)
          rw [List.append_assoc]
        by_cases ha : p.alive = true
        swap
        · have ha : (p.sys c.w).alive = false := Bool.eq_false_iff.mpr ha
          rw [dead_step ha]
          have e : c.procs.set i ⟨(p.sys c.w).cfg, (p.sys c.w).tasks, (p.sys c.w).alive⟩ = c.procs := by
            obtain ⟨a, d, e1, e2, _⟩ := split_at hpi
            rw [e2]; exact e1.symm
          rw [e]
          exact ⟨hg, hd, m, lost, hm, hT, hi⟩
        by_cases ha' : (Sys.step E name b.B clk (p.sys c.w) op).1.alive = true
        · have hd' : ∀ q ∈ c.procs.set i ⟨(Sys.step E name b.B clk (p.sys c.w) op).1.cfg, (Sys.step E name b.B clk (p.sys c.w) op).1.tasks,
              (Sys.step E name b.B clk (p.sys c.w) op).1.alive⟩, q.alive = false → q.tasks = [] := by
            intro q hq hf
            rcases List.mem_or_eq_of_mem_set hq with hq | rfl
            · exact hd q hq hf
            · rw [show _ = true from ha'] at hf; cases hf
          have hTc : (b.snap E name { m with cfg := p.cfg }).Tidy := ⟨hT.keyed, hT.exec, hT.dead⟩
          have hgm : b.Good m.w.s := by rw [hm.w]; exact hg
          obtain ⟨op', e1, e2, e3, _, e5⟩ := merge_turn (E := E) (name := name) (clk := clk) (s := p.sys c.w) (m := { m with cfg := p.cfg })
            (rest := rest ++ lost) hm.w rfl ha hm.alive hperm op ha'
          refine ⟨hg', hd', (Sys.step E name b.B clk { m with cfg := p.cfg } op').1, lost, ⟨e2, e3, e5.trans ?_, fun h => hm.safe fun q hq => ?_⟩, tidy_step (s := { m with cfg := p.cfg }) L hgm hTc op',
            hstep (p.sys c.w) { m with cfg := p.cfg } op op' hgm hTc hm.alive hm.w rfl hP e1 e3 (hI (b.snap E name m) _ rfl rfl rfl rfl hi)⟩
          · refine List.Perm.trans ?_ ((h2 _).append_right _).symm
            show (_ ++ (rest ++ lost)).Perm (_ ++ rest ++ lost)
            rw [List.append_assoc]
          · obtain ⟨n, hn⟩ := List.getElem?_of_mem hq
            by_cases en : n = i
            · subst en; rw [hpi] at hn; cases hn; exact ha
            · exact h q (List.mem_of_getElem? (i := n) (by rw [List.getElem?_set_ne (Ne.symm en)]; exact hn))
        · have ha' : (Sys.step E name b.B clk (p.sys c.w) op).1.alive = false := by simpa using ha'
          have hdies := dies_any (E := E) (name := name) hgs op ha ha'
          have e1 : (Sys.step E name b.B clk (p.sys c.w) op).1.tasks = [] := hdies.tasks
          have hl : (b.snap E name { m with w := (Sys.step E name b.B clk (p.sys c.w) op).1.w }).lists = (b.snap E name m).lists := by
            have h1 : (b.snap E name m).lists = (b.snap E name (p.sys c.w)).lists := by
              unfold Impl.snap; rw [hm.w]; rfl
            rw [h1, ← hdies.lists]; rfl
          have hj : (b.snap E name { m with w := (Sys.step E name b.B clk (p.sys c.w) op).1.w }).job = (b.snap E name m).job := by
            have h1 : (b.snap E name m).job = (b.snap E name (p.sys c.w)).job := by
              unfold Impl.snap; rw [hm.w]; rfl
            rw [h1, ← hdies.jobs]; rfl
          refine ⟨hg', fun q hq hf => ?_, { m with w := (Sys.step E name b.B clk (p.sys c.w) op).1.w }, p.tasks ++ lost,
            ⟨rfl, hm.alive, ?_, fun h => ?_⟩, ⟨?_, hT.exec, hT.dead⟩, hI (b.snap E name m) _ hl hj rfl rfl hi⟩
          · rcases List.mem_or_eq_of_mem_set hq with hq | rfl
            · exact hd q hq hf
            · exact e1
          · refine hperm.trans ?_
            refine List.Perm.trans ?_ ((h2 _).append_right _).symm
            show (p.tasks ++ (rest ++ lost)).Perm ((Sys.step E name b.B clk (p.sys c.w) op).1.tasks ++ rest ++ (p.tasks ++ lost))
            rw [e1, List.nil_append, ← List.append_assoc, ← List.append_assoc]
            exact List.perm_append_comm.append_right _
          · have := h _ (List.mem_set (List.getElem?_eq_some_iff.mp hpi).1 _)
            rw [show _ = false from ha'] at this
            cases this
          · intro id j hj'
            rw [hj] at hj'
            exact hT.keyed id j hj'

theorem solo_or_lost_same {v v' : Snap D} (e1 : v'.lists = v.lists) (e2 : v'.job = v.job) (e3 : v'.tasks = v.tasks) (e4 : v'.alive = v.alive)
    (h : Solo k v ∨ Lost k v) : Solo k v' ∨ Lost k v' := by
  have es : v'.status k = v.status k := by unfold Snap.status; rw [e2]
  have eo : v'.own k = v.own k := by unfold Snap.own; rw [e3]
  rcases h with h | h
  · exact .inl ⟨by rw [e1, es]; exact h.queued, by rw [e1, es]; exact h.running, by rw [es, eo]; exact h.idle,
      by rw [e4, e2, eo]; exact h.busy⟩
  · exact .inr ⟨by rw [e2]; exact h.job, by rw [eo]; exact h.own, by rw [e1]; exact h.running⟩

/-- In a history of a crew with orderly submissions of `k`, job `k` is in order or lost. -/
theorem crew_orderly (L : E.Lawful) {P : Snap D → Op D O → Prop} (hP : ∀ v op, P v op → Orderly k v op) {c : Crew D b.B}
    (h : CrewReach (O := O) b E name clk P c) : CrewKept E name (fun v => Solo k v ∨ Lost k v) c := by
  refine crew_kept L ?_ ?_ ?_ h
  · exact reach_orderly (O := O) (clk := clk) (P := Orderly k) L (fun _ _ h => h) .start
  · exact fun v v' => solo_or_lost_same
  · intro s m op op' hg hT _ hw _ hp hs _ hi
    refine orderly_any L hg hT op' hi (hs.orderly ?_ ?_ (hP _ _ hp))
    · unfold Impl.snap; rw [hw]
    · unfold Impl.snap; rw [hw]

/-- A turn of a process whose capacity is at most `M`, when executions in flight are in the running list. -/
theorem capacity_any (L : E.Lawful) {s : Sys D b.B} (hg : b.Good s.w.s) (hT : (b.snap E name s).Tidy) (op : Op D O) {M : Nat}
    (hc : (b.snap E name s).cfg.maxProcessingJobs ≤ M) (hl : (b.snap E name s).tasks.length ≤ M)
    (hle : ∀ k, (b.snap E name s).inFlight.count k ≤ ((b.snap E name s).lists .running).count k) :
    (b.snap E name (Sys.step E name b.B clk s op).1).tasks.length ≤ M := by
  refine Impl.lift_any (Q := fun v _ _ v' => v.Tidy → v.cfg.maxProcessingJobs ≤ M → v.tasks.length ≤ M →
    (∀ k, v.inFlight.count k ≤ (v.lists .running).count k) → v'.tasks.length ≤ M) (fun t op hT hc hl hle => ?_) hg op hT hc hl hle
  show (Sys.step E name SpecB clk t op).1.tasks.length ≤ M
  have hl : t.tasks.length ≤ M := hl
  by_cases ha : t.alive = true
  swap
  · rw [Sys.step_dead t (by simpa using ha)]; exact hl
  have hst := Sys.step_cases (E := E) (name := name) (clk := clk) t ha op
  generalize Sys.step E name SpecB clk t op = p at hst
  cases hst with
  | tick n hk hk20 =>
    have hsc := (Scan.init (clk := clk) (E := E) (name := name) (free name t.cfg t.w) t.w).turns L (tidy_iff.mp hT).keyed n
    have hb := hsc.bound
    have hc : t.cfg.maxProcessingJobs ≤ M := hc
    have hl : t.tasks.length ≤ (lst name t.w .running).length := by
      have := (List.subperm_ext_iff.mpr fun x (_ : x ∈ (Sys.obs E name t).inFlight) => hle x).length_le
      unfold Snap.inFlight at this
      rwa [List.length_map] at this
    show (t.tasks ++ List.map _ _).length ≤ M
    rw [List.length_append, List.length_map]
    have hf : free name t.cfg t.w = t.cfg.maxProcessingJobs - (lst name t.w .running).length := rfl
    omega
  | _ => first
    | exact hl
    | exact Nat.zero_le _
    | exact (by simpa using hl)
    | exact Nat.le_trans (List.length_eraseIdx_le _ _) hl

theorem CrewKept.tidy {I : Snap D → Prop} {c : Crew D b.B} (h : CrewKept E name I c) (p : Proc D) (hp : p ∈ c.procs) :
    (b.snap E name (p.sys c.w)).Tidy := by
  obtain ⟨_, hd, m, lost, hm, hT, _⟩ := h
  refine ⟨fun id j hj => hT.keyed id j ?_, fun t ht => hT.exec t ?_, hd p hp⟩
  · unfold Impl.snap at hj ⊢; rw [hm.w]; exact hj
  · exact hm.tasks.mem_iff.mpr (List.mem_append_left _ (List.mem_flatMap.mpr ⟨p, hp, ht⟩))

/-- Job `k` is stored as `j`, Running, but no process executes it. -/
structure Orphan (E : Env D) (name k : Str) (j : Job D) (n : Nat) (c : Crew D b.B) : Prop where
  good : b.Good c.w.s
  tidy : ∀ p ∈ c.procs, (b.snap E name (p.sys c.w)).Tidy
  keyed : (b.see E name c.w).Keyed
  job : (b.see E name c.w).job k = some j
  queued : k ∉ (b.see E name c.w).lists .queued
  running : ((b.see E name c.w).lists .running).count k = n
  own : ∀ p ∈ c.procs, (b.snap E name (p.sys c.w)).own k = []

theorem orphan_step (L : E.Lawful) {j : Job D} {n : Nat} {c : Crew D b.B} (hr : j.context.jobStatus = .running)
    (h : Orphan E name k j n c) (op : CrewOp D O) : Orphan E name k j n (Crew.step E name b.B clk c op) := by
  cases op with
  | join =>
    refine ⟨h.good, fun p hp => ?_, h.keyed, h.job, h.queued, h.running, fun p hp => ?_⟩
    · rcases List.mem_append.mp hp with hp | hp
      · exact h.tidy p hp
      · rw [List.mem_singleton.mp hp]; exact ⟨h.keyed, fun t ht => (by cases ht), fun _ => rfl⟩
    · rcases List.mem_append.mp hp with hp | hp
      · exact h.own p hp
      · rw [List.mem_singleton.mp hp]; rfl
  | kill i =>
    cases hpi : c.procs[i]? with
    | none =>
      have e : Crew.step E name b.B clk c (.kill i : CrewOp D O) = c := by simp only [Crew.step, hpi]
      rw [e]; exact h
    | some p =>
      have e : Crew.step E name b.B clk c (.kill i : CrewOp D O) = { c with procs := c.procs.set i { p with tasks := [], alive := false } } := by
        simp only [Crew.step, hpi]
      rw [e]
      refine ⟨h.good, fun q hq => ?_, h.keyed, h.job, h.queued, h.running, fun q hq => ?_⟩
      · rcases List.mem_or_eq_of_mem_set hq with hq | rfl
        · exact h.tidy q hq
        · exact ⟨h.keyed, fun t ht => (by cases ht), fun _ => rfl⟩
      · rcases List.mem_or_eq_of_mem_set hq with hq | rfl
        · exact h.own q hq
        · rfl
  | turn i op =>
    cases hpi : c.procs[i]? with
    | none =>
      have e : Crew.step E name b.B clk c (.turn i op : CrewOp D O) = c := by simp only [Crew.step, hpi]
      rw [e]; exact h
    | some p =>
      have hp : p ∈ c.procs := List.mem_of_getElem? hpi
      have e : Crew.step E name b.B clk c (.turn i op : CrewOp D O) = ⟨(Sys.step E name b.B clk (p.sys c.w) op).1.w,
          c.procs.set i ⟨(Sys.step E name b.B clk (p.sys c.w) op).1.cfg, (Sys.step E name b.B clk (p.sys c.w) op).1.tasks,
            (Sys.step E name b.B clk (p.sys c.w) op).1.alive⟩⟩ := by simp only [Crew.step, hpi]
      rw [e]
      have hs := adrift_running_step (clk := clk) L (s := p.sys c.w) h.good (h.tidy p hp) h.job hr h.queued (h.own p hp) op
      have ht := tidy_step (clk := clk) L (s := p.sys c.w) h.good (h.tidy p hp) op
      have hg := good_step (E := E) (name := name) (clk := clk) (s := p.sys c.w) h.good op
      refine ⟨hg, fun q hq => ?_, ht.keyed, hs.job.trans h.job, ?_, (hs.counts .running).trans h.running, fun q hq => ?_⟩
      · rcases List.mem_or_eq_of_mem_set hq with hq | rfl
        · exact ⟨ht.keyed, (h.tidy q hq).exec, (h.tidy q hq).dead⟩
        · exact ht
      · rw [← List.count_eq_zero]
        exact (hs.counts .queued).trans (List.count_eq_zero.mpr h.queued)
      · rcases List.mem_or_eq_of_mem_set hq with hq | rfl
        · exact h.own q hq
        · exact hs.own

theorem orphan_run (L : E.Lawful) {j : Job D} {n : Nat} {c : Crew D b.B} (hr : j.context.jobStatus = .running)
    (h : Orphan E name k j n c) (ops : List (CrewOp D O)) : Orphan E name k j n (Crew.run E name b.B clk c ops) := by
  induction ops generalizing c with
  | nil => exact h
  | cons op ops ih => exact ih (orphan_step L hr h op)

end AJ
