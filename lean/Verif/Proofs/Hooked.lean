import Verif.Proofs.AsyncParts

/-!
# Lemmas about a work queue and the plugin centre
-/

namespace AJ
variable {D O : Type}

section
variable {E : Env D} {name : Str} {B : Backend} {clk : Nat → Time}

/-- A turn only adds events. -/
theorem Async.log_grows (f : Async D B) (a : AOp D O) :
    ∃ l, (Async.step E name B clk f a).1.w.log = f.w.log ++ l := by
  have same : ∃ l, f.w.log = f.w.log ++ l := ⟨[], (List.append_nil _).symm⟩
  cases a with
  | turn op =>
    by_cases ho : (∃ i, op = .start i) ∨ (∃ i x, op = .finish i x) ∨ ∃ i, op = .userPanic i
    · exact ⟨[], by
        show (Sys.step E name B clk f.bare op).1.w.log = _
        rw [Sys.step_none f.bare rfl op ho]
        exact (List.append_nil _).symm⟩
    · obtain ⟨l, h, _⟩ := Sys.log_step (E := E) (name := name) (clk := clk) (Q := Event.IsStatus) f.bare op
        (fun h => (ho (h.elim .inl (fun h => .inr (.inl h)))).elim) (fun h => (ho (.inl h)).elim)
      exact ⟨l, h⟩
  | poll i =>
    simp only [Async.step]
    rcases ht : f.tasks[i]? with _ | ⟨orig, ph⟩
    · exact same
    cases ph with
    | spawned =>
      simp only
      split
      · exact same
      · exact ⟨_, rfl⟩
    | _ => exact same
  | enter i =>
    simp only [Async.step]
    rcases ht : f.tasks[i]? with _ | ⟨orig, ph⟩
    · exact same
    cases ph with
    | before m => exact ⟨_, rfl⟩
    | _ => exact same
  | leave i =>
    simp only [Async.step]
    rcases ht : f.tasks[i]? with _ | ⟨orig, ph⟩
    · exact same
    cases ph with
    | user j => exact ⟨_, rfl⟩
    | _ => exact same
  | settle i x =>
    simp only [Async.step]
    rcases ht : f.tasks[i]? with _ | ⟨orig, ph⟩
    · exact same
    cases ph with
    | after m j =>
      simp only
      obtain ⟨l, h, _⟩ := (WorkQueue.says_taskOutcome (Q := Event.IsStatus) E name x orig j).run B clk f.w
      generalize Prog.run B clk (WorkQueue.taskOutcome E name x orig j) f.w = r at h ⊢
      obtain ⟨o, w⟩ := r
      cases o <;> exact ⟨l, h⟩
    | _ => exact same
  | userPanic i =>
    simp only [Async.step]
    rcases ht : f.tasks[i]? with _ | ⟨orig, ph⟩
    · exact same
    cases ph <;> exact same

/-- Messages of executions: each is in the log, about the right job, and belongs to one execution. -/
structure Async.Mail (f : Async D B) : Prop where
  box : ∀ t ∈ f.tasks, ∀ m, t.msg = some m → (f.w.log.filter Event.isMsg)[m]? = some (.hookMsg t.orig.id true)
  own : (f.tasks.filterMap ATask.msg).Nodup

theorem grown {α : Type} {l l' : List α} {m : Nat} {e : α} (h : l[m]? = some e) : (l ++ l')[m]? = some e := by
  rw [List.getElem?_append_left (List.getElem?_eq_some_iff.mp h).1]
  exact h

/-- With fewer executions, or more without a message, and a longer log. -/
theorem Async.Mail.of {f : Async D B} (h : f.Mail) {f' : Async D B} {l : List Event} (hl : f'.w.log = f.w.log ++ l)
    {l1 l2 : List (ATask D)} (ht : f'.tasks = l1 ++ l2) (h1 : l1.Sublist f.tasks) (h2 : ∀ t ∈ l2, t.msg = none) : f'.Mail where
  box t hm m hm' := by
    rw [hl, List.filter_append]
    rw [ht] at hm
    rcases List.mem_append.mp hm with hm | hm
    · exact grown (h.box t (h1.subset hm) m hm')
    · rw [h2 t hm] at hm'; cases hm'
  own := by
    rw [ht, List.filterMap_append, List.filterMap_eq_nil_iff.mpr h2, List.append_nil]
    exact h.own.sublist (h1.filterMap _)

/-- With one execution gone on. -/
theorem Async.Mail.set {f : Async D B} (h : f.Mail) {f' : Async D B} {l : List Event} (hl : f'.w.log = f.w.log ++ l)
    {i : Nat} {t t' : ATask D} (hi : f.tasks[i]? = some t) (ht : f'.tasks = f.tasks.set i t')
    (hm : t'.msg = none ∨ (t'.msg = some f.w.sent ∧ l = [.hookMsg t'.orig.id true])) : f'.Mail where
  box u hu m hu' := by
    rw [hl, List.filter_append]
    rw [ht] at hu
    rcases mem_set hu with hu | rfl
    · exact grown (h.box u hu m hu')
    · rcases hm with hm | ⟨hm, rfl⟩
      · rw [hm] at hu'; cases hu'
      · rw [hm] at hu'
        cases hu'
        unfold World.sent
        rw [List.getElem?_append_right (Nat.le_refl _), Nat.sub_self]
        rfl
  own := by
    obtain ⟨a, c, e1, e2, e3⟩ := split_at hi
    have lt : ∀ m ∈ f.tasks.filterMap ATask.msg, m < f.w.sent := by
      intro m hm
      obtain ⟨u, hu, hu'⟩ := List.mem_filterMap.mp hm
      exact (List.getElem?_eq_some_iff.mp (h.box u hu m hu')).1
    have ho := h.own
    rw [ht, e2 t']
    rw [e1] at ho lt
    have hs : (a ++ c).Sublist (a ++ t :: c) := List.Sublist.append_left (List.sublist_cons_self ..) _
    have ho' := ho.sublist (hs.filterMap ATask.msg)
    have lt' : ∀ m ∈ (a ++ c).filterMap ATask.msg, m < f.w.sent := fun m hm => lt m ((hs.filterMap _).subset hm)
    rw [List.filterMap_append, List.filterMap_cons]
    rw [List.filterMap_append] at ho' lt'
    rcases hm with hm | ⟨hm, _⟩
    · rw [hm]; exact ho'
    · rw [hm]
      simp only
      rw [List.perm_middle.nodup_iff, List.nodup_cons]
      exact ⟨fun hc => Nat.lt_irrefl _ (lt' _ hc), ho'⟩

theorem Async.Mail.step {f : Async D B} (hi : f.Inv) (h : f.Mail) (a : AOp D O) : (Async.step E name B clk f a).1.Mail := by
  obtain ⟨l, hl⟩ := Async.log_grows (E := E) (name := name) (clk := clk) f a
  have same : f.Mail := h
  have none {f' : Async D B} (hl : f'.w.log = f.w.log ++ l) (ht : f'.tasks = []) : f'.Mail :=
    h.of hl (l1 := []) (l2 := []) ht (List.nil_sublist _) (fun t ht => by cases ht)
  have erase {f' : Async D B} {i : Nat} (hl : f'.w.log = f.w.log ++ l) (ht : f'.tasks = f.tasks.eraseIdx i) : f'.Mail :=
    h.of hl (l1 := f.tasks.eraseIdx i) (l2 := []) (ht.trans (List.append_nil _).symm) (List.eraseIdx_sublist ..) (fun t ht => by cases ht)
  cases a with
  | turn op =>
    cases hal : (Sys.step E name B clk f.bare op).1.alive with
    | false =>
      refine none hl ?_
      show (if (Sys.step E name B clk f.bare op).1.alive then _ else _) = _
      rw [hal]; rfl
    | true =>
      refine h.of hl (l1 := f.tasks) (l2 := (Sys.step E name B clk f.bare op).1.tasks.map (fun t => ⟨t.orig, .spawned⟩)) ?_
        (List.Sublist.refl _) (fun t ht => ?_)
      · show (if (Sys.step E name B clk f.bare op).1.alive then _ else _) = _
        rw [hal]; rfl
      · obtain ⟨u, _, rfl⟩ := List.mem_map.mp ht
        rfl
  | poll i =>
    simp only [Async.step] at hl ⊢
    rcases ht : f.tasks[i]? with _ | ⟨orig, ph⟩
    · exact same
    rw [ht] at hl
    cases ph with
    | spawned =>
      simp only at hl ⊢
      split
      · next hc => rw [if_pos hc] at hl; exact erase hl rfl
      · next hc => exact h.set (l := [.hookMsg orig.id true]) rfl ht rfl (.inr ⟨rfl, rfl⟩)
    | _ => exact same
  | enter i =>
    simp only [Async.step] at hl ⊢
    rcases ht : f.tasks[i]? with _ | ⟨orig, ph⟩
    · exact same
    rw [ht] at hl
    cases ph with
    | before m => exact h.set hl ht rfl (.inl rfl)
    | _ => exact same
  | leave i =>
    simp only [Async.step] at hl ⊢
    rcases ht : f.tasks[i]? with _ | ⟨orig, ph⟩
    · exact same
    cases ph with
    | user j =>
      have hj : j = orig.counted := hi.user _ (List.mem_of_getElem? ht) _ (.inl rfl)
      subst hj
      exact h.set (l := [.hookMsg orig.id true]) rfl ht rfl (.inr ⟨rfl, rfl⟩)
    | _ => exact same
  | settle i x =>
    simp only [Async.step] at hl ⊢
    rcases ht : f.tasks[i]? with _ | ⟨orig, ph⟩
    · exact same
    rw [ht] at hl
    cases ph with
    | after m j =>
      simp only at hl ⊢
      generalize Prog.run B clk (WorkQueue.taskOutcome E name x orig j) f.w = r at hl ⊢
      obtain ⟨o, w⟩ := r
      cases o with
      | ok _ => exact erase hl rfl
      | _ => exact none hl rfl
    | _ => exact same
  | userPanic i =>
    simp only [Async.step] at hl ⊢
    rcases ht : f.tasks[i]? with _ | ⟨orig, ph⟩
    · exact same
    rw [ht] at hl
    cases ph with
    | user j => exact none hl rfl
    | after m j => exact none hl rfl
    | _ => exact same

theorem Async.Mail.init (s : B.S) : (Async.init B s : Async D B).Mail := ⟨(fun t ht => by cases ht), List.nodup_nil⟩

theorem msg_isMsg (ty : Nat) (e : Event) : (e.msg ty).isSome = e.isMsg := by cases e <;> rfl

theorem outbox_eq (ty : Nat) (h : Hooked D B) {m : Nat} {id : Str} {x : Bool}
    (he : (h.q.w.log.filter Event.isMsg)[m]? = some (.hookMsg id x)) : (h.outbox ty)[m]? = some (.runHook ty id x) := by
  unfold Hooked.outbox
  have : ∀ l : List Event, (l.filterMap (Event.msg ty)) = (l.filter Event.isMsg).filterMap (Event.msg ty) := by
    intro l
    rw [List.filterMap_filter]
    congr 1
    funext e
    cases e <;> rfl
  rw [this]
  have len : ∀ l : List Event, (∀ e ∈ l, e.isMsg = true) → (l.filterMap (Event.msg ty)) = l.map (fun e => (e.msg ty).getD (.register ⟨[]⟩)) := by
    intro l hl
    induction l with
    | nil => rfl
    | cons e l ih =>
      have h1 := hl e List.mem_cons_self
      rw [← msg_isMsg ty] at h1
      obtain ⟨y, hy⟩ := Option.isSome_iff_exists.mp h1
      rw [List.filterMap_cons, hy, List.map_cons, ih (fun e he => hl e (List.mem_cons_of_mem _ he)), hy]
      rfl
  rw [len _ (fun e he => (List.mem_filter.mp he).2), List.getElem?_map, he]
  rfl

theorem outbox_grows (ty : Nat) {h h' : Hooked D B} {l : List Event} (hl : h'.q.w.log = h.q.w.log ++ l) :
    ∃ l', h'.outbox ty = h.outbox ty ++ l' := by
  unfold Hooked.outbox
  rw [hl, List.filterMap_append]
  exact ⟨_, rfl⟩

/-- What the centre got from the work queue. -/
structure Hooked.Inv (ty : Nat) (h : Hooked D B) : Prop where
  inv : h.q.Inv
  mail : h.q.Mail
  got : ∀ (i r : Nat), h.got[i]? = some r → ∃ m, (h.outbox ty)[i]? = some m ∧ (AJ.mail h.centre)[r]? = some m
  sorted : h.got.Pairwise (· < ·)

theorem centre_received (h : Hooked D B) : h.c.received = (mail h.centre).length := (faithful h.centre).received

theorem mail_grows {ops : List CentreOp} {op : CentreOp} {r : Nat} {m : PluginMsg} (h : (mail ops)[r]? = some m) :
    (mail (ops ++ [op]))[r]? = some m := by
  rw [mail_snoc]
  exact grown h

theorem Hooked.Inv.centre {ty : Nat} {h : Hooked D B} (hi : h.Inv ty) (op : CentreOp) :
    ({ h with centre := h.centre ++ [op] } : Hooked D B).Inv ty where
  inv := hi.inv
  mail := hi.mail
  got i r hr := by
    obtain ⟨m, h1, h2⟩ := hi.got i r hr
    exact ⟨m, h1, mail_grows h2⟩
  sorted := hi.sorted

theorem Hooked.Inv.step {ty : Nat} {h : Hooked D B} (hi : h.Inv ty) (op : HOp D O) :
    (Hooked.step E name B clk ty h op).Inv ty := by
  cases op with
  | queue a =>
    unfold Hooked.step
    simp only
    split
    · refine ⟨hi.inv.step a, hi.mail.step hi.inv a, fun i r hr => ?_, hi.sorted⟩
      obtain ⟨m, h1, h2⟩ := hi.got i r hr
      obtain ⟨l, hl⟩ := Async.log_grows (E := E) (name := name) (clk := clk) h.q a
      obtain ⟨l', hl'⟩ := outbox_grows ty (h := h) (h' := { h with q := (Async.step E name B clk h.q a).1 }) hl
      exact ⟨m, by rw [hl']; exact grown h1, h2⟩
    · exact hi
  | deliver n =>
    unfold Hooked.step
    simp only
    split
    · next m hm =>
      have hlast : (AJ.mail (h.centre ++ [.deliver m n]))[h.c.received]? = some m := by
        rw [mail_snoc, centre_received]
        simp
      refine ⟨hi.inv, hi.mail, fun i r hr => ?_, ?_⟩
      · have hr : (h.got ++ [h.c.received])[i]? = some r := hr
        rcases Nat.lt_trichotomy i h.got.length with hlt | rfl | hgt
        · rw [List.getElem?_append_left hlt] at hr
          obtain ⟨m', h1, h2⟩ := hi.got i r hr
          exact ⟨m', h1, mail_grows h2⟩
        · rw [List.getElem?_append_right (Nat.le_refl _), Nat.sub_self] at hr
          cases hr
          exact ⟨m, hm, hlast⟩
        · rw [List.getElem?_eq_none (by simp; omega)] at hr
          cases hr
      · show (h.got ++ [h.c.received]).Pairwise _
        rw [List.pairwise_append]
        refine ⟨hi.sorted, List.pairwise_singleton _ _, fun a ha b hb => ?_⟩
        rw [List.mem_singleton.mp hb, centre_received]
        obtain ⟨i, hi'⟩ := List.mem_iff_getElem?.mp ha
        obtain ⟨m', _, h2⟩ := hi.got i a hi'
        exact (List.getElem?_eq_some_iff.mp h2).1
    · exact hi
  | other m n => exact hi.centre _
  | poll i n => exact hi.centre _
  | panic i => exact hi.centre _

theorem Hooked.Inv.init {ty : Nat} (s : B.S) : (Hooked.init B s : Hooked D B).Inv ty :=
  ⟨.init s, .init s, (fun i r hr => by cases hr), List.Pairwise.nil⟩

/-- An answered message has been served, unless a hook panicked. -/
theorem Hooked.Inv.answered {ty : Nat} {h : Hooked D B} (hi : h.Inv ty) {i m : Nat} {t : ATask D} (ht : h.q.tasks[i]? = some t)
    (hm : t.msg = some m) (ha : h.answered m = true) :
    ∃ r, h.got[m]? = some r ∧ (AJ.mail h.centre)[r]? = some (.runHook ty t.orig.id true) ∧ (NoPanic h.centre → h.Served r) := by
  unfold Hooked.answered at ha
  cases hr : h.got[m]? with
  | none => rw [hr] at ha; cases ha
  | some r =>
    rw [hr] at ha
    simp only at ha
    obtain ⟨msg, h1, h2⟩ := hi.got m r hr
    rw [outbox_eq ty h (hi.mail.box t (List.mem_of_getElem? ht) m hm)] at h1
    cases h1
    refine ⟨r, rfl, h2, fun hp => ?_⟩
    obtain ⟨f, hf, rfl⟩ := has_task hp (m := r) (ty := ty) (call := .beforeRun t.orig.id) (by rw [h2]; rfl)
    have := List.all_eq_true.mp ha f hf
    simp only [ne_eq, not_true_eq_false, decide_false, Bool.false_or, List.isEmpty_iff] at this
    have h3 := ((faithful h.centre).task f hf).2.2
    rw [HookTask.todo, this] at h3
    unfold Hooked.Served Hooked.c
    simpa using h3

end

section
variable {b : Impl} {E : Env D} {name : Str} {clk : Nat → Time} {ty : Nat} {P : Snap D → Op D O → Prop}

theorem HReach.inv {h : Hooked D b.B} (hh : HReach (O := O) b E name clk ty P h) : h.Inv ty := by
  induction hh with
  | start => exact .init _
  | step op _ _ ih => exact ih.step op

theorem HReach.queue {h : Hooked D b.B} (hh : HReach (O := O) b E name clk ty P h) : AReach (O := O) b E name clk P h.q := by
  induction hh with
  | start => exact .start
  | @step h op hh hp ih =>
    cases op with
    | queue a =>
      unfold Hooked.step
      simp only
      split
      · exact .step a ih (fun o ho => hp a o rfl ho)
      · exact ih
    | deliver n =>
      unfold Hooked.step
      simp only
      split <;> exact ih
    | _ => exact ih

end
end AJ
