import Verif.Proofs.Async
import Verif.Proofs.Plugin
import Verif.Props.Life

/-!
# The parts of executions that suspend
-/

namespace AJ
variable {D O : Type} {k : Str}

/-- The part an event is. -/
def Event.part? : Event → Option Part
  | .hookMsg _ b => some (.hook b)
  | .ran _ => some .code
  | .statusMsg _ _ => none

/-- The parts of `k` in some events. -/
def partsIn (k : Str) (l : List Event) : List Part := (l.filter (fun e => e.id = k)).filterMap Event.part?

theorem parts_eq (v : Snap D) : v.parts k = partsIn k v.log := by
  unfold Snap.parts Snap.mine partsIn
  congr 1

theorem partsIn_append (l l' : List Event) : partsIn k (l ++ l') = partsIn k l ++ partsIn k l' := by
  unfold partsIn
  rw [List.filter_append, List.filterMap_append]

theorem partsIn_status {l : List Event} (h : ∀ e ∈ l, e.IsStatus) : partsIn k l = [] := by
  unfold partsIn
  refine List.filterMap_eq_nil_iff.mpr fun e he => ?_
  obtain ⟨id, st, rfl⟩ := h e (List.mem_of_mem_filter he)
  rfl

theorem partsIn_pos {e : Event} (h : e.id = k) : partsIn k [e] = e.part?.toList := by
  unfold partsIn
  simp only [h, decide_true, List.filter_cons_of_pos, List.filter_nil]
  cases e <;> rfl

theorem partsIn_neg {e : Event} (h : ¬ e.id = k) : partsIn k [e] = [] := by
  unfold partsIn
  simp [h]

theorem runs_count (v : Snap D) : (v.runs k).length = (v.parts k).count .code := by
  unfold Snap.runs Snap.parts
  induction v.mine k with
  | nil => rfl
  | cons e l ih => cases e <;> simp [Event.run?, List.filterMap_cons, ih]

theorem own_split {α : Type} {p : α → Bool} {l : List α} {i : Nat} {t : α} (h : l[i]? = some t) (h1 : (l.filter p).length ≤ 1) :
    (p t = true → l.filter p = [t] ∧ (l.eraseIdx i).filter p = [] ∧
      ∀ t', (l.set i t').filter p = if p t' then [t'] else []) ∧
    (p t = false → (l.eraseIdx i).filter p = l.filter p ∧ ∀ t', p t' = false → (l.set i t').filter p = l.filter p) := by
  obtain ⟨a, c, e1, e2, e3⟩ := split_at h
  rw [e3]
  subst e1
  refine ⟨fun hp => ?_, fun hp => ?_⟩
  · rw [List.filter_append, List.filter_cons_of_pos hp, List.length_append, List.length_cons] at h1
    have ha : a.filter p = [] := List.length_eq_zero_iff.mp (by omega)
    have hc : c.filter p = [] := List.length_eq_zero_iff.mp (by omega)
    refine ⟨by rw [List.filter_append, List.filter_cons_of_pos hp, ha, hc]; rfl,
      by rw [List.filter_append, ha, hc]; rfl, fun t' => ?_⟩
    rw [e2 t', List.filter_append, ha]
    split
    · next h => rw [List.filter_cons_of_pos h, hc]; rfl
    · next h => rw [List.filter_cons_of_neg h, hc]; rfl
  · have hn : ¬ p t = true := by rw [hp]; simp
    refine ⟨by rw [List.filter_append, List.filter_append, List.filter_cons_of_neg hn], fun t' hp' => ?_⟩
    rw [e2 t', List.filter_append, List.filter_append, List.filter_cons_of_neg hn,
      List.filter_cons_of_neg (by rw [hp']; simp)]

section
variable {b : Impl} {E : Env D} {name : Str} {clk : Nat → Time}

theorem orderly_deaf : Deaf (Orderly (D := D) (O := O) k) := by
  intro v v' op h hp job cfg e hid
  obtain ⟨h1, h2⟩ := hp job cfg e hid
  rw [← h.job, ← h.lists]
  exact ⟨h1, h2⟩

theorem own_one (L : E.Lawful) {f : Async D b.B} (h : AReach (O := O) b E name clk (Orderly k) f) : (f.own k).length ≤ 1 := by
  obtain ⟨s, hs, hl⟩ := areach_sim orderly_deaf h
  have h1 := Props.C25_one_execution_partial L hs
  rw [Props.count_inFlight] at h1
  have e : ((b.snap E name s).own k).length = (f.own k).length := by
    show (s.tasks.filter _).length = _
    rw [← hl.tasks]
    show ((f.tasks.map ATask.task).filter _).length = _
    rw [List.filter_map, List.length_map]
    congr 1
    refine List.filter_congr fun t _ => ?_
    obtain ⟨o, ph⟩ := t
    cases ph <;> rfl
  omega

/-- The executions of `k` follow one another, each made of its parts in order. -/
theorem async_parts (L : E.Lawful) {f : Async D b.B} (hf : AReach (O := O) b E name clk (Orderly k) f) (ha : f.alive = true) :
    ∃ n, partsIn k f.w.log = (List.replicate n wholeRun).flatten ++ (f.own k).flatMap (·.phase.parts) := by
  induction hf with
  | start => exact ⟨0, rfl⟩
  | step a hf hp ih =>
    next f =>
    have h1 := own_one L hf
    have hi := hf.inv
    have isome : ∀ {i : Nat} {t : ATask D}, f.tasks[i]? = some t → f.alive = true := by
      intro i t h
      cases ha : f.alive with
      | true => rfl
      | false => rw [hi.dead ha] at h; cases h
    cases a with
    | turn op =>
      have hal : (Sys.step E name b.B clk f.bare op).1.alive = true := ha
      have hfa : f.alive = true := by
        by_contra hc
        have : f.bare.alive = false := Bool.eq_false_iff.mpr hc
        unfold Sys.step at hal
        rw [this] at hal
        exact absurd (this.symm.trans hal) (by simp)
      obtain ⟨n, hn⟩ := ih hfa
      have hnone : ∃ l, (Sys.step E name b.B clk f.bare op).1.w.log = f.w.log ++ l ∧ ∀ e ∈ l, e.IsStatus := by
        by_cases ho : (∃ i, op = .start i) ∨ (∃ i x, op = .finish i x) ∨ ∃ i, op = .userPanic i
        · rw [Sys.step_none f.bare rfl op ho]
          exact ⟨[], (List.append_nil _).symm, fun e h => by cases h⟩
        · exact Sys.log_step (Q := Event.IsStatus) f.bare op
            (fun h => (ho (h.elim .inl (fun h => .inr (.inl h)))).elim) (fun h => (ho (.inl h)).elim)
      obtain ⟨l, hl1, hl2⟩ := hnone
      refine ⟨n, ?_⟩
      show partsIn k (Sys.step E name b.B clk f.bare op).1.w.log = _ ++
        (List.filter _ (if (Sys.step E name b.B clk f.bare op).1.alive then f.tasks ++
          (Sys.step E name b.B clk f.bare op).1.tasks.map (fun t => ⟨t.orig, .spawned⟩) else [])).flatMap _
      rw [hal, if_pos rfl, hl1, partsIn_append, partsIn_status hl2, List.append_nil, hn, List.filter_append, List.flatMap_append]
      rw [show ∀ l : List (Task D), (List.filter (fun t : ATask D => decide (t.orig.id = k))
        (l.map (fun t => (⟨t.orig, .spawned⟩ : ATask D)))).flatMap (·.phase.parts) = [] from ?_, List.append_nil]
      · rfl
      · intro l
        refine List.flatMap_eq_nil_iff.mpr fun t ht => ?_
        obtain ⟨u, _, rfl⟩ := List.mem_map.mp (List.mem_of_mem_filter ht)
        rfl
    | poll i =>
      simp only [Async.step] at ha ⊢
      rcases ht : f.tasks[i]? with _ | ⟨orig, ph⟩
      · rw [ht] at ha; exact ih ha
      rw [ht] at ha
      obtain ⟨n, hn⟩ := ih (isome ht)
      obtain ⟨s1, s2⟩ := own_split (p := fun t : ATask D => decide (t.orig.id = k)) ht h1
      cases ph with
      | spawned =>
        simp only at ha ⊢
        split
        · next hc =>
          refine ⟨n, ?_⟩
          show partsIn k f.w.log = _ ++ ((f.tasks.eraseIdx i).filter _).flatMap _
          rw [hn]
          by_cases hk : orig.id = k
          · rw [(s1 (by simpa using hk)).2.1, Async.own, (s1 (by simpa using hk)).1]; rfl
          · rw [(s2 (by simpa using hk)).1]; rfl
        · next hc =>
          refine ⟨n, ?_⟩
          show partsIn k (f.w.log ++ [.hookMsg orig.id true]) = _ ++ ((f.tasks.set i _).filter _).flatMap _
          rw [partsIn_append, hn]
          by_cases hk : orig.id = k
          · rw [(s1 (by simpa using hk)).2.2, Async.own, (s1 (by simpa using hk)).1, partsIn_pos (show (Event.hookMsg orig.id true).id = k from hk), if_pos (by simpa using hk)]
            simp [Phase.parts, Event.part?]
          · rw [(s2 (by simpa using hk)).2 _ (by simpa using hk), partsIn_neg (show ¬ (Event.hookMsg orig.id true).id = k from hk), List.append_nil]; rfl
      | _ => exact ⟨n, hn⟩
    | enter i =>
      simp only [Async.step] at ha ⊢
      rcases ht : f.tasks[i]? with _ | ⟨orig, ph⟩
      · rw [ht] at ha; exact ih ha
      rw [ht] at ha
      obtain ⟨n, hn⟩ := ih (isome ht)
      obtain ⟨s1, s2⟩ := own_split (p := fun t : ATask D => decide (t.orig.id = k)) ht h1
      cases ph with
      | before m =>
        refine ⟨n, ?_⟩
        show partsIn k (f.w.log ++ [.ran orig.counted.context]) = _ ++ ((f.tasks.set i _).filter _).flatMap _
        rw [partsIn_append, hn]
        by_cases hk : orig.id = k
        · rw [(s1 (by simpa using hk)).2.2, Async.own, (s1 (by simpa using hk)).1, partsIn_pos (show (Event.ran orig.counted.context).id = k from hk), if_pos (by simpa using hk)]
          simp [Phase.parts, Event.part?]
        · rw [(s2 (by simpa using hk)).2 _ (by simpa using hk), partsIn_neg (show ¬ (Event.ran orig.counted.context).id = k from hk), List.append_nil]; rfl
      | _ => exact ⟨n, hn⟩
    | leave i =>
      simp only [Async.step] at ha ⊢
      rcases ht : f.tasks[i]? with _ | ⟨orig, ph⟩
      · rw [ht] at ha; exact ih ha
      rw [ht] at ha
      obtain ⟨n, hn⟩ := ih (isome ht)
      obtain ⟨s1, s2⟩ := own_split (p := fun t : ATask D => decide (t.orig.id = k)) ht h1
      cases ph with
      | user job =>
        have hj : job = orig.counted := hi.user _ (List.mem_of_getElem? ht) _ (.inl rfl)
        subst hj
        refine ⟨n, ?_⟩
        show partsIn k (f.w.log ++ [.hookMsg orig.counted.id true]) = _ ++ ((f.tasks.set i _).filter _).flatMap _
        rw [partsIn_append, hn]
        by_cases hk : orig.id = k
        · rw [(s1 (by simpa using hk)).2.2, Async.own, (s1 (by simpa using hk)).1, partsIn_pos (show (Event.hookMsg orig.counted.id true).id = k from hk), if_pos (by simpa using hk)]
          simp [Phase.parts, Event.part?]
        · rw [(s2 (by simpa using hk)).2 _ (by simpa using hk), partsIn_neg (show ¬ (Event.hookMsg orig.counted.id true).id = k from hk), List.append_nil]; rfl
      | _ => exact ⟨n, hn⟩
    | settle i x =>
      simp only [Async.step] at ha ⊢
      rcases ht : f.tasks[i]? with _ | ⟨orig, ph⟩
      · rw [ht] at ha; exact ih ha
      rw [ht] at ha
      obtain ⟨n, hn⟩ := ih (isome ht)
      obtain ⟨s1, s2⟩ := own_split (p := fun t : ATask D => decide (t.orig.id = k)) ht h1
      cases ph with
      | after m job =>
        simp only at ha ⊢
        have hsay := (WorkQueue.says_taskOutcome (Q := Event.IsStatus) E name x orig job).run b.B clk f.w
        generalize Prog.run b.B clk (WorkQueue.taskOutcome E name x orig job) f.w = r at ha hsay ⊢
        obtain ⟨o, w⟩ := r
        obtain ⟨l, hl1, hl2⟩ := hsay
        have hl1 : w.log = f.w.log ++ l := hl1
        cases o with
        | ok _ =>
          by_cases hk : orig.id = k
          · refine ⟨n + 1, ?_⟩
            show partsIn k w.log = _ ++ ((f.tasks.eraseIdx i).filter _).flatMap _
            rw [hl1, partsIn_append, partsIn_status hl2, List.append_nil, hn, (s1 (by simpa using hk)).2.1, Async.own,
              (s1 (by simpa using hk)).1]
            simp [List.replicate_succ', wholeRun, Phase.parts]
          · refine ⟨n, ?_⟩
            show partsIn k w.log = _ ++ ((f.tasks.eraseIdx i).filter _).flatMap _
            rw [hl1, partsIn_append, partsIn_status hl2, List.append_nil, hn, (s2 (by simpa using hk)).1]; rfl
        | _ => cases ha
      | _ => exact ⟨n, hn⟩
    | userPanic i =>
      simp only [Async.step] at ha ⊢
      rcases ht : f.tasks[i]? with _ | ⟨orig, ph⟩
      · rw [ht] at ha; exact ih ha
      rw [ht] at ha
      obtain ⟨n, hn⟩ := ih (isome ht)
      cases ph with
      | user j => cases ha
      | after m j => cases ha
      | _ => exact ⟨n, hn⟩

theorem runs_whole (n : Nat) (l : List Part) : ((List.replicate n wholeRun).flatten ++ l).count .code = n + l.count .code := by
  rw [List.count_append]
  congr 1
  induction n with
  | zero => rfl
  | succ n ih => rw [List.replicate_succ, List.flatten_cons, List.count_append, ih]; simp [wholeRun]; omega

theorem settled_parts {l : List (ATask D)} (h1 : l.length ≤ 1) (h : ∀ t ∈ l, t.phase = .spawned ∨ ∃ j, t.phase = .user j) :
    l.flatMap (·.phase.parts) = if (l.map ATask.task).any (fun t => t.executing.isSome) then [.hook true, .code] else [] := by
  rcases l with _ | ⟨⟨o, ph⟩, _ | ⟨t, l⟩⟩
  · rfl
  · rcases h _ (List.mem_singleton.mpr rfl) with h | ⟨j, h⟩
    · have h : ph = .spawned := h
      subst h; rfl
    · have h : ph = .user j := h
      subst h; rfl
  · simp at h1

/-- The executions of `k` follow one another, each made of its parts in order. -/
theorem parts_shape (L : E.Lawful) {s : Sys D b.B} (hs : Reach (O := O) b E name clk (Orderly k) s)
    (ha : (b.snap E name s).alive = true) :
    ∃ n, (b.snap E name s).parts k = (List.replicate n wholeRun).flatten ++
      (if (b.snap E name s).executing k then [.hook true, .code] else []) ∧
      ((b.snap E name s).runs k).length = n +
        (if (b.snap E name s).executing k then 1 else 0) := by
  obtain ⟨f, hf, hset, rfl⟩ := reach_async orderly_deaf hs
  obtain ⟨n, hn⟩ := async_parts L hf ha
  have h1 := own_one L hf
  have e : (f.own k).flatMap (·.phase.parts) = if (b.snap E name f.sys).executing k then [.hook true, .code] else [] := by
    have e2 : (b.snap E name f.sys).own k = (f.own k).map ATask.task := by
      show (f.tasks.map ATask.task).filter _ = (f.tasks.filter _).map _
      rw [List.filter_map]
      congr 1
      refine List.filter_congr fun t _ => ?_
      obtain ⟨o, ph⟩ := t
      cases ph <;> rfl
    unfold Snap.executing
    rw [e2]
    exact settled_parts h1 fun t ht => hset t (List.mem_of_mem_filter ht)
  have hn' : (b.snap E name f.sys).parts k = (List.replicate n wholeRun).flatten ++
      (if (b.snap E name f.sys).executing k then [.hook true, .code] else []) := by
    rw [parts_eq, ← e]; exact hn
  refine ⟨n, hn', ?_⟩
  rw [runs_count, hn', runs_whole]
  split <;> rfl

end
end AJ
