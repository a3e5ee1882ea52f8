import Verif.Spec.Plugin
import Verif.Proofs.Runs
import Mathlib.Data.List.Induction

/-!
# Lemmas about the plugin centre
-/

namespace AJ

theorem shouldRun_eq (p : Plugin) (ty : Nat) : p.shouldRun ty = decide (p.Wants ty) := by
  obtain ⟨l⟩ := p
  cases l with
  | nil => simp [Plugin.shouldRun, Plugin.Wants]
  | cons a l => simp [Plugin.shouldRun, Plugin.Wants]

theorem mail_snoc (ops : List CentreOp) (op : CentreOp) :
    mail (ops ++ [op]) = mail ops ++ (match op with | .deliver m _ => [m] | _ => []) := by
  unfold mail
  rw [List.filterMap_append]
  cases op <;> rfl

theorem registered_snoc (ms : List PluginMsg) (m : PluginMsg) :
    registered (ms ++ [m]) = registered ms ++ (match m with | .register p => [p] | _ => []) := by
  unfold registered
  rw [List.filterMap_append]
  cases m <;> rfl

theorem expected_snoc {ms : List PluginMsg} {m : PluginMsg} {i : Nat} (h : i < ms.length) :
    expected (ms ++ [m]) i = expected ms i := by
  unfold expected
  rw [List.getElem?_append_left h, List.take_append_of_le_length (Nat.le_of_lt h)]

theorem expected_out {ms : List PluginMsg} {i : Nat} (h : ms.length ≤ i) : expected ms i = [] := by
  unfold expected
  rw [List.getElem?_eq_none h]
  rfl

theorem expected_last (ms : List PluginMsg) (m : PluginMsg) :
    expected (ms ++ [m]) ms.length = match m.hook? with
      | none => []
      | some (ty, call) => ((registered ms).zipIdx.filter fun q => decide (q.1.Wants ty)).map fun q => (q.2, call) := by
  unfold expected
  rw [List.getElem?_append_right (Nat.le_refl _), List.take_left']
  · simp only [Nat.sub_self, List.getElem?_cons_zero]; rfl
  · rfl

/-- The calls a task has yet to make. -/
def HookTask.todo (f : HookTask) : List (Nat × HookCall) :=
  (f.rest.filter fun q => q.1.shouldRun f.ty).map fun q => (q.2, f.call)

theorem HookTask.calls_of (f : HookTask) (n m : Nat) :
    ((f.calls n).filter fun q => q.1 = m).map (·.2) =
      if m = f.src then ((f.rest.take n).filter fun q => q.1.shouldRun f.ty).map (fun q => (q.2, f.call)) else [] := by
  unfold HookTask.calls
  generalize (f.rest.take n).filter _ = l
  by_cases h : m = f.src
  · rw [if_pos h, h]
    induction l with
    | nil => rfl
    | cons a l ih => simpa using ih
  · rw [if_neg h]
    induction l with
    | nil => rfl
    | cons a l ih =>
      rw [List.map_cons, List.filter_cons_of_neg (by simpa using fun e => h e.symm)]
      exact ih

theorem HookTask.todo_split (f : HookTask) (n : Nat) :
    ((f.rest.take n).filter fun q => q.1.shouldRun f.ty).map (fun q => (q.2, f.call)) ++ (f.after n).todo = f.todo := by
  unfold HookTask.todo HookTask.after
  show _ ++ (List.filter _ (f.rest.drop n)).map _ = _
  rw [← List.map_append, ← List.filter_append, List.take_append_drop]

theorem callsOf_append (c c' : Centre) (l : List (Nat × Nat × HookCall)) (h : c'.calls = c.calls ++ l) (m : Nat) :
    c'.callsOf m = c.callsOf m ++ (l.filter fun q => q.1 = m).map (·.2) := by
  unfold Centre.callsOf
  rw [h, List.filter_append, List.map_append]

/-- What holds of the centre after a history with these messages. -/
structure Centre.Faithful (ms : List PluginMsg) (c : Centre) : Prop where
  plugins : c.plugins = registered ms
  received : c.received = ms.length
  made : ∀ m, c.callsOf m <+: expected ms m
  task : ∀ f ∈ c.tasks, f.src < ms.length ∧ ms[f.src]? >>= PluginMsg.hook? = some (f.ty, f.call) ∧
    c.callsOf f.src ++ f.todo = expected ms f.src
  once : (c.tasks.map HookTask.src).Nodup

theorem Centre.Faithful.start : Centre.Faithful [] {} where
  plugins := rfl
  received := rfl
  made m := List.nil_prefix
  task f h := by cases h
  once := List.nodup_nil

theorem Centre.Faithful.spawn {ms : List PluginMsg} {c : Centre} (h : c.Faithful ms) (m : PluginMsg) (ty : Nat)
    (call : HookCall) (n : Nat) (hm : m.hook? = some (ty, call)) (hr : registered (ms ++ [m]) = registered ms) :
    (c.spawn ty call n).Faithful (ms ++ [m]) := by
  have hcalls := fun i => callsOf_append c (c.spawn ty call n) _ rfl i
  simp only [HookTask.calls_of] at hcalls
  have hexp : expected (ms ++ [m]) ms.length = (HookTask.mk c.received ty call c.plugins.zipIdx).todo := by
    rw [expected_last, hm]
    simp only [HookTask.todo, shouldRun_eq, h.plugins]
  have hnone : c.callsOf ms.length = [] := by
    have := h.made ms.length
    rw [expected_out (Nat.le_refl _)] at this
    exact List.prefix_nil.mp this
  have hnew : (c.spawn ty call n).callsOf ms.length ++ ((HookTask.mk c.received ty call c.plugins.zipIdx).after n).todo
      = expected (ms ++ [m]) ms.length := by
    rw [hcalls, hnone, hexp, if_pos h.received.symm, List.nil_append]
    exact HookTask.todo_split ⟨c.received, ty, call, c.plugins.zipIdx⟩ n
  have hold : ∀ i, i < ms.length → (c.spawn ty call n).callsOf i = c.callsOf i := by
    intro i hi
    rw [hcalls, if_neg (by show ¬ i = c.received; rw [h.received]; omega), List.append_nil]
  have hlen : (ms ++ [m]).length = ms.length + 1 := by simp
  refine ⟨?_, ?_, ?_, ?_, ?_⟩
  · rw [hr]; exact h.plugins
  · rw [hlen]; show c.received + 1 = _; rw [h.received]
  · intro i
    rcases Nat.lt_trichotomy i ms.length with hi | rfl | hi
    · rw [hold i hi, expected_snoc hi]; exact h.made i
    · rw [← hnew]; exact List.prefix_append _ _
    · rw [expected_out (by rw [hlen]; omega), hcalls, if_neg (by show ¬ i = c.received; rw [h.received]; omega)]
      have := h.made i
      rw [expected_out (by omega)] at this
      rw [List.prefix_nil.mp this, List.append_nil]
      exact List.nil_prefix
  · intro f hf
    rcases List.mem_append.mp hf with hf | hf
    · obtain ⟨h1, h2, h3⟩ := h.task f hf
      refine ⟨by rw [hlen]; omega, ?_, ?_⟩
      · rw [List.getElem?_append_left h1]; exact h2
      · rw [hold _ h1, expected_snoc h1]; exact h3
    · rw [List.mem_singleton.mp hf]
      refine ⟨?_, ?_, ?_⟩
      · show c.received < _; rw [h.received, hlen]; omega
      · show (ms ++ [m])[c.received]? >>= _ = _
        rw [h.received, List.getElem?_append_right (Nat.le_refl _), Nat.sub_self]
        exact hm
      · show (c.spawn ty call n).callsOf c.received ++ _ = expected _ c.received
        have e := h.received
        rw [show (c.spawn ty call n).callsOf c.received = (c.spawn ty call n).callsOf ms.length by rw [e],
          show expected (ms ++ [m]) c.received = expected (ms ++ [m]) ms.length by rw [e]]
        exact hnew
  · show ((c.tasks ++ [_]).map HookTask.src).Nodup
    rw [List.map_append, List.nodup_append]
    refine ⟨h.once, by simp, ?_⟩
    intro a ha b hb e
    obtain ⟨f, hf, rfl⟩ := List.mem_map.mp ha
    have := (h.task f hf).1
    rw [List.mem_singleton.mp hb] at e
    have e2 : f.src = c.received := e
    rw [e2, h.received] at this
    omega

theorem Centre.step_poll (c : Centre) {i : Nat} {f : HookTask} (h : c.tasks[i]? = some f) (n : Nat) :
    c.step (.poll i n) = { c with tasks := c.tasks.set i (f.after n), calls := c.calls ++ f.calls n } := by
  simp only [Centre.step, h]

theorem Centre.step_poll_none (c : Centre) {i : Nat} (h : c.tasks[i]? = none) (n : Nat) :
    c.step (.poll i n) = c := by
  simp only [Centre.step, h]

theorem Centre.Faithful.step {ms : List PluginMsg} {c : Centre} (h : c.Faithful ms) (op : CentreOp) :
    (c.step op).Faithful (ms ++ (match op with | .deliver m _ => [m] | _ => [])) := by
  cases op with
  | deliver m n =>
    cases m with
    | register p =>
      have hlen : (ms ++ [PluginMsg.register p]).length = ms.length + 1 := by simp
      refine ⟨?_, ?_, ?_, ?_, h.once⟩
      · show c.plugins ++ [p] = registered (ms ++ [.register p])
        rw [registered_snoc, h.plugins]
      · show c.received + 1 = (ms ++ [PluginMsg.register p]).length
        rw [hlen, h.received]
      · intro i
        show c.callsOf i <+: expected (ms ++ [.register p]) i
        by_cases hi : i < ms.length
        · rw [expected_snoc hi]; exact h.made i
        · have := h.made i
          rw [expected_out (by omega)] at this
          rw [List.prefix_nil.mp this]; exact List.nil_prefix
      · intro f hf
        obtain ⟨h1, h2, h3⟩ := h.task f hf
        show _ < (ms ++ [PluginMsg.register p]).length ∧ (ms ++ [PluginMsg.register p])[f.src]? >>= _ = _ ∧
          _ = expected (ms ++ [PluginMsg.register p]) f.src
        refine ⟨by rw [hlen]; omega, ?_, ?_⟩
        · rw [List.getElem?_append_left h1]; exact h2
        · rw [expected_snoc h1]; exact h3
    | changeStatus ty id st => exact h.spawn _ ty _ n rfl (by rw [registered_snoc]; simp)
    | runHook ty id b =>
      refine h.spawn _ ty _ n ?_ (by rw [registered_snoc]; simp)
      cases b <;> rfl
  | poll i n =>
    show (c.step (.poll i n)).Faithful (ms ++ [])
    rw [List.append_nil]
    cases hi : c.tasks[i]? with
    | none => rw [c.step_poll_none hi]; exact h
    | some f =>
      rw [c.step_poll hi]
      obtain ⟨a, b, e1, e2, -⟩ := split_at hi
      have hf : f ∈ c.tasks := List.mem_of_getElem? hi
      obtain ⟨g1, g2, g3⟩ := h.task f hf
      have hcalls := fun m => callsOf_append c
        { c with tasks := c.tasks.set i (f.after n), calls := c.calls ++ f.calls n } _ rfl m
      simp only [HookTask.calls_of] at hcalls
      have hsrc : ∀ g ∈ c.tasks.set i (f.after n), g ∈ c.tasks ∧ g.src ≠ f.src ∨ g = f.after n := by
        intro g hg
        rw [e2] at hg
        have ho := h.once
        rw [e1, List.map_append, List.map_cons, List.nodup_append, List.nodup_cons] at ho
        rcases List.mem_append.mp hg with hg | hg
        · refine .inl ⟨by rw [e1]; exact List.mem_append_left _ hg, ?_⟩
          exact ho.2.2 _ (List.mem_map_of_mem hg) _ List.mem_cons_self
        · rcases List.mem_cons.mp hg with rfl | hg
          · exact .inr rfl
          · refine .inl ⟨by rw [e1]; exact List.mem_append_right _ (List.mem_cons_of_mem _ hg), ?_⟩
            intro e
            exact ho.2.1.1 (e ▸ List.mem_map_of_mem hg)
      refine ⟨h.plugins, h.received, ?_, ?_, ?_⟩
      · intro m
        rw [hcalls]
        by_cases hm : m = f.src
        · rw [if_pos hm, hm, ← g3, ← f.todo_split n, ← List.append_assoc]
          exact List.prefix_append _ _
        · rw [if_neg hm, List.append_nil]; exact h.made m
      · intro g hg
        rcases hsrc g hg with ⟨k1, k2⟩ | rfl
        · obtain ⟨t1, t2, t3⟩ := h.task g k1
          refine ⟨t1, t2, ?_⟩
          rw [hcalls, if_neg k2, List.append_nil]; exact t3
        · refine ⟨g1, g2, ?_⟩
          show Centre.callsOf _ f.src ++ _ = expected ms f.src
          rw [hcalls, if_pos rfl, List.append_assoc, f.todo_split n]; exact g3
      · show ((c.tasks.set i (f.after n)).map HookTask.src).Nodup
        have ho := h.once
        rw [e1] at ho
        rw [e2]
        simpa [HookTask.after] using ho
  | panic i =>
    show (c.step (.panic i)).Faithful (ms ++ [])
    rw [List.append_nil]
    refine ⟨h.plugins, h.received, h.made, fun f hf => h.task f (List.mem_of_mem_eraseIdx hf), ?_⟩
    exact h.once.sublist ((List.eraseIdx_sublist _ _).map _)

theorem run_snoc (c : Centre) (ops : List CentreOp) (op : CentreOp) : c.run (ops ++ [op]) = (c.run ops).step op := by
  unfold Centre.run
  rw [List.foldl_append]
  rfl

theorem faithful (ops : List CentreOp) : (Centre.run {} ops).Faithful (mail ops) := by
  induction ops using List.reverseRecOn with
  | nil => exact .start
  | append_singleton ops op ih =>
    rw [run_snoc, mail_snoc]
    exact ih.step op

/-- If no hook panics, a message that has not led to all its calls has a task. -/
theorem has_task {ops : List CentreOp} (h : NoPanic ops) {m : Nat} {ty : Nat} {call : HookCall}
    (hm : (mail ops)[m]? >>= PluginMsg.hook? = some (ty, call)) :
    ∃ f ∈ (Centre.run {} ops).tasks, f.src = m := by
  induction ops using List.reverseRecOn with
  | nil => cases hm
  | append_singleton ops op ih =>
    have ih := ih fun i hi => h i (List.mem_append_left _ hi)
    have hlt : m < (mail (ops ++ [op])).length := by
      by_contra hc
      rw [List.getElem?_eq_none (by omega)] at hm
      cases hm
    rw [run_snoc]
    rw [mail_snoc] at hm hlt
    have hrec := (faithful ops).received
    cases op with
    | deliver msg n =>
      simp only [List.length_append, List.length_cons, List.length_nil] at hlt
      by_cases hi : m < (mail ops).length
      · rw [List.getElem?_append_left hi] at hm
        obtain ⟨f, hf, e⟩ := ih hm
        refine ⟨f, ?_, e⟩
        cases msg with
        | register p => exact hf
        | changeStatus => exact List.mem_append_left _ hf
        | runHook => exact List.mem_append_left _ hf
      · have e : m = (mail ops).length := by omega
        subst e
        rw [List.getElem?_append_right (Nat.le_refl _), Nat.sub_self] at hm
        cases msg with
        | register p => cases hm
        | changeStatus => exact ⟨_, List.mem_append_right _ List.mem_cons_self, hrec⟩
        | runHook => exact ⟨_, List.mem_append_right _ List.mem_cons_self, hrec⟩
    | poll i n =>
      simp only [List.append_nil] at hm
      obtain ⟨f, hf, e⟩ := ih hm
      cases hi : (Centre.run {} ops).tasks[i]? with
      | none => rw [Centre.step_poll_none _ hi]; exact ⟨f, hf, e⟩
      | some g =>
        rw [Centre.step_poll _ hi]
        show ∃ f ∈ (Centre.run {} ops).tasks.set i (g.after n), _
        obtain ⟨a, b, e1, e2, -⟩ := split_at hi
        rw [e1] at hf
        rw [e2]
        rcases List.mem_append.mp hf with hf | hf
        · exact ⟨f, List.mem_append_left _ hf, e⟩
        · rcases List.mem_cons.mp hf with rfl | hf
          · exact ⟨f.after n, List.mem_append_right _ List.mem_cons_self, e⟩
          · exact ⟨f, List.mem_append_right _ (List.mem_cons_of_mem _ hf), e⟩
    | panic i => exact absurd (List.mem_append_right _ List.mem_cons_self) (h i)

/-! ## What one plugin sees -/

theorem zipIdx_at (l : List Plugin) (i p : Nat) :
    (l.zipIdx i).filter (fun q => q.2 = i + p) = (l[p]?.toList).map (·, i + p) := by
  induction l generalizing i p with
  | nil => simp
  | cons a l ih =>
    rw [List.zipIdx_cons]
    cases p with
    | zero =>
      have : (l.zipIdx (i + 1)).filter (fun q => decide (q.2 = i + 0)) = [] := by
        refine List.filter_eq_nil_iff.mpr fun q hq => ?_
        have := (List.mem_zipIdx hq).1
        simp only [decide_eq_true_eq]
        omega
      rw [List.filter_cons_of_pos (by simp), this]
      rfl
    | succ p =>
      rw [List.filter_cons_of_neg (by simp)]
      have := ih (i + 1) p
      rw [show i + 1 + p = i + (p + 1) by omega] at this
      rw [this]
      simp

theorem zipIdx_at_zero (l : List Plugin) (p : Nat) :
    l.zipIdx.filter (fun q => q.2 = p) = (l[p]?.toList).map (·, p) := by
  have := zipIdx_at l 0 p
  simpa using this

theorem zipIdx_drop_ge {l : List Plugin} {n : Nat} {q : Plugin × Nat} (h : q ∈ l.zipIdx.drop n) : n ≤ q.2 := by
  obtain ⟨i, hi, e⟩ := List.mem_iff_getElem.mp h
  rw [List.getElem_drop, List.getElem_zipIdx] at e
  rw [← e]
  show n ≤ 0 + (n + i)
  omega

/-- What plugin `p` is called with in the first poll of a task that comes as far as `p`. -/
theorem first_poll (src ty : Nat) (call : HookCall) (l : List Plugin) {p n : Nat} (h : p < n) :
    (((HookTask.mk src ty call l.zipIdx).calls n).filter fun q => q.2.1 = p).map (·.2.2) =
      match l[p]? with
      | some pl => if pl.Wants ty then [call] else []
      | none => [] := by
  have e0 : ∀ m : List (Plugin × Nat),
      (((m.filter fun q => q.1.shouldRun ty).map fun q => (src, q.2, call)).filter fun q => decide (q.2.1 = p)).map (·.2.2)
      = ((m.filter fun q => q.2 = p).filter fun q => q.1.shouldRun ty).map fun _ => call := by
    intro m
    rw [List.filter_map, List.map_map, List.filter_filter, List.filter_filter]
    have : (fun a : Plugin × Nat => (((fun q => decide (q.2.1 = p)) ∘ fun q => (src, q.2, call)) a && a.1.shouldRun ty))
        = fun a => a.1.shouldRun ty && decide (a.2 = p) := by
      funext a
      exact Bool.and_comm _ _
    rw [this]
    rfl
  have e1 : (l.zipIdx.take n).filter (fun q => decide (q.2 = p)) = l.zipIdx.filter (fun q => decide (q.2 = p)) := by
    conv => rhs; rw [← List.take_append_drop n l.zipIdx, List.filter_append]
    have : (l.zipIdx.drop n).filter (fun q => decide (q.2 = p)) = [] := by
      refine List.filter_eq_nil_iff.mpr fun q hq => ?_
      have := zipIdx_drop_ge hq
      simp only [decide_eq_true_eq]
      omega
    rw [this, List.append_nil]
  unfold HookTask.calls
  refine (e0 _).trans ?_
  show ((List.filter _ (List.filter _ (l.zipIdx.take n))).map _) = _
  rw [e1, zipIdx_at_zero]
  cases h : l[p]? with
  | none => rfl
  | some pl =>
    by_cases hw : pl.Wants ty
    · simp [shouldRun_eq, hw]
    · simp [shouldRun_eq, hw]

theorem seenBy_append (c c' : Centre) (l : List (Nat × Nat × HookCall)) (h : c'.calls = c.calls ++ l) (p : Nat) :
    c'.seenBy p = c.seenBy p ++ (l.filter fun q => q.2.1 = p).map (·.2.2) := by
  unfold Centre.seenBy
  rw [h, List.filter_append, List.map_append]

/-- Tasks that have come past plugin `p` do not call it any more. -/
theorem past {ops : List CentreOp} {p : Nat} (h : ReachedAtOnce p ops) :
    ∀ f ∈ (Centre.run {} ops).tasks, ∀ q ∈ f.rest, p < q.2 := by
  induction ops using List.reverseRecOn with
  | nil => intro f hf; cases hf
  | append_singleton ops op ih =>
    have ih := ih fun m n hm => h m n (List.mem_append_left _ hm)
    rw [run_snoc]
    have new : ∀ ty call n, p < n → ∀ f ∈ ((Centre.run {} ops).spawn ty call n).tasks, ∀ q ∈ f.rest, p < q.2 := by
      intro ty call n hn f hf q hq
      rcases List.mem_append.mp hf with hf | hf
      · exact ih f hf q hq
      · rw [List.mem_singleton.mp hf] at hq
        exact Nat.lt_of_lt_of_le hn (zipIdx_drop_ge hq)
    cases op with
    | deliver m n =>
      have hn := h m n (List.mem_append_right _ List.mem_cons_self)
      cases m with
      | register pl => exact ih
      | changeStatus ty id st => exact new _ _ _ hn
      | runHook ty id b => exact new _ _ _ hn
    | poll i n =>
      cases hi : (Centre.run {} ops).tasks[i]? with
      | none => rw [Centre.step_poll_none _ hi]; exact ih
      | some f =>
        rw [Centre.step_poll _ hi]
        intro g hg q hq
        rcases List.mem_or_eq_of_mem_set hg with hg | rfl
        · exact ih g hg q hq
        · exact ih f (List.mem_of_getElem? hi) q (List.mem_of_mem_drop hq)
    | panic i => exact fun f hf => ih f (List.mem_of_mem_eraseIdx hf)

/-- What plugin `p` is called with when the centre takes one more step. -/
theorem seenBy_snoc {ops : List CentreOp} {op : CentreOp} {p : Nat} (h : ReachedAtOnce p (ops ++ [op])) :
    (Centre.run {} (ops ++ [op])).seenBy p = (Centre.run {} ops).seenBy p ++
      (match op with
      | .deliver m _ => match m.hook?, (registered (mail ops))[p]? with
        | some (ty, call), some pl => if pl.Wants ty then [call] else []
        | _, _ => []
      | _ => []) := by
  have h0 : ReachedAtOnce p ops := fun m n hm => h m n (List.mem_append_left _ hm)
  rw [run_snoc]
  cases op with
  | deliver m n =>
    have hn := h m n (List.mem_append_right _ List.mem_cons_self)
    have hp := (faithful ops).plugins
    have new : ∀ ty call, ((Centre.run {} ops).spawn ty call n).seenBy p = (Centre.run {} ops).seenBy p ++
        (match (registered (mail ops))[p]? with
        | some pl => if pl.Wants ty then [call] else []
        | none => []) := by
      intro ty call
      rw [seenBy_append _ ((Centre.run {} ops).spawn ty call n) _ rfl, first_poll _ _ _ _ hn, hp]
    cases m with
    | register pl =>
      show (Centre.run {} ops).seenBy p = _ ++ []
      rw [List.append_nil]
    | changeStatus ty id st =>
      refine (new _ _).trans ?_
      cases (registered (mail ops))[p]? <;> rfl
    | runHook ty id b =>
      refine (new _ _).trans ?_
      cases b <;> cases (registered (mail ops))[p]? <;> rfl
  | poll i n =>
    cases hi : (Centre.run {} ops).tasks[i]? with
    | none => rw [Centre.step_poll_none _ hi, List.append_nil]
    | some f =>
      rw [Centre.step_poll _ hi, seenBy_append (Centre.run {} ops) _ (f.calls n) rfl]
      congr 1
      have hpast := past h0 f (List.mem_of_getElem? hi)
      unfold HookTask.calls
      rw [List.map_eq_nil_iff, List.filter_eq_nil_iff]
      intro q hq
      obtain ⟨q', hq', rfl⟩ := List.mem_map.mp hq
      have := hpast q' (List.mem_of_mem_take (List.mem_of_mem_filter hq'))
      simp only [decide_eq_true_eq]
      omega
  | panic i =>
    show (Centre.run {} ops).seenBy p = _ ++ []
    rw [List.append_nil]

/-- The statuses of `k` a call is about. -/
def HookCall.status? (k : Str) : HookCall → Option JobStatus
  | .changeStatus id st => if id = k then some st else none
  | _ => none

theorem told_eq (c : Centre) (p : Nat) (k : Str) : c.told p k = (c.seenBy p).filterMap (HookCall.status? k) := by
  unfold Centre.told
  congr 1

theorem statusesOf_snoc (k : Str) (ms : List PluginMsg) (m : PluginMsg) :
    statusesOf k (ms ++ [m]) = statusesOf k ms ++ (match m with
      | .changeStatus ty id st => if id = k then [(ty, st)] else []
      | _ => []) := by
  unfold statusesOf
  rw [List.filterMap_append]
  congr 1
  cases m with
  | changeStatus ty id st => by_cases h : id = k <;> simp [h]
  | _ => rfl

/-- The last status a plugin was told is the last one in the mail. -/
theorem told_last {ops : List CentreOp} {p ty : Nat} {k : Str} (hp : ReachedAtOnce p ops)
    (hty : ∀ q ∈ statusesOf k (mail ops), q.1 = ty) :
    (Centre.run {} ops).told p k = [] ∨
    (∃ pl, (registered (mail ops))[p]? = some pl ∧ pl.Wants ty) ∧
      ((Centre.run {} ops).told p k).getLast? = (statusesOf k (mail ops)).getLast?.map (·.2) := by
  induction ops using List.reverseRecOn with
  | nil => exact .inl rfl
  | append_singleton ops op ih =>
    have hp0 : ReachedAtOnce p ops := fun m n hm => hp m n (List.mem_append_left _ hm)
    have hsee := seenBy_snoc hp
    rw [told_eq, hsee, List.filterMap_append, ← told_eq]
    rw [mail_snoc] at hty ⊢
    cases op with
    | poll i n =>
      simp only [List.append_nil] at hty ⊢
      simpa using ih hp0 hty
    | panic i =>
      simp only [List.append_nil] at hty ⊢
      simpa using ih hp0 hty
    | deliver m n =>
      simp only at hty ⊢
      rw [statusesOf_snoc] at hty ⊢
      have ih := ih hp0 fun q hq => hty q (List.mem_append_left _ hq)
      have hreg : ∀ pl, (registered (mail ops))[p]? = some pl → (registered (mail ops ++ [m]))[p]? = some pl := by
        intro pl h
        rw [registered_snoc]
        rw [List.getElem?_append_left]
        · exact h
        · by_contra hc
          rw [List.getElem?_eq_none (by omega)] at h
          cases h
      -- nothing about `k`
      have keep : ∀ (x : List JobStatus) (y : List (Nat × JobStatus)), x = [] → y = [] →
          ((Centre.run {} ops).told p k ++ x = [] ∨
            (∃ pl, (registered (mail ops ++ [m]))[p]? = some pl ∧ pl.Wants ty) ∧
            ((Centre.run {} ops).told p k ++ x).getLast? = (statusesOf k (mail ops) ++ y).getLast?.map (·.2)) := by
        intro x y h1 h2
        rw [h1, h2, List.append_nil, List.append_nil]
        rcases ih with h | ⟨⟨pl, h1, h2⟩, h3⟩
        · exact .inl h
        · exact .inr ⟨⟨pl, hreg pl h1, h2⟩, h3⟩
      cases m with
      | register pl => exact keep _ _ rfl rfl
      | runHook ty' id b =>
        refine keep _ _ ?_ rfl
        cases b <;>
        · simp only [PluginMsg.hook?]
          cases (registered (mail ops))[p]? with
          | none => rfl
          | some pl => by_cases hw : pl.Wants ty' <;> simp [hw, HookCall.status?]
      | changeStatus ty' id st =>
        by_cases hid : id = k
        · subst hid
          have e : ty' = ty := hty (ty', st) (List.mem_append_right _ (by simp))
          subst e
          simp only [PluginMsg.hook?, if_pos]
          cases hpl : (registered (mail ops))[p]? with
          | none =>
            left
            rcases ih with h | ⟨⟨pl, h1, _⟩, _⟩
            · simp [h]
            · rw [hpl] at h1; cases h1
          | some pl =>
            by_cases hw : pl.Wants ty'
            · right
              refine ⟨⟨pl, hreg pl hpl, hw⟩, ?_⟩
              simp [hw, HookCall.status?]
            · left
              rcases ih with h | ⟨⟨pl', h1, h2⟩, _⟩
              · simp [h, hw]
              · rw [hpl] at h1; cases h1; exact absurd h2 hw
        · refine keep _ _ ?_ (if_neg hid)
          simp only [PluginMsg.hook?]
          cases (registered (mail ops))[p]? with
          | none => rfl
          | some pl => by_cases hw : pl.Wants ty' <;> simp [hw, HookCall.status?, hid]

theorem hooksOf_snoc (k : Str) (ms : List PluginMsg) (m : PluginMsg) :
    hooksOf k (ms ++ [m]) = hooksOf k ms ++ (match m with
      | .runHook ty id b => if id = k then [(ty, b)] else []
      | _ => []) := by
  unfold hooksOf
  rw [List.filterMap_append]
  congr 1
  cases m with
  | runHook ty id b => by_cases h : id = k <;> simp [h]
  | _ => rfl

/-- A plugin that wants a job and was there before its first run is called for every message about its runs. -/
theorem around_all {ops0 ops1 : List CentreOp} {p ty : Nat} {k : Str} {pl : Plugin}
    (hreg : (registered (mail ops0))[p]? = some pl) (hw : pl.Wants ty) (hnone : hooksOf k (mail ops0) = [])
    (hp : ReachedAtOnce p (ops0 ++ ops1)) (hty : ∀ q ∈ hooksOf k (mail (ops0 ++ ops1)), q.1 = ty) :
    (registered (mail (ops0 ++ ops1)))[p]? = some pl ∧
    (Centre.run {} (ops0 ++ ops1)).around p k =
      (hooksOf k (mail (ops0 ++ ops1))).map fun q => if q.2 then .beforeRun k else .afterRun k := by
  have key : ∀ (ops : List CentreOp) (op : CentreOp), ReachedAtOnce p (ops ++ [op]) →
      (∀ q ∈ hooksOf k (mail (ops ++ [op])), q.1 = ty) →
      ((registered (mail ops))[p]? = some pl ∨ hooksOf k (mail (ops ++ [op])) = []) →
      (Centre.run {} ops).around p k = (hooksOf k (mail ops)).map (fun q => if q.2 then .beforeRun k else .afterRun k) →
      (Centre.run {} (ops ++ [op])).around p k =
        (hooksOf k (mail (ops ++ [op]))).map (fun q => if q.2 then .beforeRun k else .afterRun k) := by
    intro ops op hp hty hr ih
    unfold Centre.around at ih ⊢
    rw [seenBy_snoc hp, List.filter_append, ih]
    rw [mail_snoc] at hty hr ⊢
    cases op with
    | poll i n => simp only [List.filter_nil, List.append_nil]
    | panic i => simp only [List.filter_nil, List.append_nil]
    | deliver m n =>
      simp only at hty hr ⊢
      rw [hooksOf_snoc] at hty hr ⊢
      rw [List.map_append]
      congr 1
      cases m with
      | register pl => rfl
      | changeStatus ty' id st =>
        simp only [PluginMsg.hook?]
        cases (registered (mail ops))[p]? with
        | none => rfl
        | some pl => by_cases hw : pl.Wants ty' <;> simp [hw]
      | runHook ty' id b =>
        by_cases hid : id = k
        · subst hid
          simp only [if_pos] at hty hr ⊢
          have e : ty' = ty := hty (ty', b) (List.mem_append_right _ (by simp))
          subst e
          have hr : (registered (mail ops))[p]? = some pl := by
            rcases hr with h | h
            · exact h
            · simp at h
          rw [hr]
          cases b <;> simp [PluginMsg.hook?, hw]
        · simp only [hid, if_false, List.map_nil]
          cases b <;>
          · simp only [PluginMsg.hook?]
            cases (registered (mail ops))[p]? with
            | none => rfl
            | some pl => by_cases hw : pl.Wants ty' <;> simp [hw, hid]
  have base : ∀ ops, ReachedAtOnce p ops → hooksOf k (mail ops) = [] →
      (Centre.run {} ops).around p k = (hooksOf k (mail ops)).map (fun q => if q.2 then .beforeRun k else .afterRun k) := by
    intro ops
    induction ops using List.reverseRecOn with
    | nil => intro _ _; rfl
    | append_singleton ops op ih =>
      intro h1 h2
      refine key ops op h1 (fun q hq => by rw [h2] at hq; cases hq) (.inr h2) (ih ?_ ?_)
      · exact fun m n hm => h1 m n (List.mem_append_left _ hm)
      · rw [mail_snoc] at h2
        unfold hooksOf at h2 ⊢
        rw [List.filterMap_append] at h2
        exact (List.append_eq_nil_iff.mp h2).1
  induction ops1 using List.reverseRecOn with
  | nil =>
    rw [List.append_nil] at hp hty ⊢
    exact ⟨hreg, base ops0 hp hnone⟩
  | append_singleton ops op ih =>
    rw [← List.append_assoc] at hp hty ⊢
    obtain ⟨h1, h2⟩ := ih (fun m n hm => hp m n (List.mem_append_left _ hm)) (fun q hq => by
      refine hty q ?_
      rw [mail_snoc]
      unfold hooksOf at hq ⊢
      rw [List.filterMap_append]
      exact List.mem_append_left _ hq)
    refine ⟨?_, key (ops0 ++ ops) op hp hty (.inl h1) h2⟩
    rw [mail_snoc]
    have : ∀ l, (registered (mail (ops0 ++ ops) ++ l))[p]? = some pl := by
      intro l
      unfold registered at h1 ⊢
      rw [List.filterMap_append, List.getElem?_append_left]
      · exact h1
      · by_contra hc
        rw [List.getElem?_eq_none (by omega)] at h1
        cases h1
    exact this _

/-! ## The messages of one job -/

section
variable {D O : Type} {E : Env D} {name : Str} {clk : Nat → Time} {b : Impl} {k : Str}

theorem sent_append {v v' : Snap D} {l : List Event} (h : v'.mine k = v.mine k ++ l) :
    v'.sent k = v.sent k ++ l.filterMap (fun e => match e with | .statusMsg _ st => some st | _ => none) := by
  unfold Snap.sent
  rw [h, List.filterMap_append]
  rfl

theorem parts_append {v v' : Snap D} {l : List Event} (h : v'.mine k = v.mine k ++ l) :
    v'.parts k = v.parts k ++ l.filterMap (fun e => match e with
      | .hookMsg _ b => some (.hook b) | .ran _ => some .code | .statusMsg _ _ => none) := by
  unfold Snap.parts
  rw [h, List.filterMap_append]
  rfl

theorem sent_same {v v' : Snap D} (h : v'.mine k = v.mine k) : v'.sent k = v.sent k := by
  unfold Snap.sent
  rw [h]

theorem snap_init : b.snap E name (Sys.init b.B b.empty) = Sys.obs E name (Sys.init SpecB Spec.empty) :=
  Impl.snap_eq Impl.rs_init

/-- The last status sent is the stored one. -/
theorem sent_last (L : E.Lawful) {s : Sys D b.B} (hs : Reach (O := O) b E name clk (CarefulFor E k) s) :
    ((b.snap E name s).sent k).getLast? = (b.snap E name s).status k := by
  induction hs with
  | start =>
    rw [snap_init]; rfl
  | step op hr hp ih =>
    have hl := reach_life L (fun _ _ h => h) hr op hp
    have of : ∀ {v v' : Snap D} {st : JobStatus} {j : Job D} {l : List Event}, v'.mine k = v.mine k ++ l →
        (l.filterMap (fun e => match e with | Event.statusMsg _ st => some st | _ => none)) = [st] →
        v'.job k = some j → j.context.jobStatus = st → (v'.sent k).getLast? = v'.status k := by
      intro v v' st j l h1 h2 h3 h4
      rw [sent_append h1, h2, status_of h3, h4]
      simp
    cases hl with
    | same _ h1 h2 h3 =>
      rw [sent_same h3, ih]; unfold Snap.status; rw [h1]
    | died _ h1 h2 h3 =>
      obtain ⟨l, h3, h4⟩ := h3
      have : l.filterMap (fun e => match e with | Event.statusMsg _ st => some st | _ => none) = [] := by
        rw [List.filterMap_eq_nil_iff]
        intro e he; rw [h4 e he]
      rw [sent_append h3, this, List.append_nil, ih]; unfold Snap.status; rw [h1]
    | submit j c _ _ _ h1 _ _ h2 => exact of h2 rfl h1 rfl
    | replace j c ex _ _ hold _ _ _ hst h1 _ _ h2 =>
      rw [sent_same h2, ih, status_of hold, status_of h1, ← hst]; rfl
    | cancel j _ _ h1 _ _ h2 => exact of h2 rfl h1 rfl
    | retry j _ _ h1 _ _ h2 => exact of h2 rfl h1 rfl
    | pick j i _ _ _ _ _ h1 _ _ h2 => exact of h2 rfl h1 rfl
    | run j i hold _ _ _ h1 _ h2 =>
      rw [sent_append h2]
      simp only [List.filterMap_cons, List.filterMap_nil, List.append_nil]
      rw [ih, status_of hold, status_of h1]
    | finish j j' i x w w' _ _ _ _ _ _ _ _ _ h1 _ h2 => exact of h2 rfl h1 rfl

/-- The last status sent is the stored one, if there is a readable stored job. -/
theorem sent_read (L : E.Lawful) {s : Sys D b.B} (hs : Reach (O := O) b E name clk (Orderly k) s) {st : JobStatus}
    (hst : (b.snap E name s).status k = some st) : ((b.snap E name s).sent k).getLast? = some st := by
  induction hs generalizing st with
  | start => rw [snap_init] at hst; cases hst
  | @step s op hr hp ih =>
    have of : ∀ {v v' : Snap D} {st st' : JobStatus} {j : Job D} {l : List Event}, v'.mine k = v.mine k ++ l →
        (l.filterMap (fun e => match e with | Event.statusMsg _ st => some st | _ => none)) = [st'] →
        v'.job k = some j → j.context.jobStatus = st' → v'.status k = some st → (v'.sent k).getLast? = some st := by
      intro v v' st st' j l h1 h2 h3 h4 h5
      rw [sent_append h1, h2, ← h5, status_of h3, h4]
      simp
    have key : Solo k (b.snap E name s) → (((b.snap E name (Sys.step E name b.B clk s op).1)).sent k).getLast? = some st := by
      intro hsolo
      rcases orderly_life L hr hsolo op hp with ⟨_, hl⟩ | ⟨hlost, _⟩
      swap
      · unfold Snap.status at hst; rw [hlost.job] at hst; cases hst
      cases hl with
      | same _ h1 h2 h3 =>
        rw [sent_same h3]; exact ih (by rw [← hst]; unfold Snap.status; rw [h1])
      | died _ h1 h2 h3 =>
        obtain ⟨l, h3, h4⟩ := h3
        have : l.filterMap (fun e => match e with | Event.statusMsg _ st => some st | _ => none) = [] := by
          rw [List.filterMap_eq_nil_iff]
          intro e he; rw [h4 e he]
        rw [sent_append h3, this, List.append_nil]; exact ih (by rw [← hst]; unfold Snap.status; rw [h1])
      | submit j c _ _ _ h1 _ _ h2 => exact of h2 rfl h1 rfl hst
      | replace j c ex _ _ hold _ _ _ hst' h1 _ _ h2 =>
        rw [sent_same h2]; exact ih (by rw [← hst, status_of hold, status_of h1, ← hst']; rfl)
      | cancel j _ _ h1 _ _ h2 => exact of h2 rfl h1 rfl hst
      | retry j _ _ h1 _ _ h2 => exact of h2 rfl h1 rfl hst
      | pick j i _ _ _ _ _ h1 _ _ h2 => exact of h2 rfl h1 rfl hst
      | run j i hold _ _ _ h1 _ h2 =>
        rw [sent_append h2]
        simp only [List.filterMap_cons, List.filterMap_nil, List.append_nil]
        exact ih (by rw [← hst, status_of hold, status_of h1])
      | finish j j' i x w w' _ _ _ _ _ _ _ _ _ h1 _ h2 => exact of h2 rfl h1 rfl hst
    rcases reach_orderly L (fun _ _ h => h) hr with h | h
    · exact key h
    · by_cases hn : NoSubmit k op
      · have := (lost_step L hr h op hn).1.job
        unfold Snap.status at hst; rw [this] at hst; cases hst
      · unfold NoSubmit at hn
        push Not at hn
        obtain ⟨j, c, e, hid⟩ := hn
        exact key (h.solo ((hp j c e hid).1 h.job))

/-- The parts of a whole execution. -/
def wholeRun : List Part := [.hook true, .code, .hook true]

end

end AJ
