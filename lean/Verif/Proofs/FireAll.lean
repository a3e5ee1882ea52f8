import Verif.Proofs.Fire
import Verif.Proofs.Answers

/-!
# Jobs given to `just_run`, in any history
-/

namespace AJ

/-- The request a client is at. -/
def ClientPc.call? : ClientPc → Option ApiCall
  | .idle => none
  | .begun call => some call
  | .create call _ => some call
  | .lock call _ => some call
  | .write call _ => some call
  | .reread call => some call
  | .ask call _ _ => some call
  | .waiting call _ _ _ => some call
  | .reading call _ _ _ => some call
  | .done call _ => some call

namespace Hub

theorem client_call (h : Hub) (c : Nat) (x : Bool) {call : ApiCall} (hc : (h.clients c).call? = some call) :
    ((h.client c x).clients c).call? = some call := by
  have hgo : ∀ pc, ((h.go c pc).clients c) = pc := fun pc => by rw [go_clients, if_pos rfl]
  have hlook : ∀ call, (h.look call).call? = some call := by
    intro call
    cases call <;> simp only [look] <;> split <;> rfl
  unfold client
  split
  next call' e => rw [e] at hc; rw [hgo, hlook]; exact hc
  next e => rw [e] at hc; exact (congrArg _ (upd_same _ _ _)).trans hc
  next e =>
    rw [e] at hc
    split
    · rw [hgo]; exact hc
    · exact (congrArg _ (upd_same _ _ _)).trans hc
  next e => rw [e] at hc; exact (congrArg _ (upd_same _ _ _)).trans hc
  next e => rw [e] at hc; split <;> (rw [hgo]; exact hc)
  next call' ty n e =>
    rw [e] at hc
    split
    · rcases (send_frame h c call' _ ty n).2.2.2.2.2.2 with h1 | h1 <;> (rw [h1]; exact hc)
    · rw [hgo]; exact hc
  next call' q ty n e =>
    rw [e] at hc
    split
    · rw [hgo]; unfold lookAgain; split <;> exact hc
    · rw [hgo]; exact hc
  next => exact hc

theorem engine_call (h : Hub) (e c : Nat) {call : ApiCall} (hc : (h.clients c).call? = some call) :
    ((h.engine e).clients c).call? = some call := by
  rcases engine_clients h e c with h1 | ⟨_, _, _, h1, h2⟩ | ⟨_, _, _, _, _, _, _, _, _, _, h1, h2⟩
  · rw [h1]; exact hc
  · rw [h2]; rw [h1] at hc; exact hc
  · rw [h2]; rw [h1] at hc; exact hc

theorem release_call (h : Hub) (e c : Nat) {call : ApiCall} (hc : (h.clients c).call? = some call) :
    ((h.release e).clients c).call? = some call := by
  rcases release_clients h e c with h1 | ⟨_, _, _, h1, h2⟩
  · rw [h1]; exact hc
  · rw [h2]; rw [h1] at hc; exact hc

/-- Work queue actors are only added. -/
theorem step_queues (h : Hub) (op : HubOp) {q : Nat} {a : QueueActor} (hq : h.queues[q]? = some a) :
    (h.step op).queues[q]? = some a := by
  cases op with
  | begin c call => show (h.begin c call).queues[q]? = _; rw [(begin_frame h c call).2.2.1]; exact hq
  | client c x => show (h.client c x).queues[q]? = _; rw [(client_frame h c x).2.2.1]; exact hq
  | engine e =>
    show (h.engine e).queues[q]? = _
    unfold engine
    split
    next => exact hq
    next E hE =>
    split
    · split
      · exact hq
      · split <;> exact hq
    · split <;> exact hq
    · simp only
      rw [List.getElem?_append, if_pos (List.getElem?_eq_some_iff.1 hq).1]
      exact hq
    · next m q' _ => rw [← (answer_frame h m q').2.2.2.2.2] at hq; exact hq

/-- The dead do not rise. -/
def Dead (h : Hub) (e : Nat) : Prop := ∃ E, h.engines[e]? = some E ∧ E.alive = false

theorem dead_set {l : List Engine} {e k : Nat} {X : Engine} (hd : ∃ E, l[e]? = some E ∧ E.alive = false)
    (hX : ∀ E, l[k]? = some E → E.alive = false → X.alive = false) : ∃ E, (l.set k X)[e]? = some E ∧ E.alive = false := by
  obtain ⟨E, h1, h2⟩ := hd
  by_cases hk : k = e
  · subst hk
    exact ⟨X, by rw [List.getElem?_set_self (List.getElem?_eq_some_iff.1 h1).1], hX E h1 h2⟩
  · exact ⟨E, by rw [List.getElem?_set_ne hk]; exact h1, h2⟩

theorem dead_crash {h : Hub} {e : Nat} (hd : h.Dead e) (k : Nat) (E : Engine) : (h.crash k E).Dead e :=
  dead_set hd fun _ _ _ => rfl

theorem dead_step {h : Hub} {e : Nat} (hd : h.Dead e) (op : HubOp) : (h.step op).Dead e := by
  cases op with
  | begin c call => unfold Dead; rw [show (h.step (.begin c call)).engines = h.engines from (begin_frame h c call).2.2.2]; exact hd
  | client c x =>
    show (h.client c x).Dead e
    unfold client
    split
    · exact hd
    · obtain ⟨E, h1, h2⟩ := hd
      refine ⟨E, ?_, h2⟩
      simp only
      rw [List.getElem?_append, if_pos (List.getElem?_eq_some_iff.1 h1).1]
      exact h1
    · split <;> exact hd
    · exact hd
    · split <;> exact hd
    · split
      · unfold send
        split
        next E' hE' =>
          split
          next ha => exact dead_set hd fun E h1 h2 => by rw [hE'] at h1; cases h1; exact h2
          next => exact hd
        next => exact hd
      · exact hd
    · split <;> exact hd
    · exact hd
  | engine k =>
    show (h.engine k).Dead e
    unfold engine
    split
    next => exact hd
    next E hE =>
    have same : ∀ X : Engine, X.alive = E.alive → ∀ E', h.engines[k]? = some E' → E'.alive = false → X.alive = false := by
      intro X hX E' h1 h2
      rw [hE] at h1
      cases h1
      exact hX.trans h2
    split
    · split
      · exact hd
      · split
        · exact dead_crash hd k _
        · exact dead_set hd (same _ rfl)
    · split
      · exact dead_crash hd k _
      · exact dead_set hd (same _ rfl)
    · exact dead_set hd (same _ rfl)
    · exact dead_set hd (same _ rfl)

theorem locked_crash {h : Hub} (hl : h.Locked) (e : Nat) (E : Engine) : (h.crash e E).Locked := by
  refine locked_same hl rfl fun c call e' hc => ?_
  show (h.release e).clients c = _
  rcases release_clients h e c with h1 | ⟨_, _, _, h1, _⟩
  · exact h1
  · rw [hc] at h1; cases h1

theorem running_crash {h : Hub} {e : Nat} (hr : h.Running e) (k : Nat) (E : Engine) : (h.crash k E).Running e := by
  refine ⟨hr.addr, fun c => ?_⟩
  show ¬ ((h.release k).clients c).Starting
  rcases release_clients h k c with h1 | ⟨_, _, _, _, h1⟩ <;> rw [h1]
  · exact hr.calm c
  · exact fun h => h

end Hub

namespace Yard

/-- Every step is a step of the registry, or none, after which an engine may crash. -/
theorem step_hub (y : Yard) (op : YardOp) : (y.step op).hub = y.hub ∨ ∃ o : HubOp, (y.step op).hub = y.hub.step o ∨
    ∃ e E, (y.step op).hub = (y.hub.step o).crash e E := by
  cases op with
  | begin c call => exact .inr ⟨.begin (thread c) call, .inl rfl⟩
  | client c x => exact .inr ⟨.client (thread c) x, .inl rfl⟩
  | engine e =>
    simp only [step]
    split
    · exact .inr ⟨.engine e, .inl rfl⟩
    · exact .inl rfl
  | just ty n =>
    refine .inl ?_
    simp only [step, just]
    split
    · rfl
    · split <;> rfl
  | handle e =>
    simp only [step, handle]
    split
    · split
      · exact .inl rfl
      next i hi =>
        split
        · exact .inl rfl
        next j hj => exact .inr ⟨.begin (task i) (.submit j.ty j.name), .inl rfl⟩
    · exact .inl rfl
  | poll i =>
    simp only [step, poll]
    split
    · exact .inl rfl
    · split
      · refine .inr ⟨.client (task i) false, ?_⟩
        simp only [burst]
        split
        · split
          · exact .inr ⟨_, _, rfl⟩
          · exact .inl rfl
        · exact .inl rfl
      · exact .inl rfl

/-- What holds of the registry in every history. -/
theorem hub_invariant {P : Hub → Prop} (h1 : ∀ h op, P h → P (h.step op)) (h2 : ∀ h e E, P h → P (h.crash e E))
    {y : Yard} (hy : P y.hub) (op : YardOp) : P (y.step op).hub := by
  rcases step_hub y op with e | ⟨o, e | ⟨k, E, e⟩⟩ <;> rw [e]
  · exact hy
  · exact h1 _ _ hy
  · exact h2 _ _ _ (h1 _ _ hy)

theorem run_invariant {P : Yard → Prop} (h : ∀ y op, P y → P (y.step op)) {y : Yard} (hy : P y) (ops : List YardOp) :
    P (y.run ops) := by
  induction ops generalizing y with
  | nil => exact hy
  | cons op ops ih => exact ih (h y op hy)

theorem set_self {l : List Just} {i : Nat} {j : Just} (h : l[i]? = some j) : l.set i j = l := by
  apply List.ext_getElem?
  intro k
  rw [List.getElem?_set]
  split
  next e => subst e; rw [h, if_pos (List.getElem?_eq_some_iff.1 h).1]
  next => rfl

/-- The jobs an engine has accepted stay where they are once it is dead. -/
theorem dead_jobs {y : Yard} {e i : Nat} {j : Just} (hd : y.hub.Dead e) (hj : y.jobs[i]? = some j) (he : j.engine = e)
    (op : YardOp) : (y.step op).jobs[i]? = some j := by
  have hb : y.between e = false := by
    obtain ⟨E, h1, h2⟩ := hd
    simp [between, h1, h2]
  have app : ∀ a : Just, (y.jobs ++ [a])[i]? = some j := fun a => by
    rw [List.getElem?_append, if_pos (List.getElem?_eq_some_iff.1 hj).1]; exact hj
  cases op with
  | begin c call => exact hj
  | client c x => exact hj
  | engine e => simp only [step]; split <;> exact hj
  | just ty n =>
    simp only [step, just]
    split
    · exact app _
    · split <;> exact app _
  | handle k =>
    simp only [step, handle]
    split
    next hk =>
      split
      · exact hj
      next i' hf =>
        split
        · exact hj
        next j' hj' =>
          obtain ⟨hi, h1, _⟩ := List.findIdx?_eq_some_iff_getElem.1 hf
          rw [List.getElem?_eq_getElem hi] at hj'
          cases hj'
          simp only [Bool.and_eq_true, decide_eq_true_eq] at h1 hk
          have hne : i' ≠ i := by
            intro e'
            subst e'
            rw [List.getElem?_eq_getElem hi] at hj
            cases hj
            rw [← h1.1, he, hb] at hk
            cases hk.1
          simp only
          rw [List.getElem?_set_ne hne]
          exact hj
    next => exact hj
  | poll k =>
    simp only [step, poll]
    split
    · exact hj
    next j' hj' =>
      split
      next hg =>
        have hne : k ≠ i := by
          intro e'
          subst e'
          rw [hj] at hj'
          cases hj'
          rw [he, hb] at hg
          cases hg.2.1
        simp only
        rw [List.getElem?_set_ne hne]
        exact hj
      next => exact hj

/-- With a dead engine at the address, nothing that is given to `just_run` is accepted. -/
structure Lost (e : Nat) (y : Yard) : Prop where
  locked : y.hub.Locked
  running : y.hub.Running e
  dead : y.hub.Dead e

theorem lost_step {e : Nat} {y : Yard} (hl : Lost e y) (op : YardOp) : Lost e (y.step op) := by
  have := hub_invariant (P := fun h => h.Locked ∧ h.Running e ∧ h.Dead e)
    (fun h op hh => ⟨Hub.locked_step hh.1 op, (Hub.running_step hh.1 hh.2.1 op).1, Hub.dead_step hh.2.2 op⟩)
    (fun h k E hh => ⟨Hub.locked_crash hh.1 k E, Hub.running_crash hh.2.1 k E, Hub.dead_crash hh.2.2 k E⟩)
    (y := y) ⟨hl.locked, hl.running, hl.dead⟩ op
  exact ⟨this.1, this.2.1, this.2.2⟩

theorem lost_just {e : Nat} {y : Yard} (hl : Lost e y) (ty : Nat) (n : Str) :
    y.just ty n = { y with jobs := y.jobs ++ [⟨e, ty, n, .dropped⟩] } := by
  obtain ⟨E, h1, h2⟩ := hl.dead
  have hrd : y.hub.readAddr = some e := by simp [Hub.readAddr, hl.locked.free hl.running.calm, hl.running.addr]
  simp [just, hrd, h1, h2]

/-- Jobs change, are added or stay. -/
theorem step_jobs (y : Yard) (op : YardOp) (i : Nat) (j : Just) (hj : (y.step op).jobs[i]? = some j) :
    (∃ j0, y.jobs[i]? = some j0 ∧ j.engine = j0.engine ∧ j.ty = j0.ty ∧ j.name = j0.name) ∨
      ∃ ty n, op = .just ty n ∧ i = y.jobs.length := by
  have same : y.jobs[i]? = some j → ∃ j0, y.jobs[i]? = some j0 ∧ j.engine = j0.engine ∧ j.ty = j0.ty ∧ j.name = j0.name :=
    fun h => ⟨j, h, rfl, rfl, rfl⟩
  have set : ∀ {k s} {a : Just}, y.jobs[k]? = some a → (y.jobs.set k { a with state := s })[i]? = some j →
      ∃ j0, y.jobs[i]? = some j0 ∧ j.engine = j0.engine ∧ j.ty = j0.ty ∧ j.name = j0.name := by
    intro k s a h1 h2
    rcases getElem?_set_cases h2 with ⟨rfl, rfl⟩ | ⟨_, h2⟩
    · exact ⟨a, h1, rfl, rfl, rfl⟩
    · exact same h2
  cases op with
  | begin c call => exact .inl (same hj)
  | client c x => exact .inl (same hj)
  | engine e => simp only [step] at hj; split at hj <;> exact .inl (same hj)
  | just ty n =>
    have key : ∀ a : Just, (y.jobs ++ [a])[i]? = some j → y.jobs[i]? = some j ∨ i = y.jobs.length := by
      intro a h1
      rw [List.getElem?_append] at h1
      split at h1
      · exact .inl h1
      next h2 =>
        have h3 := (List.getElem?_eq_some_iff.1 h1).1
        simp only [List.length_cons, List.length_nil] at h3
        exact .inr (by omega)
    have : y.jobs[i]? = some j ∨ i = y.jobs.length := by
      simp only [step, just] at hj
      split at hj
      · exact key _ hj
      · split at hj <;> exact key _ hj
    rcases this with h1 | h1
    · exact .inl (same h1)
    · exact .inr ⟨ty, n, rfl, h1⟩
  | handle k =>
    simp only [step, handle] at hj
    split at hj
    · split at hj
      · exact .inl (same hj)
      · split at hj
        · exact .inl (same hj)
        next h1 => exact .inl (set h1 hj)
    · exact .inl (same hj)
  | poll k =>
    simp only [step, poll] at hj
    split at hj
    · exact .inl (same hj)
    next h1 =>
      split at hj
      · exact .inl (set h1 hj)
      · exact .inl (same hj)

/-! ## Types -/

/-- Where a job may be, in any history. -/
def Knows (h : Hub) (pc : ClientPc) (j : Just) : Prop := match j.state with
  | .posted => pc = .idle
  | .running => pc.call? = some (.submit j.ty j.name)
  | .sent q => ∃ a, h.queues[q]? = some a ∧ a.ty = j.ty
  | _ => True

structure Typed (y : Yard) : Prop where
  hub : y.hub.Typed
  job : ∀ (i : Nat) (j : Just), y.jobs[i]? = some j → Knows y.hub (y.hub.clients (task i)) j
  rest : ∀ i, y.jobs.length ≤ i → y.hub.clients (task i) = .idle

theorem Knows.mono {h h' : Hub} {pc pc' : ClientPc} {j : Just} (hk : Knows h pc j)
    (hq : ∀ (q : Nat) a, h.queues[q]? = some a → h'.queues[q]? = some a)
    (h1 : pc = .idle → pc' = .idle) (h2 : ∀ call, pc.call? = some call → pc'.call? = some call) : Knows h' pc' j := by
  unfold Knows at hk ⊢
  split
  next e => simp only [e] at hk; exact h1 hk
  next e => simp only [e] at hk; exact h2 _ hk
  next e => simp only [e] at hk; obtain ⟨a, h3, h4⟩ := hk; exact ⟨a, hq _ _ h3, h4⟩
  next => trivial

theorem typed_frame {y : Yard} (ht : Typed y) {h : Hub} (hh : h.Typed)
    (hq : ∀ (q : Nat) a, y.hub.queues[q]? = some a → h.queues[q]? = some a)
    (h1 : ∀ i, y.hub.clients (task i) = .idle → h.clients (task i) = .idle)
    (h2 : ∀ i call, (y.hub.clients (task i)).call? = some call → (h.clients (task i)).call? = some call) :
    Typed { y with hub := h } :=
  ⟨hh, fun i j hj => (ht.job i j hj).mono hq (h1 i) (h2 i), fun i hi => h1 i (ht.rest i hi)⟩

theorem typed_step {y : Yard} (ht : Typed y) (op : YardOp) : Typed (y.step op) := by
  cases op with
  | begin c call =>
    have hc : ∀ i, (y.hub.begin (thread c) call).clients (task i) = y.hub.clients (task i) := fun i =>
      Hub.begin_others _ _ _ _ (task_thread i c)
    exact typed_frame ht (Hub.typed_begin ht.hub _ _) (fun q a h => Hub.step_queues y.hub (.begin (thread c) call) h)
      (fun i h => (hc i).trans h) (fun i call h => by rw [hc i]; exact h)
  | client c x =>
    have hc : ∀ i, (y.hub.client (thread c) x).clients (task i) = y.hub.clients (task i) := fun i =>
      Hub.client_others _ _ _ _ (task_thread i c)
    exact typed_frame ht (Hub.typed_client ht.hub _ _) (fun q a h => Hub.step_queues y.hub (.client (thread c) x) h)
      (fun i h => (hc i).trans h) (fun i call h => by rw [hc i]; exact h)
  | engine e =>
    simp only [step]
    split
    · refine typed_frame ht (Hub.typed_engine ht.hub e) (fun q a h => Hub.step_queues y.hub (.engine e) h)
        (fun i h => ?_) (fun i call h => Hub.engine_call _ _ _ h)
      exact AJ.step_idle y.hub (.engine e) _ h (by simp)
    · exact ht
  | just ty n =>
    have key : ∀ a : Just, a.state = .posted ∨ a.state = .dropped → Typed { y with jobs := y.jobs ++ [a] } := by
      intro a ha
      refine ⟨ht.hub, fun i j hj => ?_, fun i hi => ht.rest i (by simp at hi; omega)⟩
      rw [List.getElem?_append] at hj
      split at hj
      · exact ht.job i j hj
      next h1 =>
        have h2 : i - y.jobs.length = 0 := by
          cases h3 : i - y.jobs.length with
          | zero => rfl
          | succ m => rw [h3] at hj; simp at hj
        rw [h2] at hj
        simp only [List.getElem?_cons_zero, Option.some.injEq] at hj
        subst hj
        rcases ha with ha | ha
        · simp only [Knows, ha]; exact ht.rest i (by omega)
        · simp only [Knows, ha]
    simp only [step, just]
    split
    · exact key _ (.inr rfl)
    · split
      · exact key _ (.inr rfl)
      · refine key _ ?_
        simp only
        split
        · exact .inl rfl
        · exact .inr rfl
  | handle e =>
    simp only [step, handle]
    split
    next hg =>
      split
      · exact ht
      next i hf =>
        split
        · exact ht
        next j hj =>
          have hp : j.state = .posted := by
            obtain ⟨hi, h1, _⟩ := List.findIdx?_eq_some_iff_getElem.1 hf
            rw [List.getElem?_eq_getElem hi] at hj
            cases hj
            simp only [Bool.and_eq_true, decide_eq_true_eq] at h1
            exact h1.2
          have hidle := ht.job i j hj
          simp only [Knows, hp] at hidle
          have hoth : ∀ k, k ≠ i → (y.hub.begin (task i) (.submit j.ty j.name)).clients (task k) = y.hub.clients (task k) :=
            fun k hk => Hub.begin_others _ _ _ _ (fun e => hk (task_inj e))
          refine ⟨Hub.typed_begin ht.hub _ _, fun k a hk => ?_, fun k hk => ?_⟩
          · rcases getElem?_set_cases hk with ⟨rfl, rfl⟩ | ⟨hne, hk⟩
            · simp [Knows, Hub.begin, hidle, Hub.go_clients, ClientPc.call?]
            · exact (ht.job k a hk).mono (fun q a h => Hub.step_queues y.hub (.begin (task i) (.submit j.ty j.name)) h)
                (fun h => (hoth k hne).trans h) (fun call h => by simp only; rw [hoth k hne]; exact h)
          · simp only [List.length_set] at hk
            have hi : i < y.jobs.length := (List.getElem?_eq_some_iff.1 hj).1
            exact (hoth k (by omega)).trans (ht.rest k hk)
    next => exact ht
  | poll i =>
    simp only [step, poll]
    split
    · exact ht
    next j hj =>
      split
      next hg =>
        have hrun := ht.job i j hj
        simp only [Knows, hg.1] at hrun
        have hi : i < y.jobs.length := (List.getElem?_eq_some_iff.1 hj).1
        have hT := Hub.typed_client ht.hub (task i) false
        have hcall := Hub.client_call y.hub (task i) false hrun
        have hbT : (burst (y.hub.client (task i) false) j.engine ((y.hub.client (task i) false).clients (task i))).Typed := by
          unfold burst
          split
          · split
            · exact Hub.typed_crash hT _ _
            · exact hT
          · exact hT
        have hbq : (burst (y.hub.client (task i) false) j.engine ((y.hub.client (task i) false).clients (task i))).queues = y.hub.queues := by
          rw [← (Hub.client_frame y.hub (task i) false).2.2.1]
          unfold burst
          split
          · split <;> rfl
          · rfl
        have hbidle : ∀ c, (y.hub.client (task i) false).clients c = .idle →
            (burst (y.hub.client (task i) false) j.engine ((y.hub.client (task i) false).clients (task i))).clients c = .idle := by
          intro c hc
          unfold burst
          split
          · split
            · show (Hub.release _ _).clients c = _
              simp [Hub.release, hc]
            · exact hc
          · exact hc
        have hbcall : ∀ c call, ((y.hub.client (task i) false).clients c).call? = some call →
            ((burst (y.hub.client (task i) false) j.engine ((y.hub.client (task i) false).clients (task i))).clients c).call? = some call := by
          intro c call hc
          unfold burst
          split
          · split
            · exact Hub.release_call _ _ _ hc
            · exact hc
          · exact hc
        have hoth : ∀ k, k ≠ i → (y.hub.client (task i) false).clients (task k) = y.hub.clients (task k) := fun k hk =>
          Hub.client_others _ _ _ _ (fun e => hk (task_inj e))
        refine ⟨hbT, fun k a hk => ?_, fun k hk => ?_⟩
        · rcases getElem?_set_cases hk with ⟨rfl, rfl⟩ | ⟨hne, hk⟩
          · have hA := hT.client (task k)
            have hbc := hbcall (task k) _ hcall
            revert hA hbc hbq hcall
            generalize (y.hub.client (task k) false).clients (task k) = pc
            generalize burst _ _ _ = h2
            intro hcall hbq hA hbc
            cases pc with
            | done call r =>
              cases r with
              | answer q =>
                obtain ⟨a, h3, h4⟩ := hA
                simp only [ClientPc.call?, Option.some.injEq] at hcall
                subst hcall
                simp only [ApiCall.ty?, Option.some.injEq] at h4
                rw [(Hub.client_frame y.hub (task k) false).2.2.1] at h3
                exact ⟨a, by rw [hbq]; exact h3, h4.symm⟩
              | _ => trivial
            | _ => exact hbc
          · exact (ht.job k a hk).mono (fun q a h => by rw [← hbq] at h; exact h)
              (fun h => hbidle _ ((hoth k hne).trans h)) (fun call h => hbcall _ _ (by rw [hoth k hne]; exact h))
        · simp only [List.length_set] at hk
          exact hbidle _ ((hoth k (by omega)).trans (ht.rest k hk))
      next => exact ht

theorem typed_init : Typed {} := ⟨Hub.typed_init, fun i j hj => (by simp at hj), fun _ _ => rfl⟩

theorem typed_run {y : Yard} (ht : Typed y) (ops : List YardOp) : Typed (y.run ops) :=
  run_invariant (P := Typed) (fun _ op h => typed_step h op) ht ops

end Yard
end AJ
