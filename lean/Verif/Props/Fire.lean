import Verif.Proofs.FireAll
import Verif.Props.Registry

/-!
# Fire and forget (C71), and who answers requests (C55)
-/

namespace AJ.Props
open Demo

/-- C55, in every history, with any number of engines: a request that is answered by a work queue is answered by one of
the type it is about. -/
theorem C55_types (ops : List HubOp) (c : Nat) (call : ApiCall) (q : Nat)
    (hc : (Hub.run {} ops).clients c = .done call (.answer q)) :
    ∃ a, (Hub.run {} ops).queues[q]? = some a ∧ call.ty? = some a.ty := by
  have := (Hub.typed_run Hub.typed_init ops).client c
  rw [hc] at this
  exact this

/-- `C55_types` with two engines. -/
example : ∃ a, (Hub.run {} (queueRace ++ [.engine 1, .engine 0, .engine 1])).queues[1]? = some a ∧
    (ApiCall.submit 4 c!"mail").ty? = some a.ty :=
  C55_types _ 3 _ 1 (by decide +kernel)

/-! ## C71 -/

/-- A thread calls `AJ::start` before anything else happens. -/
def startYard (c b : Nat) : List YardOp :=
  [.begin c (.start b), .client c false, .client c false, .client c false, .client c false, .client c false]

theorem startYard_run (c b : Nat) :
    Yard.run {} (startYard c b) = { hub := Hub.run {} (startAlone (Yard.thread c) b) } := rfl

theorem startYard_tidy (N : Nat → Str) (c b : Nat) : Yard.Tidy N (Yard.run {} (startYard c b)) { backend := b } := by
  rw [startYard_run]
  refine Yard.tidy_init (started_orderly N _ b) fun i => ?_
  rw [started]
  simp [upd, Yard.task_thread]

/-- C71 under the discipline `YardOp.Orderly` of the callers: the engine lives, no job that is given to `just_run` is
dropped, no future ends with an error or a panic, and every job that was sent on was sent to the one queue of its type.
Missing for C71 as stated: the discipline (`C71_refuted`, `C71_refuted_early`). -/
theorem C71_partial (N : Nat → Str) (hN : ∀ a b, N a = N b → a = b) (c b : Nat) (ops : List YardOp)
    (ho : OrderlyYard N (Yard.run {} (startYard c b)) ops) :
    let y := Yard.run {} (startYard c b ++ ops)
    (∀ E ∈ y.hub.engines, E.alive = true) ∧
      ∀ j ∈ y.jobs, j.state ≠ .dropped ∧ j.state ≠ .failed ∧
        ∀ q, j.state = .sent q → y.hub.byType j.ty = some q ∧ y.hub.queues[q]?.map (fun a => (a.ty, a.name)) = some (j.ty, N j.ty) := by
  intro y
  obtain ⟨E, ht⟩ := Yard.tidy_run hN (startYard_tidy N c b) ops ho
  rw [← Yard.run_append] at ht
  refine ⟨fun E' hE' => ?_, fun j hj => ?_⟩
  · rw [show y.hub.engines = [E] from ht.hub.engines] at hE'
    rw [List.mem_singleton.1 hE']
    exact ht.hub.alive
  · obtain ⟨i, hi⟩ := List.getElem?_of_mem hj
    obtain ⟨-, -, h1⟩ := ht.job i j hi
    unfold Yard.JustOk at h1
    refine ⟨fun e => by simp [e] at h1, fun e => by simp [e] at h1, fun q e => ?_⟩
    simp only [e] at h1
    refine ⟨h1, ?_⟩
    obtain ⟨a, h2, h3⟩ := ht.hub.single.filed.types _ _ h1
    have h4 := ht.hub.names a (List.mem_of_getElem? h2)
    show (Yard.run {} (startYard c b ++ ops)).hub.queues[q]?.map _ = _
    rw [h2]
    simp [h3, h4]

/-- C71 under the same discipline: the engine, left to itself, comes to an end with its work whatever it does first, and
when it has, every job that was given to `just_run` has been sent to a work queue of its type. -/
theorem C71_ends_partial (N : Nat → Str) (hN : ∀ a b, N a = N b → a = b) (c b : Nat) (ops : List YardOp)
    (ho : OrderlyYard N (Yard.run {} (startYard c b)) ops) :
    let y := Yard.run {} (startYard c b ++ ops)
    Acc (fun y2 y1 : Yard => y1.Moves y2) y ∧
      ∀ ops', (∀ op ∈ ops', YardOp.ofEngine op) → (∀ y', ¬ (y.run ops').Moves y') →
        ∀ i, i < y.jobs.length → (y.run ops').Sent i := by
  intro y
  obtain ⟨E, ht⟩ := Yard.tidy_run hN (startYard_tidy N c b) ops ho
  rw [← Yard.run_append] at ht
  refine ⟨Yard.moves_acc hN _ ht (Nat.lt_succ_self _), fun ops' hops hs i hi => ?_⟩
  have key : ∀ (ops' : List YardOp) (y : Yard) (E : Engine), Yard.Tidy N y E → (∀ op ∈ ops', YardOp.ofEngine op) →
      ∃ E', Yard.Tidy N (y.run ops') E' ∧ (y.run ops').jobs.length = y.jobs.length := by
    intro ops'
    induction ops' with
    | nil => exact fun y E ht _ => ⟨E, ht, rfl⟩
    | cons op ops' ih =>
      intro y E ht hops
      have hop : op.Orderly N y := by
        have := hops op (by simp)
        cases op <;> first | exact this.elim | trivial
      obtain ⟨E', ht'⟩ := Yard.tidy_step hN ht op hop
      obtain ⟨E'', h1, h2⟩ := ih (y.step op) E' ht' fun o h => hops o (by simp [h])
      refine ⟨E'', h1, h2.trans ?_⟩
      have := hops op (by simp)
      cases op with
      | engine e => simp only [Yard.step]; split <;> rfl
      | handle e =>
        simp only [Yard.step, Yard.handle]
        split
        · split
          · rfl
          · split
            · rfl
            · simp
        · rfl
      | poll i =>
        simp only [Yard.step, Yard.poll]
        split
        · rfl
        · split
          · simp
          · rfl
      | _ => exact this.elim
  obtain ⟨E', ht', hl⟩ := key ops' _ E ht hops
  have hi' : i < (y.run ops').jobs.length := by rw [hl]; exact hi
  obtain ⟨q, h1, h2⟩ := Yard.stuck_sent hN ht' hs (List.getElem?_eq_getElem hi')
  obtain ⟨a, h3, h4⟩ := ht'.hub.single.filed.types _ _ h2
  exact ⟨_, q, a, List.getElem?_eq_getElem hi', h1, h3, h4⟩

/-- C71 under the same discipline: the engine can get every job to the queue of its type. -/
theorem C71_delivers_partial (N : Nat → Str) (hN : ∀ a b, N a = N b → a = b) (c b : Nat) (ops : List YardOp)
    (ho : OrderlyYard N (Yard.run {} (startYard c b)) ops) :
    let y := Yard.run {} (startYard c b ++ ops)
    ∃ ops', (∀ op ∈ ops', YardOp.ofEngine op) ∧ ∀ i, i < y.jobs.length → (y.run ops').Sent i := by
  intro y
  obtain ⟨hacc, hend⟩ := C71_ends_partial N hN c b ops ho
  have key : ∀ y : Yard, Acc (fun y2 y1 : Yard => y1.Moves y2) y →
      ∃ ops', (∀ op ∈ ops', YardOp.ofEngine op) ∧ ∀ y', ¬ (y.run ops').Moves y' := by
    intro y hy
    induction hy with
    | intro y _ ih =>
      by_cases h : ∃ y', y.Moves y'
      · obtain ⟨y', hm⟩ := h
        obtain ⟨ops', h1, h2⟩ := ih y' hm
        obtain ⟨op, h3, rfl, -⟩ := hm
        refine ⟨op :: ops', fun o ho' => ?_, h2⟩
        rcases List.mem_cons.1 ho' with rfl | ho'
        · exact h3
        · exact h1 o ho'
      · exact ⟨[], (by simp), fun y' hm => h ⟨y', hm⟩⟩
  obtain ⟨ops', h1, h2⟩ := key y hacc
  exact ⟨ops', h1, hend ops' h1 h2⟩

/-- Two types by `just_run`; then one of them again, by a thread and by `just_run`. -/
def fireOps : List YardOp :=
  [.just 1 c!"a", .just 2 c!"aa", .handle 0, .poll 0, .poll 0, .handle 0, .engine 0, .engine 0, .engine 0, .engine 0,
   .begin 3 (.submit 1 c!"a"), .just 1 c!"a", .client 3 false, .poll 1]

theorem fireOps_orderly : OrderlyYard letters (Yard.run {} (startYard 0 7)) fireOps := by
  have idle : ∀ d ty, ¬ ((Yard.run {} (startYard 0 7)).hub.clients d).Opening ty := by
    intro d ty
    rw [startYard_run, started]
    by_cases h : d = Yard.thread 0
    · subst h; exact fun x => x
    · simp [upd, h, ClientPc.Opening]
  have h1 : (Yard.run {} (startYard 0 7)).step (.just 1 c!"a") =
      { Yard.run {} (startYard 0 7) with jobs := [⟨0, 1, c!"a", .posted⟩] } := rfl
  refine .cons ⟨rfl, fun _ => ⟨fun d => idle d 1, fun j hj => (by cases hj)⟩⟩ (.cons ⟨rfl, fun _ => ⟨fun d => ?_, fun j hj => ?_⟩⟩ ?_)
  · rw [h1]; exact idle d 2
  · rw [h1] at hj
    simp only [List.mem_singleton] at hj
    subst hj
    exact fun _ => (by decide)
  · refine .cons trivial (.cons trivial (.cons trivial (.cons trivial (.cons trivial (.cons trivial (.cons trivial
      (.cons trivial (.cons ⟨rfl, fun h => ?_⟩ (.cons ⟨rfl, fun h => ?_⟩ (.cons trivial (.cons trivial (.nil _))))))))))))
    · exact absurd h (by decide +kernel)
    · exact absurd h (by decide +kernel)

/-- The theorems under the discipline, applied. Before the engine goes on, one job waits to be sent, one is in the
middle of a poll and one is in the mailbox. -/
example : (Yard.run {} (startYard 0 7 ++ fireOps)).jobs.map (·.state) = [.running, .running, .posted] ∧
    (Yard.run {} (startYard 0 7 ++ fireOps)).hub.clients (Yard.task 1) = .ask (.submit 2 c!"aa") 2 c!"aa" ∧
    (∀ j ∈ (Yard.run {} (startYard 0 7 ++ fireOps)).jobs, j.state ≠ .dropped ∧ j.state ≠ .failed) ∧
    Acc (fun y2 y1 : Yard => y1.Moves y2) (Yard.run {} (startYard 0 7 ++ fireOps)) ∧
    ∃ ops', ((Yard.run {} (startYard 0 7 ++ fireOps)).run ops').Sent 2 := by
  refine ⟨by decide +kernel, by decide +kernel, fun j hj => ?_, ?_, ?_⟩
  · have := (C71_partial letters letters_inj 0 7 fireOps fireOps_orderly).2 j hj
    exact ⟨this.1, this.2.1⟩
  · exact (C71_ends_partial letters letters_inj 0 7 fireOps fireOps_orderly).1
  · obtain ⟨ops', _, h⟩ := C71_delivers_partial letters letters_inj 0 7 fireOps fireOps_orderly
    exact ⟨ops', h 2 (by decide +kernel)⟩

/-- One way for the engine to go on, to its end. -/
example : ((Yard.run {} (startYard 0 7 ++ fireOps)).run
    [.poll 1, .poll 0, .engine 0, .engine 0, .handle 0, .engine 0, .engine 0, .handle 0, .poll 2, .poll 1]).jobs.map (·.state) =
    [.sent 0, .sent 1, .sent 0] := by decide +kernel

/-- C71, in every history, whatever the callers do: a job is only sent to a queue of its type. -/
theorem C71_types (ops : List YardOp) (i : Nat) (j : Just) (q : Nat) (hj : (Yard.run {} ops).jobs[i]? = some j)
    (hs : j.state = .sent q) : (Yard.run {} ops).Sent i := by
  have := (Yard.typed_run Yard.typed_init ops).job i j hj
  simp only [Yard.Knows, hs] at this
  obtain ⟨a, h1, h2⟩ := this
  exact ⟨j, q, a, hj, hs, h1, h2⟩

example : (Yard.run {} (startYard 0 7 ++ fireOps ++ [.poll 1, .poll 0])).Sent 0 :=
  C71_types _ 0 ⟨0, 1, c!"a", .sent 0⟩ 0 (by decide +kernel) rfl

/-- C71, in every history: an engine takes up the jobs in the order of the calls. -/
theorem C71_order (ops : List YardOp) (i k : Nat) (a b : Just) (hik : i < k) (ha : (Yard.run {} ops).jobs[i]? = some a)
    (hb : (Yard.run {} ops).jobs[k]? = some b) (he : a.engine = b.engine) (hp : a.state = .posted) :
    b.state = .posted ∨ b.state = .dropped := by
  have key : ∀ y op, (∀ (i k : Nat) (a b : Just), i < k → y.jobs[i]? = some a → y.jobs[k]? = some b → a.engine = b.engine →
      a.state = .posted → b.state = .posted ∨ b.state = .dropped) →
      ∀ (i k : Nat) (a b : Just), i < k → (Yard.step y op).jobs[i]? = some a → (Yard.step y op).jobs[k]? = some b →
        a.engine = b.engine → a.state = .posted → b.state = .posted ∨ b.state = .dropped := by
    intro y op hy
    have app : ∀ x : Just, x.state = .posted ∨ x.state = .dropped → ∀ (i k : Nat) (a b : Just), i < k →
        (y.jobs ++ [x])[i]? = some a → (y.jobs ++ [x])[k]? = some b → a.engine = b.engine → a.state = .posted →
        b.state = .posted ∨ b.state = .dropped := by
      intro x hx i k a b hik ha hb he hp
      rw [List.getElem?_append] at hb
      split at hb
      next h1 =>
        rw [List.getElem?_append, if_pos (by omega)] at ha
        exact hy i k a b hik ha hb he hp
      · have := List.mem_of_getElem? hb
        rw [List.mem_singleton] at this
        rw [this]
        exact hx
    cases op with
    | begin c call => exact hy
    | client c x => exact hy
    | engine e => simp only [Yard.step]; split <;> exact hy
    | just ty n =>
      simp only [Yard.step, Yard.just]
      split
      · exact app _ (.inr rfl)
      · split
        · exact app _ (.inr rfl)
        · refine app _ ?_
          dsimp only
          split
          · exact .inl rfl
          · exact .inr rfl
    | handle e =>
      simp only [Yard.step, Yard.handle]
      split
      case isFalse => exact hy
      case isTrue =>
      split
      · exact hy
      next m hm =>
        split
        · exact hy
        next j hj =>
          obtain ⟨hi, h1, h2⟩ := List.findIdx?_eq_some_iff_getElem.1 hm
          rw [List.getElem?_eq_getElem hi] at hj
          cases hj
          simp only [Bool.and_eq_true, decide_eq_true_eq] at h1 h2
          intro i k a b hik ha hb he hp
          rcases Yard.getElem?_set_cases ha with ⟨rfl, rfl⟩ | ⟨_, ha'⟩
          · cases hp
          · rcases Yard.getElem?_set_cases hb with ⟨rfl, rfl⟩ | ⟨_, hb'⟩
            · have hi' : i < y.jobs.length := by omega
              rw [List.getElem?_eq_getElem hi'] at ha'
              cases ha'
              exact absurd ⟨he.trans h1.1, hp⟩ (h2 i hik)
            · exact hy i k a b hik ha' hb' he hp
    | poll m =>
      simp only [Yard.step, Yard.poll]
      split
      · exact hy
      next j hj =>
        split
        next hg =>
          intro i k a b hik ha hb he hp
          rcases Yard.getElem?_set_cases ha with ⟨rfl, rfl⟩ | ⟨_, ha'⟩
          · exfalso
            revert hp
            show Yard.JustState.of _ = _ → False
            unfold Yard.JustState.of
            split <;> simp
          · rcases Yard.getElem?_set_cases hb with ⟨rfl, rfl⟩ | ⟨_, hb'⟩
            · have := hy i k a j hik ha' hj he hp
              rw [hg.1] at this
              simp at this
            · exact hy i k a b hik ha' hb' he hp
        next => exact hy
  exact Yard.run_invariant (P := fun y => ∀ (i k : Nat) (a b : Just), i < k → y.jobs[i]? = some a → y.jobs[k]? = some b →
    a.engine = b.engine → a.state = .posted → b.state = .posted ∨ b.state = .dropped) key
    (fun i k a b _ h => (by simp at h)) ops i k a b hik ha hb he hp

example : ∃ b, (Yard.run {} (startYard 0 7 ++ [.just 1 c!"a", .just 2 c!"aa"])).jobs[1]? = some b ∧
    (b.state = .posted ∨ b.state = .dropped) :=
  ⟨⟨0, 2, c!"aa", .posted⟩, by decide +kernel, C71_order (startYard 0 7 ++ [.just 1 c!"a", .just 2 c!"aa"]) 0 1
    ⟨0, 1, c!"a", .posted⟩ _ (by decide) (by decide +kernel) (by decide +kernel) rfl rfl⟩

/-- C71, in every history: once an engine is dead, the jobs it accepted stay where they are, so that those not yet sent
never are. -/
theorem C71_dead (y : Yard) (ops : List YardOp) (e i : Nat) (E : Engine) (j : Just) (he : y.hub.engines[e]? = some E)
    (hd : E.alive = false) (hj : y.jobs[i]? = some j) (hje : j.engine = e) : (y.run ops).jobs[i]? = some j := by
  have := Yard.run_invariant (P := fun y => y.hub.Dead e ∧ y.jobs[i]? = some j)
    (fun y op h => ⟨Yard.hub_invariant (P := fun h => h.Dead e) (fun _ o h => Hub.dead_step h o)
      (fun _ k E h => Hub.dead_crash h k E) h.1 op, Yard.dead_jobs h.1 h.2 hje op⟩)
    (y := y) ⟨⟨E, he, hd⟩, hj⟩ ops
  exact this.2

/-- Two calls of `just_run` with the first jobs of a type, one after the other in one thread. -/
def fireTwice (ty : Nat) (n : Str) : List YardOp :=
  [.just ty n, .just ty n, .handle 0, .handle 0, .poll 0, .poll 0, .poll 1, .poll 1,
   .engine 0, .engine 0, .engine 0, .engine 0, .engine 0]

/-- What matters in the course of `fireTwice`. -/
structure Two (ty : Nat) (n : Str) (y : Yard) (js : List JustState) (E : Engine) (bt bn : Option Nat) (p0 p1 : ClientPc) : Prop where
  jobs : y.jobs = js.map fun s => ⟨0, ty, n, s⟩
  engines : y.hub.engines = [E]
  addr : y.hub.addr = some 0
  writer : y.hub.writer = none
  byType : y.hub.byType ty = bt
  byName : y.hub.byName n = bn
  c0 : y.hub.clients 1 = p0
  c1 : y.hub.clients 3 = p1

theorem fireTwice_end (b ty : Nat) (n : Str) :
    (Yard.run {} (startYard 0 b ++ fireTwice ty n)).jobs = [⟨0, ty, n, .running⟩, ⟨0, ty, n, .running⟩] ∧
      (Yard.run {} (startYard 0 b ++ fireTwice ty n)).hub.engines = [{ backend := b, alive := false }] := by
  have s0 : Two ty n (Yard.run {} (startYard 0 b)) [] { backend := b } none none .idle .idle := by
    rw [startYard_run, started]
    exact ⟨rfl, rfl, rfl, rfl, rfl, rfl, rfl, rfl⟩
  rw [Yard.run_append]
  generalize Yard.run {} (startYard 0 b) = y0 at s0 ⊢
  have post : ∀ {y js p0 p1}, Two ty n y js { backend := b } none none p0 p1 →
      Two ty n (y.step (.just ty n)) (js ++ [.posted]) { backend := b } none none p0 p1 := by
    intro y js p0 p1 h
    have : y.step (.just ty n) = { y with jobs := y.jobs ++ [⟨0, ty, n, .posted⟩] } := by
      simp [Yard.step, Yard.just, Hub.readAddr, h.addr, h.writer, h.engines]
    rw [this]
    exact ⟨by simp [h.jobs], h.engines, h.addr, h.writer, h.byType, h.byName, h.c0, h.c1⟩
  have s1 := post s0
  have s2 := post s1
  simp only [fireTwice, Yard.run_cons, Yard.run_nil]
  generalize Yard.step (Yard.step y0 (.just ty n)) (.just ty n) = y2 at s2 ⊢
  have q2 : y2.quiet 0 = true := by simp [Yard.quiet, Yard.polls, s2.jobs, List.range_succ]
  have b2 : y2.between 0 = true := by simp [Yard.between, s2.engines]
  have s3 : Two ty n (y2.step (.handle 0)) [.running, .posted] { backend := b } none none (.begun (.submit ty n)) .idle := by
    have : y2.step (.handle 0) = { hub := y2.hub.go 1 (.begun (.submit ty n)), jobs := [⟨0, ty, n, .running⟩, ⟨0, ty, n, .posted⟩] } := by
      simp [Yard.step, Yard.handle, b2, q2, Yard.first, s2.jobs, List.findIdx?_cons, Yard.task, Hub.begin, s2.c0]
    rw [this]
    exact ⟨rfl, s2.engines, s2.addr, s2.writer, s2.byType, s2.byName, rfl, s2.c1⟩
  generalize Yard.step y2 (.handle 0) = y3 at s3 ⊢
  have q3 : y3.quiet 0 = true := by simp [Yard.quiet, Yard.polls, s3.jobs, List.range_succ, Yard.task, s3.c0, Yard.inPoll]
  have b3 : y3.between 0 = true := by simp [Yard.between, s3.engines]
  have s4 : Two ty n (y3.step (.handle 0)) [.running, .running] { backend := b } none none (.begun (.submit ty n)) (.begun (.submit ty n)) := by
    have : y3.step (.handle 0) = { hub := y3.hub.go 3 (.begun (.submit ty n)), jobs := [⟨0, ty, n, .running⟩, ⟨0, ty, n, .running⟩] } := by
      simp [Yard.step, Yard.handle, b3, q3, Yard.first, s3.jobs, List.findIdx?_cons, Yard.task, Hub.begin, s3.c1]
    rw [this]
    exact ⟨rfl, s3.engines, s3.addr, s3.writer, s3.byType, s3.byName, s3.c0, rfl⟩
  generalize Yard.step y3 (.handle 0) = y4 at s4 ⊢
  have s5 : Two ty n (y4.step (.poll 0)) [.running, .running] { backend := b } none none (.ask (.submit ty n) ty n) (.begun (.submit ty n)) := by
    have : y4.step (.poll 0) = { hub := y4.hub.go 1 (.ask (.submit ty n) ty n), jobs := [⟨0, ty, n, .running⟩, ⟨0, ty, n, .running⟩] } := by
      simp [Yard.step, Yard.poll, Yard.between, Yard.quiet, Yard.polls, s4.engines, s4.jobs, List.range_succ, Yard.task, s4.c0, s4.c1, Yard.inPoll, Hub.client,
        Hub.look, s4.byType, Hub.go_clients, Yard.burst, Yard.JustState.of]
    rw [this]
    exact ⟨rfl, s4.engines, s4.addr, s4.writer, s4.byType, s4.byName, rfl, s4.c1⟩
  generalize Yard.step y4 (.poll 0) = y5 at s5 ⊢
  have s6 : Two ty n (y5.step (.poll 0)) [.running, .running] { backend := b, mailbox := [⟨1, ty, n⟩] } none none (.waiting (.submit ty n) 0 ty n) (.begun (.submit ty n)) := by
    have : y5.step (.poll 0) = { hub := { y5.hub.go 1 (.waiting (.submit ty n) 0 ty n) with engines := [{ backend := b, mailbox := [⟨1, ty, n⟩] }] }, jobs := [⟨0, ty, n, .running⟩, ⟨0, ty, n, .running⟩] } := by
      simp [Yard.step, Yard.poll, Yard.between, Yard.quiet, Yard.polls, s5.engines, s5.jobs, List.range_succ, Yard.task, s5.c0, s5.c1, Yard.inPoll, Hub.client,
        Hub.readAddr, s5.addr, s5.writer, Hub.send, Hub.go, upd, Yard.burst, Yard.JustState.of]
    rw [this]
    exact ⟨rfl, rfl, s5.addr, s5.writer, s5.byType, s5.byName, rfl, s5.c1⟩
  generalize Yard.step y5 (.poll 0) = y6 at s6 ⊢
  have s7 : Two ty n (y6.step (.poll 1)) [.running, .running] { backend := b, mailbox := [⟨1, ty, n⟩] } none none (.waiting (.submit ty n) 0 ty n) (.ask (.submit ty n) ty n) := by
    have : y6.step (.poll 1) = { hub := y6.hub.go 3 (.ask (.submit ty n) ty n), jobs := [⟨0, ty, n, .running⟩, ⟨0, ty, n, .running⟩] } := by
      simp [Yard.step, Yard.poll, Yard.between, Yard.quiet, Yard.polls, s6.engines, s6.jobs, List.range_succ, Yard.task, s6.c0, s6.c1, Yard.inPoll, Hub.client,
        Hub.look, s6.byType, Hub.go_clients, Yard.burst, Yard.JustState.of]
    rw [this]
    exact ⟨rfl, s6.engines, s6.addr, s6.writer, s6.byType, s6.byName, s6.c0, rfl⟩
  generalize Yard.step y6 (.poll 1) = y7 at s7 ⊢
  have s8 : Two ty n (y7.step (.poll 1)) [.running, .running] { backend := b, mailbox := [⟨1, ty, n⟩, ⟨3, ty, n⟩] } none none (.waiting (.submit ty n) 0 ty n) (.waiting (.submit ty n) 0 ty n) := by
    have : y7.step (.poll 1) = { hub := { y7.hub.go 3 (.waiting (.submit ty n) 0 ty n) with engines := [{ backend := b, mailbox := [⟨1, ty, n⟩, ⟨3, ty, n⟩] }] }, jobs := [⟨0, ty, n, .running⟩, ⟨0, ty, n, .running⟩] } := by
      simp [Yard.step, Yard.poll, Yard.between, Yard.quiet, Yard.polls, s7.engines, s7.jobs, List.range_succ, Yard.task, s7.c0, s7.c1, Yard.inPoll, Hub.client,
        Hub.readAddr, s7.addr, s7.writer, Hub.send, Hub.go, upd, Yard.burst, Yard.JustState.of]
    rw [this]
    exact ⟨rfl, rfl, s7.addr, s7.writer, s7.byType, s7.byName, s7.c0, rfl⟩
  generalize Yard.step y7 (.poll 1) = y8 at s8 ⊢
  have quiet : ∀ {y E bt bn p0}, Two ty n y [.running, .running] E bt bn p0 (.waiting (.submit ty n) 0 ty n) →
      Yard.inPoll p0 = false → y.step (.engine 0) = { y with hub := y.hub.engine 0 } := by
    intro y E bt bn p0 h hp
    have : y.quiet 0 = true := by simp [Yard.quiet, Yard.polls, h.jobs, List.range_succ, Yard.task, h.c0, h.c1, Yard.inPoll]; exact hp
    simp [Yard.step, this]
  have s9 : Two ty n (y8.step (.engine 0)) [.running, .running] { backend := b, mailbox := [⟨3, ty, n⟩], pc := .nameFree ⟨1, ty, n⟩ } none none (.waiting (.submit ty n) 0 ty n) (.waiting (.submit ty n) 0 ty n) := by
    rw [quiet s8 rfl]
    have : y8.hub.engine 0 = { y8.hub with engines := [{ backend := b, mailbox := [⟨3, ty, n⟩], pc := .nameFree ⟨1, ty, n⟩ }] } := by
      simp [Hub.engine, s8.engines, s8.byName]
    rw [this]
    exact ⟨s8.jobs, rfl, s8.addr, s8.writer, s8.byType, s8.byName, s8.c0, s8.c1⟩
  generalize Yard.step y8 (.engine 0) = y9 at s9 ⊢
  have s10 : Two ty n (y9.step (.engine 0)) [.running, .running] { backend := b, mailbox := [⟨3, ty, n⟩], pc := .typeFree ⟨1, ty, n⟩ } none none (.waiting (.submit ty n) 0 ty n) (.waiting (.submit ty n) 0 ty n) := by
    rw [quiet s9 rfl]
    have : y9.hub.engine 0 = { y9.hub with engines := [{ backend := b, mailbox := [⟨3, ty, n⟩], pc := .typeFree ⟨1, ty, n⟩ }] } := by
      simp [Hub.engine, s9.engines, s9.byType]
    rw [this]
    exact ⟨s9.jobs, rfl, s9.addr, s9.writer, s9.byType, s9.byName, s9.c0, s9.c1⟩
  generalize Yard.step y9 (.engine 0) = y10 at s10 ⊢
  have s11 : Two ty n (y10.step (.engine 0)) [.running, .running] { backend := b, mailbox := [⟨3, ty, n⟩], pc := .half ⟨1, ty, n⟩ y10.hub.queues.length } (some y10.hub.queues.length) none (.waiting (.submit ty n) 0 ty n) (.waiting (.submit ty n) 0 ty n) := by
    rw [quiet s10 rfl]
    have : y10.hub.engine 0 = { y10.hub with
        queues := y10.hub.queues ++ [⟨ty, n, b⟩]
        byType := upd y10.hub.byType ty (some y10.hub.queues.length)
        engines := [{ backend := b, mailbox := [⟨3, ty, n⟩], pc := .half ⟨1, ty, n⟩ y10.hub.queues.length }] } := by
      simp [Hub.engine, s10.engines]
    rw [this]
    exact ⟨s10.jobs, rfl, s10.addr, s10.writer, upd_same _ _ _, s10.byName, s10.c0, s10.c1⟩
  generalize y10.hub.queues.length = q at s11
  generalize Yard.step y10 (.engine 0) = y11 at s11 ⊢
  have s12 : Two ty n (y11.step (.engine 0)) [.running, .running] { backend := b, mailbox := [⟨3, ty, n⟩] } (some q) (some q) (.done (.submit ty n) (.answer q)) (.waiting (.submit ty n) 0 ty n) := by
    rw [quiet s11 rfl]
    have : y11.hub.engine 0 = { y11.hub.go 1 (.done (.submit ty n) (.answer q)) with
        byName := upd y11.hub.byName n (some q)
        engines := [{ backend := b, mailbox := [⟨3, ty, n⟩] }] } := by
      simp [Hub.engine, s11.engines, Hub.answer, s11.c0, Hub.go]
    rw [this]
    exact ⟨s11.jobs, rfl, s11.addr, s11.writer, s11.byType, upd_same _ _ _, rfl, s11.c1⟩
  generalize Yard.step y11 (.engine 0) = y12 at s12 ⊢
  rw [quiet s12 rfl]
  exact ⟨s12.jobs, by simp [Hub.engine, s12.engines, s12.byName, Hub.crash]⟩

/-- With a dead engine at the address, the jobs it has are never sent, and no others are accepted. -/
theorem lost_two {y : Yard} {ty : Nat} {n : Str} (hl : Yard.Lost 0 y)
    (hj : y.jobs = [⟨0, ty, n, .running⟩, ⟨0, ty, n, .running⟩]) (ops' : List YardOp) :
    (y.run ops').jobs.take 2 = [⟨0, ty, n, .running⟩, ⟨0, ty, n, .running⟩] ∧
      ∀ j ∈ (y.run ops').jobs.drop 2, j.state = .dropped := by
  have key : ∀ y op, (Yard.Lost 0 y ∧ ∃ l : List Just, y.jobs = ⟨0, ty, n, .running⟩ :: ⟨0, ty, n, .running⟩ :: l ∧
        (∀ j ∈ l, j.state = .dropped)) →
      Yard.Lost 0 (Yard.step y op) ∧ ∃ l : List Just, (Yard.step y op).jobs = ⟨0, ty, n, .running⟩ :: ⟨0, ty, n, .running⟩ :: l ∧
        (∀ j ∈ l, j.state = .dropped) := by
    rintro y op ⟨hl, l, h1, h2⟩
    refine ⟨Yard.lost_step hl op, ?_⟩
    have hb : y.between 0 = false := by
      obtain ⟨E, h3, h4⟩ := hl.dead
      simp [Yard.between, h3, h4]
    cases op with
    | begin c call => exact ⟨l, h1, h2⟩
    | client c x => exact ⟨l, h1, h2⟩
    | engine e => simp only [Yard.step]; split <;> exact ⟨l, h1, h2⟩
    | just ty' n' =>
      refine ⟨l ++ [⟨0, ty', n', .dropped⟩], ?_, fun j hj => ?_⟩
      · simp only [Yard.step, Yard.lost_just hl, h1, List.cons_append]
      · rcases List.mem_append.1 hj with hj | hj
        · exact h2 j hj
        · rw [List.mem_singleton.1 hj]
    | handle e =>
      refine ⟨l, ?_, h2⟩
      simp only [Yard.step, Yard.handle]
      split
      next hg =>
        cases e with
        | zero => rw [hb] at hg; cases hg
        | succ e =>
          have : y.first (e + 1) = none := by
            simp only [Yard.first, List.findIdx?_eq_none_iff, h1]
            intro j hj
            simp only [List.mem_cons] at hj
            rcases hj with rfl | rfl | hj
            · simp
            · simp
            · simp [h2 j hj]
          rw [this]
          exact h1
      next => exact h1
    | poll i =>
      refine ⟨l, ?_, h2⟩
      simp only [Yard.step, Yard.poll]
      split
      · exact h1
      next j hj =>
        split
        next hg =>
          exfalso
          have := List.mem_of_getElem? hj
          rw [h1] at this
          simp only [List.mem_cons] at this
          rcases this with rfl | rfl | hj
          · rw [hb] at hg; cases hg.2.1
          · rw [hb] at hg; cases hg.2.1
          · rw [h2 j hj] at hg; cases hg.1
        next => exact h1
  obtain ⟨-, l, h1, h2⟩ := Yard.run_invariant (P := fun y => Yard.Lost 0 y ∧ ∃ l : List Just,
    y.jobs = ⟨0, ty, n, .running⟩ :: ⟨0, ty, n, .running⟩ :: l ∧ (∀ j ∈ l, j.state = .dropped)) key
    ⟨hl, [], hj, (by simp)⟩ ops'
  rw [h1]
  exact ⟨rfl, h2⟩

/-- C71 is false: whatever the type and its name, when two jobs are given to `just_run` before the queue of the type
exists, the engine may die with both of them. Neither is ever sent, whatever happens later, and everything that is
given to `just_run` from then on is dropped. -/
theorem C71_refuted (b ty : Nat) (n : Str) (ops' : List YardOp) :
    let y := Yard.run {} (startYard 0 b ++ fireTwice ty n)
    y.hub.engines = [{ backend := b, alive := false }] ∧
      (y.run ops').jobs.take 2 = [⟨0, ty, n, .running⟩, ⟨0, ty, n, .running⟩] ∧
      ∀ j ∈ (y.run ops').jobs.drop 2, j.state = .dropped := by
  have hl : Yard.Lost 0 (Yard.run {} (startYard 0 b ++ fireTwice ty n)) := by
    have h0 : (Hub.run {} (startAlone (Yard.thread 0) b)).Locked := Hub.locked_run Hub.locked_init _
    have h1 : (Hub.run {} (startAlone (Yard.thread 0) b)).Running 0 :=
      (C54_first [] 0 b rfl (by intro d; simp [Hub.run, ClientPc.Starting]) (.inl rfl)).1
    have h2 := Yard.run_invariant (P := fun y => y.hub.Locked ∧ y.hub.Running 0)
      (fun y op h => Yard.hub_invariant (P := fun h => h.Locked ∧ h.Running 0)
        (fun h op hh => ⟨Hub.locked_step hh.1 op, (Hub.running_step hh.1 hh.2 op).1⟩)
        (fun h k E hh => ⟨Hub.locked_crash hh.1 k E, Hub.running_crash hh.2 k E⟩) h op)
      (y := Yard.run {} (startYard 0 b)) (by rw [startYard_run]; exact ⟨h0, h1⟩) (fireTwice ty n)
    rw [← Yard.run_append] at h2
    exact ⟨h2.1, h2.2, { backend := b, alive := false }, by rw [(fireTwice_end b ty n).2]; rfl, rfl⟩
  exact ⟨(fireTwice_end b ty n).2, lost_two hl (fireTwice_end b ty n).1 ops'⟩

/-- `C71_dead` with a third type: its job is accepted, then the engine dies. -/
example (ops' : List YardOp) : ((Yard.run {} (startYard 0 7 ++ [.just 5 c!"x", .just 1 c!"a", .just 1 c!"a", .handle 0,
    .handle 0, .handle 0, .poll 1, .poll 1, .poll 2, .poll 2, .engine 0, .engine 0, .engine 0, .engine 0, .engine 0])).run
    ops').jobs[0]? = some ⟨0, 5, c!"x", .running⟩ :=
  C71_dead _ ops' 0 0 { backend := 7, alive := false } _ (by decide +kernel) rfl (by decide +kernel) rfl

/-- C71 is false: a job given to `just_run` while no engine is found, because none was started or because another thread
is writing its address, is dropped without a word. -/
theorem C71_refuted_early (y : Yard) (ty : Nat) (n : Str) (h : y.hub.addr = none ∨ y.hub.writer.isSome) :
    (y.step (.just ty n)).hub = y.hub ∧ (y.step (.just ty n)).jobs = y.jobs ++ [⟨0, ty, n, .dropped⟩] := by
  have hrd : y.hub.readAddr = none := by
    unfold Hub.readAddr
    rcases h with h | h
    · split
      · rfl
      · exact h
    · split
      · rfl
      next e => rw [e] at h; cases h
  simp only [Yard.step, Yard.just, hrd, and_self]

example : (Yard.step {} (.just 1 c!"a")).jobs = [⟨0, 1, c!"a", .dropped⟩] := (C71_refuted_early {} 1 c!"a" (.inl rfl)).2

end AJ.Props
