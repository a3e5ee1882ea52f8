import Verif.Spec.Fire
import Verif.Proofs.Opening

/-!
# Jobs given to `just_run`
-/

namespace AJ
namespace Hub
variable {N : Nat → Str} {h : Hub} {E : Engine}

theorem look_opening (h : Hub) (call : ApiCall) (ty : Nat) (ho : (h.look call).Opening ty) :
    (ClientPc.begun call).Opening ty := by
  cases call <;> simp only [look] at ho <;> split at ho <;> first | exact ho | cases ho

theorem client_others (h : Hub) (c : Nat) (x : Bool) (d : Nat) (hc : d ≠ c) : (h.client c x).clients d = h.clients d := by
  unfold client
  split <;> try (simp [go_clients, hc]; done)
  · split <;> simp [go_clients, hc]
  · split <;> simp [go_clients, hc]
  · split
    · exact (send_frame h c _ _ _ _).2.2.2.2.2.1 d hc
    · simp [go_clients, hc]
  · split <;> simp [go_clients, hc]

/-- A client gets to work on a first submission by beginning it. -/
theorem opening_old (ho : Orderly N h E) (op : HubOp) {ty d : Nat}
    (hd : ((h.step op).clients d).Opening ty) : (h.clients d).Opening ty ∨ ∃ n, op = .begin d (.submit ty n) := by
  cases op with
  | begin c call =>
    have key : ((h.go c (.begun call)).clients d).Opening ty →
        (h.clients d).Opening ty ∨ ∃ n, HubOp.begin c call = .begin d (.submit ty n) := by
      intro h1
      rw [go_clients] at h1
      split at h1
      next e =>
        subst e
        cases call <;> first | cases h1 | skip
        exact .inr ⟨_, rfl⟩
      next => exact .inl h1
    change ((h.begin c call).clients d).Opening ty at hd
    unfold begin at hd
    split at hd
    · exact key hd
    · exact key hd
    · exact .inl hd
  | client c x =>
    refine .inl ?_
    change ((h.client c x).clients d).Opening ty at hd
    by_cases hc : d = c
    · subst hc
      have hk := ho.client d
      unfold client at hd
      split at hd
      next call e =>
        rw [go_clients, if_pos rfl] at hd
        rw [e]
        exact look_opening h call ty hd
      next e => rw [e] at hk; exact hk.elim
      next e => rw [e] at hk; exact hk.elim
      next e => rw [e] at hk; exact hk.elim
      next e => rw [e] at hk; exact hk.elim
      next call ty' n e =>
        rw [e]
        split at hd
        · rcases (send_frame h d call _ ty' n).2.2.2.2.2.2 with h1 | h1 <;> rw [h1] at hd
          · exact hd
          · cases hd
        · rw [go_clients, if_pos rfl] at hd; cases hd
      next call q ty' n e =>
        rw [e] at hk
        split at hd
        · rw [go_clients, if_pos rfl] at hd
          simp only [lookAgain, hk.2] at hd
          cases hd
        · rw [go_clients, if_pos rfl] at hd; cases hd
      next => exact hd
    · rw [client_others h c x d hc] at hd
      exact hd
  | engine e =>
    refine .inl ?_
    change ((h.engine e).clients d).Opening ty at hd
    rcases engine_clients h e d with h1 | ⟨_, _, _, _, h1⟩ | ⟨_, _, _, _, _, _, _, _, _, _, _, h1⟩ <;> rw [h1] at hd
    · exact hd
    · cases hd
    · cases hd

theorem begin_others (h : Hub) (c : Nat) (call : ApiCall) (d : Nat) (hc : d ≠ c) :
    (h.begin c call).clients d = h.clients d := by
  unfold begin
  split <;> simp [go_clients, hc]

/-- Clients do not move the engine. -/
theorem client_pc (ho : Orderly N h E) {c : Nat} {x : Bool} {E' : Engine} (ho' : Orderly N (h.client c x) E')
    (hE : E.pc = .idle) : E'.pc = .idle := by
  rcases (client_frame h c x).2.2.2.2 0 E' ho'.getE with ⟨E1, h1, h2, _⟩ | h1
  · rw [ho.getE] at h1; cases h1; rw [h2]; exact hE
  · exact h1

/-- The engine gets on with its work, or has none. -/
theorem engine_work (hN : ∀ a b, N a = N b → a = b) (ho : Orderly N h E) :
    ∃ E', Orderly N (h.engine 0) E' ∧ (work E' < work E ∨ (E.pc = .idle ∧ E.mailbox = [])) := by
  obtain ⟨E', ho'⟩ := orderly_engine hN ho 0
  refine ⟨E', ho', ?_⟩
  by_cases hr : reqs E = []
  · refine .inr ?_
    simp only [reqs, List.append_eq_nil_iff] at hr
    refine ⟨?_, hr.2.2⟩
    cases hp : E.pc with
    | idle => rfl
    | nameFree m => simp [hp, EnginePc.msgs] at hr
    | typeFree m => simp [hp, EnginePc.msgs] at hr
    | half m q => simp [hp, EnginePc.halfMsg] at hr
  · obtain ⟨m, hm⟩ := List.exists_mem_of_ne_nil _ hr
    obtain ⟨E'', ho'', hw⟩ := engine_works hN ho (ho.msg m hm).2
    have : E'' = E' := by
      have h1 := ho''.engines
      rw [ho'.engines] at h1
      simpa using h1.symm
    exact .inl (this ▸ hw)

end Hub

namespace Yard
variable {N : Nat → Str} {y : Yard} {h : Hub} {E : Engine}

theorem run_nil (y : Yard) : y.run [] = y := rfl
theorem run_cons (y : Yard) (op ops) : y.run (op :: ops) = (y.step op).run ops := rfl
theorem run_append (y : Yard) (a b : List YardOp) : y.run (a ++ b) = (y.run a).run b := by
  simp [run, List.foldl_append]

theorem task_thread (i c : Nat) : task i ≠ thread c := by simp only [task, thread]; omega

theorem task_inj {i i' : Nat} (h : task i = task i') : i = i' := by simp only [task] at h; omega

theorem quiet_iff (y : Yard) (e : Nat) : y.quiet e = true ↔ ∀ i, y.polls e i = false := by
  simp only [quiet, List.all_eq_true, List.mem_range, Bool.not_eq_true']
  constructor
  · intro h i
    by_cases hi : i < y.jobs.length
    · exact h i hi
    · simp [polls, List.getElem?_eq_none (Nat.le_of_not_lt hi)]
  · exact fun h i _ => h i

theorem polls_iff (y : Yard) (e i : Nat) : y.polls e i = true ↔
    ∃ j, y.jobs[i]? = some j ∧ j.engine = e ∧ j.state = .running ∧ inPoll (y.hub.clients (task i)) = true := by
  unfold polls
  split
  next j hj => simp [hj, and_assoc]
  next hj => simp [hj]

/-- Where the future of an accepted job may be. -/
def JustOk (h : Hub) (pc : ClientPc) (j : Just) : Prop := match j.state with
  | .dropped => False
  | .failed => False
  | .posted => pc = .idle
  | .running => pc = .begun (.submit j.ty j.name) ∨ pc = .ask (.submit j.ty j.name) j.ty j.name ∨
      pc = .waiting (.submit j.ty j.name) 0 j.ty j.name ∨ ∃ q, pc = .done (.submit j.ty j.name) (.answer q)
  | .sent q => h.byType j.ty = some q

/-- The states of orderly histories. -/
structure Tidy (N : Nat → Str) (y : Yard) (E : Engine) : Prop where
  hub : Hub.Orderly N y.hub E
  job : ∀ (i : Nat) (j : Just), y.jobs[i]? = some j → j.engine = 0 ∧ j.name = N j.ty ∧ JustOk y.hub (y.hub.clients (task i)) j
  rest : ∀ i, y.jobs.length ≤ i → y.hub.clients (task i) = .idle
  alone : ∀ (i : Nat) (j : Just), y.jobs[i]? = some j → j.state = .posted → y.hub.byType j.ty = none →
    ∀ d, ¬ (y.hub.clients d).Opening j.ty
  once : ∀ (i i' : Nat) (j j' : Just), y.jobs[i]? = some j → y.jobs[i']? = some j' → j.state = .posted →
    j'.state = .posted → j.ty = j'.ty → y.hub.byType j.ty = none → i = i'
  one : ∀ i i', y.polls 0 i = true → y.polls 0 i' = true → i = i'
  calm : ∀ i, y.polls 0 i = true → E.pc = .idle

theorem Tidy.zero (ht : Tidy N y E) {e i : Nat} (hp : y.polls e i = true) : e = 0 := by
  obtain ⟨j, hj, he, _⟩ := (polls_iff y e i).1 hp
  exact he.symm.trans (ht.job i j hj).1

theorem Tidy.between_iff (ht : Tidy N y E) (e : Nat) : y.between e = true ↔ e = 0 ∧ E.pc = .idle := by
  unfold between
  rw [ht.hub.engines]
  cases e with
  | zero => simp [ht.hub.alive]
  | succ e => simp

/-- A job is where it was when its future and the types are. -/
theorem JustOk.mono {h h' : Hub} {pc pc' : ClientPc} {j : Just} (hk : JustOk h pc j) (hh : h.Keeps h')
    (hp : pc' = pc ∨ ∃ call e ty n q, pc = .waiting call e ty n ∧ pc' = .done call (.answer q)) : JustOk h' pc' j := by
  unfold JustOk at hk ⊢
  split
  next e => simp only [e] at hk
  next e => simp only [e] at hk
  next e =>
    simp only [e] at hk
    rcases hp with rfl | ⟨_, _, _, _, _, h1, _⟩
    · exact hk
    · rw [hk] at h1; cases h1
  next e =>
    simp only [e] at hk
    rcases hp with rfl | ⟨call, e', ty, n, q, h1, rfl⟩
    · exact hk
    · subst h1
      rcases hk with h2 | h2 | h2 | ⟨_, h2⟩ <;> cases h2
      exact .inr (.inr (.inr ⟨q, rfl⟩))
  next q e => simp only [e] at hk; exact hh _ _ hk

/-- A step of the registry that is not one of a future. -/
theorem tidy_hub (ht : Tidy N y E) {h : Hub} {E' : Engine} (ho : Hub.Orderly N h E') (hk : y.hub.Keeps h)
    (hc : ∀ i, h.clients (task i) = y.hub.clients (task i) ∨
      ∃ call e ty n q, y.hub.clients (task i) = .waiting call e ty n ∧ h.clients (task i) = .done call (.answer q))
    (hop : ∀ (i : Nat) (j : Just), y.jobs[i]? = some j → j.state = .posted → y.hub.byType j.ty = none → h.byType j.ty = none → ∀ d,
      (h.clients d).Opening j.ty → (y.hub.clients d).Opening j.ty)
    (hpc : ∀ i, y.polls 0 i = true → E.pc = .idle → E'.pc = .idle) : Tidy N { y with hub := h } E' := by
  have hb : ∀ {ty}, h.byType ty = none → y.hub.byType ty = none := by
    intro ty h1
    cases h2 : y.hub.byType ty with
    | none => rfl
    | some q => rw [hk _ _ h2] at h1; cases h1
  have hpl : ∀ i, ({ y with hub := h } : Yard).polls 0 i = true → y.polls 0 i = true := by
    intro i h1
    obtain ⟨j, h2, h3, h4, h5⟩ := (polls_iff _ _ _).1 h1
    refine (polls_iff _ _ _).2 ⟨j, h2, h3, h4, ?_⟩
    rcases hc i with h6 | ⟨_, _, _, _, _, _, h6⟩
    · rw [← h6]; exact h5
    · simp [h6, inPoll] at h5
  refine ⟨ho, fun i j hj => ?_, fun i hi => ?_, fun i j hj hs hty d hd => ?_, fun i i' j j' h1 h2 h3 h4 h5 h6 =>
    ht.once i i' j j' h1 h2 h3 h4 h5 (hb h6), fun i i' h1 h2 => ht.one i i' (hpl i h1) (hpl i' h2),
    fun i h1 => hpc i (hpl i h1) (ht.calm i (hpl i h1))⟩
  · obtain ⟨h1, h2, h3⟩ := ht.job i j hj
    exact ⟨h1, h2, h3.mono hk (hc i)⟩
  · rcases hc i with h1 | ⟨_, _, _, _, _, h1, _⟩
    · exact h1.trans (ht.rest i hi)
    · rw [ht.rest i hi] at h1; cases h1
  · exact ht.alone i j hj hs (hb hty) d (hop i j hj hs (hb hty) hty d hd)

theorem step_hub_keeps (ht : Tidy N y E) (op : HubOp) : y.hub.Keeps (y.hub.step op) := Hub.step_keeps ht.hub.single op

theorem getElem?_set_cases {l : List Just} {i k : Nat} {a b : Just} (hk : (l.set i a)[k]? = some b) :
    (k = i ∧ b = a) ∨ (k ≠ i ∧ l[k]? = some b) := by
  rw [List.getElem?_set] at hk
  split at hk
  next e => split at hk
            · exact .inl ⟨e.symm, (Option.some.inj hk).symm⟩
            · cases hk
  next e => exact .inr ⟨fun h => e h.symm, hk⟩

/-- The handler begins a future. -/
theorem tidy_handle (ht : Tidy N y E) (e : Nat) : Tidy N (y.handle e) E := by
  unfold handle
  split
  next hb =>
    obtain ⟨hb, hq⟩ := Bool.and_eq_true_iff.1 hb
    obtain ⟨rfl, hidle⟩ := (ht.between_iff e).1 hb
    cases hf : y.first 0 with
    | none => exact ht
    | some i =>
    dsimp only
    cases hj : y.jobs[i]? with
    | none => exact ht
    | some j =>
    dsimp only
    have hp : j.state = .posted := by
      obtain ⟨hi, h1, _⟩ := List.findIdx?_eq_some_iff_getElem.1 hf
      rw [List.getElem?_eq_getElem hi] at hj
      cases hj
      simp only [Bool.and_eq_true, decide_eq_true_eq] at h1
      exact h1.2
    obtain ⟨j1, j2, j3⟩ := ht.job i j hj
    simp only [JustOk, hp] at j3
    have hop : (HubOp.begin (task i) (.submit j.ty j.name)).Orderly N y.hub :=
      ⟨j2, fun h1 d _ => ht.alone i j hj hp h1 d⟩
    have ho := Hub.orderly_begin ht.hub (task i) _ hop
    have hbg : y.hub.begin (task i) (.submit j.ty j.name) = y.hub.go (task i) (.begun (.submit j.ty j.name)) := by
      simp [Hub.begin, j3]
    rw [hbg] at ho ⊢
    have hty : (y.hub.go (task i) (.begun (.submit j.ty j.name))).byType = y.hub.byType := rfl
    have hpl : ∀ k, ({ hub := y.hub.go (task i) (.begun (.submit j.ty j.name)), jobs := y.jobs.set i { j with state := .running } } : Yard).polls 0 k = true → False := by
      intro k h1
      obtain ⟨j', h2, h3, h4, h5⟩ := (polls_iff _ _ _).1 h1
      rcases getElem?_set_cases h2 with ⟨rfl, rfl⟩ | ⟨hne, h2⟩
      · simp [Hub.go_clients, inPoll] at h5
      · have h6 : y.polls 0 k = true := (polls_iff _ _ _).2 ⟨j', h2, h3, h4, by
          have : task k ≠ task i := fun e => hne (task_inj e)
          simpa [Hub.go_clients, this] using h5⟩
        rw [(quiet_iff y 0).1 hq k] at h6
        cases h6
    refine ⟨ho, fun k j' hk => ?_, fun k hk => ?_, fun k j' hk hs hn d hd => ?_, fun k k' a b h1 h2 h3 h4 h5 h6 => ?_,
      fun k _ h1 => (hpl k h1).elim, fun k h1 => (hpl k h1).elim⟩
    · rcases getElem?_set_cases hk with ⟨rfl, rfl⟩ | ⟨hne, hk⟩
      · exact ⟨j1, j2, by simp [JustOk, Hub.go_clients]⟩
      · obtain ⟨h1, h2, h3⟩ := ht.job k j' hk
        refine ⟨h1, h2, h3.mono (fun _ _ h => h) (.inl ?_)⟩
        have : task k ≠ task i := fun e => hne (task_inj e)
        simp [Hub.go_clients, this]
    · dsimp only at hk
      rw [List.length_set] at hk
      have : task k ≠ task i := by
        intro e
        have := task_inj e
        subst this
        rw [List.getElem?_eq_none hk] at hj
        cases hj
      simpa [Hub.go_clients, this] using ht.rest k hk
    · rcases getElem?_set_cases hk with ⟨rfl, rfl⟩ | ⟨hne, hk⟩
      · cases hs
      · rw [hty] at hn
        rw [Hub.go_clients] at hd
        split at hd
        next e =>
          have hjt : j.ty = j'.ty := hd
          exact hne (ht.once k i j' j hk hj hs hp hjt.symm hn)
        next => exact ht.alone k j' hk hs hn d hd
    · rcases getElem?_set_cases h1 with ⟨rfl, rfl⟩ | ⟨_, h1⟩
      · cases h3
      · rcases getElem?_set_cases h2 with ⟨rfl, rfl⟩ | ⟨_, h2⟩
        · cases h4
        · exact ht.once k k' a b h1 h2 h3 h4 h5 (by rw [hty] at h6; exact h6)
  next => exact ht

/-- What a part of a poll does to a future. -/
theorem client_task (ho : Hub.Orderly N h E) {c ty : Nat} {n : Str} {pc : ClientPc} (hc : h.clients c = pc)
    (hp : pc = .begun (.submit ty n) ∨ pc = .ask (.submit ty n) ty n ∨
      pc = .waiting (.submit ty n) 0 ty n ∨ ∃ q, pc = .done (.submit ty n) (.answer q)) :
    (pc = .begun (.submit ty n) ∧ ∃ q, h.byType ty = some q ∧ h.client c false = h.go c (.done (.submit ty n) (.answer q))) ∨
    (pc = .begun (.submit ty n) ∧ h.byType ty = none ∧ h.client c false = h.go c (.ask (.submit ty n) ty n)) ∨
    (pc = .ask (.submit ty n) ty n ∧ h.client c false =
      { h.go c (.waiting (.submit ty n) 0 ty n) with engines := [{ E with mailbox := E.mailbox ++ [⟨c, ty, n⟩] }] }) ∨
    (pc = .waiting (.submit ty n) 0 ty n ∧ h.client c false = h) ∨
    (∃ q, pc = .done (.submit ty n) (.answer q) ∧ h.byType ty = some q ∧ h.client c false = h) := by
  have hrd : h.readAddr = some 0 := by simp [Hub.readAddr, ho.writer, ho.addr]
  have hk := ho.client c
  rw [hc] at hk
  rcases hp with rfl | rfl | rfl | ⟨q, rfl⟩
  · cases hb : h.byType ty with
    | some q => exact .inl ⟨rfl, q, rfl, by simp [Hub.client, hc, Hub.look, hb]⟩
    | none => exact .inr (.inl ⟨rfl, rfl, by simp [Hub.client, hc, Hub.look, hb]⟩)
  · exact .inr (.inr (.inl ⟨rfl, by simp [Hub.client, hc, hrd, Hub.send, ho.engines, ho.alive]⟩))
  · exact .inr (.inr (.inr (.inl ⟨rfl, by simp [Hub.client, hc]⟩)))
  · obtain ⟨q', h1, h2⟩ := hk
    cases h1
    exact .inr (.inr (.inr (.inr ⟨q, rfl, h2, by simp [Hub.client, hc]⟩)))

theorem burst_id (h : Hub) (e : Nat) (pc : ClientPc) (hp : ∀ call, pc ≠ .done call .panic) : burst h e pc = h := by
  unfold burst
  split
  next call => exact absurd rfl (hp call)
  next => rfl

/-- A part of a poll. -/
theorem tidy_poll (ht : Tidy N y E) (i : Nat) : ∃ E', Tidy N (y.poll i) E' := by
  unfold poll
  cases hj : y.jobs[i]? with
  | none => exact ⟨E, ht⟩
  | some j =>
  dsimp only
  split
  case isFalse => exact ⟨E, ht⟩
  case isTrue hg =>
  obtain ⟨hr, hb, hq⟩ := hg
  obtain ⟨-, hidle⟩ := (ht.between_iff _).1 hb
  obtain ⟨j1, j2, j3⟩ := ht.job i j hj
  rw [j1] at hq
  simp only [JustOk, hr] at j3
  obtain ⟨E', ho⟩ := Hub.orderly_client ht.hub (task i) false
  have hidle' := Hub.client_pc ht.hub ho hidle
  have hkeep : y.hub.Keeps (y.hub.client (task i) false) := step_hub_keeps ht (.client (task i) false)
  have hty : (y.hub.client (task i) false).byType = y.hub.byType := (Hub.client_frame y.hub (task i) false).1
  have hoth : ∀ k, k ≠ i → (y.hub.client (task i) false).clients (task k) = y.hub.clients (task k) := fun k hk =>
    Hub.client_others _ _ _ _ (fun e => hk (task_inj e))
  have hopen : ∀ {ty d}, ((y.hub.client (task i) false).clients d).Opening ty → (y.hub.clients d).Opening ty := by
    intro ty d h1
    rcases Hub.opening_old ht.hub (.client (task i) false) h1 with h2 | ⟨_, h2⟩
    · exact h2
    · cases h2
  have hcl := client_task ht.hub rfl j3
  have hof : (∀ call, (y.hub.client (task i) false).clients (task i) ≠ .done call .panic) ∧
      ∀ j' : Just, j' = { j with state := JustState.of ((y.hub.client (task i) false).clients (task i)) } →
        JustOk (y.hub.client (task i) false) ((y.hub.client (task i) false).clients (task i)) j' ∧ j'.state ≠ .posted := by
    rcases hcl with ⟨-, q, h1, h2⟩ | ⟨-, -, h2⟩ | ⟨-, h2⟩ | ⟨h1, h2⟩ | ⟨q, h1, h3, h2⟩
    · rw [h2]
      exact ⟨by simp [Hub.go_clients], by rintro _ rfl; simp [Hub.go_clients, JustState.of, JustOk]; exact h1⟩
    · rw [h2]
      exact ⟨by simp [Hub.go_clients], by rintro _ rfl; simp [Hub.go_clients, JustState.of, JustOk]⟩
    · rw [h2]
      exact ⟨by simp [Hub.go_clients], by rintro _ rfl; simp [Hub.go_clients, JustState.of, JustOk]⟩
    · rw [h2, h1]
      exact ⟨by simp, by rintro _ rfl; simp [JustState.of, JustOk]⟩
    · rw [h2, h1]
      exact ⟨by simp, by rintro _ rfl; simpa [JustState.of, JustOk] using h3⟩
  obtain ⟨hnp, hof⟩ := hof
  obtain ⟨hok, hnpost⟩ := hof _ rfl
  rw [burst_id _ _ _ hnp]
  have honly : ∀ k, y.polls 0 k = true → k = i := by
    intro k hk
    rcases Bool.or_eq_true_iff.1 hq with h1 | h1
    · rw [(quiet_iff y 0).1 h1 k] at hk; cases hk
    · exact ht.one k i hk h1
  have hpl : ∀ k, ({ hub := y.hub.client (task i) false, jobs := y.jobs.set i { j with state := JustState.of ((y.hub.client (task i) false).clients (task i)) } } : Yard).polls 0 k = true → k = i := by
    intro k h1
    obtain ⟨j', h2, h3, h4, h5⟩ := (polls_iff _ _ _).1 h1
    rcases getElem?_set_cases h2 with ⟨e, -⟩ | ⟨hne, h2⟩
    · exact e
    · exact honly k ((polls_iff _ _ _).2 ⟨j', h2, h3, h4, by rw [← hoth k hne]; exact h5⟩)
  refine ⟨E', ho, fun k j' hk => ?_, fun k hk => ?_, fun k j' hk hs hn d hd => ?_, fun k k' a b h1 h2 h3 h4 h5 h6 => ?_,
      fun k k' h1 h2 => (hpl k h1).trans (hpl k' h2).symm, fun k h1 => hidle'⟩
  · rcases getElem?_set_cases hk with ⟨rfl, rfl⟩ | ⟨hne, hk⟩
    · exact ⟨j1, j2, hok⟩
    · obtain ⟨h1, h2, h3⟩ := ht.job k j' hk
      exact ⟨h1, h2, h3.mono hkeep (.inl (hoth k hne))⟩
  · dsimp only at hk
    rw [List.length_set] at hk
    have : k ≠ i := by
      intro e
      subst e
      rw [List.getElem?_eq_none hk] at hj
      cases hj
    exact (hoth k this).trans (ht.rest k hk)
  · rcases getElem?_set_cases hk with ⟨rfl, rfl⟩ | ⟨hne, hk⟩
    · exact hnpost hs
    · exact ht.alone k j' hk hs (by rw [← hty]; exact hn) d (hopen hd)
  · rcases getElem?_set_cases h1 with ⟨rfl, rfl⟩ | ⟨_, h1⟩
    · exact absurd h3 hnpost
    · rcases getElem?_set_cases h2 with ⟨rfl, rfl⟩ | ⟨_, h2⟩
      · exact absurd h4 hnpost
      · exact ht.once k k' a b h1 h2 h3 h4 h5 (by rw [← hty]; exact h6)

/-- A call of `just_run`. -/
theorem tidy_just (ht : Tidy N y E) (ty : Nat) (n : Str) (hp : (YardOp.just ty n).Orderly N y) : Tidy N (y.just ty n) E := by
  have hrd : y.hub.readAddr = some 0 := by simp [Hub.readAddr, ht.hub.writer, ht.hub.addr]
  have : y.just ty n = { y with jobs := y.jobs ++ [⟨0, ty, n, .posted⟩] } := by
    simp [just, hrd, ht.hub.engines, ht.hub.alive]
  rw [this]
  obtain ⟨hn, hal⟩ := hp
  have hget : ∀ {k : Nat} {j : Just}, (y.jobs ++ [⟨0, ty, n, .posted⟩])[k]? = some j →
      y.jobs[k]? = some j ∨ (k = y.jobs.length ∧ j = ⟨0, ty, n, .posted⟩) := by
    intro k j hk
    rw [List.getElem?_append] at hk
    split at hk
    · exact .inl hk
    next h1 =>
      have h2 : k - y.jobs.length = 0 := by
        cases h3 : k - y.jobs.length with
        | zero => rfl
        | succ m => rw [h3] at hk; simp at hk
      rw [h2] at hk
      simp at hk
      exact .inr ⟨by omega, hk.symm⟩
  have hpl : ∀ k, ({ y with jobs := y.jobs ++ [⟨0, ty, n, .posted⟩] } : Yard).polls 0 k = true → y.polls 0 k = true := by
    intro k h1
    obtain ⟨j', h2, h3, h4, h5⟩ := (polls_iff _ _ _).1 h1
    rcases hget h2 with h2 | ⟨_, rfl⟩
    · exact (polls_iff _ _ _).2 ⟨j', h2, h3, h4, h5⟩
    · cases h4
  refine ⟨ht.hub, fun k j' hk => ?_, fun k hk => ?_, fun k j' hk hs hn d hd => ?_, fun k k' a b h1 h2 h3 h4 h5 h6 => ?_,
      fun k k' h1 h2 => ht.one k k' (hpl k h1) (hpl k' h2), fun k h1 => ht.calm k (hpl k h1)⟩
  · rcases hget hk with hk | ⟨rfl, rfl⟩
    · exact ht.job k j' hk
    · exact ⟨rfl, hn, ht.rest _ (Nat.le_refl _)⟩
  · exact ht.rest k (by simp at hk; omega)
  · rcases hget hk with hk | ⟨rfl, rfl⟩
    · exact ht.alone k j' hk hs hn d hd
    · exact (hal hn).1 d hd
  · rcases hget h1 with h1 | ⟨rfl, rfl⟩ <;> rcases hget h2 with h2 | ⟨rfl, rfl⟩
    · exact ht.once k k' a b h1 h2 h3 h4 h5 h6
    · exact absurd h5 ((hal (by have h7 : a.ty = ty := h5; rw [← h7]; exact h6)).2 a (List.mem_of_getElem? h1) h3)
    · exact absurd h5.symm ((hal h6).2 b (List.mem_of_getElem? h2) h4)
    · rfl

theorem engine_tasks (hN : ∀ a b, N a = N b → a = b) (ho : Hub.Orderly N h E) (e c : Nat) :
    (h.engine e).clients c = h.clients c ∨
      ∃ call e' ty n q, h.clients c = .waiting call e' ty n ∧ (h.engine e).clients c = .done call (.answer q) := by
  rcases Hub.engine_clients h e c with h1 | ⟨call, ty, n, h1, h2⟩ | ⟨_, _, q, call, e', ty, n, _, _, _, h1, h2⟩
  · exact .inl h1
  · obtain ⟨E', ho'⟩ := Hub.orderly_engine hN ho e
    have h3 := ho.client c
    rw [h1] at h3
    have h4 := ho'.client c
    rw [h2, h3.1] at h4
    obtain ⟨_, h4, _⟩ := h4
    cases h4
  · exact .inr ⟨call, e', ty, n, q, h1, h2⟩

theorem tidy_step (hN : ∀ a b, N a = N b → a = b) (ht : Tidy N y E) (op : YardOp) (hp : op.Orderly N y) :
    ∃ E', Tidy N (y.step op) E' := by
  cases op with
  | begin c call =>
    have hop : (HubOp.begin (thread c) call).Orderly N y.hub := by
      cases call with
      | submit ty n => exact ⟨hp.1, fun h1 d hd => (hp.2 h1).1 d hd⟩
      | update ty n => exact hp
      | _ => trivial
    refine ⟨E, tidy_hub ht (Hub.orderly_begin ht.hub _ _ hop) (step_hub_keeps ht (.begin (thread c) call))
      (fun i => .inl (Hub.begin_others _ _ _ _ (task_thread i c))) (fun i j hj hs hty _ d hd => ?_) (fun _ _ h => h)⟩
    rcases Hub.opening_old ht.hub (.begin (thread c) call) hd with h1 | ⟨n, h1⟩
    · exact h1
    · cases h1
      exact absurd rfl ((hp.2 hty).2 j (List.mem_of_getElem? hj) hs)
  | client c x =>
    obtain ⟨E', ho⟩ := Hub.orderly_client ht.hub (thread c) x
    refine ⟨E', tidy_hub ht ho (step_hub_keeps ht (.client (thread c) x))
      (fun i => .inl (Hub.client_others _ _ _ _ (task_thread i c))) (fun i j hj hs hty _ d hd => ?_)
      (fun _ _ h => Hub.client_pc ht.hub ho h)⟩
    rcases Hub.opening_old ht.hub (.client (thread c) x) hd with h1 | ⟨n, h1⟩
    · exact h1
    · cases h1
  | engine e =>
    simp only [step]
    split
    next hq =>
      obtain ⟨E', ho⟩ := Hub.orderly_engine hN ht.hub e
      refine ⟨E', tidy_hub ht ho (step_hub_keeps ht (.engine e)) (fun i => engine_tasks hN ht.hub e _)
        (fun i j hj hs hty _ d hd => ?_) (fun i h1 h2 => ?_)⟩
      · rcases Hub.opening_old ht.hub (.engine e) hd with h1 | ⟨n, h1⟩
        · exact h1
        · cases h1
      · cases e with
        | zero => rw [(quiet_iff y 0).1 hq i] at h1; cases h1
        | succ e =>
          have h3 : y.hub.engine (e + 1) = y.hub := by simp [Hub.engine, ht.hub.engines]
          rw [h3] at ho
          have h4 := ho.engines
          rw [ht.hub.engines] at h4
          rw [← (by simpa using h4 : E = E')]
          exact h2
    next => exact ⟨E, ht⟩
  | just ty n => exact ⟨E, tidy_just ht ty n hp⟩
  | handle e => exact ⟨E, tidy_handle ht e⟩
  | poll i => exact tidy_poll ht i

theorem tidy_run (hN : ∀ a b, N a = N b → a = b) (ht : Tidy N y E) (ops : List YardOp) (hp : OrderlyYard N y ops) :
    ∃ E', Tidy N (y.run ops) E' := by
  induction hp generalizing E with
  | nil => exact ⟨E, ht⟩
  | cons h1 _ ih =>
    obtain ⟨E', h2⟩ := tidy_step hN ht _ h1
    exact ih h2

theorem tidy_init {h : Hub} (ho : Hub.Orderly N h E) (hi : ∀ i, h.clients (task i) = .idle) : Tidy N { hub := h } E :=
  ⟨ho, fun i j hj => (by simp at hj), fun i _ => hi i, fun i j hj => (by simp at hj), fun i _ j _ hj => (by simp at hj),
    fun i _ h1 => (by simp [polls] at h1), fun i h1 => (by simp [polls] at h1)⟩

/-! ## The engine comes to an end -/

/-- What is left to do for a job. -/
def left (pc : ClientPc) (j : Just) : Nat := match j.state with
  | .posted => 9
  | .running => match pc with
    | .begun _ => 8
    | .ask .. => 7
    | .waiting .. => 2
    | .done .. => 1
    | _ => 0
  | _ => 0

def lefts (f : Nat → ClientPc) : Nat → List Just → Nat
  | _, [] => 0
  | k, j :: l => left (f (task k)) j + lefts f (k + 1) l

theorem lefts_le {f f' : Nat → ClientPc} {k : Nat} {l l' : List Just} (hl : l'.length = l.length)
    (hw : ∀ (i : Nat) (j j' : Just), l[i]? = some j → l'[i]? = some j' → left (f' (task (k + i))) j' ≤ left (f (task (k + i))) j) :
    lefts f' k l' ≤ lefts f k l := by
  induction l generalizing l' k with
  | nil => rw [List.length_eq_zero_iff.1 hl]; exact Nat.le_refl _
  | cons a l ih =>
    cases l' with
    | nil => simp at hl
    | cons b l' =>
      have h1 := hw 0 a b rfl rfl
      have h2 := ih (l' := l') (k := k + 1) (by simpa using hl) fun i j j' hj hj' => by
        have := hw (i + 1) j j' hj hj'
        rwa [show k + (i + 1) = k + 1 + i by omega] at this
      simp only [lefts]
      simp only [Nat.add_zero] at h1
      omega

theorem lefts_lt {f f' : Nat → ClientPc} {k d i : Nat} {l l' : List Just} {a a' : Just} (hl : l'.length = l.length)
    (hw : ∀ (i : Nat) (j j' : Just), l[i]? = some j → l'[i]? = some j' → left (f' (task (k + i))) j' ≤ left (f (task (k + i))) j)
    (ha : l[i]? = some a) (ha' : l'[i]? = some a')
    (hd : left (f' (task (k + i))) a' + d ≤ left (f (task (k + i))) a) : lefts f' k l' + d ≤ lefts f k l := by
  induction l generalizing l' k i with
  | nil => simp at ha
  | cons b l ih =>
    cases l' with
    | nil => simp at hl
    | cons b' l' =>
      have hw' : ∀ (i : Nat) (j j' : Just), l[i]? = some j → l'[i]? = some j' →
          left (f' (task (k + 1 + i))) j' ≤ left (f (task (k + 1 + i))) j := fun i j j' hj hj' => by
        have := hw (i + 1) j j' hj hj'
        rwa [show k + (i + 1) = k + 1 + i by omega] at this
      have h1 := hw 0 b b' rfl rfl
      simp only [Nat.add_zero] at h1
      simp only [lefts]
      cases i with
      | zero =>
        have h2 := lefts_le (f := f) (f' := f') (k := k + 1) (l := l) (l' := l') (by simpa using hl) hw'
        cases ha; cases ha'
        simp only [Nat.add_zero] at hd
        omega
      | succ i =>
        have h2 := ih (l' := l') (k := k + 1) (i := i) (by simpa using hl) hw' ha ha'
          (by rwa [show k + (i + 1) = k + 1 + i by omega] at hd)
        omega

/-- What is left to do for the engine. -/
def todo (y : Yard) : Nat := lefts y.hub.clients 0 y.jobs + match y.hub.engines with
  | E :: _ => Hub.work E
  | [] => 0

theorem todo_eq (ho : Hub.Orderly N y.hub E) : y.todo = lefts y.hub.clients 0 y.jobs + Hub.work E := by
  simp [todo, ho.engines]

theorem left_posted {pc : ClientPc} {j : Just} (h : j.state = .posted) : left pc j = 9 := by simp [left, h]

/-- Only job `i` has less left. -/
theorem lefts_set {y : Yard} {h' : Hub} {i d : Nat} {j j' : Just} (hj : y.jobs[i]? = some j)
    (hoth : ∀ k, k ≠ i → h'.clients (task k) = y.hub.clients (task k))
    (hd : left (h'.clients (task i)) j' + d ≤ left (y.hub.clients (task i)) j) :
    lefts h'.clients 0 (y.jobs.set i j') + d ≤ lefts y.hub.clients 0 y.jobs := by
  have hi : i < y.jobs.length := (List.getElem?_eq_some_iff.1 hj).1
  refine lefts_lt (i := i) (a' := j') (by simp) (fun k a a' ha ha' => ?_) hj (by simp [hi]) (by simpa using hd)
  simp only [Nat.zero_add]
  rcases getElem?_set_cases ha' with ⟨rfl, rfl⟩ | ⟨hne, ha'⟩
  · rw [hj] at ha; cases ha; omega
  · rw [ha] at ha'; cases ha'; rw [hoth k hne]; exact Nat.le_refl _

theorem moves_poll (ht : Tidy N y E) (i : Nat) (hne : y.poll i ≠ y) : (y.poll i).todo < y.todo := by
  obtain ⟨E', ht'⟩ := tidy_poll ht i
  revert hne ht'
  unfold poll
  cases hj : y.jobs[i]? with
  | none => exact fun h => absurd rfl h
  | some j =>
  dsimp only
  split
  case isFalse => exact fun h => absurd rfl h
  case isTrue hg =>
  intro hne ht'
  obtain ⟨hr, hb, hq⟩ := hg
  obtain ⟨j1, j2, j3⟩ := ht.job i j hj
  simp only [JustOk, hr] at j3
  have hoth : ∀ k, k ≠ i → (y.hub.client (task i) false).clients (task k) = y.hub.clients (task k) := fun k hk =>
    Hub.client_others _ _ _ _ (fun e => hk (task_inj e))
  rw [todo_eq ht.hub]
  rcases client_task ht.hub rfl j3 with ⟨h1, q, -, h2⟩ | ⟨h1, -, h2⟩ | ⟨h1, h2⟩ | ⟨h1, h2⟩ | ⟨q, h1, -, h2⟩
  · rw [h2] at hne ht' hoth ⊢
    rw [Hub.go_clients, if_pos rfl, burst_id _ _ _ (by simp)] at hne ht' ⊢
    have h3 : E' = E := by have := ht'.hub.engines; simpa [Hub.go, ht.hub.engines] using this.symm
    have h4 := lefts_set (j' := { j with state := JustState.of (.done (.submit j.ty j.name) (.answer q)) }) (d := 8) hj hoth (by
      simp [left, hr, h1, JustState.of])
    rw [todo_eq ht'.hub, h3]
    simp only at h4 ⊢
    omega
  · rw [h2] at hne ht' hoth ⊢
    rw [Hub.go_clients, if_pos rfl, burst_id _ _ _ (by simp)] at hne ht' ⊢
    have h3 : E' = E := by have := ht'.hub.engines; simpa [Hub.go, ht.hub.engines] using this.symm
    have h4 := lefts_set (j' := { j with state := JustState.of (.ask (.submit j.ty j.name) j.ty j.name) }) (d := 1) hj hoth (by
      simp [left, hr, h1, JustState.of, Hub.go_clients])
    rw [todo_eq ht'.hub, h3]
    simp only at h4 ⊢
    omega
  · have hcl : (y.hub.client (task i) false).clients (task i) = .waiting (.submit j.ty j.name) 0 j.ty j.name := by
      rw [h2]; exact upd_same _ _ _
    rw [hcl] at hne ht' ⊢
    rw [burst_id _ _ _ (by simp)] at hne ht' ⊢
    have h3 : E' = { E with mailbox := E.mailbox ++ [⟨task i, j.ty, j.name⟩] } := by
      have := ht'.hub.engines
      rw [h2] at this
      simpa using this.symm
    have h4 := lefts_set (j' := { j with state := JustState.of (.waiting (.submit j.ty j.name) 0 j.ty j.name) }) (d := 5) hj hoth (by
      rw [hcl, h1]; simp [left, hr, JustState.of])
    have h5 : Hub.work { E with mailbox := E.mailbox ++ [⟨task i, j.ty, j.name⟩] } = Hub.work E + 4 := by
      simp only [Hub.work, List.length_append, List.length_cons, List.length_nil]; omega
    rw [todo_eq ht'.hub, h3, h5]
    simp only at h4 ⊢
    omega
  · refine absurd ?_ hne
    rw [h2, h1, burst_id _ _ _ (by simp)]
    have : y.jobs.set i { j with state := JustState.of (.waiting (.submit j.ty j.name) 0 j.ty j.name) } = y.jobs := by
      have : { j with state := JustState.of (.waiting (.submit j.ty j.name) 0 j.ty j.name) } = j := by
        simp only [JustState.of, ← hr]
      rw [this]
      apply List.ext_getElem?
      intro k
      rw [List.getElem?_set]
      split
      next e => subst e; split <;> simp_all
      next => rfl
    rw [this]
  · rw [h2, h1] at hne ht' ⊢
    rw [burst_id _ _ _ (by simp)] at hne ht' ⊢
    have h3 : E' = E := by have := ht'.hub.engines; simpa [ht.hub.engines] using this.symm
    have h4 := lefts_set (y := y) (h' := y.hub) (j' := { j with state := JustState.of (.done (.submit j.ty j.name) (.answer q)) }) (d := 1) hj
      (fun _ _ => rfl) (by simp [left, hr, h1, JustState.of])
    rw [todo_eq ht'.hub, h3]
    simp only at h4 ⊢
    omega

theorem moves_handle (ht : Tidy N y E) (e : Nat) (hne : y.handle e ≠ y) : (y.handle e).todo < y.todo := by
  have ht' := tidy_handle ht e
  rw [todo_eq ht.hub, todo_eq ht'.hub]
  revert hne
  unfold handle
  split
  case isFalse => exact fun h => absurd rfl h
  case isTrue hb =>
  cases hf : y.first e with
  | none => exact fun h => absurd rfl h
  | some i =>
  dsimp only
  cases hj : y.jobs[i]? with
  | none => exact fun h => absurd rfl h
  | some j =>
  dsimp only
  intro _
  have hp : j.state = .posted := by
    obtain ⟨hi, h1, _⟩ := List.findIdx?_eq_some_iff_getElem.1 hf
    rw [List.getElem?_eq_getElem hi] at hj
    cases hj
    simp only [Bool.and_eq_true, decide_eq_true_eq] at h1
    exact h1.2
  obtain ⟨j1, j2, j3⟩ := ht.job i j hj
  simp only [JustOk, hp] at j3
  have hbg : y.hub.begin (task i) (.submit j.ty j.name) = y.hub.go (task i) (.begun (.submit j.ty j.name)) := by
    simp [Hub.begin, j3]
  have h4 := lefts_set (h' := y.hub.begin (task i) (.submit j.ty j.name)) (j' := { j with state := .running }) (d := 1) hj
    (fun k hk => Hub.begin_others _ _ _ _ (fun e => hk (task_inj e)))
    (by rw [left_posted hp, hbg]; simp [left, Hub.go_clients])
  omega

theorem engine_succ (ho : Hub.Orderly N h E) (e : Nat) : h.engine (e + 1) = h := by
  simp [Hub.engine, ho.engines]

theorem moves_engine (hN : ∀ a b, N a = N b → a = b) (ht : Tidy N y E) (e : Nat) (hne : y.step (.engine e) ≠ y) :
    (y.step (.engine e)).todo < y.todo := by
  simp only [step] at hne ⊢
  split at hne
  case isFalse => exact absurd rfl hne
  case isTrue hq =>
  rw [if_pos hq]
  cases e with
  | succ e => exact absurd (by rw [engine_succ ht.hub e]) hne
  | zero =>
    obtain ⟨E', ho', hw | ⟨h1, h2⟩⟩ := Hub.engine_work hN ht.hub
    · rw [todo_eq ht.hub, todo_eq (y := { y with hub := y.hub.engine 0 }) ho']
      have := lefts_le (f := y.hub.clients) (f' := (y.hub.engine 0).clients) (k := 0) (l := y.jobs) (l' := y.jobs) rfl
        fun i j j' hj hj' => by
          rw [hj] at hj'
          cases hj'
          rcases engine_tasks hN ht.hub 0 (task (0 + i)) with h3 | ⟨_, _, _, _, _, h3, h4⟩
          · rw [h3]; exact Nat.le_refl _
          · rw [h3, h4]
            simp only [left]
            split <;> omega
      simp only
      omega
    · refine absurd ?_ hne
      have : y.hub.engine 0 = y.hub := by simp [Hub.engine, ht.hub.engines, h1, h2]
      rw [this]

theorem moves_todo (hN : ∀ a b, N a = N b → a = b) (ht : Tidy N y E) {y' : Yard} (hm : y.Moves y') :
    y'.todo < y.todo ∧ ∃ E', Tidy N y' E' := by
  obtain ⟨op, h1, rfl, h2⟩ := hm
  cases op with
  | engine e => exact ⟨moves_engine hN ht e h2, tidy_step hN ht (.engine e) trivial⟩
  | handle e => exact ⟨moves_handle ht e h2, tidy_step hN ht (.handle e) trivial⟩
  | poll i => exact ⟨moves_poll ht i h2, tidy_step hN ht (.poll i) trivial⟩
  | _ => exact h1.elim

/-- The engine does not go on for ever. -/
theorem moves_acc (hN : ∀ a b, N a = N b → a = b) (n : Nat) (ht : Tidy N y E) (hn : y.todo < n) :
    Acc (fun b a => Moves a b) y := by
  induction n generalizing y E with
  | zero => omega
  | succ n ih =>
    refine ⟨y, fun y' hm => ?_⟩
    obtain ⟨h1, E', h2⟩ := moves_todo hN ht hm
    exact ih h2 (by omega)

/-- When the engine has nothing to do, every job was sent. -/
theorem stuck_sent (hN : ∀ a b, N a = N b → a = b) (ht : Tidy N y E) (hs : ∀ y', ¬ y.Moves y') {i : Nat} {j : Just}
    (hj : y.jobs[i]? = some j) : ∃ q, j.state = .sent q ∧ y.hub.byType j.ty = some q := by
  have stay : ∀ op : YardOp, op.ofEngine → y.step op = y := fun op ho => Classical.byContradiction fun h =>
    hs _ ⟨op, ho, rfl, h⟩
  -- a future in the middle of a poll goes on
  have hquiet : y.quiet 0 = true := by
    rw [quiet_iff]
    intro k
    cases hp : y.polls 0 k with
    | false => rfl
    | true =>
      have h1 := stay (.poll k) trivial
      obtain ⟨a, ha, h2, h3, h4⟩ := (polls_iff _ _ _).1 hp
      have h5 := (ht.between_iff 0).2 ⟨rfl, ht.calm k hp⟩
      obtain ⟨-, -, a3⟩ := ht.job k a ha
      simp only [JustOk, h3] at a3
      simp only [step, poll, ha] at h1
      rw [if_pos ⟨h3, by rw [h2]; exact h5, by rw [h2, hp]; simp⟩] at h1
      have h6 := congrArg (fun y => y.hub.clients (task k)) h1
      simp only at h6
      rcases client_task ht.hub rfl a3 with ⟨h7, -⟩ | ⟨h7, -⟩ | ⟨h7, h8⟩ | ⟨h7, -⟩ | ⟨q, h7, -⟩
      · simp [h7, inPoll] at h4
      · simp [h7, inPoll] at h4
      · have hcl : (y.hub.client (task k) false).clients (task k) = .waiting (.submit a.ty a.name) 0 a.ty a.name := by
          rw [h8]; exact upd_same _ _ _
        rw [hcl, burst_id _ _ _ (by simp), hcl, h7] at h6
        cases h6
      · simp [h7, inPoll] at h4
      · simp [h7, inPoll] at h4
  -- the engine has answered all messages
  have hwork : E.pc = .idle ∧ E.mailbox = [] := by
    obtain ⟨E', ho', hw | h1⟩ := Hub.engine_work hN ht.hub
    · have h1 := stay (.engine 0) trivial
      simp only [step, hquiet, if_true] at h1
      have h2 := congrArg (fun y => y.hub.engines) h1
      simp only [ht.hub.engines, ho'.engines] at h2
      cases h2
      omega
    · exact h1
  have hb : y.between 0 = true := (ht.between_iff 0).2 ⟨rfl, hwork.1⟩
  obtain ⟨j1, j2, j3⟩ := ht.job i j hj
  cases hst : j.state with
  | dropped => simp [JustOk, hst] at j3
  | failed => simp [JustOk, hst] at j3
  | sent q => exact ⟨q, rfl, by simpa [JustOk, hst] using j3⟩
  | posted =>
    exfalso
    have h1 := stay (.handle 0) trivial
    simp only [step, handle, hb, hquiet, Bool.and_self, if_true] at h1
    cases hf : y.first 0 with
    | none =>
      have h2 := List.findIdx?_eq_none_iff.1 hf j (List.mem_of_getElem? hj)
      simp [j1, hst] at h2
    | some k =>
      obtain ⟨hk, h2, _⟩ := List.findIdx?_eq_some_iff_getElem.1 hf
      rw [hf] at h1
      simp only [List.getElem?_eq_getElem hk] at h1
      have h3 := congrArg (fun y => y.jobs[k]?) h1
      simp only [List.getElem?_set_self hk, List.getElem?_eq_getElem hk, Option.some.injEq] at h3
      simp only [Bool.and_eq_true, decide_eq_true_eq] at h2
      have h4 : JustState.running = _ := congrArg Just.state h3
      rw [h2.2] at h4
      cases h4
  | running =>
    exfalso
    simp only [JustOk, hst] at j3
    have h1 := stay (.poll i) trivial
    simp only [step, poll, hj] at h1
    rw [if_pos ⟨hst, by rw [j1]; exact hb, by rw [j1, hquiet]; simp⟩] at h1
    have h5 := congrArg (fun y => y.jobs[i]?) h1
    have h6 := congrArg (fun y => y.hub.clients (task i)) h1
    have hi : i < y.jobs.length := (List.getElem?_eq_some_iff.1 hj).1
    simp only [List.getElem?_set_self hi, hj, Option.some.injEq] at h5 h6
    rcases client_task ht.hub rfl j3 with ⟨h7, q, -, h8⟩ | ⟨h7, -, h8⟩ | ⟨h7, -⟩ | ⟨h7, -⟩ | ⟨q, h7, -, h8⟩
    · rw [h8, Hub.go_clients, if_pos rfl] at h5
      rw [← h5] at hst
      simp [JustState.of] at hst
    · rw [h8, Hub.go_clients, if_pos rfl, burst_id _ _ _ (by simp), Hub.go_clients, if_pos rfl, h7] at h6
      cases h6
    · have : y.polls 0 i = true := (polls_iff _ _ _).2 ⟨j, hj, j1, hst, by rw [h7]; rfl⟩
      rw [(quiet_iff y 0).1 hquiet i] at this
      cases this
    · have h9 := ht.hub.client (task i)
      rw [h7] at h9
      obtain ⟨-, -, -, m, hm, -⟩ := h9
      simp [Hub.reqs, hwork.1, hwork.2, Hub.EnginePc.msgs, Hub.EnginePc.halfMsg] at hm
    · rw [h8, h7] at h5
      rw [← h5] at hst
      simp [JustState.of] at hst

end Yard
end AJ
