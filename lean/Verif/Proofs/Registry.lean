import Verif.Spec.Registry
import Verif.Proofs.BackendLemmas

/-!
# Invariants of the registry
-/

namespace AJ
namespace Hub

theorem run_nil (h : Hub) : h.run [] = h := rfl
theorem run_cons (h : Hub) (op ops) : h.run (op :: ops) = (h.step op).run ops := rfl
theorem run_append (h : Hub) (a b : List HubOp) : h.run (a ++ b) = (h.run a).run b := by
  simp [run, List.foldl_append]

theorem go_clients (h : Hub) (c : Nat) (pc) (d : Nat) : (h.go c pc).clients d = if d = c then pc else h.clients d := rfl

/-! ## The lock -/

/-- The writer is where it writes. -/
def Locked (h : Hub) : Prop := ∀ c, h.writer = some c → (h.clients c).Starting ∧ ∃ call e, h.clients c = .write call e

theorem locked_go {h : Hub} (hl : h.Locked) {c : Nat} {pc : ClientPc}
    (hw : ∀ call e, h.clients c ≠ .write call e) : (h.go c pc).Locked := by
  intro d hd
  have := hl d hd
  have hne : d ≠ c := by
    intro e; subst e
    obtain ⟨_, call, e, h1⟩ := this
    exact hw _ _ h1
  rw [go_clients, if_neg hne]
  exact this

theorem locked_same {h h' : Hub} (hl : h.Locked) (hw : h'.writer = h.writer)
    (hc : ∀ c call e, h.clients c = .write call e → h'.clients c = h.clients c) : h'.Locked := by
  intro c hc'
  obtain ⟨h1, call, e, h2⟩ := hl c (hw ▸ hc')
  rw [hc c call e h2]
  exact ⟨h1, call, e, h2⟩

theorem answer_frame (h : Hub) (m : InitMsg) (q : Nat) :
    (h.answer m q).addr = h.addr ∧ (h.answer m q).writer = h.writer ∧ (h.answer m q).engines = h.engines ∧
      (h.answer m q).byType = h.byType ∧ (h.answer m q).byName = h.byName ∧ (h.answer m q).queues = h.queues := by
  unfold answer
  split <;> exact ⟨rfl, rfl, rfl, rfl, rfl, rfl⟩

theorem answer_clients (h : Hub) (m : InitMsg) (q c : Nat) :
    (h.answer m q).clients c = h.clients c ∨
      ∃ call e ty n, c = m.client ∧ h.clients c = .waiting call e ty n ∧ (h.answer m q).clients c = .done call (.answer q) := by
  unfold answer
  split
  next call e ty n hm =>
    by_cases hc : c = m.client
    · subst hc
      exact .inr ⟨call, e, ty, n, rfl, hm, by simp [go_clients]⟩
    · exact .inl (by simp [go_clients, hc])
  next => exact .inl rfl

theorem release_clients (h : Hub) (e c : Nat) :
    (h.release e).clients c = h.clients c ∨
      ∃ call ty n, h.clients c = .waiting call e ty n ∧ (h.release e).clients c = .done call .mailboxError := by
  cases hc : h.clients c with
  | waiting call e' ty n =>
    by_cases he : e' = e
    · subst he
      exact .inr ⟨call, ty, n, rfl, by simp [release, hc]⟩
    · exact .inl (by simp [release, hc, he])
  | _ => exact .inl (by simp [release, hc])

/-- What a step of an engine does to the clients. -/
theorem engine_clients (h : Hub) (e c : Nat) :
    (h.engine e).clients c = h.clients c ∨
      (∃ call ty n, h.clients c = .waiting call e ty n ∧ (h.engine e).clients c = .done call .mailboxError) ∨
      ∃ E m q call e' ty n, h.engines[e]? = some E ∧ E.pc = .half m q ∧ m.client = c ∧
        h.clients c = .waiting call e' ty n ∧ (h.engine e).clients c = .done call (.answer q) := by
  unfold engine
  split
  next => exact .inl rfl
  next E hE =>
    split
    next hp =>
      split
      next => exact .inl rfl
      next m ms =>
        split
        next =>
          rcases release_clients h e c with h1 | h1
          · exact .inl h1
          · exact .inr (.inl h1)
        next => exact .inl rfl
    next m hp =>
      split
      next =>
        rcases release_clients h e c with h1 | h1
        · exact .inl h1
        · exact .inr (.inl h1)
      next => exact .inl rfl
    next m hp => exact .inl rfl
    next m q hp =>
      rcases answer_clients h m q c with h1 | ⟨call, e', ty, n, h1, h2, h3⟩
      · exact .inl h1
      · exact .inr (.inr ⟨E, m, q, call, e', ty, n, hE, hp, h1.symm, h2, h3⟩)

theorem engine_addr (h : Hub) (e : Nat) : (h.engine e).addr = h.addr ∧ (h.engine e).writer = h.writer := by
  unfold engine
  split
  · exact ⟨rfl, rfl⟩
  · split
    · split
      · exact ⟨rfl, rfl⟩
      · split <;> exact ⟨rfl, rfl⟩
    · split <;> exact ⟨rfl, rfl⟩
    · exact ⟨rfl, rfl⟩
    · exact ⟨(answer_frame _ _ _).1, (answer_frame _ _ _).2.1⟩

theorem send_frame (h : Hub) (c call e ty n) :
    (h.send c call e ty n).addr = h.addr ∧ (h.send c call e ty n).writer = h.writer ∧
      (h.send c call e ty n).byType = h.byType ∧ (h.send c call e ty n).byName = h.byName ∧
      (h.send c call e ty n).queues = h.queues ∧
      (∀ d, d ≠ c → (h.send c call e ty n).clients d = h.clients d) ∧
      ((h.send c call e ty n).clients c = .waiting call e ty n ∨
        (h.send c call e ty n).clients c = .done call .mailboxError) := by
  unfold send
  split
  · split
    · refine ⟨rfl, rfl, rfl, rfl, rfl, fun d hd => ?_, .inl ?_⟩
      · show (h.go c _).clients d = _
        simp [go_clients, hd]
      · show (h.go c _).clients c = _
        simp [go_clients]
    · exact ⟨rfl, rfl, rfl, rfl, rfl, fun d hd => by simp [go_clients, hd], .inr (by simp [go_clients])⟩
  · exact ⟨rfl, rfl, rfl, rfl, rfl, fun d hd => by simp [go_clients, hd], .inr (by simp [go_clients])⟩

theorem locked_step {h : Hub} (hl : h.Locked) (op : HubOp) : (h.step op).Locked := by
  cases op with
  | begin c call =>
    show (h.begin c call).Locked
    unfold begin
    split
    next hc => exact locked_go hl (by simp [hc])
    next hc => exact locked_go hl (by simp [hc])
    next => exact hl
  | client c x =>
    show (h.client c x).Locked
    unfold client
    split
    next hc => exact locked_go hl (by simp [hc])
    next call b hc =>
      refine locked_same (locked_go (pc := .lock call h.engines.length) hl (c := c) (by simp [hc])) rfl ?_
      intros; rfl
    next call e hc =>
      split
      next => exact locked_go hl (by simp [hc])
      next =>
        intro d hd
        have hd : some c = some d := hd
        cases hd
        exact ⟨by simp [go_clients, ClientPc.Starting], call, e, by simp [go_clients]⟩
    next => intro d hd; cases hd
    next hc =>
      split
      next => exact locked_go hl (by simp [hc])
      next => exact locked_go hl (by simp [hc])
    next hc =>
      split
      next =>
        refine locked_same hl (send_frame ..).2.1 fun d call e hd => (send_frame ..).2.2.2.2.2.1 _ ?_
        intro e'; subst e'; rw [hc] at hd; cases hd
      next => exact locked_go hl (by simp [hc])
    next hc =>
      split
      next => exact locked_go hl (by simp [hc])
      next => exact locked_go hl (by simp [hc])
    next => exact hl
  | engine e =>
    refine locked_same hl (engine_addr h e).2 fun c call e' hc => ?_
    show (h.engine e).clients c = _
    rcases engine_clients h e c with h1 | ⟨_, _, _, h1, _⟩ | ⟨_, _, _, _, _, _, _, _, _, _, h1, _⟩
    · exact h1
    · rw [hc] at h1; cases h1
    · rw [hc] at h1; cases h1

theorem locked_run {h : Hub} (hl : h.Locked) (ops : List HubOp) : (h.run ops).Locked := by
  induction ops generalizing h with
  | nil => exact hl
  | cons op ops ih => exact ih (locked_step hl op)

theorem locked_init : ({} : Hub).Locked := by intro c hc; cases hc

theorem Locked.free {h : Hub} (hl : h.Locked) (hc : ∀ c, ¬ (h.clients c).Starting) : h.writer = none := by
  cases hw : h.writer with
  | none => rfl
  | some c => exact absurd (hl c hw).1 (hc c)

/-! ## A running engine stays -/

theorem engines_engine (h : Hub) (e : Nat) : (h.engine e).engines.map (·.backend) = h.engines.map (·.backend) := by
  have key : ∀ (l : List Engine) (e : Nat) (E E' : Engine), l[e]? = some E → E'.backend = E.backend →
      (l.set e E').map (·.backend) = l.map (·.backend) := by
    intro l e E E' hE hb
    apply List.ext_getElem?
    intro i
    simp only [List.getElem?_map, List.getElem?_set]
    by_cases hi : e = i
    · subst hi
      obtain ⟨this, hg⟩ := List.getElem?_eq_some_iff.1 hE
      simp [this, hb, hg]
    · simp [hi]
  unfold engine
  split
  next => rfl
  next E hE =>
    split
    · split
      · rfl
      · split
        · exact key _ _ E _ hE rfl
        · exact key _ _ E _ hE rfl
    · split
      · exact key _ _ E _ hE rfl
      · exact key _ _ E _ hE rfl
    · exact key _ _ E _ hE rfl
    · exact key _ _ E _ hE rfl

theorem engines_send (h : Hub) (c call e ty n) :
    (h.send c call e ty n).engines.map (·.backend) = h.engines.map (·.backend) := by
  unfold send
  split
  next E hE =>
    split
    · apply List.ext_getElem?
      intro i
      simp only [List.getElem?_map, List.getElem?_set]
      by_cases hi : e = i
      · subst hi
        obtain ⟨this, hg⟩ := List.getElem?_eq_some_iff.1 hE
        simp [this, hg]
      · simp [hi]
    · rfl
  next => rfl

theorem running_step {h : Hub} {e : Nat} (hl : h.Locked) (hr : h.Running e) (op : HubOp) :
    (h.step op).Running e ∧ (h.step op).engines.map (·.backend) = h.engines.map (·.backend) := by
  have hw := hl.free hr.calm
  have hgo : ∀ c pc, ¬ ClientPc.Starting pc → (h.go c pc).Running e := fun c pc hp =>
    ⟨hr.addr, fun d => by
      rw [go_clients]
      split
      · exact hp
      · exact hr.calm d⟩
  cases op with
  | begin c call =>
    show (h.begin c call).Running e ∧ (h.begin c call).engines.map _ = _
    unfold begin
    split
    · exact ⟨hgo _ _ (by simp [ClientPc.Starting]), rfl⟩
    · exact ⟨hgo _ _ (by simp [ClientPc.Starting]), rfl⟩
    · exact ⟨hr, rfl⟩
  | client c x =>
    show (h.client c x).Running e ∧ (h.client c x).engines.map _ = _
    have hc0 := hr.calm c
    have hrd : h.readAddr = some e := by simp [readAddr, hw, hr.addr]
    unfold client
    split
    next call hc =>
      refine ⟨hgo _ _ ?_, rfl⟩
      cases call <;> simp only [look, hrd] <;> (try split) <;> simp [ClientPc.Starting]
    next hc => exact absurd trivial (by rw [hc] at hc0; exact hc0)
    next hc => exact absurd trivial (by rw [hc] at hc0; exact hc0)
    next hc => exact absurd trivial (by rw [hc] at hc0; exact hc0)
    next hc =>
      rw [hrd]
      exact ⟨hgo _ _ (by simp [ClientPc.Starting]), rfl⟩
    next call ty n hc =>
      rw [hrd]
      refine ⟨⟨(send_frame ..).1.trans hr.addr, fun d => ?_⟩, engines_send ..⟩
      obtain ⟨-, -, -, -, -, h1, h2⟩ := send_frame h c call e ty n
      by_cases hd : d = c
      · subst hd
        rcases h2 with h2 | h2 <;> (show ¬ ClientPc.Starting ((h.send d call e ty n).clients d)) <;>
          rw [h2] <;> simp [ClientPc.Starting]
      · show ¬ ClientPc.Starting ((h.send c call e ty n).clients d)
        rw [h1 d hd]; exact hr.calm d
    next call q ty n hc =>
      split
      · refine ⟨hgo _ _ ?_, rfl⟩
        unfold lookAgain
        split <;> simp [ClientPc.Starting]
      · exact ⟨hgo _ _ (by simp [ClientPc.Starting]), rfl⟩
    next => exact ⟨hr, rfl⟩
  | engine e' =>
    refine ⟨⟨(engine_addr h e').1.trans hr.addr, fun d => ?_⟩, engines_engine h e'⟩
    show ¬ ClientPc.Starting ((h.engine e').clients d)
    rcases engine_clients h e' d with h1 | ⟨_, _, _, _, h1⟩ | ⟨_, _, _, _, _, _, _, _, _, _, _, h1⟩
    · rw [h1]; exact hr.calm d
    · rw [h1]; simp [ClientPc.Starting]
    · rw [h1]; simp [ClientPc.Starting]

theorem running_run {h : Hub} {e : Nat} (hl : h.Locked) (hr : h.Running e) (ops : List HubOp) :
    (h.run ops).Running e ∧ (h.run ops).engines.map (·.backend) = h.engines.map (·.backend) := by
  induction ops generalizing h with
  | nil => exact ⟨hr, rfl⟩
  | cons op ops ih =>
    have h1 := running_step hl hr op
    have h2 := ih (locked_step hl op) h1.1
    exact ⟨h2.1, h2.2.trans h1.2⟩

/-! ## One engine -/

/-- The engines after a step of a client: old ones with the same place and life, or new ones. -/
theorem client_frame (h : Hub) (c : Nat) (x : Bool) :
    (h.client c x).byType = h.byType ∧ (h.client c x).byName = h.byName ∧ (h.client c x).queues = h.queues ∧
      h.engines.length ≤ (h.client c x).engines.length ∧
      ∀ (e : Nat) (E' : Engine), (h.client c x).engines[e]? = some E' →
        (∃ E, h.engines[e]? = some E ∧ E'.pc = E.pc ∧ E'.alive = E.alive) ∨ E'.pc = .idle := by
  have same : ∀ (e : Nat) (E' : Engine), h.engines[e]? = some E' →
        (∃ E, h.engines[e]? = some E ∧ E'.pc = E.pc ∧ E'.alive = E.alive) ∨ E'.pc = .idle :=
    fun e E' hE => .inl ⟨E', hE, rfl, rfl⟩
  unfold client
  split
  · exact ⟨rfl, rfl, rfl, Nat.le_refl _, same⟩
  · refine ⟨rfl, rfl, rfl, by simp, fun e E' hE => ?_⟩
    change (h.engines ++ [_])[e]? = some E' at hE
    rw [List.getElem?_append] at hE
    split at hE
    · exact same e E' hE
    · have := List.mem_of_getElem? hE
      simp at this
      subst this
      exact .inr rfl
  · split <;> exact ⟨rfl, rfl, rfl, Nat.le_refl _, same⟩
  · exact ⟨rfl, rfl, rfl, Nat.le_refl _, same⟩
  · split <;> exact ⟨rfl, rfl, rfl, Nat.le_refl _, same⟩
  · split
    · unfold send
      split
      next E0 hE0 =>
        split
        · refine ⟨rfl, rfl, rfl, by simp, fun e E' hE => ?_⟩
          rw [List.getElem?_set] at hE
          split at hE
          next he =>
            split at hE
            · cases hE; subst he; exact .inl ⟨E0, hE0, rfl, rfl⟩
            · cases hE
          next => exact same e E' hE
        · exact ⟨rfl, rfl, rfl, Nat.le_refl _, same⟩
      next => exact ⟨rfl, rfl, rfl, Nat.le_refl _, same⟩
    · exact ⟨rfl, rfl, rfl, Nat.le_refl _, same⟩
  · split <;> exact ⟨rfl, rfl, rfl, Nat.le_refl _, same⟩
  · exact ⟨rfl, rfl, rfl, Nat.le_refl _, same⟩

theorem begin_frame (h : Hub) (c : Nat) (call : ApiCall) :
    (h.begin c call).byType = h.byType ∧ (h.begin c call).byName = h.byName ∧ (h.begin c call).queues = h.queues ∧
      (h.begin c call).engines = h.engines := by
  unfold begin
  split <;> exact ⟨rfl, rfl, rfl, rfl⟩

theorem engine_length (h : Hub) (e : Nat) : (h.engine e).engines.length = h.engines.length := by
  have := congrArg List.length (engines_engine h e)
  simpa using this

theorem step_length (h : Hub) (op : HubOp) : h.engines.length ≤ (h.step op).engines.length := by
  cases op with
  | begin c call => show _ ≤ (h.begin c call).engines.length; rw [(begin_frame h c call).2.2.2]; exact Nat.le_refl _
  | client c x => exact (client_frame h c x).2.2.2.1
  | engine e => exact Nat.le_of_eq (engine_length h e).symm

theorem run_length (h : Hub) (ops : List HubOp) : h.engines.length ≤ (h.run ops).engines.length := by
  induction ops generalizing h with
  | nil => exact Nat.le_refl _
  | cons op ops ih => exact Nat.le_trans (step_length h op) (ih (h.step op))

/-- The registry and the place of an engine agree. -/
structure Agree (h : Hub) (E : Engine) : Prop where
  nameFree : ∀ m, E.pc = .nameFree m → h.byName m.name = none
  typeFree : ∀ m, E.pc = .typeFree m → h.byName m.name = none ∧ h.byType m.ty = none
  half : ∀ m q, E.pc = .half m q → h.byName m.name = none ∧ ∃ a, h.queues[q]? = some a ∧ a.name = m.name ∧ a.ty = m.ty

/-- The state of a registry with at most one engine. -/
structure Single (h : Hub) : Prop where
  filed : h.Filed
  pc : ∀ E, E ∈ h.engines → h.Agree E
  queue : ∀ q a, h.queues[q]? = some a → h.byType a.ty = some q ∧
    (h.byName a.name = some q ∨ ∃ E m, E ∈ h.engines ∧ E.pc = .half m q ∧ m.name = a.name)

theorem single_frame {h h' : Hub} (hs : h.Single) (h1 : h'.byType = h.byType) (h2 : h'.byName = h.byName)
    (h3 : h'.queues = h.queues)
    (h4 : ∀ E', E' ∈ h'.engines → (∃ E, E ∈ h.engines ∧ E'.pc = E.pc) ∨ E'.pc = .idle)
    (h5 : ∀ E, E ∈ h.engines → ∃ E', E' ∈ h'.engines ∧ E'.pc = E.pc) : h'.Single := by
  refine ⟨⟨fun ty q => ?_, fun n q => ?_⟩, fun E' hE' => ?_, fun q a ha => ?_⟩
  · rw [h1, h3]; exact hs.filed.types ty q
  · rw [h2, h3]; exact hs.filed.names n q
  · rcases h4 E' hE' with ⟨E, hE, hp⟩ | hp
    · obtain ⟨a1, a2, a3⟩ := hs.pc E hE
      refine ⟨fun m hm => ?_, fun m hm => ?_, fun m q hm => ?_⟩
      · rw [h2]; exact a1 m (hp ▸ hm)
      · rw [h1, h2]; exact a2 m (hp ▸ hm)
      · rw [h2, h3]; exact a3 m q (hp ▸ hm)
    · refine ⟨fun m hm => ?_, fun m hm => ?_, fun m q hm => ?_⟩ <;> rw [hp] at hm <;> cases hm
  · rw [h3] at ha
    obtain ⟨b1, b2⟩ := hs.queue q a ha
    rw [h1, h2]
    refine ⟨b1, b2.imp_right ?_⟩
    rintro ⟨E, m, hE, hp, hn⟩
    obtain ⟨E', hE', hp'⟩ := h5 E hE
    exact ⟨E', m, hE', hp'.trans hp, hn⟩

theorem client_keeps_pc (h : Hub) (c : Nat) (x : Bool) (E : Engine) (hE : E ∈ h.engines) :
    ∃ E', E' ∈ (h.client c x).engines ∧ E'.pc = E.pc := by
  obtain ⟨i, hi⟩ := List.getElem?_of_mem hE
  unfold client
  split
  · exact ⟨E, hE, rfl⟩
  · exact ⟨E, List.mem_append_left _ hE, rfl⟩
  · split <;> exact ⟨E, hE, rfl⟩
  · exact ⟨E, hE, rfl⟩
  · split <;> exact ⟨E, hE, rfl⟩
  · split
    next e _ =>
      unfold send
      split
      next E0 hE0 =>
        split
        · by_cases hei : e = i
          · subst hei
            rw [hi] at hE0
            cases hE0
            refine ⟨_, List.mem_of_getElem? (i := e)
              (List.getElem?_set_self (List.getElem?_eq_some_iff.1 hi).1), rfl⟩
          · exact ⟨E, List.mem_of_getElem? (i := i) (by
              show (h.engines.set e _)[i]? = _
              rw [List.getElem?_set_ne hei]; exact hi), rfl⟩
        · exact ⟨E, hE, rfl⟩
      next => exact ⟨E, hE, rfl⟩
    · exact ⟨E, hE, rfl⟩
  · split <;> exact ⟨E, hE, rfl⟩
  · exact ⟨E, hE, rfl⟩

theorem client_pc_old (h : Hub) (c : Nat) (x : Bool) (E' : Engine) (hE : E' ∈ (h.client c x).engines) :
    (∃ E, E ∈ h.engines ∧ E'.pc = E.pc) ∨ E'.pc = .idle := by
  obtain ⟨i, hi⟩ := List.getElem?_of_mem hE
  rcases (client_frame h c x).2.2.2.2 i E' hi with ⟨E, h1, h2, _⟩ | h1
  · exact .inl ⟨E, List.mem_of_getElem? h1, h2⟩
  · exact .inr h1

theorem engines_one {l : List Engine} {e : Nat} {E : Engine} (h : l[e]? = some E) (h1 : l.length ≤ 1) :
    e = 0 ∧ l = [E] := by
  match l, h1 with
  | [], _ => simp at h
  | [a], _ =>
    rcases e with _ | e
    · simp at h; exact ⟨rfl, by rw [h]⟩
    · simp at h

theorem engine_single {h : Hub} (hs : h.Single) (h1 : h.engines.length ≤ 1) (e : Nat) : (h.engine e).Single := by
  cases hE : h.engines[e]? with
  | none => unfold engine; rw [hE]; exact hs
  | some E =>
    obtain ⟨rfl, hl⟩ := engines_one hE h1
    have hmem : E ∈ h.engines := by rw [hl]; simp
    have hA := hs.pc E hmem
    cases hp : E.pc with
    | idle =>
      have crash : ∀ E0, (h.crash 0 E0).Single := by
        intro E0
        refine single_frame hs rfl rfl rfl (fun E' hE' => .inr ?_) (fun E1 hE1 => ?_)
        · simp only [Hub.crash] at hE'
          rw [hl] at hE'
          simp at hE'
          rw [hE']
        · rw [hl] at hE1
          simp at hE1; subst hE1
          refine ⟨{ E0 with alive := false, mailbox := [], pc := .idle }, ?_, hp.symm⟩
          simp [Hub.crash, hl]
      cases hm : E.mailbox with
      | nil => unfold engine; rw [hE]; simp only [hp, hm]; exact hs
      | cons m ms =>
        cases hn : h.byName m.name with
        | some q => unfold engine; rw [hE]; simp only [hp, hm, hn]; exact crash _
        | none =>
          unfold engine; rw [hE]; simp only [hp, hm, hn]
          refine ⟨⟨hs.filed.types, hs.filed.names⟩, fun E' hE' => ?_, fun q a ha => ?_⟩
          · simp only [hl] at hE'
            simp at hE'
            subst hE'
            refine ⟨fun m' hm' => ?_, fun m hm => (by cases hm), fun m q hm => (by cases hm)⟩
            cases hm'
            exact hn
          · obtain ⟨b1, b2⟩ := hs.queue q a ha
            refine ⟨b1, .inl ?_⟩
            rcases b2 with b2 | ⟨E1, m1, hE1, hp1, _⟩
            · exact b2
            · rw [hl] at hE1; simp at hE1; subst hE1
              rw [hp] at hp1; cases hp1
    | nameFree m =>
      have noHalf : ∀ q a, h.queues[q]? = some a → h.byName a.name = some q := by
        intro q a ha
        rcases (hs.queue q a ha).2 with b2 | ⟨E1, m1, hE1, hp1, _⟩
        · exact b2
        · rw [hl] at hE1; simp at hE1; subst hE1
          rw [hp] at hp1; cases hp1
      have hnm := hA.nameFree m hp
      cases ht : h.byType m.ty with
      | some q =>
        unfold engine; rw [hE]; simp only [hp, ht]
        refine ⟨⟨hs.filed.types, hs.filed.names⟩, fun E' hE' => ?_, fun q a ha => ⟨(hs.queue q a ha).1, .inl (noHalf q a ha)⟩⟩
        simp only [Hub.crash, hl] at hE'
        simp at hE'; subst hE'
        exact ⟨fun m hm => (by cases hm), fun m hm => (by cases hm), fun m q hm => (by cases hm)⟩
      | none =>
        unfold engine; rw [hE]; simp only [hp, ht]
        refine ⟨⟨hs.filed.types, hs.filed.names⟩, fun E' hE' => ?_, fun q a ha => ⟨(hs.queue q a ha).1, .inl (noHalf q a ha)⟩⟩
        simp only [hl] at hE'
        simp at hE'; subst hE'
        refine ⟨fun m hm => (by cases hm), fun m' hm => ?_, fun m q hm => (by cases hm)⟩
        cases hm
        exact ⟨hnm, ht⟩
    | typeFree m =>
      obtain ⟨hn, ht⟩ := hA.typeFree m hp
      unfold engine; rw [hE]; simp only [hp]
      refine ⟨⟨fun ty q hq => ?_, fun n q hq => ?_⟩, fun E' hE' => ?_, fun q a ha => ?_⟩
      · change upd h.byType m.ty (some h.queues.length) ty = some q at hq
        simp only [upd] at hq
        split at hq
        next he => cases hq; exact ⟨⟨m.ty, m.name, E.backend⟩, by simp, he.symm⟩
        next =>
          obtain ⟨a, ha, hty⟩ := hs.filed.types ty q hq
          exact ⟨a, (List.getElem?_append_left (List.getElem?_eq_some_iff.1 ha).1).trans ha, hty⟩
      · obtain ⟨a, ha, hty⟩ := hs.filed.names n q hq
        exact ⟨a, (List.getElem?_append_left (List.getElem?_eq_some_iff.1 ha).1).trans ha, hty⟩
      · simp only [hl] at hE'
        simp at hE'; subst hE'
        refine ⟨fun m hm => (by cases hm), fun m' hm => (by cases hm), fun m q hm => ?_⟩
        cases hm
        exact ⟨hn, ⟨m.ty, m.name, E.backend⟩, by simp, rfl, rfl⟩
      · change (h.queues ++ [_])[q]? = some a at ha
        rw [List.getElem?_append] at ha
        split at ha
        next hlt =>
          obtain ⟨b1, b2⟩ := hs.queue q a ha
          have hne : a.ty ≠ m.ty := by intro e; rw [e, ht] at b1; cases b1
          refine ⟨by simp [upd, hne, b1], .inl ?_⟩
          rcases b2 with b2 | ⟨E1, m1, hE1, hp1, _⟩
          · exact b2
          · rw [hl] at hE1; simp at hE1; subst hE1
            rw [hp] at hp1; cases hp1
        next hge =>
          have hq : q = h.queues.length := by
            have := (List.getElem?_eq_some_iff.1 ha).1
            simp at this; omega
          subst hq
          simp at ha
          subst ha
          exact ⟨by simp [upd], .inr ⟨{ E with pc := .half m h.queues.length }, m, by simp [hl], rfl, rfl⟩⟩
    | half m q0 =>
      obtain ⟨hn, a0, ha0, han, hat⟩ := hA.half m q0 hp
      unfold engine; rw [hE]; simp only [hp]
      obtain ⟨f1, f2, f3, f4, f5, f6⟩ := answer_frame h m q0
      refine ⟨⟨fun ty q hq => ?_, fun n q hq => ?_⟩, fun E' hE' => ?_, fun q a ha => ?_⟩
      · show ∃ a, (h.answer m q0).queues[q]? = some a ∧ _
        rw [f6]
        exact hs.filed.types ty q (by rw [← f4]; exact hq)
      · show ∃ a, (h.answer m q0).queues[q]? = some a ∧ _
        rw [f6]
        change upd h.byName m.name (some q0) n = some q at hq
        simp only [upd] at hq
        split at hq
        next he => cases hq; exact ⟨a0, ha0, han.trans he.symm⟩
        next => exact hs.filed.names n q hq
      · change E' ∈ h.engines.set 0 _ at hE'
        rw [hl] at hE'
        simp at hE'; subst hE'
        exact ⟨fun m hm => (by cases hm), fun m hm => (by cases hm), fun m q hm => (by cases hm)⟩
      · change (h.answer m q0).queues[q]? = some a at ha
        rw [f6] at ha
        obtain ⟨b1, b2⟩ := hs.queue q a ha
        refine ⟨?_, .inl ?_⟩
        · show (h.answer m q0).byType a.ty = some q
          rw [f4]; exact b1
        · show upd h.byName m.name (some q0) a.name = some q
          rcases b2 with b2 | ⟨E1, m1, hE1, hp1, hm1⟩
          · have : a.name ≠ m.name := by intro e; rw [e, hn] at b2; cases b2
            simp [upd, this, b2]
          · rw [hl] at hE1; simp at hE1; subst hE1
            rw [hp] at hp1; cases hp1
            simp [upd, hm1]

theorem step_single {h : Hub} (hs : h.Single) (h1 : h.engines.length ≤ 1) (op : HubOp) : (h.step op).Single := by
  cases op with
  | begin c call =>
    obtain ⟨f1, f2, f3, f4⟩ := begin_frame h c call
    refine single_frame hs f1 f2 f3 ?_ ?_
    · intro E hE; exact .inl ⟨E, by rw [← f4]; exact hE, rfl⟩
    · intro E hE; exact ⟨E, by show E ∈ (h.begin c call).engines; rw [f4]; exact hE, rfl⟩
  | client c x =>
    obtain ⟨f1, f2, f3, -, -⟩ := client_frame h c x
    exact single_frame hs f1 f2 f3 (client_pc_old h c x) (client_keeps_pc h c x)
  | engine e => exact engine_single hs h1 e

theorem run_single {h : Hub} (hs : h.Single) (ops : List HubOp) (h1 : (h.run ops).engines.length ≤ 1) :
    (h.run ops).Single := by
  induction ops generalizing h with
  | nil => exact hs
  | cons op ops ih =>
    have h2 : (h.step op).engines.length ≤ 1 := Nat.le_trans (run_length _ ops) h1
    exact ih (step_single hs (Nat.le_trans (step_length h op) h2) op) h1

theorem single_init : ({} : Hub).Single :=
  ⟨⟨fun _ _ h => (by cases h), fun _ _ h => (by cases h)⟩, fun _ h => (by cases h), fun _ _ h => (by simp at h)⟩

theorem Single.once {h : Hub} (hs : h.Single) (h1 : h.engines.length ≤ 1) : h.Once := by
  refine ⟨fun p q a b ha hb e => ?_, fun p q a b ha hb e => ?_⟩
  · have h2 := (hs.queue p a ha).1
    have h3 := (hs.queue q b hb).1
    rw [e, h3] at h2
    exact (Option.some.inj h2).symm
  · rcases (hs.queue p a ha).2 with h2 | ⟨E, m, hE, hp, hm⟩ <;>
      rcases (hs.queue q b hb).2 with h3 | ⟨E', m', hE', hp', hm'⟩
    · rw [e, h3] at h2
      exact (Option.some.inj h2).symm
    · have := ((hs.pc E' hE').half m' q hp').1
      rw [hm', ← e, h2] at this; cases this
    · have := ((hs.pc E hE).half m p hp).1
      rw [hm, e, h3] at this; cases this
    · obtain ⟨i, hi⟩ := List.getElem?_of_mem hE
      obtain ⟨j, hj⟩ := List.getElem?_of_mem hE'
      have e1 := (engines_one hi h1).2
      have e2 := (engines_one hj h1).2
      rw [e1] at e2
      cases e2
      rw [hp] at hp'
      cases hp'
      rfl

theorem step_keeps {h : Hub} (hs : h.Single) (op : HubOp) : h.Keeps (h.step op) := by
  intro ty q hq
  cases op with
  | begin c call => show (h.begin c call).byType ty = _; rw [(begin_frame h c call).1]; exact hq
  | client c x => show (h.client c x).byType ty = _; rw [(client_frame h c x).1]; exact hq
  | engine e =>
    show (h.engine e).byType ty = _
    unfold engine
    split
    next => exact hq
    next E hE =>
      split
      · split
        · exact hq
        · split <;> exact hq
      · split <;> exact hq
      next m hp =>
        have := ((hs.pc E (List.mem_of_getElem? hE)).typeFree m hp).2
        have hne : ty ≠ m.ty := by intro e; rw [e, this] at hq; cases hq
        simp [upd, hne, hq]
      next m q0 hp =>
        show (h.answer m q0).byType ty = _
        rw [(answer_frame h m q0).2.2.2.1]; exact hq

theorem run_keeps {h : Hub} (hs : h.Single) (ops : List HubOp) (h1 : (h.run ops).engines.length ≤ 1) :
    h.Keeps (h.run ops) := by
  induction ops generalizing h with
  | nil => exact fun _ _ h => h
  | cons op ops ih =>
    have h2 : (h.step op).engines.length ≤ 1 := Nat.le_trans (run_length _ ops) h1
    have h3 := step_single hs (Nat.le_trans (step_length h op) h2) op
    exact fun ty q hq => ih h3 h1 ty q (step_keeps hs op ty q hq)

end Hub
end AJ
