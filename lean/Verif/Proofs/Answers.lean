import Verif.Proofs.Opening

/-!
# Who answers a request, with any number of engines
-/

namespace AJ
namespace Hub

/-- What a client knows about types. -/
def Asks (h : Hub) : ClientPc → Prop
  | .ask call ty _ => call.ty? = some ty
  | .waiting call _ ty _ => call.ty? = some ty
  | .reading call q ty _ => call.ty? = some ty ∧ ∃ a, h.queues[q]? = some a ∧ a.ty = ty
  | .done call (.answer q) => ∃ a, h.queues[q]? = some a ∧ call.ty? = some a.ty
  | _ => True

/-- The registry, the engines, the messages and the clients agree on types. -/
structure Typed (h : Hub) : Prop where
  types : ∀ ty q, h.byType ty = some q → ∃ a, h.queues[q]? = some a ∧ a.ty = ty
  half : ∀ (e : Nat) (E : Engine) m q, h.engines[e]? = some E → E.pc = .half m q → ∃ a, h.queues[q]? = some a ∧ a.ty = m.ty
  msg : ∀ (e : Nat) (E : Engine) m, h.engines[e]? = some E → m ∈ reqs E → ∃ call, h.clients m.client = .waiting call e m.ty m.name
  nodup : ∀ (e : Nat) (E : Engine), h.engines[e]? = some E → ((reqs E).map (·.client)).Nodup
  client : ∀ c, h.Asks (h.clients c)

theorem typed_init : Typed {} :=
  ⟨fun _ _ h => (by cases h), fun _ _ _ _ h => (by simp at h), fun _ _ _ h => (by simp at h), fun _ _ h => (by simp at h),
    fun _ => trivial⟩

variable {h : Hub}

/-- A client that does not wait moves. -/
theorem typed_go (ht : Typed h) {c : Nat} {pc : ClientPc} (hw : ∀ call e ty n, h.clients c ≠ .waiting call e ty n)
    (hk : h.Asks pc) : Typed (h.go c pc) := by
  refine ⟨ht.types, ht.half, fun e E m hE hm => ?_, ht.nodup, fun d => ?_⟩
  · obtain ⟨call, h1⟩ := ht.msg e E m hE hm
    rw [go_clients, if_neg (fun h2 => hw _ _ _ _ (h2 ▸ h1))]
    exact ⟨call, h1⟩
  · rw [go_clients]
    split
    · exact hk
    · exact ht.client d

theorem typed_begin (ht : Typed h) (c : Nat) (call : ApiCall) : Typed (h.begin c call) := by
  unfold begin
  split
  next hc => exact typed_go ht (by simp [hc]) trivial
  next hc => exact typed_go ht (by simp [hc]) trivial
  next => exact ht

theorem look_asks (ht : Typed h) (call : ApiCall) : h.Asks (h.look call) := by
  cases call <;> simp only [look] <;> split <;>
    first
    | exact trivial
    | exact rfl
    | (rename_i hq; obtain ⟨a, h1, h2⟩ := ht.types _ _ hq; exact ⟨a, h1, by rw [h2]; rfl⟩)
    | (rename_i hq; exact ⟨rfl, ht.types _ _ hq⟩)

theorem typed_same (ht : Typed h) {w : Option Nat} {a : Option Nat} : Typed { h with writer := w, addr := a } :=
  ⟨ht.types, ht.half, ht.msg, ht.nodup, fun c => ht.client c⟩

/-- A new engine, without messages. -/
theorem typed_new (ht : Typed h) (E : Engine) (hp : E.pc = .idle) (hm : E.mailbox = []) :
    Typed { h with engines := h.engines ++ [E] } := by
  have hr : reqs E = [] := by simp [reqs, hp, hm, EnginePc.msgs, EnginePc.halfMsg]
  have key : ∀ {e : Nat} {E' : Engine}, (h.engines ++ [E])[e]? = some E' → h.engines[e]? = some E' ∨ E' = E := by
    intro e E' h1
    rw [List.getElem?_append] at h1
    split at h1
    · exact .inl h1
    · exact .inr (by simpa using List.mem_of_getElem? h1)
  refine ⟨ht.types, fun e E' m q hE hpc => ?_, fun e E' m hE hm' => ?_, fun e E' hE => ?_, fun c => ht.client c⟩
  · rcases key hE with h1 | rfl
    · exact ht.half e E' m q h1 hpc
    · rw [hp] at hpc; cases hpc
  · rcases key hE with h1 | rfl
    · exact ht.msg e E' m h1 hm'
    · rw [hr] at hm'; cases hm'
  · rcases key hE with h1 | rfl
    · exact ht.nodup e E' h1
    · rw [hr]; exact List.nodup_nil

theorem set_cases {l : List Engine} {i k : Nat} {a b : Engine} (hk : (l.set i a)[k]? = some b) :
    (k = i ∧ b = a) ∨ (k ≠ i ∧ l[k]? = some b) := by
  rw [List.getElem?_set] at hk
  split at hk
  next e => split at hk
            · exact .inl ⟨e.symm, (Option.some.inj hk).symm⟩
            · cases hk
  next e => exact .inr ⟨fun h => e h.symm, hk⟩

theorem typed_send (ht : Typed h) {c : Nat} {call : ApiCall} {e ty : Nat} {n : Str}
    (hc : h.clients c = .ask call ty n) : Typed (h.send c call e ty n) := by
  have hty : call.ty? = some ty := by have := ht.client c; rw [hc] at this; exact this
  have hw : ∀ call e ty n, h.clients c ≠ .waiting call e ty n := by simp [hc]
  unfold send
  split
  next E hE =>
    split
    · refine ⟨ht.types, fun e' E' m q hE' hp => ?_, fun e' E' m hE' hm => ?_, fun e' E' hE' => ?_, fun d => ?_⟩
      · rcases set_cases hE' with ⟨rfl, rfl⟩ | ⟨_, h1⟩
        · exact ht.half _ E m q hE hp
        · exact ht.half e' E' m q h1 hp
      · have old : ∀ {e' E'}, h.engines[e']? = some E' → m ∈ reqs E' →
            ∃ call', (h.go c (.waiting call e ty n)).clients m.client = .waiting call' e' m.ty m.name := by
          intro e' E' h1 h2
          obtain ⟨call', h3⟩ := ht.msg e' E' m h1 h2
          exact ⟨call', by rw [go_clients, if_neg (fun h4 => hw _ _ _ _ (h4 ▸ h3))]; exact h3⟩
        rcases set_cases hE' with ⟨rfl, rfl⟩ | ⟨_, h1⟩
        · rw [reqs_push] at hm
          rcases List.mem_append.1 hm with hm | hm
          · exact old hE hm
          · simp only [List.mem_singleton] at hm
            subst hm
            exact ⟨call, by rw [show (({ h.go c (ClientPc.waiting call e' ty n) with engines := h.engines.set e' { E with mailbox := E.mailbox ++ [⟨c, ty, n⟩] } } : Hub).clients c) = (h.go c (ClientPc.waiting call e' ty n)).clients c from rfl, go_clients, if_pos rfl]⟩
        · exact old h1 hm
      · rcases set_cases hE' with ⟨rfl, rfl⟩ | ⟨_, h1⟩
        · rw [reqs_push, List.map_append, List.nodup_append]
          refine ⟨ht.nodup _ E hE, by simp, ?_⟩
          intro a ha b hb
          simp only [List.map_cons, List.map_nil, List.mem_singleton] at hb
          subst hb
          intro hac
          subst hac
          obtain ⟨m, hm, hmc⟩ := List.mem_map.1 ha
          obtain ⟨call', h3⟩ := ht.msg _ E m hE hm
          exact hw _ _ _ _ (hmc ▸ h3)
        · exact ht.nodup e' E' h1
      · show Asks h ((h.go c (.waiting call e ty n)).clients d)
        rw [go_clients]
        split
        · exact hty
        · exact ht.client d
    · exact typed_go ht hw trivial
  next => exact typed_go ht hw trivial

theorem typed_client (ht : Typed h) (c : Nat) (x : Bool) : Typed (h.client c x) := by
  unfold client
  split
  next call hc => exact typed_go ht (by simp [hc]) (look_asks ht call)
  next call b hc =>
    exact typed_new (typed_go ht (pc := .lock call h.engines.length) (by simp [hc]) trivial) { backend := b } rfl rfl
  next call e hc =>
    split
    · exact typed_go ht (by simp [hc]) trivial
    · exact typed_same (typed_go ht (pc := .write call e) (by simp [hc]) trivial) (w := some c) (a := h.addr)
  next call e hc => exact typed_same (typed_go ht (pc := .reread call) (by simp [hc]) trivial) (w := none) (a := some e)
  next call hc => split <;> exact typed_go ht (by simp [hc]) trivial
  next call ty n hc =>
    split
    · exact typed_send ht hc
    · exact typed_go ht (by simp [hc]) trivial
  next call q ty n hc =>
    have hty : call.ty? = some ty := by have := ht.client c; rw [hc] at this; exact this.1
    split
    · refine typed_go ht (by simp [hc]) ?_
      unfold lookAgain
      split
      next q' hq =>
        obtain ⟨a, h1, h2⟩ := ht.types _ _ hq
        exact ⟨a, h1, by rw [hty, h2]⟩
      next => exact hty
    · exact typed_go ht (by simp [hc]) trivial
  next => exact ht

/-- A crash takes the messages along with the engine, and releases those who wait for it. -/
theorem typed_crash (ht : Typed h) (e : Nat) (E : Engine) : Typed (h.crash e E) := by
  refine ⟨ht.types, fun e' E' m q hE' hp => ?_, fun e' E' m hE' hm => ?_, fun e' E' hE' => ?_, fun c => ?_⟩
  · rcases set_cases hE' with ⟨rfl, rfl⟩ | ⟨_, h1⟩
    · cases hp
    · exact ht.half e' E' m q h1 hp
  · rcases set_cases hE' with ⟨rfl, rfl⟩ | ⟨hne, h1⟩
    · cases hm
    · obtain ⟨call, h2⟩ := ht.msg e' E' m h1 hm
      refine ⟨call, ?_⟩
      rcases release_clients h e m.client with h3 | ⟨_, _, _, h3, _⟩
      · exact h3.trans h2
      · rw [h2] at h3; cases h3; exact absurd rfl hne
  · rcases set_cases hE' with ⟨rfl, rfl⟩ | ⟨_, h1⟩
    · exact List.nodup_nil
    · exact ht.nodup e' E' h1
  · show Asks h ((h.release e).clients c)
    rcases release_clients h e c with h3 | ⟨_, _, _, _, h3⟩ <;> rw [h3]
    · exact ht.client c
    · trivial

/-- An engine goes on with a message it keeps. -/
theorem typed_move (ht : Typed h) {e : Nat} {E E' : Engine} (hE : h.engines[e]? = some E) (hr : reqs E' = reqs E)
    (hp : ∀ m q, E'.pc ≠ .half m q) : Typed { h with engines := h.engines.set e E' } := by
  refine ⟨ht.types, fun e' E1 m q hE' hpc => ?_, fun e' E1 m hE' hm => ?_, fun e' E1 hE' => ?_, fun c => ht.client c⟩
  · rcases set_cases hE' with ⟨rfl, rfl⟩ | ⟨_, h1⟩
    · exact absurd hpc (hp m q)
    · exact ht.half e' E1 m q h1 hpc
  · rcases set_cases hE' with ⟨rfl, rfl⟩ | ⟨_, h1⟩
    · exact ht.msg _ E m hE (hr ▸ hm)
    · exact ht.msg e' E1 m h1 hm
  · rcases set_cases hE' with ⟨rfl, rfl⟩ | ⟨_, h1⟩
    · rw [hr]; exact ht.nodup _ E hE
    · exact ht.nodup e' E1 h1

theorem typed_engine (ht : Typed h) (e : Nat) : Typed (h.engine e) := by
  unfold engine
  split
  next => exact ht
  next E hE =>
  cases hp : E.pc with
  | idle =>
    dsimp only
    cases hm : E.mailbox with
    | nil => exact ht
    | cons m ms =>
      dsimp only
      split
      · exact typed_crash ht e _
      · exact typed_move ht hE (by simp [reqs, hp, hm, EnginePc.msgs, EnginePc.halfMsg]) (by simp)
  | nameFree m =>
    dsimp only
    split
    · exact typed_crash ht e _
    · exact typed_move ht hE (by simp [reqs, hp, EnginePc.msgs, EnginePc.halfMsg]) (by simp)
  | typeFree m =>
    dsimp only
    have hq : ∀ {q : Nat} {a : QueueActor}, h.queues[q]? = some a → (h.queues ++ [⟨m.ty, m.name, E.backend⟩])[q]? = some a := by
      intro q a h1
      rw [List.getElem?_append, if_pos (List.getElem?_eq_some_iff.1 h1).1]
      exact h1
    have hr : reqs { E with pc := .half m h.queues.length } = reqs E := by
      simp [reqs, hp, EnginePc.msgs, EnginePc.halfMsg]
    refine ⟨fun ty q h1 => ?_, fun e' E1 m' q hE' hpc => ?_, fun e' E1 m' hE' hm => ?_, fun e' E1 hE' => ?_, fun c => ?_⟩
    · by_cases hty : ty = m.ty
      · subst hty
        simp only [upd_same] at h1
        cases h1
        exact ⟨⟨m.ty, m.name, E.backend⟩, by simp, rfl⟩
      · simp only [upd, if_neg hty] at h1
        obtain ⟨a, h2, h3⟩ := ht.types ty q h1
        exact ⟨a, hq h2, h3⟩
    · rcases set_cases hE' with ⟨rfl, rfl⟩ | ⟨_, h1⟩
      · cases hpc
        exact ⟨⟨m.ty, m.name, E.backend⟩, by simp, rfl⟩
      · obtain ⟨a, h2, h3⟩ := ht.half e' E1 m' q h1 hpc
        exact ⟨a, hq h2, h3⟩
    · rcases set_cases hE' with ⟨rfl, rfl⟩ | ⟨_, h1⟩
      · exact ht.msg _ E m' hE (hr ▸ hm)
      · exact ht.msg e' E1 m' h1 hm
    · rcases set_cases hE' with ⟨rfl, rfl⟩ | ⟨_, h1⟩
      · rw [hr]; exact ht.nodup _ E hE
      · exact ht.nodup e' E1 h1
    · have h1 := ht.client c
      revert h1
      show Asks h (h.clients c) → Asks _ (h.clients c)
      cases h.clients c with
      | done call r =>
        cases r with
        | answer q => rintro ⟨a, h2, h3⟩; exact ⟨a, hq h2, h3⟩
        | _ => exact id
      | reading call q ty n => rintro ⟨h0, a, h2, h3⟩; exact ⟨h0, a, hq h2, h3⟩
      | _ => exact id
  | half m q =>
    dsimp only
    obtain ⟨call, hc⟩ := ht.msg e E m hE (by simp [reqs, hp, EnginePc.halfMsg])
    have hr : reqs E = m :: reqs { E with pc := .idle } := by
      simp [reqs, hp, EnginePc.msgs, EnginePc.halfMsg]
    have hnd := ht.nodup e E hE
    rw [hr, List.map_cons, List.nodup_cons] at hnd
    have ha : h.answer m q = h.go m.client (.done call (.answer q)) := by simp [answer, hc]
    rw [ha]
    have keep : ∀ {e' : Nat} {m' : InitMsg}, m'.client ≠ m.client →
        (∃ call', h.clients m'.client = .waiting call' e' m'.ty m'.name) →
        ∃ call', (h.go m.client (.done call (.answer q))).clients m'.client = .waiting call' e' m'.ty m'.name := by
      intro e' m' hne h1
      rw [go_clients, if_neg hne]
      exact h1
    refine ⟨ht.types, fun e' E1 m' q' hE' hpc => ?_, fun e' E1 m' hE' hm => ?_, fun e' E1 hE' => ?_, fun c => ?_⟩
    · rcases set_cases hE' with ⟨rfl, rfl⟩ | ⟨_, h1⟩
      · cases hpc
      · exact ht.half e' E1 m' q' h1 hpc
    · rcases set_cases hE' with ⟨rfl, rfl⟩ | ⟨hne, h1⟩
      · refine keep (fun e => hnd.1 (e ▸ List.mem_map_of_mem hm)) (ht.msg _ E m' hE ?_)
        rw [hr]; exact List.mem_cons_of_mem _ hm
      · refine keep (fun e => ?_) (ht.msg e' E1 m' h1 hm)
        obtain ⟨call', h2⟩ := ht.msg e' E1 m' h1 hm
        rw [e, hc] at h2
        simp only [ClientPc.waiting.injEq] at h2
        exact hne h2.2.1.symm
    · rcases set_cases hE' with ⟨rfl, rfl⟩ | ⟨_, h1⟩
      · exact hnd.2
      · exact ht.nodup e' E1 h1
    · show Asks h ((h.go m.client (.done call (.answer q))).clients c)
      rw [go_clients]
      split
      · obtain ⟨a, h1, h2⟩ := ht.half e E m q hE hp
        have h3 := ht.client m.client
        rw [hc] at h3
        exact ⟨a, h1, by rw [h2]; exact h3⟩
      · exact ht.client c

theorem typed_step (ht : Typed h) (op : HubOp) : Typed (h.step op) := by
  cases op with
  | begin c call => exact typed_begin ht c call
  | client c x => exact typed_client ht c x
  | engine e => exact typed_engine ht e

theorem typed_run (ht : Typed h) (ops : List HubOp) : Typed (h.run ops) := by
  induction ops generalizing h with
  | nil => exact ht
  | cons op ops ih => exact ih (typed_step ht op)

end Hub
end AJ
