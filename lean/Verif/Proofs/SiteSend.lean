import Verif.Proofs.Opening
import Verif.Proofs.EndToEnd

/-! # From the call of a submission to the mailbox of the work queue -/

namespace AJ
namespace Hub
variable {N : Nat → Str} {h : Hub} {E : Engine}

/-- The turns of the engine until client `c` is answered. -/
def left (c : Nat) (E : Engine) : Nat := 4 * (reqs E).findIdx (·.client == c) + match E.pc with
  | .idle => 4
  | .nameFree _ => 3
  | .typeFree _ => 2
  | .half _ _ => 1

theorem left_le {c : Nat} {m : InitMsg} (hm : m ∈ reqs E) (hc : m.client = c) : left c E ≤ 4 * (E.mailbox.length + 1) := by
  have h1 : (reqs E).findIdx (·.client == c) < (reqs E).length := List.findIdx_lt_length_of_exists ⟨m, hm, by simpa using hc⟩
  unfold left
  unfold reqs at h1 ⊢
  cases hp : E.pc <;> simp only [hp, EnginePc.halfMsg, EnginePc.msgs, List.nil_append, List.cons_append, List.length_cons] at h1 ⊢ <;> omega

theorem left_push {c : Nat} {m m' : InitMsg} (hm : m ∈ reqs E) (hc : m.client = c) :
    left c { E with mailbox := E.mailbox ++ [m'] } = left c E := by
  have h1 : (reqs E).findIdx (·.client == c) < (reqs E).length := List.findIdx_lt_length_of_exists ⟨m, hm, by simpa using hc⟩
  unfold left
  rw [reqs_push, List.findIdx_append, if_pos h1]

/-- The engine of an orderly registry after a step of a client. -/
theorem client_engine (ho : Orderly N h E) (d : Nat) (x : Bool) {E' : Engine} (ho' : Orderly N (h.client d x) E') :
    E' = E ∨ ∃ m, E' = { E with mailbox := E.mailbox ++ [m] } := by
  have he := ho'.engines
  have hd := ho.client d
  have key : ∀ h' : Hub, h'.engines = [E'] → h'.engines = h.engines → E' = E := by
    intro h' h1 h2
    rw [h1, ho.engines] at h2
    simpa using h2
  revert he
  unfold client
  split
  · exact fun he => .inl (key _ he rfl)
  · next hc => rw [hc] at hd; exact hd.elim
  · next hc => rw [hc] at hd; exact hd.elim
  · next hc => rw [hc] at hd; exact hd.elim
  · next hc => rw [hc] at hd; exact hd.elim
  · next call ty n hc =>
    have hrd : h.readAddr = some 0 := by simp [readAddr, ho.writer, ho.addr]
    rw [hrd]
    simp only [send, ho.getE, ho.alive, if_true]
    intro he
    rw [ho.engines] at he
    simp only [List.set_cons_zero, List.cons.injEq, and_true] at he
    exact .inr ⟨_, he.symm⟩
  · split
    · exact fun he => .inl (key _ he rfl)
    · exact fun he => .inl (key _ he rfl)
  · exact fun he => .inl (key _ he rfl)

/-- The engine gets nearer to a client that waits. -/
theorem engine_left (hN : ∀ a b, N a = N b → a = b) (ho : Orderly N h E) {c : Nat} {call e ty n}
    (hc : h.clients c = .waiting call e ty n) (hc' : (h.engine 0).clients c = h.clients c) :
    ∃ E', Orderly N (h.engine 0) E' ∧ left c E' < left c E := by
  obtain ⟨E', ho'⟩ := orderly_engine hN ho 0
  refine ⟨E', ho', ?_⟩
  have hcl := ho.client c
  rw [hc] at hcl
  obtain ⟨-, -, -, m0, hm0, hmc⟩ := hcl
  have he := ho'.engines
  have hal := ho'.alive
  revert he hc'
  unfold engine
  rw [ho.getE]
  dsimp only
  have key : ∀ X : Engine, h.engines.set 0 X = [E'] → X = E' := by
    intro X hX; rw [ho.engines] at hX; simpa using hX
  cases hp : E.pc with
  | idle =>
    cases hm : E.mailbox with
    | nil => simp [reqs, hp, hm, EnginePc.msgs, EnginePc.halfMsg] at hm0
    | cons m ms =>
      dsimp only
      split
      · intro _ he
        have := key _ he
        rw [← this] at hal; cases hal
      · intro _ he
        have := key _ he
        rw [← this]
        simp [left, hp, hm, reqs, EnginePc.msgs, EnginePc.halfMsg]
  | nameFree m =>
    dsimp only
    split
    · intro _ he
      have := key _ he
      rw [← this] at hal; cases hal
    · intro _ he
      have := key _ he
      rw [← this]
      simp [left, hp, reqs, EnginePc.msgs, EnginePc.halfMsg]
  | typeFree m =>
    intro _ he
    have := key _ he
    rw [← this]
    simp [left, hp, reqs, EnginePc.msgs, EnginePc.halfMsg]
  | half m q =>
    intro hc' he
    have := key _ he
    have hne : m.client ≠ c := by
      rintro rfl
      have hc' : (h.answer m q).clients m.client = h.clients m.client := hc'
      unfold answer at hc'
      rw [hc] at hc'
      dsimp only at hc'
      rw [go_clients, if_pos rfl] at hc'
      cases hc'
    rw [← this]
    have hne' : (m.client == c) = false := by simpa using hne
    simp [left, hp, reqs, EnginePc.msgs, EnginePc.halfMsg, List.findIdx_cons, hne']
    omega

/-- A client that waits is answered, or waits on, and the engine does not get farther from it. -/
theorem wait_step (hN : ∀ a b, N a = N b → a = b) (ho : Orderly N h E) (op : HubOp) (hp : op.Orderly N h) {c : Nat} {call e ty n}
    (hc : h.clients c = .waiting call e ty n) :
    ∃ E', Orderly N (h.step op) E' ∧ ((∃ q, (h.step op).clients c = .done (.submit ty n) (.answer q)) ∨
      ((h.step op).clients c = h.clients c ∧ left c E' ≤ left c E ∧ (op = .engine 0 → left c E' < left c E))) := by
  have hcl := ho.client c
  rw [hc] at hcl
  obtain ⟨rfl, -, -, m0, hm0, hmc⟩ := hcl
  cases op with
  | begin d call' =>
    refine ⟨E, orderly_begin ho d call' hp, .inr ⟨?_, Nat.le_refl _, fun h => by cases h⟩⟩
    show (h.begin d call').clients c = _
    unfold begin
    split
    · next hd =>
      rw [go_clients, if_neg]
      rintro rfl
      rw [hc] at hd; cases hd
    · next hd =>
      rw [go_clients, if_neg]
      rintro rfl
      rw [hc] at hd; cases hd
    · rfl
  | client d x =>
    obtain ⟨E', ho'⟩ := orderly_client ho d x
    refine ⟨E', ho', .inr ⟨?_, ?_, fun h => by cases h⟩⟩
    · show (h.client d x).clients c = _
      by_cases e : d = c
      · subst e
        unfold client
        rw [hc]
        exact hc
      · exact client_clients h d x (Ne.symm e)
    · rcases client_engine ho d x ho' with h1 | ⟨m, h1⟩ <;> rw [h1]
      · exact Nat.le_refl _
      · rw [left_push hm0 hmc]; exact Nat.le_refl _
  | engine e' =>
    cases e' with
    | succ e' =>
      have e1 : h.step (.engine (e' + 1)) = h := by
        show h.engine (e' + 1) = h
        simp only [engine, ho.engines, List.getElem?_cons_succ, List.getElem?_nil]
      rw [e1]
      exact ⟨E, ho, .inr ⟨rfl, Nat.le_refl _, fun h => by cases h⟩⟩
    | zero =>
      obtain ⟨E', ho'⟩ := orderly_engine hN ho 0
      rcases engine_clients h 0 c with h1 | ⟨call', ty', n', h1, h2⟩ | ⟨_, _, q, call', e', ty', n', _, _, _, h1, h2⟩
      · obtain ⟨E', ho', h2⟩ := engine_left hN ho hc h1
        exact ⟨E', ho', .inr ⟨h1, Nat.le_of_lt h2, fun _ => h2⟩⟩
      · rw [hc] at h1
        have := ho'.client c
        rw [show (h.step (.engine 0)).clients c = (h.engine 0).clients c from rfl] at *
        rw [h2] at this
        cases h1
        obtain ⟨_, h3, _⟩ := this
        cases h3
      · rw [hc] at h1
        cases h1
        exact ⟨E', ho', .inl ⟨q, h2⟩⟩

/-- How far a submission has come. -/
def stage : ClientPc → Nat
  | .begun _ => 3
  | .ask .. => 2
  | .waiting .. => 1
  | _ => 0

/-- Where a submission is. -/
def Way (ty : Nat) (n : Str) : ClientPc → Prop
  | .begun call => call = .submit ty n
  | .ask call t m => call = .submit ty n ∧ t = ty ∧ m = n
  | .waiting call _ t m => call = .submit ty n ∧ t = ty ∧ m = n
  | .done call r => call = .submit ty n ∧ ∃ q, r = .answer q
  | _ => False

theorem way_of (ho : Orderly N h E) {c ty : Nat} {n : Str} (hp : h.Place (.submit ty n) false (h.clients c)) : Way ty n (h.clients c) := by
  have hc := ho.client c
  generalize h.clients c = pc at *
  cases pc with
  | idle => exact hp.elim
  | begun call => exact hp
  | create => exact hc.elim
  | lock => exact hc.elim
  | write => exact hc.elim
  | reread => exact hc.elim
  | ask call ty' n' => obtain ⟨h1, h2⟩ := hp; cases h2; exact ⟨h1, rfl, rfl⟩
  | waiting call e ty' n' => obtain ⟨h1, h2⟩ := hp; cases h2; exact ⟨h1, rfl, rfl⟩
  | reading => obtain ⟨_, h2, _⟩ := hp; cases h2
  | done call r =>
    obtain ⟨rfl, _⟩ := hp
    obtain ⟨q, hq, _⟩ := hc
    exact ⟨rfl, q, hq⟩

/-- A step of the registry does not throw a submission back, and a step of its client brings it on. -/
theorem stage_step (hN : ∀ a b, N a = N b → a = b) (ho : Orderly N h E) (op : HubOp) (hp : op.Orderly N h) {c ty : Nat} {n : Str}
    (hw : Way ty n (h.clients c)) (hb : ∀ call, op ≠ .begin c call) :
    ∃ E', Orderly N (h.step op) E' ∧ stage ((h.step op).clients c) ≤ stage (h.clients c) ∧
      ((∃ x, op = .client c x) → 2 ≤ stage (h.clients c) → stage ((h.step op).clients c) < stage (h.clients c)) ∧
      (stage (h.clients c) = 1 → stage ((h.step op).clients c) = 1 → left c E' ≤ left c E ∧ (op = .engine 0 → left c E' < left c E)) := by
  by_cases hst : stage (h.clients c) = 1
  · cases hc : h.clients c with
    | waiting call e ty' n' =>
      obtain ⟨E', ho', h1⟩ := wait_step hN ho op hp hc
      refine ⟨E', ho', ?_⟩
      rcases h1 with ⟨q, h1⟩ | ⟨h1, h2, h3⟩
      · rw [h1]
        exact ⟨Nat.zero_le _, fun _ h => absurd h (by simp [stage]), fun _ h => by cases h⟩
      · rw [h1, hc]
        exact ⟨Nat.le_refl _, fun _ h => absurd h (by simp [stage]), fun _ _ => ⟨h2, h3⟩⟩
    | _ => rw [hc] at hst; cases hst
  obtain ⟨E', ho'⟩ := orderly_step hN ho op hp
  refine ⟨E', ho', ?_, ?_, fun h => absurd h hst⟩
  · have same : (h.step op).clients c = h.clients c → stage ((h.step op).clients c) ≤ stage (h.clients c) := fun e => by rw [e]; exact Nat.le_refl _
    cases op with
    | begin d call =>
      apply same
      show (h.begin d call).clients c = _
      have hd : c ≠ d := by rintro rfl; exact hb call rfl
      unfold begin
      split <;> simp [go_clients, hd]
    | client d x =>
      by_cases hd : c = d
      · subst hd
        show stage ((h.client c x).clients c) ≤ _
        cases hc : h.clients c with
        | begun call =>
          rw [hc] at hw
          cases hw
          simp only [client, hc, go_clients, if_true, look]
          split <;> simp [stage]
        | ask call ty' n' =>
          have hrd : h.readAddr = some 0 := by simp [readAddr, ho.writer, ho.addr]
          simp only [client, hc, hrd, send, ho.getE, ho.alive, if_true]
          show stage ((h.go c _).clients c) ≤ _
          simp [go_clients, stage]
        | done call r => simp [client, hc, stage]
        | waiting => rw [hc] at hst; exact absurd rfl hst
        | _ => rw [hc] at hw; exact hw.elim
      · exact same (client_clients h d x hd)
    | engine e =>
      rcases engine_clients h e c with h1 | ⟨_, _, _, h1, _⟩ | ⟨_, _, _, _, _, _, _, _, _, _, h1, _⟩
      · exact same h1
      · rw [h1] at hst; exact absurd rfl hst
      · rw [h1] at hst; exact absurd rfl hst
  · rintro ⟨x, rfl⟩ h2
    show stage ((h.client c x).clients c) < _
    cases hc : h.clients c with
    | begun call =>
      rw [hc] at hw
      cases hw
      simp only [client, hc, go_clients, if_true, look]
      split <;> simp [stage]
    | ask call ty' n' =>
      have hrd : h.readAddr = some 0 := by simp [readAddr, ho.writer, ho.addr]
      simp only [client, hc, hrd, send, ho.getE, ho.alive, if_true]
      show stage ((h.go c _).clients c) < _
      simp [go_clients, stage]
    | _ => rw [hc] at h2; simp [stage] at h2

end Hub

namespace Site
variable {D O : Type} {E : Nat → Env D} {B : Backend} {clk : Nat → Nat → Time} {N : Nat → Str} {t : Site D O B}

/-- Client `c` looks for the work queue to which it sends `op`. -/
def Asks (t : Site D O B) (c : Nat) (req : Req D) (op : Op D O) : Prop := t.users c = .asking req (some op) false

/-- A step while a client looks for the work queue: it has been found and the message is sent, or the client still looks. -/
theorem asks_step {c ty : Nat} {n : Str} {job : Job D} {cfg : EnqueueConfig} {op : Op D O} (hl : Links t) {G : Engine} (ho : t.hub.Orderly N G)
    (o : SiteOp D O) (hp : o.Polite N t) (ha : t.Asks c (.submit ty n job cfg) op) :
    (o = .post c ∧ ∃ q, (t.step E B clk o).users c = .posted (.submit ty n job cfg) op false q) ∨
    (t.step E B clk o).Asks c (.submit ty n job cfg) op ∧
      ((t.step E B clk o).hub = t.hub ∧ (∀ x, o = .client c x → Hub.stage (t.hub.clients c) ≤ 1) ∧ o ≠ .engine 0 ∧
          (o = .post c → Hub.stage (t.hub.clients c) ≠ 0) ∨
        ∃ p : HubOp, (t.step E B clk o).hub = t.hub.step p ∧ p.Orderly N t.hub ∧ (∀ call, p ≠ .begin c call) ∧
          (∀ x, o = .client c x → p = .client c x) ∧ (o = .engine 0 → p = .engine 0) ∧ o ≠ .post c) := by
  have hw : Hub.Way ty n (t.hub.clients c) := by
    have := hl.users c
    rw [show t.users c = _ from ha] at this
    exact Hub.way_of ho this
  unfold Asks at ha ⊢
  cases o with
  | begin d req =>
    right
    show (t.begin B d req).users c = _ ∧ ((t.begin B d req).hub = t.hub ∧ _ ∨ ∃ p, (t.begin B d req).hub = _ ∧ _)
    unfold begin
    have hdc : ∀ u : User D O, t.users d = u → (∀ r o a, u ≠ .asking r o a) → c ≠ d := by
      rintro u hu hne rfl
      rw [ha] at hu; exact hne _ _ _ hu.symm
    cases hd : t.users d with
    | free =>
      have := hdc _ hd (fun _ _ _ h => by cases h)
      exact ⟨(upd_ne _ _ this).trans ha, .inr ⟨.begin d req.call, rfl, hp, fun call h => (by cases h; exact this rfl), fun _ h => (by cases h),
        fun h => (by cases h), fun h => (by cases h)⟩⟩
    | done =>
      have := hdc _ hd (fun _ _ _ h => by cases h)
      exact ⟨(upd_ne _ _ this).trans ha, .inr ⟨.begin d req.call, rfl, hp, fun call h => (by cases h; exact this rfl), fun _ h => (by cases h),
        fun h => (by cases h), fun h => (by cases h)⟩⟩
    | _ => exact ⟨ha, .inl ⟨rfl, fun _ h => (by cases h), fun h => (by cases h), fun h => (by cases h)⟩⟩
  | client d x =>
    right
    show (t.client B d x).users c = _ ∧ ((t.client B d x).hub = t.hub ∧ _ ∨ ∃ p, (t.client B d x).hub = _ ∧ _)
    unfold client
    split
    · next hd =>
      refine ⟨ha, .inl ⟨rfl, fun y h => ?_, fun h => (by cases h), fun h => (by cases h)⟩⟩
      cases h
      rw [hd]; exact Nat.zero_le _
    · exact ⟨ha, .inr ⟨.client d x, rfl, trivial, fun _ h => (by cases h), fun y h => (by cases h; rfl), fun h => (by cases h), fun h => (by cases h)⟩⟩
  | engine e =>
    right
    exact ⟨ha, .inr ⟨.engine e, rfl, trivial, fun _ h => (by cases h), fun y h => (by cases h), fun h => (by cases h; rfl), fun h => (by cases h)⟩⟩
  | post d =>
    show _ ∨ (t.post B d).users c = _ ∧ ((t.post B d).hub = t.hub ∧ _ ∨ _)
    by_cases hd : c = d
    · subst hd
      show (_ ∧ ∃ q, (t.post B c).users c = _) ∨ _
      unfold post
      rw [ha]
      cases hc : t.hub.clients c with
      | done call r =>
        rw [hc] at hw
        obtain ⟨rfl, q, rfl⟩ := hw
        exact .inl ⟨rfl, q, by simp [send, go, upd_same]⟩
      | begun | ask | waiting =>
        right
        dsimp only
        exact ⟨ha, .inl ⟨rfl, fun _ h => (by cases h), fun h => (by cases h), fun _ h => (by cases h)⟩⟩
      | _ => rw [hc] at hw; exact hw.elim
    · right
      refine ⟨?_, .inl ⟨?_, fun _ h => (by cases h), fun h => (by cases h), fun h => (by cases h; exact absurd rfl hd)⟩⟩
      · unfold post send finish go see
        split
        · split
          · exact (upd_ne _ _ hd).trans ha
          · split
            · exact ha
            · exact (upd_ne _ _ hd).trans ha
          · exact (upd_ne _ _ hd).trans ha
          · exact ha
        · exact ha
      · unfold post
        split
        · split
          · rfl
          · split <;> rfl
          · rfl
          · rfl
        · rfl
  | handle q i =>
    right
    show (t.handle E B clk q i).users c = _ ∧ ((t.handle E B clk q i).hub = t.hub ∧ _ ∨ _)
    refine ⟨?_, .inl ⟨?_, fun _ h => (by cases h), fun h => (by cases h), fun h => (by cases h)⟩⟩
    · unfold handle
      split
      · exact ha
      · dsimp only
        split
        · exact ha
        · next d op' _ =>
          split
          · next hd =>
            have hne : c ≠ d := by rintro rfl; rw [ha] at hd; cases hd
            exact (upd_ne _ _ hne).trans ha
          · exact ha
    · unfold handle
      split
      · rfl
      · dsimp only
        split
        · rfl
        · split <;> rfl
  | turn q op' =>
    right
    show (t.turn E B clk q op').users c = _ ∧ ((t.turn E B clk q op').hub = t.hub ∧ _ ∨ _)
    refine ⟨?_, .inl ⟨?_, fun _ h => (by cases h), fun h => (by cases h), fun h => (by cases h)⟩⟩
    · unfold turn
      split
      · exact ha
      · split
        · exact ha
        · exact ha
    · unfold turn
      split
      · rfl
      · split <;> rfl
  | take d =>
    right
    show (t.take B d).users c = _ ∧ ((t.take B d).hub = t.hub ∧ _ ∨ ∃ p, (t.take B d).hub = _ ∧ _)
    unfold take
    have hdc : ∀ r a x, t.users d = .told r a x → c ≠ d := by
      rintro r a x hu rfl
      rw [ha] at hu; cases hu
    split
    · next hd =>
      have hne := hdc _ _ _ hd
      dsimp only
      split
      · exact ⟨(upd_ne _ _ hne).trans ha, .inr ⟨.client d true, rfl, trivial, fun _ h => (by cases h), fun y h => (by cases h), fun h => (by cases h), fun h => (by cases h)⟩⟩
      · exact ⟨(upd_ne _ _ hne).trans ha, .inr ⟨.client d false, rfl, trivial, fun _ h => (by cases h), fun y h => (by cases h), fun h => (by cases h), fun h => (by cases h)⟩⟩
    · next hd => exact ⟨(upd_ne _ _ (hdc _ _ _ hd)).trans ha, .inl ⟨rfl, fun _ h => (by cases h), fun h => (by cases h), fun h => (by cases h)⟩⟩
    · exact ⟨ha, .inl ⟨rfl, fun _ h => (by cases h), fun h => (by cases h), fun h => (by cases h)⟩⟩

/-- A client that looks for the work queue does not fall back; its own steps and those of the engine bring it on. -/
theorem asks_key (hN : ∀ a b, N a = N b → a = b) {c ty : Nat} {n : Str} {job : Job D} {cfg : EnqueueConfig} {op : Op D O} (hl : Links t) {G : Engine}
    (ho : t.hub.Orderly N G) (o : SiteOp D O) (hp : o.Polite N t) (ha : t.Asks c (.submit ty n job cfg) op) :
    (o = .post c ∧ ∃ q, (t.step E B clk o).users c = .posted (.submit ty n job cfg) op false q) ∨
    (t.step E B clk o).Asks c (.submit ty n job cfg) op ∧
    ∃ G', (t.step E B clk o).hub.Orderly N G' ∧ Hub.stage ((t.step E B clk o).hub.clients c) ≤ Hub.stage (t.hub.clients c) ∧
      ((∃ x, o = .client c x) → 2 ≤ Hub.stage (t.hub.clients c) → Hub.stage ((t.step E B clk o).hub.clients c) < Hub.stage (t.hub.clients c)) ∧
      (Hub.stage (t.hub.clients c) = 1 → Hub.stage ((t.step E B clk o).hub.clients c) = 1 →
        Hub.left c G' ≤ Hub.left c G ∧ (o = .engine 0 → Hub.left c G' < Hub.left c G)) ∧
      (o = .post c → Hub.stage (t.hub.clients c) ≠ 0) := by
  have hw : Hub.Way ty n (t.hub.clients c) := by
    have := hl.users c
    rw [show t.users c = _ from ha] at this
    exact Hub.way_of ho this
  rcases asks_step (E := E) (clk := clk) hl ho o hp ha with h | ⟨ha', hh⟩
  · exact .inl h
  refine .inr ⟨ha', ?_⟩
  rcases hh with ⟨e, g1, g2, g3⟩ | ⟨p, e, g1, g2, g3, g4, g5⟩
  · rw [e]
    refine ⟨G, ho, Nat.le_refl _, fun ⟨x, hx⟩ h => ?_, fun _ _ => ⟨Nat.le_refl _, fun h => absurd h g2⟩, g3⟩
    have := g1 x hx
    omega
  · rw [e]
    obtain ⟨G', k1, k2, k3, k4⟩ := Hub.stage_step hN ho p g1 hw g2
    exact ⟨G', k1, k2, fun ⟨x, hx⟩ => k3 ⟨x, g3 x hx⟩, fun a b => ⟨(k4 a b).1, fun h => (k4 a b).2 (g4 h)⟩, fun h => absurd h g5⟩

/-- Few messages, after a step. -/
theorem Few.tail {m : Nat} {o : SiteOp D O} {ops : List (SiteOp D O)} (h : Few E clk m t (o :: ops)) : Few E clk m (t.step E B clk o) ops :=
  fun p hp => h (o :: p) ((List.prefix_cons_inj o).2 hp)

theorem _root_.AJ.Hub.left_pos (c : Nat) (G : Engine) : 1 ≤ Hub.left c G := by
  unfold Hub.left
  cases G.pc <;> simp only <;> omega

/-- A submission is on its way, with at most `xs` steps of its client and `k` of the engine left. -/
structure OnWay (N : Nat → Str) (c ty : Nat) (n : Str) (job : Job D) (cfg : EnqueueConfig) (op : Op D O) (m : Nat) (xs : List Bool) (k : Nat) (G : Engine)
    (t : Site D O B) : Prop where
  links : Links t
  orderly : t.hub.Orderly N G
  asks : t.Asks c (.submit ty n job cfg) op
  stage : Hub.stage (t.hub.clients c) ≤ xs.length + 1
  near : Hub.stage (t.hub.clients c) = 1 → Hub.left c G ≤ k
  far : 2 ≤ Hub.stage (t.hub.clients c) → 4 * (m + 1) ≤ k

section
variable {c ty : Nat} {n : Str} {job : Job D} {cfg : EnqueueConfig} {op : Op D O} {m : Nat} {xs : List Bool} {k : Nat} {G : Engine}

/-- One step: the message is sent, or less is left. -/
theorem OnWay.step (hN : ∀ a b, N a = N b → a = b) (h : OnWay N c ty n job cfg op m xs k G t) (o : SiteOp D O) (hp : o.Polite N t)
    (hf : ∀ e ∈ (t.step E B clk o).hub.engines, e.mailbox.length ≤ m) :
    (o = .post c ∧ ∃ q, (t.step E B clk o).users c = .posted (.submit ty n job cfg) op false q) ∨
    ∃ G', OnWay N c ty n job cfg op m xs k G' (t.step E B clk o) ∧
      (∀ x xs', xs = x :: xs' → o = .client c x → OnWay N c ty n job cfg op m xs' k G' (t.step E B clk o)) ∧
      (∀ k', xs = [] → k = k' + 1 → o = .engine 0 → OnWay N c ty n job cfg op m [] k' G' (t.step E B clk o)) ∧
      (xs = [] → k = 0 → o ≠ .post c) := by
  obtain ⟨hl, ho, ha, h1, h2, h3⟩ := h
  rcases asks_key (E := E) (clk := clk) hN hl ho o hp ha with h | ⟨ha', G', ho', k1, k2, k3, k4⟩
  · exact .inl h
  right
  have hl' := links_step (E := E) (clk := clk) hl o
  have hbound : Hub.stage ((t.step E B clk o).hub.clients c) = 1 → Hub.left c G' ≤ 4 * (m + 1) := by
    intro hs
    have hcl := ho'.client c
    cases hc : (t.step E B clk o).hub.clients c with
    | waiting call e ty' n' =>
      rw [hc] at hcl
      obtain ⟨-, -, -, m0, hm0, hmc⟩ := hcl
      have g1 := Hub.left_le hm0 hmc
      have g2 : G'.mailbox.length ≤ m := hf G' (by rw [ho'.engines]; simp)
      omega
    | _ => rw [hc] at hs; cases hs
  have near : Hub.stage ((t.step E B clk o).hub.clients c) = 1 → Hub.left c G' ≤ k := by
    intro hs
    by_cases hs1 : Hub.stage (t.hub.clients c) = 1
    · exact Nat.le_trans (k3 hs1 hs).1 (h2 hs1)
    · exact Nat.le_trans (hbound hs) (h3 (by omega))
  refine ⟨G', ⟨hl', ho', ha', by omega, near, fun h => h3 (by omega)⟩, ?_, ?_, ?_⟩
  · rintro x xs' rfl rfl
    refine ⟨hl', ho', ha', ?_, near, fun h => h3 (by omega)⟩
    simp only [List.length_cons] at h1
    by_cases hs : 2 ≤ Hub.stage (t.hub.clients c)
    · have := k2 ⟨x, rfl⟩ hs; omega
    · omega
  · rintro k' rfl rfl rfl
    simp only [List.length_nil] at h1
    refine ⟨hl', ho', ha', by simp only [List.length_nil]; omega, fun hs => ?_, fun h => by omega⟩
    have hs1 : Hub.stage (t.hub.clients c) = 1 := by omega
    have g1 := (k3 hs1 hs).2 rfl
    have g2 := h2 hs1
    omega
  · rintro rfl rfl e
    simp only [List.length_nil] at h1
    have g1 := k4 e
    have g2 := h2 (by omega)
    have g3 := Hub.left_pos c G
    omega

end

/-- A submission reaches the mailbox of a work queue. -/
theorem sent (hN : ∀ a b, N a = N b → a = b) {c ty : Nat} {n : Str} {job : Job D} {cfg : EnqueueConfig} {op : Op D O} {m : Nat} (ops : List (SiteOp D O)) :
    ∀ {t : Site D O B} {G : Engine} (xs : List Bool) (k : Nat), OnWay N c ty n job cfg op m xs k G t → t.PoliteRun E clk N ops → Few E clk m t ops →
      (road c xs k).Sublist ops → ∃ p, p <+: ops ∧ ∃ q, (t.run E B clk p).users c = .posted (.submit ty n job cfg) op false q := by
  induction ops with
  | nil =>
    intro t G xs k _ _ _ hsub
    have := List.eq_nil_of_sublist_nil hsub
    simp [road] at this
  | cons o ops ih =>
    intro t G xs k h hp hf hsub
    rcases h.step (E := E) (clk := clk) hN o hp.1 (hf [o] ⟨ops, rfl⟩) with ⟨rfl, q, hq⟩ | ⟨G', g0, g1, g2, g3⟩
    · exact ⟨[.post c], ⟨ops, rfl⟩, q, hq⟩
    have go : ∀ (xs' : List Bool) (k' : Nat), OnWay N c ty n job cfg op m xs' k' G' (t.step E B clk o) → (road c xs' k').Sublist ops →
        ∃ p, p <+: o :: ops ∧ ∃ q, (t.run E B clk p).users c = .posted (.submit ty n job cfg) op false q := by
      intro xs' k' g h
      obtain ⟨p, hp1, q, hq⟩ := ih xs' k' g hp.2 hf.tail h
      exact ⟨o :: p, (List.prefix_cons_inj o).2 hp1, q, hq⟩
    cases xs with
    | cons x xs' =>
      rcases List.cons_sublist_cons'.1 hsub with hsub | ⟨rfl, hs'⟩
      · exact go _ _ g0 hsub
      · exact go xs' k (g1 x xs' rfl rfl) hs'
    | nil =>
      cases k with
      | succ k' =>
        rcases List.cons_sublist_cons'.1 hsub with hsub | ⟨rfl, hs'⟩
        · exact go _ _ g0 hsub
        · exact go [] k' (g2 k' rfl rfl rfl) hs'
      | zero =>
        rcases List.cons_sublist_cons'.1 hsub with hsub | ⟨e, -⟩
        · exact go _ _ g0 hsub
        · exact absurd e.symm (g3 rfl rfl)

/-- A polite step of the process is at most one orderly step of the registry. -/
theorem polite_hub (o : SiteOp D O) (hp : o.Polite N t) :
    (t.step E B clk o).hub = t.hub ∨ ∃ p : HubOp, (t.step E B clk o).hub = t.hub.step p ∧ p.Orderly N t.hub := by
  cases o with
  | begin c req =>
    show (t.begin B c req).hub = _ ∨ ∃ p : HubOp, (t.begin B c req).hub = _ ∧ _
    unfold begin
    cases t.users c with
    | free => exact .inr ⟨.begin c req.call, rfl, hp⟩
    | done => exact .inr ⟨.begin c req.call, rfl, hp⟩
    | asking => exact .inl rfl
    | posted => exact .inl rfl
    | told => exact .inl rfl
  | client c x =>
    show (t.client B c x).hub = _ ∨ ∃ p : HubOp, (t.client B c x).hub = _ ∧ _
    unfold client
    split
    · exact .inl rfl
    · exact .inr ⟨.client c x, rfl, trivial⟩
  | engine e => exact .inr ⟨.engine e, rfl, trivial⟩
  | post c =>
    left
    show (t.post B c).hub = _
    unfold post
    split
    · split
      · rfl
      · split <;> rfl
      · rfl
      · rfl
    · rfl
  | handle q i =>
    left
    show (t.handle E B clk q i).hub = _
    unfold handle
    split
    · rfl
    · dsimp only
      split
      · rfl
      · split <;> rfl
  | turn q op' =>
    left
    show (t.turn E B clk q op').hub = _
    unfold turn
    split
    · rfl
    · split <;> rfl
  | take c =>
    show (t.take B c).hub = _ ∨ ∃ p : HubOp, (t.take B c).hub = _ ∧ _
    unfold take
    split
    · dsimp only
      split
      · exact .inr ⟨.client c true, rfl, trivial⟩
      · exact .inr ⟨.client c false, rfl, trivial⟩
    · exact .inl rfl
    · exact .inl rfl

theorem orderly_step (hN : ∀ a b, N a = N b → a = b) {G : Engine} (ho : t.hub.Orderly N G) (o : SiteOp D O) (hp : o.Polite N t) :
    ∃ G', (t.step E B clk o).hub.Orderly N G' := by
  rcases polite_hub (E := E) (clk := clk) o hp with e | ⟨p, e, h⟩ <;> rw [e]
  · exact ⟨G, ho⟩
  · exact Hub.orderly_step hN ho p h

theorem PoliteRun.append {xs ys : List (SiteOp D O)} (h : t.PoliteRun E clk N (xs ++ ys)) :
    t.PoliteRun E clk N xs ∧ (t.run E B clk xs).PoliteRun E clk N ys := by
  induction xs generalizing t with
  | nil => exact ⟨trivial, h⟩
  | cons o xs ih => exact ⟨⟨h.1, (ih h.2).1⟩, (ih h.2).2⟩

theorem orderly_run (hN : ∀ a b, N a = N b → a = b) {G : Engine} (ho : t.hub.Orderly N G) (ops : List (SiteOp D O)) (hp : t.PoliteRun E clk N ops) :
    ∃ G', (t.run E B clk ops).hub.Orderly N G' := by
  induction ops generalizing t G with
  | nil => exact ⟨G, ho⟩
  | cons o ops ih =>
    obtain ⟨G', ho'⟩ := orderly_step (E := E) (clk := clk) hN ho o hp.1
    exact ih ho' hp.2

end Site
end AJ
