import Verif.Proofs.Registry

/-!
# First submissions, one at a time
-/

namespace AJ
namespace Hub

/-- The message an engine is working on, before it has started the queue. -/
def EnginePc.msgs : EnginePc → List InitMsg
  | .nameFree m => [m]
  | .typeFree m => [m]
  | _ => []

def EnginePc.halfMsg : EnginePc → List InitMsg
  | .half m _ => [m]
  | _ => []

/-- The messages an engine has still to answer. -/
def reqs (E : Engine) : List InitMsg := EnginePc.halfMsg E.pc ++ (EnginePc.msgs E.pc ++ E.mailbox)

/-- Where a client may be. -/
def ClientOk (N : Nat → Str) (h : Hub) (E : Engine) (c : Nat) : ClientPc → Prop
  | .idle => True
  | .begun (.submit ty n) => n = N ty
  | .begun (.update ty n) => n = N ty
  | .begun _ => True
  | .ask call ty n => call = .submit ty n ∧ n = N ty ∧ h.byType ty = none
  | .waiting call e ty n => call = .submit ty n ∧ e = 0 ∧ n = N ty ∧ ∃ m ∈ reqs E, m.client = c
  | .reading call q ty n => call = .update ty n ∧ h.byType ty = some q
  | .done (.submit ty _) r => ∃ q, r = .answer q ∧ h.byType ty = some q
  | .done (.start _) r => r = .engine 0
  | .done _ r => r ≠ .panic ∧ r ≠ .mailboxError
  | _ => False

structure Orderly (N : Nat → Str) (h : Hub) (E : Engine) : Prop where
  engines : h.engines = [E]
  alive : E.alive = true
  addr : h.addr = some 0
  writer : h.writer = none
  single : h.Single
  client : ∀ c, ClientOk N h E c (h.clients c)
  msg : ∀ m ∈ reqs E, m.name = N m.ty ∧ h.clients m.client = .waiting (.submit m.ty m.name) 0 m.ty m.name
  open_ : ∀ m ∈ EnginePc.msgs E.pc ++ E.mailbox, h.byType m.ty = none
  half : ∀ m q, E.pc = .half m q → h.byType m.ty = some q
  nodup : ((reqs E).map (·.client)).Nodup
  one : ∀ ty, h.byType ty = none → ∀ c d, (h.clients c).Opening ty → (h.clients d).Opening ty → c = d
  names : ∀ a ∈ h.queues, a.name = N a.ty

/-- Only the types with a queue and the messages of the engine matter. -/
theorem ClientOk.mono {N : Nat → Str} {h h' : Hub} {E E' : Engine} {c : Nat} {pc : ClientPc}
    (hk : ClientOk N h E c pc) (h1 : h.Keeps h')
    (h2 : ∀ call ty n, pc = .ask call ty n → h.byType ty = none → h'.byType ty = none)
    (h3 : ∀ call e ty n, pc = .waiting call e ty n → (∃ m ∈ reqs E, m.client = c) → ∃ m ∈ reqs E', m.client = c) :
    ClientOk N h' E' c pc := by
  cases pc with
  | idle => trivial
  | begun call => cases call <;> exact hk
  | create => exact hk
  | lock => exact hk
  | write => exact hk
  | reread => exact hk
  | ask call ty n => exact ⟨hk.1, hk.2.1, h2 _ _ _ rfl hk.2.2⟩
  | waiting call e ty n => exact ⟨hk.1, hk.2.1, hk.2.2.1, h3 _ _ _ _ rfl hk.2.2.2⟩
  | reading call q ty n => exact ⟨hk.1, h1 _ _ hk.2⟩
  | done call r =>
    cases call with
    | submit ty n => obtain ⟨q, hq, ht⟩ := hk; exact ⟨q, hq, h1 _ _ ht⟩
    | _ => exact hk

variable {N : Nat → Str} {h : Hub} {E : Engine}

theorem Orderly.notWaiting (ho : Orderly N h E) {c : Nat} (hw : ∀ call e ty n, h.clients c ≠ .waiting call e ty n)
    {m : InitMsg} (hm : m ∈ reqs E) : m.client ≠ c := by
  intro e
  subst e
  exact hw _ _ _ _ (ho.msg m hm).2

theorem single_go (hs : h.Single) {c : Nat} {pc : ClientPc} : (h.go c pc).Single :=
  single_frame hs rfl rfl rfl (fun E hE => .inl ⟨E, hE, rfl⟩) (fun E hE => ⟨E, hE, rfl⟩)

theorem orderly_go (ho : Orderly N h E) {c : Nat} {pc : ClientPc}
    (hw : ∀ call e ty n, h.clients c ≠ .waiting call e ty n) (hk : ClientOk N h E c pc)
    (hop : ∀ ty, h.byType ty = none → pc.Opening ty → ∀ d, d ≠ c → ¬ (h.clients d).Opening ty) :
    Orderly N (h.go c pc) E := by
  refine ⟨ho.engines, ho.alive, ho.addr, ho.writer, single_go ho.single, fun d => ?_, fun m hm => ?_, ho.open_, ho.half,
    ho.nodup, fun ty hty a b ha hb => ?_, ho.names⟩
  · rw [go_clients]
    split
    next hd => subst hd; exact hk.mono (fun _ _ h => h) (fun _ _ _ _ h => h) (fun _ _ _ _ _ h => h)
    next => exact (ho.client d).mono (fun _ _ h => h) (fun _ _ _ _ h => h) (fun _ _ _ _ _ h => h)
  · rw [go_clients, if_neg (ho.notWaiting hw hm)]
    exact ho.msg m hm
  · rw [go_clients] at ha hb
    split at ha
    next hac =>
      subst hac
      split at hb
      next hbc => exact hbc.symm
      next hbc => exact absurd hb (hop ty hty ha b hbc)
    next hac =>
      split at hb
      next hbc => subst hbc; exact absurd ha (hop ty hty hb a hac)
      next hbc => exact ho.one ty hty a b ha hb

theorem orderly_go' (ho : Orderly N h E) {c : Nat} {pc : ClientPc}
    (hw : ∀ call e ty n, h.clients c ≠ .waiting call e ty n) (hk : ClientOk N h E c pc)
    (hop : ∀ ty, pc.Opening ty → (h.clients c).Opening ty) : Orderly N (h.go c pc) E :=
  orderly_go ho hw hk fun ty hty hp d hd hd' => hd (ho.one ty hty d c hd' (hop ty hp))

theorem orderly_begin (ho : Orderly N h E) (c : Nat) (call : ApiCall) (hp : (HubOp.begin c call).Orderly N h) :
    Orderly N (h.begin c call) E := by
  have key : (∀ call e ty n, h.clients c ≠ .waiting call e ty n) → Orderly N (h.go c (.begun call)) E := by
    intro hw
    cases call with
    | submit ty n =>
      refine orderly_go ho hw hp.1 fun ty' hty' hop d hd => ?_
      cases hop
      exact hp.2 hty' d hd
    | update ty n => exact orderly_go ho hw hp fun ty' hty' hop => (by cases hop)
    | _ => exact orderly_go ho hw trivial fun ty' hty' hop => (by cases hop)
  unfold begin
  split
  next hc => exact key (by simp [hc])
  next hc => exact key (by simp [hc])
  next => exact ho

theorem Orderly.getE (ho : Orderly N h E) : h.engines[0]? = some E := by simp [ho.engines]

theorem reqs_push (E : Engine) (m : InitMsg) : reqs { E with mailbox := E.mailbox ++ [m] } = reqs E ++ [m] := by
  simp [reqs, List.append_assoc]

theorem orderly_client (ho : Orderly N h E) (c : Nat) (x : Bool) : ∃ E', Orderly N (h.client c x) E' := by
  have hrd : h.readAddr = some 0 := by simp [readAddr, ho.writer, ho.addr]
  have hc0 := ho.client c
  unfold client
  split
  next call hc =>
    refine ⟨E, ?_⟩
    rw [hc] at hc0
    have hw : ∀ call e ty n, h.clients c ≠ .waiting call e ty n := by simp [hc]
    cases call with
    | start b => exact orderly_go' ho hw (by simp [look, hrd, ClientOk]) (by simp [look, hrd, ClientPc.Opening])
    | submit ty n =>
      cases ht : h.byType ty with
      | some q =>
        exact orderly_go' ho hw (by simp only [look, ht]; exact ⟨q, rfl, ht⟩) (by simp [look, ht, ClientPc.Opening])
      | none =>
        exact orderly_go' ho hw (by simp only [look, ht]; exact ⟨rfl, hc0, ht⟩)
          (by simp [look, ht, ClientPc.Opening, hc])
    | update ty n =>
      cases ht : h.byType ty with
      | some q => exact orderly_go' ho hw (by simp only [look, ht]; exact ⟨rfl, ht⟩) (by simp [look, ht, ClientPc.Opening])
      | none => exact orderly_go' ho hw (by simp [look, ht, ClientOk]) (by simp [look, ht, ClientPc.Opening])
    | cancel ty =>
      cases ht : h.byType ty <;>
        exact orderly_go' ho hw (by simp [look, ht, ClientOk]) (by simp [look, ht, ClientPc.Opening])
    | retry ty =>
      cases ht : h.byType ty <;>
        exact orderly_go' ho hw (by simp [look, ht, ClientOk]) (by simp [look, ht, ClientPc.Opening])
    | config ty =>
      cases ht : h.byType ty <;>
        exact orderly_go' ho hw (by simp [look, ht, ClientOk]) (by simp [look, ht, ClientPc.Opening])
    | get ty =>
      cases ht : h.byType ty <;>
        exact orderly_go' ho hw (by simp [look, ht, ClientOk]) (by simp [look, ht, ClientPc.Opening])
  next hc => rw [hc] at hc0; exact hc0.elim
  next hc => rw [hc] at hc0; exact hc0.elim
  next hc => rw [hc] at hc0; exact hc0.elim
  next hc => rw [hc] at hc0; exact hc0.elim
  next call ty n hc =>
    rw [hc] at hc0
    obtain ⟨rfl, rfl, hty⟩ := hc0
    rw [hrd]
    have hw : ∀ call e ty n, h.clients c ≠ .waiting call e ty n := by simp [hc]
    simp only [send, ho.getE, ho.alive, if_true]
    refine ⟨{ E with mailbox := E.mailbox ++ [⟨c, ty, N ty⟩] }, ?_⟩
    refine ⟨by simp [ho.engines, ho.alive], ho.alive, ho.addr, ho.writer, ?_, fun d => ?_, fun m hm => ?_, fun m hm => ?_, ?_, ?_,
      fun ty' hty' a b ha hb => ?_, ho.names⟩
    · refine single_frame ho.single rfl rfl rfl (fun E' hE' => .inl ⟨E, by simp [ho.engines], ?_⟩)
        (fun E1 hE1 => ⟨{ E with mailbox := E.mailbox ++ [⟨c, ty, N ty⟩] }, ?_, ?_⟩)
      · simp [ho.engines] at hE'; rw [hE']
      · simp [ho.engines, ho.alive]
      · simp [ho.engines] at hE1; rw [hE1]
    · show ClientOk N _ _ d ((h.go c _).clients d)
      rw [go_clients]
      split
      next hd =>
        subst hd
        exact ⟨rfl, rfl, rfl, ⟨d, ty, N ty⟩, by rw [reqs_push]; simp, rfl⟩
      next =>
        refine (ho.client d).mono (fun _ _ h => h) (fun _ _ _ _ h => h) (fun _ _ _ _ _ ⟨m, hm, e⟩ => ⟨m, ?_, e⟩)
        rw [reqs_push]; simp [hm]
    · rw [reqs_push] at hm
      show _ ∧ (h.go c _).clients _ = _
      rw [List.mem_append] at hm
      rcases hm with hm | hm
      · rw [go_clients, if_neg (ho.notWaiting hw hm)]
        exact ho.msg m hm
      · simp at hm; subst hm
        exact ⟨rfl, by simp [go_clients]⟩
    · rw [← List.append_assoc, List.mem_append] at hm
      rcases hm with hm | hm
      · exact ho.open_ m hm
      · simp at hm; subst hm; exact hty
    · exact ho.half
    · rw [reqs_push, List.map_append, List.nodup_append]
      refine ⟨ho.nodup, by simp, fun a ha b hb => ?_⟩
      simp only [List.map_cons, List.map_nil, List.mem_singleton] at hb
      subst hb
      simp only [List.mem_map] at ha
      obtain ⟨m, hm, rfl⟩ := ha
      exact ho.notWaiting hw hm
    · change ClientPc.Opening ty' ((h.go c _).clients a) at ha
      change ClientPc.Opening ty' ((h.go c _).clients b) at hb
      have hcc : ∀ d, ((h.go c (.waiting (.submit ty (N ty)) 0 ty (N ty))).clients d).Opening ty' →
          (h.clients d).Opening ty' := by
        intro d hd
        rw [go_clients] at hd
        split at hd
        next e => subst e; rw [hc]; exact hd
        next => exact hd
      exact ho.one ty' hty' a b (hcc a ha) (hcc b hb)
  next call q ty n hc =>
    rw [hc] at hc0
    obtain ⟨rfl, hq⟩ := hc0
    have hw : ∀ call e ty n, h.clients c ≠ .waiting call e ty n := by simp [hc]
    refine ⟨E, ?_⟩
    split
    · exact orderly_go' ho hw (by simp [lookAgain, hq, ClientOk]) (by simp [lookAgain, hq, ClientPc.Opening])
    · exact orderly_go' ho hw (by simp [ClientOk]) (by simp [ClientPc.Opening])
  next => exact ⟨E, ho⟩

/-- The engine comes to another place with the same messages to answer. -/
theorem orderly_move (ho : Orderly N h E) {E' : Engine} {h' : Hub} (hs : h'.Single)
    (h1 : h'.addr = h.addr) (h2 : h'.writer = h.writer) (h3 : h'.byType = h.byType) (h5 : h'.queues = h.queues)
    (h6 : h'.clients = h.clients) (h7 : h'.engines = [E']) (ha : E'.alive = true) (hr : reqs E' = reqs E)
    (hm : EnginePc.msgs E'.pc ++ E'.mailbox = EnginePc.msgs E.pc ++ E.mailbox) (hh : ∀ m q, E'.pc ≠ .half m q) :
    Orderly N h' E' := by
  refine ⟨h7, ha, h1.trans ho.addr, h2.trans ho.writer, hs, fun c => ?_, fun m hm => ?_, fun m hm' => ?_,
    fun m q e => absurd e (hh m q), by rw [hr]; exact ho.nodup, fun ty hty a b hA hB => ?_, by rw [h5]; exact ho.names⟩
  · rw [h6]
    exact (ho.client c).mono (fun _ _ h => by rw [h3]; exact h) (fun _ _ _ _ h => by rw [h3]; exact h)
      (fun _ _ _ _ _ h => by rw [hr]; exact h)
  · rw [hr] at hm
    rw [h6]; exact ho.msg m hm
  · rw [hm] at hm'
    rw [h3]; exact ho.open_ m hm'
  · rw [h6] at hA hB
    rw [h3] at hty
    exact ho.one ty hty a b hA hB

theorem orderly_engine (hN : ∀ a b, N a = N b → a = b) (ho : Orderly N h E) (e : Nat) :
    ∃ E', Orderly N (h.engine e) E' := by
  have hlen : h.engines.length ≤ 1 := by simp [ho.engines]
  have hS := engine_single ho.single hlen e
  cases e with
  | succ e => exact ⟨E, by simp only [engine, ho.engines, List.getElem?_cons_succ, List.getElem?_nil]; exact ho⟩
  | zero =>
  have hE := ho.getE
  revert hS
  unfold engine
  rw [hE]
  dsimp only
  cases hp : E.pc with
  | idle =>
    cases hm : E.mailbox with
    | nil => exact fun _ => ⟨E, ho⟩
    | cons m ms =>
      dsimp only
      have hmo : m ∈ EnginePc.msgs E.pc ++ E.mailbox := by simp [hm]
      have hty := ho.open_ m hmo
      have hnm := (ho.msg m (by simp only [reqs]; exact List.mem_append_right _ hmo)).1
      have : h.byName m.name = none := by
        cases hn : h.byName m.name with
        | none => rfl
        | some q =>
          obtain ⟨a, ha, han⟩ := ho.single.filed.names _ _ hn
          have h1 := ho.names a (List.mem_of_getElem? ha)
          have : a.ty = m.ty := hN _ _ (by rw [← h1, han, hnm])
          have h2 := (ho.single.queue q a ha).1
          rw [this, hty] at h2
          cases h2
      rw [this]
      intro hS
      refine ⟨{ E with mailbox := ms, pc := .nameFree m }, orderly_move ho hS rfl rfl rfl rfl rfl
        (by simp [ho.engines]) ho.alive ?_ ?_ ?_⟩
      · simp [reqs, hp, hm, EnginePc.msgs, EnginePc.halfMsg]
      · simp [hp, hm, EnginePc.msgs]
      · intro m q e; cases e
  | nameFree m =>
    dsimp only
    have hty := ho.open_ m (by simp [hp, EnginePc.msgs])
    rw [hty]
    intro hS
    refine ⟨{ E with pc := .typeFree m }, orderly_move ho hS rfl rfl rfl rfl rfl
      (by simp [ho.engines]) ho.alive ?_ ?_ ?_⟩
    · simp [reqs, hp, EnginePc.msgs, EnginePc.halfMsg]
    · simp [hp, EnginePc.msgs]
    · intro m q e; cases e
  | typeFree m =>
    dsimp only
    intro hS
    have hmr : m ∈ reqs E := by simp [reqs, hp, EnginePc.msgs]
    have hmm := ho.msg m hmr
    have hty := ho.open_ m (by simp [hp, EnginePc.msgs])
    have hr : reqs { E with pc := .half m h.queues.length } = reqs E := by
      simp [reqs, hp, EnginePc.msgs, EnginePc.halfMsg]
    have hmo : (h.clients m.client).Opening m.ty := by rw [hmm.2]; rfl
    refine ⟨{ E with pc := .half m h.queues.length }, by simp [ho.engines], ho.alive, ho.addr, ho.writer, hS,
      fun c => ?_, ?_, fun m' hm' => ?_, fun m' q' e => ?_, by rw [hr]; exact ho.nodup,
      fun ty hty' a b hA hB => ho.one ty ?_ a b hA hB, fun a ha => ?_⟩
    · refine (ho.client c).mono (fun ty q hq => ?_) (fun call ty n hpc hq => ?_) (fun _ _ _ _ _ hx => by rw [hr]; exact hx)
      · have : ty ≠ m.ty := by intro e; rw [e, hty] at hq; cases hq
        simp [upd, this, hq]
      · have : ty ≠ m.ty := by
          intro e
          subst e
          have hcc : (h.clients c).Opening m.ty := by rw [hpc]; rfl
          have hx := ho.one _ hty c m.client hcc hmo
          rw [hx, hmm.2] at hpc; cases hpc
        simp [upd, this, hq]
    · rw [hr]; exact ho.msg
    · simp only [EnginePc.msgs, List.nil_append] at hm'
      have hm'' : m' ∈ reqs E := by simp [reqs, hm']
      have hty' := ho.open_ m' (by simp [hm'])
      have : m'.ty ≠ m.ty := by
        intro e
        have hcc : (h.clients m'.client).Opening m.ty := by rw [(ho.msg m' hm'').2]; exact e
        have hx := ho.one _ hty m'.client m.client hcc hmo
        have hnd := ho.nodup
        simp only [reqs, hp, EnginePc.msgs, EnginePc.halfMsg, List.nil_append, List.cons_append, List.map_cons,
          List.nodup_cons] at hnd
        exact hnd.1 (List.mem_map.2 ⟨m', hm', hx⟩)
      simp [upd, this, hty']
    · cases e; simp [upd]
    · change upd h.byType m.ty _ ty = none at hty'
      simp only [upd] at hty'
      split at hty'
      · cases hty'
      · exact hty'
    · change a ∈ h.queues ++ [_] at ha
      rw [List.mem_append] at ha
      rcases ha with ha | ha
      · exact ho.names a ha
      · simp at ha; subst ha; exact hmm.1
  | half m q =>
    dsimp only
    intro hS
    have hmr : m ∈ reqs E := by simp [reqs, hp, EnginePc.halfMsg]
    have hmm := ho.msg m hmr
    have hans : h.answer m q = h.go m.client (.done (.submit m.ty m.name) (.answer q)) := by
      unfold answer; rw [hmm.2]
    have hr : reqs E = m :: E.mailbox := by simp [reqs, hp, EnginePc.msgs, EnginePc.halfMsg]
    have hr' : reqs { E with pc := .idle } = E.mailbox := by simp [reqs, EnginePc.msgs, EnginePc.halfMsg]
    have hnd := ho.nodup
    rw [hr, List.map_cons, List.nodup_cons] at hnd
    have hq := ho.half m q hp
    rw [hans] at hS ⊢
    refine ⟨{ E with pc := .idle }, by simp [ho.engines], ho.alive, ho.addr, ho.writer, hS, fun c => ?_, fun m' hm' => ?_,
      fun m' hm' => ?_, fun m' q' e => (by cases e), by rw [hr']; exact hnd.2, fun ty hty a b hA hB => ?_, ho.names⟩
    · show ClientOk N _ _ c ((h.go m.client _).clients c)
      rw [go_clients]
      split
      next hc => exact ⟨q, rfl, hq⟩
      next hc =>
        refine (ho.client c).mono (fun _ _ h => h) (fun _ _ _ _ h => h) (fun _ _ _ _ _ ⟨m', hm', e⟩ => ⟨m', ?_, e⟩)
        rw [hr] at hm'
        rw [hr']
        rcases List.mem_cons.1 hm' with hx | hx
        · subst hx; exact absurd e.symm hc
        · exact hx
    · rw [hr'] at hm'
      show _ ∧ (h.go m.client _).clients _ = _
      have : m'.client ≠ m.client := fun e => hnd.1 (List.mem_map.2 ⟨m', hm', e⟩)
      rw [go_clients, if_neg this]
      exact ho.msg m' (by rw [hr]; simp [hm'])
    · simp only [EnginePc.msgs, List.nil_append] at hm'
      exact ho.open_ m' (by simp [hm'])
    · have hcc : ∀ d, ((h.go m.client (.done (.submit m.ty m.name) (.answer q))).clients d).Opening ty →
          (h.clients d).Opening ty := by
        intro d hd
        rw [go_clients] at hd
        split at hd
        · cases hd
        · exact hd
      exact ho.one ty hty a b (hcc a hA) (hcc b hB)

theorem orderly_step (hN : ∀ a b, N a = N b → a = b) (ho : Orderly N h E) (op : HubOp) (hp : op.Orderly N h) :
    ∃ E', Orderly N (h.step op) E' := by
  cases op with
  | begin c call => exact ⟨E, orderly_begin ho c call hp⟩
  | client c x => exact orderly_client ho c x
  | engine e => exact orderly_engine hN ho e

theorem orderly_run (hN : ∀ a b, N a = N b → a = b) (ho : Orderly N h E) (ops : List HubOp) (hp : AJ.OrderlyRun N h ops) :
    ∃ E', Orderly N (h.run ops) E' := by
  induction hp generalizing E with
  | nil => exact ⟨E, ho⟩
  | cons h1 _ ih =>
    obtain ⟨E', h2⟩ := orderly_step hN ho _ h1
    exact ih h2

/-- The work of the engine. -/
def work (E : Engine) : Nat := 4 * E.mailbox.length + match E.pc with
  | .idle => 0
  | .nameFree _ => 3
  | .typeFree _ => 2
  | .half _ _ => 1

/-- While a client waits, the engine gets on with its work. -/
theorem engine_works (hN : ∀ a b, N a = N b → a = b) (ho : Orderly N h E) {c : Nat} {call e ty n}
    (hc : h.clients c = .waiting call e ty n) : ∃ E', Orderly N (h.engine 0) E' ∧ work E' < work E := by
  obtain ⟨E', ho'⟩ := orderly_engine hN ho 0
  refine ⟨E', ho', ?_⟩
  have hcl := ho.client c
  rw [hc] at hcl
  obtain ⟨-, -, -, m0, hm0, -⟩ := hcl
  have he := ho'.engines
  have hal := ho'.alive
  revert he
  unfold engine
  rw [ho.getE]
  dsimp only
  have key : ∀ X : Engine, h.engines.set 0 X = [E'] → X = E' := by
    intro X hX; rw [ho.engines] at hX; simpa using hX
  cases hp : E.pc with
  | idle =>
    cases hm : E.mailbox with
    | nil => simp [reqs, hp, hm, EnginePc.msgs, EnginePc.halfMsg] at hm0
    | cons m ms =>
      dsimp only
      split
      · intro he
        have := key _ he
        rw [← this] at hal; cases hal
      · intro he
        have := key _ he
        rw [← this]
        simp [work, hp, hm]; omega
  | nameFree m =>
    dsimp only
    split
    · intro he
      have := key _ he
      rw [← this] at hal; cases hal
    · intro he
      have := key _ he
      rw [← this]
      simp [work, hp]
  | typeFree m =>
    intro he
    have := key _ he
    rw [← this]
    simp [work, hp]
  | half m q =>
    intro he
    have := key _ he
    rw [← this]
    simp [work, hp]

theorem answered (hN : ∀ a b, N a = N b → a = b) (k : Nat) (ho : Orderly N h E) (hk : work E < k) {c : Nat}
    {call e ty n} (hc : h.clients c = .waiting call e ty n) :
    ∃ i q, (h.run (List.replicate i (.engine 0))).clients c = .done (.submit ty n) (.answer q) := by
  induction k generalizing h E with
  | zero => omega
  | succ k ih =>
    obtain ⟨E', ho', hw⟩ := engine_works hN ho hc
    have hcall : call = .submit ty n := by have := ho.client c; rw [hc] at this; exact this.1
    subst hcall
    rcases engine_clients h 0 c with h1 | ⟨call', ty', n', h1, h2⟩ | ⟨_, _, q, call', e', ty', n', _, _, _, h1, h2⟩
    · rw [hc] at h1
      obtain ⟨i, q, h2⟩ := ih ho' (by omega) h1
      exact ⟨i + 1, q, h2⟩
    · rw [hc] at h1
      have := ho'.client c
      rw [h2] at this
      cases h1
      obtain ⟨_, h3, _⟩ := this
      cases h3
    · rw [hc] at h1
      cases h1
      exact ⟨1, q, h2⟩

end Hub

/-! ## Clients at rest, dead engines, registries without queues -/

theorem starting_fin {h : Hub} {n : Nat} (h1 : ∀ c, n ≤ c → h.clients c = .idle)
    (h2 : ∀ c, c < n → ¬ (h.clients c).Starting) (c : Nat) : ¬ (h.clients c).Starting := by
  by_cases hc : c < n
  · exact h2 c hc
  · rw [h1 c (by omega)]; simp [ClientPc.Starting]

theorem step_idle (h : Hub) (op : HubOp) (d : Nat) (hd : h.clients d = .idle)
    (ho : ∀ call, op ≠ .begin d call) : (h.step op).clients d = .idle := by
  cases op with
  | begin c call =>
    have : d ≠ c := by intro e; subst e; exact ho call rfl
    show (h.begin c call).clients d = _
    unfold Hub.begin
    split <;> simp [Hub.go_clients, this, hd]
  | client c x =>
    show (h.client c x).clients d = _
    by_cases hc : d = c
    · subst hc
      simp [Hub.client, hd]
    · unfold Hub.client
      split
      · simp [Hub.go_clients, hc, hd]
      · show (h.go c _).clients d = _; simp [Hub.go_clients, hc, hd]
      · split
        · simp [Hub.go_clients, hc, hd]
        · show (h.go c _).clients d = _; simp [Hub.go_clients, hc, hd]
      · show (h.go c _).clients d = _; simp [Hub.go_clients, hc, hd]
      · split <;> simp [Hub.go_clients, hc, hd]
      · split
        · rw [(Hub.send_frame ..).2.2.2.2.2.1 d hc, hd]
        · simp [Hub.go_clients, hc, hd]
      · split <;> simp [Hub.go_clients, hc, hd]
      · exact hd
  | engine e =>
    show (h.engine e).clients d = _
    rcases Hub.engine_clients h e d with h1 | ⟨_, _, _, h1, _⟩ | ⟨_, _, _, _, _, _, _, _, _, _, h1, _⟩
    · rw [h1, hd]
    · rw [hd] at h1; cases h1
    · rw [hd] at h1; cases h1

theorem run_idle (ops : List HubOp) (h : Hub) (d : Nat) (hd : h.clients d = .idle)
    (ho : ∀ op ∈ ops, ∀ call, op ≠ .begin d call) : (h.run ops).clients d = .idle := by
  induction ops generalizing h with
  | nil => exact hd
  | cons op ops ih =>
    exact ih (h.step op) (step_idle h op d hd (ho op (by simp))) fun o ho' => ho o (by simp [ho'])

/-- A dead engine has no messages. -/
def DeadEmpty (h : Hub) : Prop := ∀ E ∈ h.engines, E.alive = false → E.mailbox = [] ∧ E.pc = .idle

theorem deadEmpty_set {l : List Engine} (h : ∀ E ∈ l, E.alive = false → E.mailbox = [] ∧ E.pc = .idle) (i : Nat)
    (X : Engine) (hX : X.alive = false → X.mailbox = [] ∧ X.pc = .idle) :
    ∀ E ∈ l.set i X, E.alive = false → E.mailbox = [] ∧ E.pc = .idle := by
  intro E hE
  rcases List.mem_or_eq_of_mem_set hE with hE | hE
  · exact h E hE
  · subst hE; exact hX

theorem deadEmpty_step {h : Hub} (hd : DeadEmpty h) (op : HubOp) : DeadEmpty (h.step op) := by
  cases op with
  | begin c call => intro E hE; exact hd E (by rw [← (Hub.begin_frame h c call).2.2.2]; exact hE)
  | client c x =>
    show DeadEmpty (h.client c x)
    unfold Hub.client
    split
    · exact hd
    · intro E hE
      change E ∈ h.engines ++ [_] at hE
      rw [List.mem_append] at hE
      rcases hE with hE | hE
      · exact hd E hE
      · simp at hE; subst hE; intro e; cases e
    · split <;> exact hd
    · exact hd
    · split <;> exact hd
    · split
      · unfold Hub.send
        split
        · split
          next ha => exact deadEmpty_set hd _ _ (by intro e; rw [ha] at e; cases e)
          next => exact hd
        · exact hd
      · exact hd
    · split <;> exact hd
    · exact hd
  | engine e =>
    show DeadEmpty (h.engine e)
    unfold Hub.engine
    split
    next => exact hd
    next E hE =>
      have hE' := List.mem_of_getElem? hE
      split
      next hp =>
        split
        next => exact hd
        next m ms hm =>
          split
          · exact deadEmpty_set hd _ _ (fun _ => ⟨rfl, rfl⟩)
          · refine deadEmpty_set hd _ _ (fun ha => ?_)
            have := (hd E hE' ha).1
            rw [hm] at this; cases this
      next m hp =>
        split
        · exact deadEmpty_set hd _ _ (fun _ => ⟨rfl, rfl⟩)
        · refine deadEmpty_set hd _ _ (fun ha => ?_)
          have := (hd E hE' ha).2
          rw [hp] at this; cases this
      next m hp =>
        refine deadEmpty_set hd _ _ (fun ha => ?_)
        have := (hd E hE' ha).2
        rw [hp] at this; cases this
      next m q hp =>
        refine deadEmpty_set hd _ _ (fun ha => ?_)
        have := (hd E hE' ha).2
        rw [hp] at this; cases this

theorem deadEmpty_run {h : Hub} (hd : DeadEmpty h) (ops : List HubOp) : DeadEmpty (h.run ops) := by
  induction ops generalizing h with
  | nil => exact hd
  | cons op ops ih => exact ih (deadEmpty_step hd op)

/-- With a dead engine nothing is registered any more. -/
theorem dead_engine_step {h : Hub} {E : Engine} (hd : DeadEmpty h) (hl : h.Locked) (hr : h.Running 0)
    (he : h.engines = [E]) (ha : E.alive = false) (op : HubOp) :
    (h.step op).engines = [E] ∧ (h.step op).byType = h.byType ∧ (h.step op).queues = h.queues := by
  cases op with
  | begin c call =>
    obtain ⟨h1, -, h3, h4⟩ := Hub.begin_frame h c call
    exact ⟨h4.trans he, h1, h3⟩
  | client c x =>
    obtain ⟨h1, -, h3, -, -⟩ := Hub.client_frame h c x
    refine ⟨?_, h1, h3⟩
    have hc := hr.calm c
    show (h.client c x).engines = _
    unfold Hub.client
    split
    · exact he
    next hp => rw [hp] at hc; exact absurd trivial hc
    next hp => rw [hp] at hc; exact absurd trivial hc
    next hp => rw [hp] at hc; exact absurd trivial hc
    · split <;> exact he
    · split
      next e hrd =>
        have : e = 0 := by simp [Hub.readAddr, hl.free hr.calm, hr.addr] at hrd; exact hrd.symm
        subst this
        simp [Hub.send, he, ha, Hub.go]
      · exact he
    · split <;> exact he
    · exact he
  | engine e =>
    have : h.engine e = h := by
      cases e with
      | succ e => simp [Hub.engine, he]
      | zero =>
        obtain ⟨h1, h2⟩ := hd E (by simp [he]) ha
        simp [Hub.engine, he, h1, h2]
    show (h.engine e).engines = _ ∧ (h.engine e).byType = _ ∧ (h.engine e).queues = _
    rw [this]
    exact ⟨he, rfl, rfl⟩

/-- Nothing was submitted. -/
structure Bare (h : Hub) : Prop where
  types : ∀ ty, h.byType ty = none
  queues : h.queues = []
  engines : ∀ E ∈ h.engines, E.mailbox = [] ∧ E.pc = .idle
  clients : ∀ c, match h.clients c with
    | .begun (.submit _ _) => False
    | .ask .. => False
    | .waiting .. => False
    | .reading .. => False
    | .done call r => ∀ r', refusal call = some r' → r = r'
    | .create call _ => refusal call = none
    | .lock call _ => refusal call = none
    | .write call _ => refusal call = none
    | .reread call => refusal call = none
    | _ => True

theorem bare_go {h : Hub} (hb : Bare h) (c : Nat) (pc : ClientPc) (hpc : match pc with
    | .begun (.submit _ _) => False
    | .ask .. => False
    | .waiting .. => False
    | .reading .. => False
    | .done call r => ∀ r', refusal call = some r' → r = r'
    | .create call _ => refusal call = none
    | .lock call _ => refusal call = none
    | .write call _ => refusal call = none
    | .reread call => refusal call = none
    | _ => True) : Bare (h.go c pc) := by
  refine ⟨hb.types, hb.queues, hb.engines, fun d => ?_⟩
  rw [Hub.go_clients]
  by_cases hd : d = c
  · rw [if_pos hd]; exact hpc
  · rw [if_neg hd]; exact hb.clients d

theorem bare_step {h : Hub} (hb : Bare h) (op : HubOp) (ho : ∀ c ty n, op ≠ .begin c (.submit ty n)) :
    Bare (h.step op) := by
  cases op with
  | begin c call =>
    have key : Bare (h.go c (.begun call)) := by
      refine bare_go hb c _ ?_
      cases call with
      | submit ty n => exact absurd rfl (ho c ty n)
      | _ => trivial
    show Bare (h.begin c call)
    unfold Hub.begin
    split
    · exact key
    · exact key
    · exact hb
  | client c x =>
    have hc := hb.clients c
    show Bare (h.client c x)
    unfold Hub.client
    split
    next call hp =>
      rw [hp] at hc
      refine bare_go hb c _ ?_
      cases call with
      | submit => exact hc.elim
      | start b =>
        simp only [Hub.look]
        cases h.readAddr <;> simp [refusal]
      | _ => simp [Hub.look, hb.types, refusal]
    next call b hp =>
      rw [hp] at hc
      have := bare_go hb c (.lock call h.engines.length) hc
      refine ⟨this.types, this.queues, fun E hE => ?_, this.clients⟩
      change E ∈ h.engines ++ [_] at hE
      rw [List.mem_append] at hE
      rcases hE with hE | hE
      · exact hb.engines E hE
      · simp at hE; subst hE; exact ⟨rfl, rfl⟩
    next call e hp =>
      rw [hp] at hc
      split
      · exact bare_go hb c _ hc
      · have := bare_go hb c (.write call e) hc
        exact ⟨this.types, this.queues, this.engines, this.clients⟩
    next call e hp =>
      rw [hp] at hc
      have := bare_go hb c (.reread call) hc
      exact ⟨this.types, this.queues, this.engines, this.clients⟩
    next call hp =>
      rw [hp] at hc
      split
      · exact bare_go hb c _ (fun r' h' => by rw [show refusal call = none from hc] at h'; cases h')
      · exact bare_go hb c _ (fun r' h' => by rw [show refusal call = none from hc] at h'; cases h')
    next hp => rw [hp] at hc; exact hc.elim
    next hp => rw [hp] at hc; exact hc.elim
    next => exact hb
  | engine e =>
    have : h.engine e = h := by
      cases hE : h.engines[e]? with
      | none => simp [Hub.engine, hE]
      | some E =>
        obtain ⟨h1, h2⟩ := hb.engines E (List.mem_of_getElem? hE)
        simp [Hub.engine, hE, h1, h2]
    show Bare (h.engine e)
    rw [this]; exact hb

end AJ
