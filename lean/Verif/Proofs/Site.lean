import Verif.Proofs.Answers
import Verif.Proofs.Many
import Verif.Spec.Site

/-! # A whole process: requests and turns -/

namespace AJ

/-! ## Where requests are in the registry -/

namespace Hub

/-- How the first lookup of a request ends. -/
def Ends : ApiCall → ApiResult → Prop
  | .start _, r => (∃ e, r = .engine e) ∨ r = .panic
  | .submit .., r => (∃ q, r = .answer q) ∨ r = .mailboxError ∨ r = .panic
  | .get _, r => (∃ q, r = .answer q) ∨ r = .none
  | .update .., r => r = .unit
  | _, r => (∃ q, r = .answer q) ∨ r = .noQueueRegister

/-- Where a client may be with its request. `again`: `update_job` is about to send its second message. -/
def Place (h : Hub) (call : ApiCall) : Bool → ClientPc → Prop
  | false, .begun c => c = call
  | false, .create c _ => c = call ∧ call.ty? = none
  | false, .lock c _ => c = call ∧ call.ty? = none
  | false, .write c _ => c = call ∧ call.ty? = none
  | false, .reread c => c = call ∧ call.ty? = none
  | false, .ask c ty n => c = call ∧ call = .submit ty n
  | false, .waiting c _ ty n => c = call ∧ call = .submit ty n
  | false, .reading c _ ty n => c = call ∧ call = .update ty n ∧ (h.byType ty).isSome
  | false, .done c r => c = call ∧ Ends call r
  | true, .done c r => c = call ∧ ∃ ty n q, call = .update ty n ∧ r = .answer q
  | _, _ => False

/-- Work queue `q` has been found. -/
def Found (call : ApiCall) (q : Nat) (pc : ClientPc) : Prop := pc = .done call (.answer q) ∨ ∃ ty n, pc = .reading call q ty n

variable {h : Hub}

theorem Place.mono {h' : Hub} (hm : ∀ ty, (h.byType ty).isSome → (h'.byType ty).isSome) {call : ApiCall} {again : Bool} {pc : ClientPc}
    (hp : h.Place call again pc) : h'.Place call again pc := by
  cases again <;> cases pc <;> first | exact hp | exact hp.elim | exact ⟨hp.1, hp.2.1, hm _ hp.2.2⟩

theorem send_clients (h : Hub) (c : Nat) (call : ApiCall) (e ty : Nat) (n : Str) (d : Nat) :
    (h.send c call e ty n).clients d =
      if d = c then (h.send c call e ty n).clients c else h.clients d := by
  by_cases hd : d = c
  · subst hd; simp
  · rw [if_neg hd]
    unfold send
    split
    · split
      · show (h.go c _).clients d = _; rw [go_clients, if_neg hd]
      · rw [go_clients, if_neg hd]
    · rw [go_clients, if_neg hd]

theorem send_place (h : Hub) (c : Nat) (e ty : Nat) (n : Str) :
    (h.send c (.submit ty n) e ty n).Place (.submit ty n) false ((h.send c (.submit ty n) e ty n).clients c) := by
  unfold send
  split
  · split
    · show Place _ _ _ ((h.go c _).clients c)
      rw [go_clients, if_pos rfl]
      exact ⟨rfl, rfl⟩
    · rw [go_clients, if_pos rfl]; exact ⟨rfl, .inr (.inl rfl)⟩
  · rw [go_clients, if_pos rfl]; exact ⟨rfl, .inr (.inl rfl)⟩

theorem client_clients (h : Hub) (c : Nat) (x : Bool) {d : Nat} (hd : d ≠ c) : (h.client c x).clients d = h.clients d := by
  have hg : ∀ pc, (h.go c pc).clients d = h.clients d := fun pc => by rw [go_clients, if_neg hd]
  unfold client
  split
  · exact hg _
  · exact hg _
  · split <;> exact hg _
  · exact hg _
  · split <;> exact hg _
  · split
    · rw [send_clients, if_neg hd]
    · exact hg _
  · split <;> exact hg _
  · rfl

theorem begin_clients (h : Hub) (c : Nat) (call : ApiCall) {d : Nat} (hd : d ≠ c) : (h.begin c call).clients d = h.clients d := by
  have hg : ∀ pc, (h.go c pc).clients d = h.clients d := fun pc => by rw [go_clients, if_neg hd]
  unfold begin
  split <;> first | exact hg _ | rfl

theorem look_place (h : Hub) (call : ApiCall) : h.Place call false (h.look call) := by
  cases call <;> simp only [look] <;> split <;>
    first
    | exact ⟨rfl, .inl ⟨_, rfl⟩⟩
    | exact ⟨rfl, rfl⟩
    | exact ⟨rfl, .inr rfl⟩
    | (rename_i hq; exact ⟨rfl, rfl, by rw [hq]; rfl⟩)

/-- A client goes on, if it does not wait for a work queue. -/
theorem place_client {call : ApiCall} {again : Bool} {c : Nat} (hp : h.Place call again (h.clients c)) (x : Bool)
    (hr : ∀ call q ty n, h.clients c ≠ .reading call q ty n) : (h.client c x).Place call again ((h.client c x).clients c) := by
  have same : ∀ h' : Hub, h'.byType = h.byType → ∀ pc, h.Place call again pc → h'.Place call again pc :=
    fun h' e pc hp => hp.mono fun ty hty => by rw [e]; exact hty
  have hb := (client_frame h c x).1
  cases hc : h.clients c with
  | begun call' =>
    rw [hc] at hp
    have he : (h.client c x).clients c = h.look call' := by simp [client, hc, go_clients]
    rw [he]
    cases again with
    | true => exact hp.elim
    | false =>
      have hp : call' = call := hp
      subst hp
      exact same _ hb _ (look_place h _)
  | create call' b =>
    rw [hc] at hp
    have he : (h.client c x).clients c = .lock call' h.engines.length := by simp only [client, hc]; show (h.go c _).clients c = _; rw [go_clients, if_pos rfl]
    rw [he]
    cases again with
    | true => exact hp.elim
    | false => exact hp
  | lock call' e =>
    rw [hc] at hp
    cases again with
    | true => exact hp.elim
    | false =>
      refine same _ hb _ ?_
      simp only [client, hc]
      split
      · rw [go_clients, if_pos rfl]; exact hp
      · show h.Place call false ((h.go c _).clients c); rw [go_clients, if_pos rfl]; exact hp
  | write call' e =>
    rw [hc] at hp
    cases again with
    | true => exact hp.elim
    | false =>
      refine same _ hb _ ?_
      simp only [client, hc]
      show h.Place call false ((h.go c _).clients c); rw [go_clients, if_pos rfl]; exact hp
  | reread call' =>
    rw [hc] at hp
    cases again with
    | true => exact hp.elim
    | false =>
      refine same _ hb _ ?_
      have hcall : ∃ b, call = .start b := by
        have := hp.2
        cases call <;> first | exact ⟨_, rfl⟩ | cases this
      obtain ⟨b, rfl⟩ := hcall
      simp only [client, hc]
      split
      · rw [go_clients, if_pos rfl]; exact ⟨hp.1, .inl ⟨_, rfl⟩⟩
      · rw [go_clients, if_pos rfl]; exact ⟨hp.1, .inr rfl⟩
  | ask call' ty n =>
    rw [hc] at hp
    cases again with
    | true => exact hp.elim
    | false =>
      obtain ⟨rfl, rfl⟩ := hp
      refine same _ hb _ ?_
      simp only [client, hc]
      split
      · next e he =>
        exact (send_place h c e ty n).mono fun ty' hty => by
          have := (send_frame h c (.submit ty n) e ty n)
          simp only [client, hc, he] at hb
          rw [← hb]; exact hty
      · rw [go_clients, if_pos rfl]; exact ⟨rfl, .inr (.inr rfl)⟩
  | reading call' q ty n => exact absurd hc (hr _ _ _ _)
  | idle => have he : h.client c x = h := by simp [client, hc]
            rw [he]; exact hp
  | waiting => have he : h.client c x = h := by simp [client, hc]
               rw [he]; exact hp
  | done => have he : h.client c x = h := by simp [client, hc]
            rw [he]; exact hp

theorem engine_types (h : Hub) (e ty : Nat) (hs : (h.byType ty).isSome) : ((h.engine e).byType ty).isSome := by
  unfold engine
  split
  · exact hs
  · split
    · split
      · exact hs
      · split <;> exact hs
    · split <;> exact hs
    · show (upd h.byType _ _ ty).isSome
      unfold upd
      split
      · rfl
      · exact hs
    · show ((h.answer _ _).byType ty).isSome
      rw [(answer_frame h _ _).2.2.2.1]; exact hs

theorem place_engine {call : ApiCall} {again : Bool} {c : Nat} (hp : h.Place call again (h.clients c)) (e : Nat) :
    (h.engine e).Place call again ((h.engine e).clients c) := by
  rcases engine_clients h e c with h1 | ⟨call', ty, n, h1, h2⟩ | ⟨E, m, q, call', e', ty, n, -, -, -, h1, h2⟩
  · rw [h1]; exact hp.mono (engine_types h e)
  · rw [h1] at hp
    rw [h2]
    cases again with
    | true => exact hp.elim
    | false => obtain ⟨rfl, rfl⟩ := hp; exact ⟨rfl, .inr (.inl rfl)⟩
  · rw [h1] at hp
    rw [h2]
    cases again with
    | true => exact hp.elim
    | false => obtain ⟨rfl, rfl⟩ := hp; exact ⟨rfl, .inl ⟨_, rfl⟩⟩

theorem Found.engine {call : ApiCall} {q c : Nat} (hf : Found call q (h.clients c)) (e : Nat) : Found call q ((h.engine e).clients c) := by
  rcases engine_clients h e c with h1 | ⟨_, _, _, h1, _⟩ | ⟨_, _, _, _, _, _, _, _, _, _, h1, _⟩
  · rw [h1]; exact hf
  · rcases hf with hf | ⟨_, _, hf⟩ <;> rw [h1] at hf <;> cases hf
  · rcases hf with hf | ⟨_, _, hf⟩ <;> rw [h1] at hf <;> cases hf

/-- The work queue found has the type of the request. -/
theorem Found.typed (ht : Typed h) {call : ApiCall} {q c : Nat} (hf : Found call q (h.clients c)) :
    ∃ a, h.queues[q]? = some a ∧ call.ty? = some a.ty := by
  have h1 := ht.client c
  rcases hf with hf | ⟨ty, n, hf⟩ <;> rw [hf] at h1
  · exact h1
  · obtain ⟨h2, a, h3, h4⟩ := h1
    exact ⟨a, h3, by rw [h2, h4]⟩

/-- Queues are only added. -/
theorem step_more (h : Hub) (op : HubOp) : ∃ more, (h.step op).queues = h.queues ++ more := by
  cases op with
  | begin c call => exact ⟨[], by show (h.begin c call).queues = _; rw [(begin_frame h c call).2.2.1, List.append_nil]⟩
  | client c x => exact ⟨[], by show (h.client c x).queues = _; rw [(client_frame h c x).2.2.1, List.append_nil]⟩
  | engine e =>
    show ∃ more, (h.engine e).queues = _
    unfold engine
    split
    · exact ⟨[], (List.append_nil _).symm⟩
    · split
      · split
        · exact ⟨[], (List.append_nil _).symm⟩
        · split <;> exact ⟨[], (List.append_nil _).symm⟩
      · split <;> exact ⟨[], (List.append_nil _).symm⟩
      · exact ⟨_, rfl⟩
      · exact ⟨[], by show (h.answer _ _).queues = _; rw [(answer_frame h _ _).2.2.2.2.2, List.append_nil]⟩

end Hub

/-! ## What a client has seen -/

section
variable {D O : Type} {qs : List QueueActor} {c : Nat}

theorem Turned.more {req : Req D} {op : Op D O} {r : Resp D} {e : SiteEvent D O} (h : Turned qs c req op r e) (more : List QueueActor) :
    Turned (qs ++ more) c req op r e := by
  obtain ⟨q, a, h1, h2⟩ := h
  exact ⟨q, a, by rw [List.getElem?_append_left (List.getElem?_eq_some_iff.1 h1).1]; exact h1, h2⟩

theorem Finished.more {req : Req D} {evs : List (SiteEvent D O)} {r : Reply D} (h : Finished qs c req evs r) (more : List QueueActor) :
    Finished (qs ++ more) c req evs r := by
  cases h with
  | served _ op r e h1 h2 h3 => exact .served _ op r e h1 h2 (h3.more more)
  | refused _ r h => exact .refused _ r h
  | updated ty n id data context j r e e' h1 h2 => exact .updated ty n id data context j r e e' (h1.more more) (h2.more more)
  | missing ty n id data context r e h1 h2 => exact .missing ty n id data context r e h1 (h2.more more)

theorem Calls.more {l : List (SiteEvent D O)} (h : Calls qs c l) (more : List QueueActor) : Calls (qs ++ more) c l := by
  induction h with
  | nil => exact .nil
  | snoc l req evs r _ hf ih => exact .snoc l req evs r ih (hf.more more)

/-- The turns of a request that is about to send `op`. -/
inductive Under (qs : List QueueActor) (c : Nat) (req : Req D) : Option (Op D O) → Bool → List (SiteEvent D O) → Prop where
  | first : Under qs c req req.op false []
  | again (ty n id data context) (j : Job D) (e) : req = .update ty n id data context → Turned qs c req (.get id) (.job (some j)) e →
      Under qs c req (some (updated j data context)) true [e]

theorem Under.more {req : Req D} {op : Option (Op D O)} {again : Bool} {evs : List (SiteEvent D O)} (h : Under qs c req op again evs)
    (more : List QueueActor) : Under (qs ++ more) c req op again evs := by
  cases h with
  | first => exact .first
  | again ty n id data context j e h1 h2 => exact .again ty n id data context j e h1 (h2.more more)

/-- What client `c` has seen of its present request. -/
def Now (qs : List QueueActor) (c : Nat) : User D O → List (SiteEvent D O) → Prop
  | .free, now => now = []
  | .asking req op again, now => ∃ evs, now = .call c req :: evs ∧ Under qs c req op again evs
  | .posted req op again _, now => ∃ evs, now = .call c req :: evs ∧ Under qs c req (some op) again evs
  | .told req again r, now => ∃ evs op e, now = .call c req :: (evs ++ [e]) ∧ Under qs c req (some op) again evs ∧ Turned qs c req op r e
  | .done _ _, now => now = []

theorem Now.more {u : User D O} {now : List (SiteEvent D O)} (h : Now qs c u now) (more : List QueueActor) : Now (qs ++ more) c u now := by
  cases u with
  | free => exact h
  | asking req op again => obtain ⟨evs, h1, h2⟩ := h; exact ⟨evs, h1, h2.more more⟩
  | posted req op again q => obtain ⟨evs, h1, h2⟩ := h; exact ⟨evs, h1, h2.more more⟩
  | told req again r => obtain ⟨evs, op, e, h1, h2, h3⟩ := h; exact ⟨evs, op, e, h1, h2.more more, h3.more more⟩
  | done req r => exact h

/-- What client `c` has seen. -/
def Tale (qs : List QueueActor) (c : Nat) (tr : List (SiteEvent D O)) (u : User D O) : Prop :=
  ∃ past now, tr = past ++ now ∧ Calls qs c past ∧ Now qs c u now

theorem Tale.more {tr : List (SiteEvent D O)} {u : User D O} (h : Tale qs c tr u) (more : List QueueActor) : Tale (qs ++ more) c tr u := by
  obtain ⟨past, now, h1, h2, h3⟩ := h
  exact ⟨past, now, h1, h2.more more, h3.more more⟩

theorem Tale.history {tr : List (SiteEvent D O)} {u : User D O} (h : Tale qs c tr u) : History qs c tr := by
  obtain ⟨past, now, h1, h2, h3⟩ := h
  have asked : ∀ {req : Req D} {op : Option (Op D O)} {again evs}, Under qs c req op again evs → Pending qs c req evs := by
    intro req op again evs hu
    cases hu with
    | first => exact .begun _
    | again ty n id data context j e h1 h2 => subst h1; exact .served _ _ _ e rfl h2
  refine ⟨past, now, h1, h2, ?_⟩
  cases u with
  | free => exact .inl h3
  | asking req op again => obtain ⟨evs, h4, h5⟩ := h3; exact .inr ⟨req, evs, h4, asked h5⟩
  | posted req op again q => obtain ⟨evs, h4, h5⟩ := h3; exact .inr ⟨req, evs, h4, asked h5⟩
  | told req again r =>
    obtain ⟨evs, op, e, h4, h5, h6⟩ := h3
    refine .inr ⟨req, _, h4, ?_⟩
    generalize ho : some op = o at h5
    cases h5 with
    | first => exact .served _ op r e ho.symm h6
    | again ty n id data context j e' h7 h8 =>
      cases ho
      subst h7
      exact .updated ty n id data context j r e' e h8 h6
  | done req r => exact .inl h3

theorem Tale.call {tr : List (SiteEvent D O)} {u : User D O} (h : Tale qs c tr u) (hu : u = .free ∨ ∃ req r, u = .done req r) (req : Req D) :
    Tale qs c (tr ++ [.call c req]) (.asking req req.op false) := by
  obtain ⟨past, now, h1, h2, h3⟩ := h
  have : now = [] := by rcases hu with rfl | ⟨_, _, rfl⟩ <;> exact h3
  subst this
  exact ⟨past, [.call c req], by rw [h1, List.append_nil], h2, [], rfl, .first⟩

theorem Tale.posted {tr : List (SiteEvent D O)} {req : Req D} {op : Op D O} {again : Bool} (h : Tale qs c tr (.asking req (some op) again)) (q : Nat) :
    Tale qs c tr (.posted req op again q) := h

theorem Tale.told {tr : List (SiteEvent D O)} {req : Req D} {op : Op D O} {again : Bool} {q : Nat} (h : Tale qs c tr (.posted req op again q))
    {r : Resp D} {e : SiteEvent D O} (he : Turned qs c req op r e) : Tale qs c (tr ++ [e]) (.told req again r) := by
  obtain ⟨past, now, h1, h2, evs, h3, h4⟩ := h
  exact ⟨past, now ++ [e], by rw [h1, List.append_assoc], h2, evs, op, e, by rw [h3]; rfl, h4, he⟩

theorem Tale.ret {tr : List (SiteEvent D O)} {past : List (SiteEvent D O)} {req : Req D} {evs : List (SiteEvent D O)} {r : Reply D}
    (h1 : tr = past ++ .call c req :: evs) (h2 : Calls qs c past) (hf : Finished qs c req evs r) :
    Tale qs c (tr ++ [.ret c req r]) (.done req r : User D O) :=
  ⟨_, [], by rw [h1, List.append_nil, List.append_assoc], .snoc past req evs r h2 hf, rfl⟩

end

/-! ## The process -/

namespace Site
variable {D O : Type}

/-- The place of a client in the registry fits the place of its request. -/
def Link (h : Hub) (pc : ClientPc) : User D O → Prop
  | .free => pc = .idle
  | .asking req _ again => h.Place req.call again pc
  | .posted req _ again q => h.Place req.call again pc ∧ Hub.Found req.call q pc
  | .told req again _ => h.Place req.call again pc ∧ ∃ q, Hub.Found req.call q pc
  | .done _ _ => ∃ call r, pc = .done call r

theorem Link.mono {h h' : Hub} (hm : ∀ ty, (h.byType ty).isSome → (h'.byType ty).isSome) {pc : ClientPc} {u : User D O}
    (hl : Link h pc u) : Link h' pc u := by
  cases u with
  | free => exact hl
  | asking req op again => exact Hub.Place.mono hm hl
  | posted req op again q => exact ⟨hl.1.mono hm, hl.2⟩
  | told req again r => exact ⟨hl.1.mono hm, hl.2⟩
  | done req r => exact hl

theorem Link.engine {h : Hub} {c : Nat} {u : User D O} (hl : Link h (h.clients c) u) (e : Nat) : Link (h.engine e) ((h.engine e).clients c) u := by
  have keep : ∀ pc, h.clients c = pc → (∀ call e ty n, pc ≠ .waiting call e ty n) → (h.engine e).clients c = pc := by
    intro pc hpc hw
    rcases h.engine_clients e c with h1 | ⟨_, _, _, h1, _⟩ | ⟨_, _, _, _, _, _, _, _, _, _, h1, _⟩
    · rw [h1, hpc]
    · exact absurd (hpc.symm.trans h1) (hw _ _ _ _)
    · exact absurd (hpc.symm.trans h1) (hw _ _ _ _)
  cases u with
  | free => exact keep _ hl (by simp)
  | asking req op again => exact Hub.place_engine hl e
  | posted req op again q => exact ⟨Hub.place_engine hl.1 e, hl.2.engine e⟩
  | told req again r => exact ⟨Hub.place_engine hl.1 e, hl.2.choose, hl.2.choose_spec.engine e⟩
  | done req r => obtain ⟨call, r, h1⟩ := hl; exact ⟨call, r, keep _ h1 (by simp)⟩

theorem Link.client {h : Hub} {c : Nat} {u : User D O} (hl : Link h (h.clients c) u) (x : Bool)
    (hr : ∀ call q ty n, h.clients c ≠ .reading call q ty n) : Link (h.client c x) ((h.client c x).clients c) u := by
  have stay : (∃ call r, h.clients c = .done call r) ∨ h.clients c = .idle → h.client c x = h := by
    rintro (⟨call, r, h1⟩ | h1) <;> simp [Hub.client, h1]
  have found : ∀ {call q}, Hub.Found call q (h.clients c) → h.client c x = h := by
    rintro call q (h1 | ⟨ty, n, h1⟩)
    · exact stay (.inl ⟨_, _, h1⟩)
    · exact absurd h1 (hr _ _ _ _)
  cases u with
  | free => rw [stay (.inr hl)]; exact hl
  | asking req op again => exact Hub.place_client hl x hr
  | posted req op again q => rw [found hl.2]; exact hl
  | told req again r => rw [found hl.2.choose_spec]; exact hl
  | done req r => obtain ⟨call, r, h1⟩ := hl; rw [stay (.inl ⟨_, _, h1⟩)]; exact ⟨call, r, h1⟩

variable {E : Nat → Env D} {B : Backend} {clk : Nat → Nat → Time}

/-- Registry, mailboxes, clients and what has been seen fit together. -/
structure Links (t : Site D O B) : Prop where
  typed : t.hub.Typed
  users : ∀ c, Link t.hub (t.hub.clients c) (t.users c)
  mail : ∀ q c op, (c, op) ∈ (t.boxes q).mailbox ↔ ∃ req again, t.users c = .posted req op again q
  nodup : ∀ q, ((t.boxes q).mailbox.map Prod.fst).Nodup
  tale : ∀ c, Tale t.hub.queues c (t.trace.filter (·.of c)) (t.users c)

theorem links_init (s : Nat → B.S) : Links (init B s : Site D O B) :=
  ⟨Hub.typed_init, fun _ => rfl, fun _ _ _ => ⟨fun h => (by cases h), fun ⟨_, _, h⟩ => (by cases h)⟩, fun _ => .nil,
    fun _ => ⟨[], [], rfl, .nil, rfl⟩⟩

variable {t : Site D O B}

/-- A step of the registry. -/
theorem Links.hub (h : Links t) (op : HubOp) (hl : ∀ c, Link (t.hub.step op) ((t.hub.step op).clients c) (t.users c)) :
    Links { t with hub := t.hub.step op } := by
  obtain ⟨more, hm⟩ := t.hub.step_more op
  refine ⟨Hub.typed_step h.typed op, hl, h.mail, h.nodup, fun c => ?_⟩
  show Tale (t.hub.step op).queues c _ _
  rw [hm]
  exact (h.tale c).more more

/-- A client goes from a place without message to another. -/
theorem Links.move (h : Links t) {c : Nat} {u : User D O} {evs : List (SiteEvent D O)} {hub : Hub} (ht : hub.Typed) (hq : hub.queues = t.hub.queues)
    (hd : ∀ d, d ≠ c → Link hub (hub.clients d) (t.users d)) (hc : Link hub (hub.clients c) u)
    (hn : ∀ req op again q, t.users c ≠ .posted req op again q) (hn' : ∀ req op again q, u ≠ .posted req op again q)
    (he : ∀ d, d ≠ c → evs.filter (·.of d) = []) (htale : Tale t.hub.queues c (t.trace.filter (·.of c) ++ evs.filter (·.of c)) u) :
    Links { t with hub := hub, users := upd t.users c u, trace := t.trace ++ evs } := by
  refine ⟨ht, fun d => ?_, fun q d op => ?_, h.nodup, fun d => ?_⟩
  · show Link hub (hub.clients d) (upd t.users c u d)
    by_cases e : d = c
    · subst e; rw [upd_same]; exact hc
    · simp only [upd, if_neg e]; exact hd d e
  · rw [h.mail]
    show _ ↔ ∃ req again, upd t.users c u d = _
    by_cases e : d = c
    · subst e
      rw [upd_same]
      exact ⟨fun ⟨_, _, h1⟩ => absurd h1 (hn _ _ _ _), fun ⟨_, _, h1⟩ => absurd h1 (hn' _ _ _ _)⟩
    · simp only [upd, if_neg e]
  · show Tale hub.queues d ((t.trace ++ evs).filter (·.of d)) (upd t.users c u d)
    rw [hq, List.filter_append]
    by_cases e : d = c
    · subst e; rw [upd_same]; exact htale
    · simp only [upd, if_neg e]
      rw [he d e, List.append_nil]
      exact h.tale d

theorem links_begin (h : Links t) (c : Nat) (req : Req D) : Links (t.begin B c req) := by
  have hu : ∀ u, t.users c = u → (u = .free ∨ ∃ req r, u = .done req r) →
      Links (({ t with hub := t.hub.begin c req.call }.go B c (.asking req req.op false)).see B (.call c req)) := by
    intro u hu hf
    have hl := h.users c
    have hb : (t.hub.begin c req.call).clients c = .begun req.call := by
      rw [hu] at hl
      rcases hf with rfl | ⟨_, _, rfl⟩
      · have hl : t.hub.clients c = .idle := hl
        simp [Hub.begin, hl, Hub.go_clients]
      · obtain ⟨call, r, hl⟩ := hl
        simp [Hub.begin, hl, Hub.go_clients]
    refine h.move (hub := t.hub.begin c req.call) (Hub.typed_begin h.typed c req.call) (Hub.begin_frame _ _ _).2.2.1 (fun d hd => ?_) ?_ ?_ (by simp) ?_ ?_
    · rw [Hub.begin_clients _ _ _ hd]
      exact (h.users d).mono fun ty hty => by rw [(Hub.begin_frame _ _ _).1]; exact hty
    · rw [hb]; rfl
    · rw [hu]; rcases hf with rfl | ⟨_, _, rfl⟩ <;> simp
    · intro d hd; simp [SiteEvent.of, Ne.symm hd]
    · have := (h.tale c)
      rw [hu] at this
      simpa [SiteEvent.of] using this.call hf req
  unfold begin
  cases h1 : t.users c with
  | free => exact hu _ h1 (.inl rfl)
  | done req' r => exact hu _ h1 (.inr ⟨_, _, rfl⟩)
  | asking => exact h
  | posted => exact h
  | told => exact h

theorem links_client (h : Links t) (c : Nat) (x : Bool) : Links (t.client B c x) := by
  unfold client
  split
  · exact h
  · next hr =>
    refine h.hub (.client c x) fun d => ?_
    by_cases e : d = c
    · subst e; exact (h.users d).client x hr
    · show Link (t.hub.client c x) ((t.hub.client c x).clients d) _
      rw [Hub.client_clients _ _ _ e]
      exact (h.users d).mono fun ty hty => by rw [(Hub.client_frame _ _ _).1]; exact hty

/-- A client returns. -/
theorem Links.fin (h : Links t) {c : Nat} {req : Req D} {r : Reply D} {hub : Hub} (ht : hub.Typed) (hq : hub.queues = t.hub.queues)
    (hd : ∀ d, d ≠ c → Link hub (hub.clients d) (t.users d)) (hc : ∃ call r, hub.clients c = .done call r)
    (hn : ∀ req op again q, t.users c ≠ .posted req op again q)
    (htale : Tale t.hub.queues c (t.trace.filter (·.of c) ++ [.ret c req r]) (.done req r : User D O)) :
    Links (({ t with hub := hub } : Site D O B).finish B c req r) := by
  refine h.move (hub := hub) (evs := [.ret c req r]) ht hq hd hc hn (by simp) (fun d hd => ?_) ?_
  · simp [SiteEvent.of, Ne.symm hd]
  · simpa [SiteEvent.of] using htale

/-- A client puts its message into the mailbox of the work queue it has found. -/
theorem links_send (h : Links t) {c : Nat} {req : Req D} {op : Op D O} {again : Bool} {q : Nat} (hu : t.users c = .asking req (some op) again)
    (hf : Hub.Found req.call q (t.hub.clients c)) : Links (t.send B c req op again q) := by
  have hl := h.users c
  rw [hu] at hl
  have hbox : ∀ p, ((t.send B c req op again q).boxes p).mailbox = if p = q then (t.boxes q).mailbox ++ [(c, op)] else (t.boxes p).mailbox := by
    intro p
    show (upd t.boxes q _ p).mailbox = _
    unfold upd
    split <;> rfl
  have husers : ∀ d, (t.send B c req op again q).users d = if d = c then .posted req op again q else t.users d := fun d => rfl
  have hno : ∀ p op', (c, op') ∉ (t.boxes p).mailbox := fun p op' hm => by
    obtain ⟨_, _, h1⟩ := (h.mail p c op').1 hm
    rw [hu] at h1; cases h1
  refine ⟨h.typed, fun d => ?_, fun p d op' => ?_, fun p => ?_, fun d => ?_⟩
  · rw [husers]
    split
    · next e => subst e; exact ⟨hl, hf⟩
    · exact h.users d
  · rw [hbox, husers]
    have h1 := h.mail p d op'
    by_cases e : d = c
    · subst e
      rw [if_pos rfl]
      constructor
      · intro hm
        split at hm
        · next e =>
          rcases List.mem_append.1 hm with hm | hm
          · exact absurd hm (hno _ _)
          · simp only [List.mem_singleton, Prod.mk.injEq, true_and] at hm
            subst hm; subst e; exact ⟨_, _, rfl⟩
        · exact absurd hm (hno _ _)
      · rintro ⟨req', again', h2⟩
        simp only [User.posted.injEq] at h2
        rw [if_pos h2.2.2.2.symm, h2.2.1]
        exact List.mem_append_right _ (List.mem_singleton.2 rfl)
    · rw [if_neg e, ← h1]
      split
      · next e' =>
        subst e'
        simp [e]
      · rfl
  · rw [hbox]
    split
    · rw [List.map_append, List.nodup_append]
      refine ⟨h.nodup q, by simp, ?_⟩
      intro x hx y hy
      simp only [List.map_cons, List.map_nil, List.mem_singleton] at hy
      subst hy
      rintro rfl
      obtain ⟨⟨d, op'⟩, h1, h2⟩ := List.mem_map.1 hx
      have h2 : d = x := h2
      subst h2
      exact hno q op' h1
    · exact h.nodup p
  · have h1 := h.tale d
    show Tale t.hub.queues d (t.trace.filter (·.of d)) ((t.send B c req op again q).users d)
    rw [husers]
    split
    · next e => subst e; rw [hu] at h1; exact h1.posted q
    · exact h1

theorem links_post (h : Links t) (c : Nat) : Links (t.post B c) := by
  unfold post
  split
  · next req op again hu =>
    have hl : t.hub.Place req.call again (t.hub.clients c) := by have hl := h.users c; rw [hu] at hl; exact hl
    obtain ⟨past, now, ht1, ht2, evs, ht3, ht4⟩ : Tale _ c _ (.asking req op again) := by have := h.tale c; rwa [hu] at this
    have short : ∀ {call r}, t.hub.clients c = .done call r → (∀ q, r = .answer q → op = none) → Links (t.finish B c req (.short r)) := by
      intro call r hc hr
      refine h.fin (hub := t.hub) h.typed rfl (fun d _ => h.users d) ⟨_, _, hc⟩ (by rw [hu]; simp) ?_
      rw [hc] at hl
      rw [ht1, ht3]
      refine Tale.ret rfl ht2 ?_
      cases ht4 with
      | again ty n id data context j e h1 h2 =>
        obtain ⟨_, _, _, q, _, h3⟩ := hl
        cases hr q h3
      | first =>
        refine .refused _ _ ?_
        obtain ⟨_, hl⟩ := hl
        have na : ∀ q, r = .answer q → req.op (O := O) ≠ none → False := fun q e h1 => h1 (hr q e)
        cases req with
        | start b => exact hl
        | update => exact hl
        | submit =>
          rcases hl with ⟨q, hl⟩ | hl
          · exact (na q hl (by simp [Req.op])).elim
          · exact hl
        | _ =>
          rcases hl with ⟨q, hl⟩ | hl
          · exact (na q hl (by simp [Req.op])).elim
          · exact hl
    split
    · next call q o hc =>
      have hcall : call = req.call := by
        rw [hc] at hl
        cases again with
        | false => exact hl.1
        | true => exact hl.1
      exact links_send h hu (.inl (by rw [hc, hcall]))
    · next call q ty n o hc =>
      split
      · exact h
      · next ha =>
        have : again = false := by simpa using ha
        subst this
        rw [hc] at hl
        exact links_send h hu (.inr ⟨ty, n, by rw [hc, hl.1]⟩)
    · next call r hc hx =>
      refine short hc fun q hq => ?_
      exact Option.eq_none_iff_forall_not_mem.2 fun o ho => hx q o ho hq
    · exact h
  · exact h

/-- A work queue takes a turn by itself. -/
theorem links_turn (h : Links t) (q : Nat) (op : Op D O) : Links (t.turn E B clk q op) := by
  unfold turn
  split
  · exact h
  · next a ha =>
    split
    · have hb : ∀ p, (((t.play E B clk q a none op).1).boxes p).mailbox = (t.boxes p).mailbox := by
        intro p
        show (upd t.boxes q _ p).mailbox = _
        unfold upd
        split
        · next e => subst e; rfl
        · rfl
      refine ⟨h.typed, h.users, fun p c o => ?_, fun p => ?_, fun c => ?_⟩
      · rw [hb]; exact h.mail p c o
      · rw [hb]; exact h.nodup p
      · show Tale t.hub.queues c ((t.trace ++ [_]).filter (·.of c)) (t.users c)
        rw [List.filter_append]
        simpa [SiteEvent.of] using h.tale c
    · exact h

/-- A message is handled, with answer `r`. -/
theorem Links.served (h : Links t) {q i c : Nat} {a : QueueActor} {op : Op D O} {req : Req D} {again : Bool} {r : Resp D} {t' : Site D O B}
    (ha : t.hub.queues[q]? = some a) (hi : (t.boxes q).mailbox[i]? = some (c, op)) (hu : t.users c = .posted req op again q) (hhub : t'.hub = t.hub)
    (hbox : ∀ p, (t'.boxes p).mailbox = if p = q then (t.boxes q).mailbox.eraseIdx i else (t.boxes p).mailbox)
    (husers : ∀ d, t'.users d = if d = c then .told req again r else t.users d) (htr : t'.trace = t.trace ++ [.turn q (some c) op r]) : Links t' := by
  have hl := h.users c
  rw [hu] at hl
  have htale := h.tale c
  rw [hu] at htale
  have hperm : ((c, op) :: (t.boxes q).mailbox.eraseIdx i).Perm (t.boxes q).mailbox := by
    obtain ⟨hlt, he⟩ := List.getElem?_eq_some_iff.1 hi
    rw [← he]
    exact List.getElem_cons_eraseIdx_perm hlt
  have hnd := h.nodup q
  rw [← (hperm.map Prod.fst).nodup_iff, List.map_cons, List.nodup_cons] at hnd
  have hty : ∃ a', t.hub.queues[q]? = some a' ∧ req.call.ty? = some a'.ty := hl.2.typed h.typed
  obtain ⟨a', h1, hty⟩ := hty
  rw [ha] at h1
  cases h1
  refine ⟨by rw [hhub]; exact h.typed, fun d => ?_, fun p d op' => ?_, fun p => ?_, fun d => ?_⟩
  · rw [husers, hhub]
    split
    · next e => subst e; exact ⟨hl.1, q, hl.2⟩
    · exact h.users d
  · rw [hbox, husers]
    by_cases e : d = c
    · subst e
      rw [if_pos rfl]
      refine ⟨fun hm => ?_, fun ⟨_, _, h1⟩ => by cases h1⟩
      split at hm
      · exact absurd (List.mem_map_of_mem hm) hnd.1
      · next e =>
        obtain ⟨_, _, h1⟩ := (h.mail p d op').1 hm
        rw [hu] at h1
        simp only [User.posted.injEq] at h1
        exact absurd h1.2.2.2.symm e
    · rw [if_neg e, ← h.mail]
      split
      · next e' =>
        subst e'
        rw [← hperm.mem_iff, List.mem_cons]
        simp [e]
      · rfl
  · rw [hbox]
    split
    · exact hnd.2
    · exact h.nodup p
  · rw [husers, hhub, htr, List.filter_append]
    split
    · next e =>
      subst e
      have : ([.turn q (some d) op r] : List (SiteEvent D O)).filter (·.of d) = [.turn q (some d) op r] := by simp [SiteEvent.of]
      rw [this]
      exact htale.told ⟨q, a, ha, hty, rfl⟩
    · next e =>
      have : ([.turn q (some c) op r] : List (SiteEvent D O)).filter (·.of d) = [] := by simp [SiteEvent.of, Ne.symm e]
      rw [this, List.append_nil]
      exact h.tale d

theorem links_handle (h : Links t) (q i : Nat) : Links (t.handle E B clk q i) := by
  unfold handle
  split
  · exact h
  · next a ha =>
    dsimp only
    generalize (if (t.boxes q).proc.alive then 0 else i) = i
    split
    · exact h
    · next c op hi =>
      obtain ⟨req, again, hu⟩ := (h.mail q c op).1 (List.mem_of_getElem? hi)
      rw [hu]
      dsimp only
      refine h.served ha hi hu (r := (t.play E B clk q a (some c) op).2) rfl (fun p => ?_) (fun d => rfl) rfl
      show (upd (upd t.boxes q _) q _ p).mailbox = _
      by_cases e : p = q
      · subst e; simp [upd, play, see]
      · simp [upd, e]

theorem links_take (h : Links t) (c : Nat) : Links (t.take B c) := by
  unfold take
  split
  · next ty name id data context r hu =>
    have hl := h.users c
    rw [hu] at hl
    obtain ⟨past, now, ht1, ht2, evs, op, e, ht3, ht4, ht5⟩ : Tale _ c _ (.told (.update ty name id data context) false r) := by
      have := h.tale c; rwa [hu] at this
    generalize ho : some op = o at ht4
    cases ht4
    have ho : op = .get id := by cases ho; rfl
    subst ho
    obtain ⟨hp, q, hf⟩ := hl
    have hread : ∃ q, t.hub.clients c = .reading (.update ty name) q ty name ∧ (t.hub.byType ty).isSome := by
      rcases hf with hf | ⟨ty', n', hf⟩
      · rw [hf] at hp
        cases hp.2
      · rw [hf] at hp
        obtain ⟨_, h1, h2⟩ := hp
        cases h1
        exact ⟨q, hf, h2⟩
    obtain ⟨q', hc, hsome⟩ := hread
    have hd : ∀ x d, d ≠ c → Link (t.hub.client c x) ((t.hub.client c x).clients d) (t.users d) := by
      intro x d hd
      rw [Hub.client_clients _ _ _ hd]
      exact (h.users d).mono fun ty hty => by rw [(Hub.client_frame _ _ _).1]; exact hty
    dsimp only
    split
    · next op hop =>
      obtain ⟨j, hj, hop'⟩ : ∃ j, r = .job (some j) ∧ op = updated j data context := by
        cases r with
        | job j =>
          cases j with
          | none => cases hop
          | some j => exact ⟨j, rfl, by cases hop; rfl⟩
        | unit => cases hop
        | bool => cases hop
        | silent => cases hop
      subst hj
      subst hop'
      have := h.move (c := c) (u := .asking (.update ty name id data context) (some (updated j data context)) true) (evs := [])
        (Hub.typed_client h.typed c true) (Hub.client_frame t.hub c true).2.2.1 (hd true) ?_ (by rw [hu]; simp) (by simp) (fun _ _ => rfl) ?_
      · rw [List.append_nil] at this; exact this
      · show (t.hub.client c true).Place (.update ty name) true ((t.hub.client c true).clients c)
        obtain ⟨q'', hq''⟩ := Option.isSome_iff_exists.1 hsome
        have : (t.hub.client c true).clients c = .done (.update ty name) (.answer q'') := by
          simp [Hub.client, hc, Hub.lookAgain, hq'', Hub.go_clients]
        rw [this]
        exact ⟨rfl, ty, name, q'', rfl, rfl⟩
      · rw [List.filter_nil, List.append_nil, ht1]
        exact ⟨past, now, rfl, ht2, [e], ht3, .again ty name id data context j e rfl ht5⟩
    · next hop =>
      have hr : ∀ j, r ≠ .job (some j) := by
        rintro j rfl
        cases hop
      refine h.fin (hub := t.hub.client c false) (Hub.typed_client h.typed c false) (Hub.client_frame t.hub c false).2.2.1 (hd false) ?_
        (by rw [hu]; simp) ?_
      · exact ⟨.update ty name, .unit, by simp [Hub.client, hc, Hub.go_clients]⟩
      · rw [ht1, ht3]
        exact Tale.ret rfl ht2 (.missing ty name id data context r e hr ht5)
  · next req again r hx hu =>
    have hl := h.users c
    rw [hu] at hl
    obtain ⟨past, now, ht1, ht2, evs, op, e, ht3, ht4, ht5⟩ : Tale _ c _ (.told req again r) := by
      have := h.tale c; rwa [hu] at this
    generalize ho : some op = o at ht4
    obtain ⟨hp, q, hf⟩ := hl
    have hdone : (∃ ty n id d x, req = .update ty n id d x) → again = false → False := by
      rintro ⟨ty, n, id, d, x, rfl⟩ rfl
      exact hx ty n id d x rfl rfl
    refine h.fin (hub := t.hub) h.typed rfl (fun d _ => h.users d) ?_ (by rw [hu]; simp) ?_
    · rcases hf with hf | ⟨ty, n, hf⟩
      · exact ⟨_, _, hf⟩
      · rw [hf] at hp
        cases again with
        | true => exact hp.elim
        | false =>
          obtain ⟨_, h1, _⟩ := hp
          refine (hdone ?_ rfl).elim
          cases req <;> first | exact ⟨_, _, _, _, _, rfl⟩ | cases h1
    · rw [ht1, ht3]
      cases ht4 with
      | first =>
        exact Tale.ret rfl ht2 (.served req op r e (fun ty n id d x hreq => hdone ⟨ty, n, id, d, x, hreq⟩ rfl) ho.symm ht5)
      | again ty n id data context j e' h1 h2 =>
        cases ho
        subst h1
        exact Tale.ret rfl ht2 (.updated ty n id data context j r e' e h2 ht5)
  · exact h

theorem links_step (h : Links t) (op : SiteOp D O) : Links (t.step E B clk op) := by
  cases op with
  | begin c req => exact links_begin h c req
  | client c x => exact links_client h c x
  | engine e => exact h.hub (.engine e) fun c => (h.users c).engine e
  | post c => exact links_post h c
  | handle q i => exact links_handle h q i
  | turn q op => exact links_turn h q op
  | take c => exact links_take h c

theorem links_run (h : Links t) (ops : List (SiteOp D O)) : Links (t.run E B clk ops) := by
  induction ops generalizing t with
  | nil => exact h
  | cons op ops ih => exact ih (links_step h op)

/-! ## Answers come -/

/-- A message stays in the mailbox, no further from the front, or it is handled. -/
theorem waits_step (h : Links t) {q n c : Nat} {op : Op D O} {a : QueueActor} (ha : t.hub.queues[q]? = some a)
    (hn : (t.boxes q).mailbox[n]? = some (c, op)) (o : SiteOp D O) :
    (∃ m, m ≤ n ∧ (o.takes q → m < n) ∧ ((t.step E B clk o).boxes q).mailbox[m]? = some (c, op)) ∨
      ∃ r, (t.step E B clk o).trace = t.trace ++ [.turn q (some c) op r] := by
  have stay : ∀ {t' : Site D O B}, o.takes q = false → (t'.boxes q).mailbox = (t.boxes q).mailbox →
      (∃ m, m ≤ n ∧ (o.takes q → m < n) ∧ (t'.boxes q).mailbox[m]? = some (c, op)) ∨ ∃ r, t'.trace = t.trace ++ [.turn q (some c) op r] :=
    fun h1 h2 => .inl ⟨n, Nat.le_refl _, fun h3 => (by rw [h1] at h3; cases h3), by rw [h2]; exact hn⟩
  cases o with
  | begin d req =>
    refine stay rfl ?_
    show ((t.begin B d req).boxes q).mailbox = _
    unfold begin
    cases t.users d <;> rfl
  | client d x =>
    refine stay rfl ?_
    show ((t.client B d x).boxes q).mailbox = _
    unfold client
    split <;> rfl
  | engine e => exact stay rfl rfl
  | post d =>
    have hsend : ∀ req o again p, ((t.send B d req o again p).boxes q).mailbox[n]? = some (c, op) := by
      intro req o again p
      show (upd t.boxes p _ q).mailbox[n]? = _
      unfold upd
      split
      · next e =>
        subst e
        rw [List.getElem?_append_left (List.getElem?_eq_some_iff.1 hn).1]
        exact hn
      · exact hn
    refine .inl ⟨n, Nat.le_refl _, fun h3 => (by cases h3), ?_⟩
    show ((t.post B d).boxes q).mailbox[n]? = _
    unfold post
    split
    · split
      · exact hsend ..
      · split
        · exact hn
        · exact hsend ..
      · exact hn
      · exact hn
    · exact hn
  | handle p i =>
    have hexp : t.step E B clk (.handle p i) = t.handle E B clk p i := rfl
    by_cases hpq : p = q
    · subst hpq
      have hlen : 0 < (t.boxes p).mailbox.length := Nat.lt_of_le_of_lt (Nat.zero_le _) (List.getElem?_eq_some_iff.1 hn).1
      rw [hexp]
      unfold handle
      rw [ha]
      dsimp only
      have htakes : (SiteOp.handle p i : SiteOp D O).takes p = true → i = 0 := by
        intro h1
        cases i with
        | zero => rfl
        | succ i => cases h1
      generalize hi' : (if (t.boxes p).proc.alive then 0 else i) = i'
      have hzero : (SiteOp.handle p i : SiteOp D O).takes p = true → i' = 0 := by
        intro h1
        rw [← hi', htakes h1]; split <;> rfl
      split
      · next hnone =>
        refine .inl ⟨n, Nat.le_refl _, fun h1 => ?_, hn⟩
        rw [hzero h1, List.getElem?_eq_none_iff] at hnone
        omega
      · next d o hi =>
        obtain ⟨req, again, hu⟩ := (h.mail p d o).1 (List.mem_of_getElem? hi)
        rw [hu]
        dsimp only
        have hbox : ∀ (t' : Site D O B) (u : User D O), t' = (t.play E B clk p a (some d) o).1 →
            ((({ t' with boxes := upd t'.boxes p { t'.boxes p with mailbox := (t'.boxes p).mailbox.eraseIdx i' } } : Site D O B).go B d
              u).boxes p).mailbox = (t.boxes p).mailbox.eraseIdx i' := by
          rintro t' u rfl
          show (upd (upd t.boxes p _) p _ p).mailbox = _
          rw [upd_same]
          show (upd t.boxes p _ p).mailbox.eraseIdx i' = _
          rw [upd_same]
        by_cases e : i' = n
        · right
          rw [e, hn] at hi
          cases hi
          exact ⟨_, rfl⟩
        · left
          by_cases hlt : i' < n
          · refine ⟨n - 1, by omega, fun _ => by omega, ?_⟩
            rw [hbox _ _ rfl, List.getElem?_eraseIdx_of_ge (by omega), Nat.sub_add_cancel (by omega)]
            exact hn
          · refine ⟨n, Nat.le_refl _, fun h1 => ?_, ?_⟩
            · have := hzero h1; omega
            · rw [hbox _ _ rfl, List.getElem?_eraseIdx_of_lt (by omega)]
              exact hn
    · refine stay (by cases i <;> simp [SiteOp.takes, hpq]) ?_
      rw [hexp]
      unfold handle
      split
      · rfl
      · dsimp only
        split
        · rfl
        · split
          · show (upd (upd t.boxes p _) p _ q).mailbox = _
            simp [upd, Ne.symm hpq]
          · rfl
  | turn p o =>
    refine stay rfl ?_
    show ((t.turn E B clk p o).boxes q).mailbox = _
    unfold turn
    split
    · rfl
    · split
      · show (upd t.boxes p _ q).mailbox = _
        unfold upd
        split
        · next e => subst e; rfl
        · rfl
      · rfl
  | take d =>
    refine stay rfl ?_
    show ((t.take B d).boxes q).mailbox = _
    unfold take
    split
    · dsimp only; split <;> rfl
    · rfl
    · rfl

theorem step_trace (t : Site D O B) (o : SiteOp D O) : ∃ l, (t.step E B clk o).trace = t.trace ++ l := by
  have same : ∀ {t' : Site D O B}, t'.trace = t.trace → ∃ l, t'.trace = t.trace ++ l := fun h => ⟨[], by rw [h, List.append_nil]⟩
  cases o with
  | begin d req =>
    show ∃ l, (t.begin B d req).trace = _
    unfold begin
    cases t.users d with
    | free => exact ⟨_, rfl⟩
    | done => exact ⟨_, rfl⟩
    | _ => exact same rfl
  | client d x =>
    show ∃ l, (t.client B d x).trace = _
    unfold client
    split <;> exact same rfl
  | engine e => exact same rfl
  | post d =>
    show ∃ l, (t.post B d).trace = _
    unfold post
    split
    · split
      · exact same rfl
      · split <;> exact same rfl
      · exact ⟨_, rfl⟩
      · exact same rfl
    · exact same rfl
  | handle p i =>
    show ∃ l, (t.handle E B clk p i).trace = _
    unfold handle
    split
    · exact same rfl
    · dsimp only
      split
      · exact same rfl
      · split
        · exact ⟨_, rfl⟩
        · exact same rfl
  | turn p o =>
    show ∃ l, (t.turn E B clk p o).trace = _
    unfold turn
    split
    · exact same rfl
    · split
      · exact ⟨_, rfl⟩
      · exact same rfl
  | take d =>
    show ∃ l, (t.take B d).trace = _
    unfold take
    split
    · dsimp only
      split
      · exact same rfl
      · exact ⟨_, rfl⟩
    · exact ⟨_, rfl⟩
    · exact same rfl

theorem step_own (t : Site D O B) (o : SiteOp D O) (h : ∀ q op r, .turn q none op r ∈ t.trace → op.Own) :
    ∀ q op r, .turn q none op r ∈ (t.step E B clk o).trace → op.Own := by
  have same : ∀ {t' : Site D O B}, t'.trace = t.trace → ∀ q op r, .turn q none op r ∈ t'.trace → op.Own := fun e => by rw [e]; exact h
  have one : ∀ {t' : Site D O B} {e}, t'.trace = t.trace ++ [e] → (∀ q op r, e = .turn q none op r → op.Own) →
      ∀ q op r, .turn q none op r ∈ t'.trace → op.Own := fun e hf q op r hm => by
    rw [e] at hm
    rcases List.mem_append.1 hm with hm | hm
    · exact h q op r hm
    · exact hf q op r (List.mem_singleton.1 hm).symm
  cases o with
  | begin d req =>
    show ∀ q op r, .turn q none op r ∈ (t.begin B d req).trace → op.Own
    unfold begin
    cases t.users d with
    | free => exact one rfl (by intro _ _ _ hh; cases hh)
    | done => exact one rfl (by intro _ _ _ hh; cases hh)
    | _ => exact same rfl
  | client d x =>
    show ∀ q op r, .turn q none op r ∈ (t.client B d x).trace → op.Own
    unfold client
    split <;> exact same rfl
  | engine e => exact same rfl
  | post d =>
    show ∀ q op r, .turn q none op r ∈ (t.post B d).trace → op.Own
    unfold post
    split
    · split
      · exact same rfl
      · split <;> exact same rfl
      · exact one rfl (by intro _ _ _ hh; cases hh)
      · exact same rfl
    · exact same rfl
  | handle p i =>
    show ∀ q op r, .turn q none op r ∈ (t.handle E B clk p i).trace → op.Own
    unfold handle
    split
    · exact same rfl
    · dsimp only
      split
      · exact same rfl
      · split
        · exact one rfl (by intro _ _ _ hh; cases hh)
        · exact same rfl
  | turn p o =>
    show ∀ q op r, .turn q none op r ∈ (t.turn E B clk p o).trace → op.Own
    unfold turn
    split
    · exact same rfl
    · split
      next hi =>
        refine one rfl ?_
        intro _ _ _ hh
        cases hh
        cases o <;> trivial
      · exact same rfl
  | take d =>
    show ∀ q op r, .turn q none op r ∈ (t.take B d).trace → op.Own
    unfold take
    split
    · dsimp only
      split
      · exact same rfl
      · exact one rfl (by intro _ _ _ hh; cases hh)
    · exact one rfl (by intro _ _ _ hh; cases hh)
    · exact same rfl

theorem run_own (t : Site D O B) (ops : List (SiteOp D O)) (h : ∀ q op r, .turn q none op r ∈ t.trace → op.Own) :
    ∀ q op r, .turn q none op r ∈ (t.run E B clk ops).trace → op.Own := by
  induction ops generalizing t with
  | nil => exact h
  | cons o ops ih => exact ih _ (step_own t o h)

theorem run_trace (t : Site D O B) (ops : List (SiteOp D O)) : ∃ l, (t.run E B clk ops).trace = t.trace ++ l := by
  induction ops generalizing t with
  | nil => exact ⟨[], (List.append_nil _).symm⟩
  | cons o ops ih =>
    obtain ⟨l, hl⟩ := step_trace (E := E) (clk := clk) t o
    obtain ⟨l', hl'⟩ := ih (t.step E B clk o)
    exact ⟨l ++ l', by show ((t.step E B clk o).run E B clk ops).trace = _; rw [hl', hl, List.append_assoc]⟩

theorem step_queues (t : Site D O B) (o : SiteOp D O) {q : Nat} {a : QueueActor} (ha : t.hub.queues[q]? = some a) :
    (t.step E B clk o).hub.queues[q]? = some a := by
  have hub : ∀ o' : HubOp, (t.hub.step o').queues[q]? = some a := fun o' => by
    obtain ⟨more, hm⟩ := t.hub.step_more o'
    rw [hm, List.getElem?_append_left (List.getElem?_eq_some_iff.1 ha).1]; exact ha
  cases o with
  | begin d req =>
    show (t.begin B d req).hub.queues[q]? = _
    unfold begin
    cases t.users d with
    | free => exact hub (.begin d req.call)
    | done => exact hub (.begin d req.call)
    | _ => exact ha
  | client d x =>
    show (t.client B d x).hub.queues[q]? = _
    unfold client
    split
    · exact ha
    · exact hub (.client d x)
  | engine e => exact hub (.engine e)
  | post d =>
    show (t.post B d).hub.queues[q]? = _
    unfold post
    split
    · split
      · exact ha
      · split <;> exact ha
      · exact ha
      · exact ha
    · exact ha
  | handle p i =>
    show (t.handle E B clk p i).hub.queues[q]? = _
    unfold handle
    split
    · exact ha
    · dsimp only
      split
      · exact ha
      · split <;> exact ha
  | turn p o =>
    show (t.turn E B clk p o).hub.queues[q]? = _
    unfold turn
    split
    · exact ha
    · split <;> exact ha
  | take d =>
    show (t.take B d).hub.queues[q]? = _
    unfold take
    split
    · dsimp only
      split
      · exact hub (.client d true)
      · exact hub (.client d false)
    · exact ha
    · exact ha

/-- A message is handled when the work queue has turned to the front of its mailbox often enough. -/
theorem waits_run (h : Links t) {q n c : Nat} {op : Op D O} {a : QueueActor} (ha : t.hub.queues[q]? = some a)
    (hn : (t.boxes q).mailbox[n]? = some (c, op)) (ops : List (SiteOp D O)) (hc : n < ops.countP (·.takes q)) :
    ∃ r l l', (t.run E B clk ops).trace = t.trace ++ l ++ .turn q (some c) op r :: l' := by
  induction ops generalizing t n with
  | nil => simp at hc
  | cons o ops ih =>
    rcases waits_step (E := E) (clk := clk) h ha hn o with ⟨m, h1, h2, h3⟩ | ⟨r, h1⟩
    · obtain ⟨l, hl⟩ := step_trace (E := E) (clk := clk) t o
      obtain ⟨r, l1, l2, h4⟩ := ih (links_step h o) (step_queues t o ha) h3 (by
        rw [List.countP_cons] at hc
        split at hc
        · next e => have := h2 e; omega
        · omega)
      exact ⟨r, l ++ l1, l2, by show ((t.step E B clk o).run E B clk ops).trace = _; rw [h4, hl]; simp⟩
    · obtain ⟨l', hl'⟩ := run_trace (E := E) (clk := clk) (t.step E B clk o) ops
      exact ⟨r, [], l', by show ((t.step E B clk o).run E B clk ops).trace = _; rw [hl', h1]; simp⟩

end Site
end AJ
