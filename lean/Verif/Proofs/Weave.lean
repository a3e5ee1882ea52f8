import Verif.Proofs.SiteOrigin
import Verif.Spec.Weave

/-! # Turns that interleave, one after the other: proofs -/

namespace AJ
open Prog

/-! ## Steps that are not about turns -/

/-- Not a step of a work queue. -/
def SiteOp.plain {D O : Type} : SiteOp D O → Bool
  | .handle _ _ => false
  | .turn _ _ => false
  | _ => true

namespace Site
variable {D O : Type} {E : Nat → Env D} {clk : Nat → Nat → Time} {B B' : Backend}

/-- The same for clients and engines. -/
structure Face (f : Site D O B) (t : Site D O B') : Prop where
  hub : f.hub = t.hub
  users : f.users = t.users
  trace : f.trace = t.trace
  mail : ∀ q, (f.boxes q).mailbox = (t.boxes q).mailbox

theorem Face.plain {f : Site D O B} {t : Site D O B'} (h : Face f t) {op : SiteOp D O} (hop : op.plain = true) :
    Face (f.step E B clk op) (t.step E B' clk op) := by
  obtain ⟨hub, boxes, stores, users, trace⟩ := f
  obtain ⟨hub', boxes', stores', users', trace'⟩ := t
  obtain ⟨h1, h2, h3, h4⟩ := h
  simp only at h1 h2 h3 h4
  subst h1 h2 h3
  cases op with
  | begin c req =>
    show Face (begin B _ c req) (begin B' _ c req)
    unfold begin
    dsimp only
    cases users c <;> exact ⟨rfl, rfl, rfl, h4⟩
  | client c x =>
    show Face (client B _ c x) (client B' _ c x)
    unfold client
    dsimp only
    cases hub.clients c <;> exact ⟨rfl, rfl, rfl, h4⟩
  | engine e => exact ⟨rfl, rfl, rfl, h4⟩
  | post c =>
    have send : ∀ q o, ∀ p, (upd boxes q { boxes q with mailbox := (boxes q).mailbox ++ [(c, o)] } p).mailbox =
        (upd boxes' q { boxes' q with mailbox := (boxes' q).mailbox ++ [(c, o)] } p).mailbox := by
      intro q o p
      unfold upd
      split
      · rw [h4]
      · exact h4 p
    show Face (post B _ c) (post B' _ c)
    unfold post
    dsimp only
    cases users c with
    | asking req op again =>
      dsimp only
      cases hub.clients c with
      | done call r =>
        cases r with
        | answer q =>
          cases op with
          | none => exact ⟨rfl, rfl, rfl, h4⟩
          | some o => exact ⟨rfl, rfl, rfl, send q o⟩
        | _ => cases op <;> exact ⟨rfl, rfl, rfl, h4⟩
      | reading _ q =>
        cases op with
        | none => exact ⟨rfl, rfl, rfl, h4⟩
        | some o =>
          cases again with
          | false => exact ⟨rfl, rfl, rfl, send q o⟩
          | true => exact ⟨rfl, rfl, rfl, h4⟩
      | _ => exact ⟨rfl, rfl, rfl, h4⟩
    | _ => exact ⟨rfl, rfl, rfl, h4⟩
  | handle => cases hop
  | turn => cases hop
  | take c =>
    show Face (take B _ c) (take B' _ c)
    unfold take
    dsimp only
    cases users c with
    | told req again r =>
      cases req with
      | update ty name id data context =>
        cases again with
        | false =>
          dsimp only
          split <;> exact ⟨rfl, rfl, rfl, h4⟩
        | true => exact ⟨rfl, rfl, rfl, h4⟩
      | _ => exact ⟨rfl, rfl, rfl, h4⟩
    | _ => exact ⟨rfl, rfl, rfl, h4⟩

/-- The work queues are where they were; more messages may have come. -/
structure Calm (t t' : Site D O B) : Prop where
  stores : t'.stores = t.stores
  box : ∀ q, (t'.boxes q).proc = (t.boxes q).proc ∧ (t'.boxes q).reads = (t.boxes q).reads ∧ (t'.boxes q).log = (t.boxes q).log
  mail : ∀ q, ∃ l, (t'.boxes q).mailbox = (t.boxes q).mailbox ++ l
  queues : ∃ more, t'.hub.queues = t.hub.queues ++ more

private theorem Calm.easy {t t' : Site D O B} (h1 : t'.stores = t.stores) (h2 : t'.boxes = t.boxes) (h3 : ∃ more, t'.hub.queues = t.hub.queues ++ more) :
    Calm t t' := ⟨h1, fun q => by rw [h2]; exact ⟨rfl, rfl, rfl⟩, fun q => ⟨[], by rw [h2]; simp⟩, h3⟩

theorem calm_plain (t : Site D O B) {op : SiteOp D O} (hop : op.plain = true) : Calm t (t.step E B clk op) := by
  have same : ∃ more, t.hub.queues = t.hub.queues ++ more := ⟨[], by simp⟩
  cases op with
  | begin c req =>
    show Calm t (begin B _ c req)
    unfold begin
    cases t.users c with
    | free => exact .easy rfl rfl (t.hub.step_more (.begin c req.call))
    | done => exact .easy rfl rfl (t.hub.step_more (.begin c req.call))
    | _ => exact .easy rfl rfl same
  | client c x =>
    show Calm t (client B _ c x)
    unfold client
    split
    · exact .easy rfl rfl same
    · exact .easy rfl rfl (t.hub.step_more (.client c x))
  | engine e => exact .easy rfl rfl (t.hub.step_more (.engine e))
  | post c =>
    have send : ∀ req o again q, Calm t (t.send B c req o again q) := by
      intro req o again q
      refine ⟨rfl, fun p => ?_, fun p => ?_, same⟩
      · show (upd t.boxes q _ p).proc = _ ∧ (upd t.boxes q _ p).reads = _ ∧ (upd t.boxes q _ p).log = _
        unfold upd
        split
        · next e => subst e; exact ⟨rfl, rfl, rfl⟩
        · exact ⟨rfl, rfl, rfl⟩
      · show ∃ l, (upd t.boxes q _ p).mailbox = _
        unfold upd
        split
        · next e => subst e; exact ⟨_, rfl⟩
        · exact ⟨[], by simp⟩
    show Calm t (post B _ c)
    unfold post
    split
    · split
      · exact send ..
      · split
        · exact .easy rfl rfl same
        · exact send ..
      · exact .easy rfl rfl same
      · exact .easy rfl rfl same
    · exact .easy rfl rfl same
  | handle => cases hop
  | turn => cases hop
  | take c =>
    show Calm t (take B _ c)
    unfold take
    split
    · dsimp only
      split
      · exact .easy rfl rfl (t.hub.step_more (.client c true))
      · exact .easy rfl rfl (t.hub.step_more (.client c false))
    · exact .easy rfl rfl same
    · exact .easy rfl rfl same

end Site

/-! ## Messages and turns in progress -/

namespace Weave
variable {D O : Type} {E : Nat → Env D} {clk : Nat → Nat → Time} {B : Backend}

/-- A turn in progress is a turn that the work queue may take. -/
structure Taken' (t : Site D O B) (q : Nat) (x : Inside D O) : Prop where
  queue : ∃ a, t.hub.queues[q]? = some a
  own : x.who = none → x.op.inner = true
  asked : ∀ c i, x.who = some (c, i) → (t.boxes q).mailbox[i]? = some (c, x.op) ∧ ((t.boxes q).proc.alive = true → i = 0)

structure Tidy (f : Weave D O B) : Prop where
  links : Site.Links f.site
  inside : ∀ q x, f.inside q = some x → Taken' f.site q x

theorem tidy_init (s : Nat → B.S) : Tidy (init B s : Weave D O B) := ⟨Site.links_init s, fun _ _ h => by cases h⟩

theorem Taken'.calm {t t' : Site D O B} (h : Site.Calm t t') {q : Nat} {x : Inside D O} (hx : Taken' t q x) : Taken' t' q x := by
  obtain ⟨a, ha⟩ := hx.queue
  refine ⟨⟨a, ?_⟩, hx.own, fun c i hw => ?_⟩
  · obtain ⟨more, hm⟩ := h.queues
    rw [hm, List.getElem?_append_left (List.getElem?_eq_some_iff.1 ha).1]
    exact ha
  · obtain ⟨l, hl⟩ := h.mail q
    obtain ⟨h1, h2⟩ := hx.asked c i hw
    rw [hl, (h.box q).1, List.getElem?_append_left (List.getElem?_eq_some_iff.1 h1).1]
    exact ⟨h1, h2⟩

variable {f : Weave D O B}

theorem step_plain {op : SiteOp D O} (h : op.plain = true) : f.step E B clk (.site op) = { f with site := f.site.step E B clk op } := by
  cases op with
  | handle => cases h
  | turn => cases h
  | _ => rfl

theorem enter_tidy (h : Tidy f) {q : Nat} {a : QueueActor} {who : Option (Nat × Nat)} {op : Op D O} (ht : Taken' f.site q ⟨who, op, .panic⟩) :
    Tidy (f.enter E B q a who op) := by
  refine ⟨h.links, fun p x hx => ?_⟩
  replace hx : upd f.inside q _ p = some x := hx
  unfold upd at hx
  split at hx
  · next e =>
    cases hx
    subst e
    exact ⟨ht.queue, ht.own, ht.asked⟩
  · exact h.inside p x hx

theorem move_calm (f : Weave D O B) (q : Nat) (a : QueueActor) (x : Inside D O) :
    (f.move B clk q a x).site.hub = f.site.hub ∧ (f.move B clk q a x).site.users = f.site.users ∧ (f.move B clk q a x).site.trace = f.site.trace ∧
      ∀ p, ((f.move B clk q a x).site.boxes p).mailbox = (f.site.boxes p).mailbox ∧ ((f.move B clk q a x).site.boxes p).proc = (f.site.boxes p).proc := by
  refine ⟨rfl, rfl, rfl, fun p => ?_⟩
  show (upd f.site.boxes q _ p).mailbox = _ ∧ (upd f.site.boxes q _ p).proc = _
  unfold upd
  split
  · next e => subst e; exact ⟨rfl, rfl⟩
  · exact ⟨rfl, rfl⟩

theorem links_face {t t' : Site D O B} (h : Site.Links t) (h' : Site.Face t' t) : Site.Links t' := by
  obtain ⟨hub, boxes, stores, users, trace⟩ := t
  obtain ⟨hub', boxes', stores', users', trace'⟩ := t'
  obtain ⟨h1, h2, h3, h4⟩ := h'
  simp only at h1 h2 h3 h4
  subst h1 h2 h3
  exact ⟨h.typed, h.users, fun q c op => by show (c, op) ∈ (boxes' q).mailbox ↔ _; rw [h4]; exact h.mail q c op,
    fun q => by show ((boxes' q).mailbox.map _).Nodup; rw [h4]; exact h.nodup q, h.tale⟩

/-- How a turn ends. -/
theorem leave_site (h : Tidy f) {q : Nat} {x : Inside D O} (hx : f.inside q = some x) (p : Proc D) (r : Resp D) :
    (f.leave B q x.who x.op p r).site.hub = f.site.hub ∧ (f.leave B q x.who x.op p r).site.stores = f.site.stores ∧
    (f.leave B q x.who x.op p r).site.trace = f.site.trace ++ [.turn q (x.who.map Prod.fst) x.op r] ∧
    (∀ o, o ≠ q → (f.leave B q x.who x.op p r).site.boxes o = f.site.boxes o) ∧
    (x.who = none → (f.leave B q x.who x.op p r).site.users = f.site.users ∧
      (f.leave B q x.who x.op p r).site.boxes q = { f.site.boxes q with proc := p }) ∧
    ∀ c i, x.who = some (c, i) → ∃ req again, f.site.users c = .posted req x.op again q ∧
      (f.leave B q x.who x.op p r).site.users = upd f.site.users c (.told req again r) ∧
      (f.leave B q x.who x.op p r).site.boxes q = { f.site.boxes q with proc := p, mailbox := (f.site.boxes q).mailbox.eraseIdx i } := by
  have ht := h.inside q x hx
  obtain ⟨who, op, rest⟩ := x
  cases who with
  | none =>
    refine ⟨rfl, rfl, rfl, fun o ho => ?_, fun _ => ⟨rfl, ?_⟩, fun c i hw => by cases hw⟩
    · show upd f.site.boxes q _ o = _
      simp [upd, ho]
    · show upd f.site.boxes q _ q = _
      simp [upd]
  | some w =>
    obtain ⟨c, i⟩ := w
    obtain ⟨h1, -⟩ := ht.asked c i rfl
    obtain ⟨req, again, hu⟩ := (h.links.mail q c op).1 (List.mem_of_getElem? h1)
    have e : (f.leave B q (some (c, i)) op p r).site = ({ ({ f.site with boxes := upd f.site.boxes q { f.site.boxes q with proc := p } } : Site D O B).see B
          (.turn q (some c) op r) with
        boxes := upd (upd f.site.boxes q { f.site.boxes q with proc := p }) q
          { (upd f.site.boxes q { f.site.boxes q with proc := p } q) with
            mailbox := (upd f.site.boxes q { f.site.boxes q with proc := p } q).mailbox.eraseIdx i } } : Site D O B).go B c (.told req again r) := by
      unfold leave
      simp only [hu]
      rfl
    simp only [e]
    refine ⟨rfl, rfl, rfl, fun o ho => ?_, fun hw => by (cases hw), fun c' i' hw => ?_⟩
    · show upd (upd f.site.boxes q _) q _ o = _
      simp [upd, ho]
    · cases hw
      refine ⟨req, again, hu, rfl, ?_⟩
      show upd (upd f.site.boxes q _) q _ q = _
      simp [upd]

theorem leave_links (h : Tidy f) {q : Nat} {x : Inside D O} (hx : f.inside q = some x) (p : Proc D) (r : Resp D) :
    Site.Links (f.leave B q x.who x.op p r).site := by
  obtain ⟨h1, -, h3, h4, h5, h6⟩ := leave_site h hx p r
  have ht := h.inside q x hx
  cases hw : x.who with
  | none =>
    obtain ⟨h7, h8⟩ := h5 hw
    rw [← hw]
    have hb : ∀ o, ((f.leave B q x.who x.op p r).site.boxes o).mailbox = (f.site.boxes o).mailbox := by
      intro o
      by_cases e : o = q
      · subst e; rw [h8]
      · rw [h4 o e]
    refine ⟨by rw [h1]; exact h.links.typed, fun c => by rw [h1, h7]; exact h.links.users c, fun o c op => ?_, fun o => ?_, fun c => ?_⟩
    · rw [hb, h7]; exact h.links.mail o c op
    · rw [hb]; exact h.links.nodup o
    · rw [h3, h7, h1, List.filter_append, hw]
      simpa [SiteEvent.of] using h.links.tale c
  | some w =>
    obtain ⟨c, i⟩ := w
    obtain ⟨req, again, hu, h7, h8⟩ := h6 c i hw
    obtain ⟨a, ha⟩ := ht.queue
    rw [← hw]
    refine h.links.served ha (ht.asked c i hw).1 hu (r := r) h1 (fun o => ?_) (fun d => ?_) (by rw [h3, hw]; rfl)
    · by_cases e : o = q
      · subst e; rw [h8, if_pos rfl]
      · rw [h4 o e, if_neg e]
    · rw [h7]; rfl

theorem go_cases {q : Nat} : f.go B clk q = f ∨ ∃ x a, f.inside q = some x ∧ f.site.hub.queues[q]? = some a ∧
    ((∃ p r, x.rest = .ret (p, r) ∧ f.go B clk q = f.leave B q x.who x.op p r) ∨
      (∀ a, x.rest ≠ .ret a) ∧ f.go B clk q = f.move B clk q a x) := by
  unfold go
  cases hx : f.inside q with
  | none => exact .inl rfl
  | some x =>
    cases ha : f.site.hub.queues[q]? with
    | none => exact .inl rfl
    | some a =>
      refine .inr ⟨x, a, rfl, rfl, ?_⟩
      obtain ⟨who, op, rest⟩ := x
      cases rest with
      | ret a => exact .inl ⟨a.1, a.2, rfl, rfl⟩
      | _ => exact .inr ⟨fun _ h => by (cases h), rfl⟩

theorem handle_cases (h : Tidy f) {q i : Nat} : f.handle E B q i = f ∨ ∃ a c op i', f.inside q = none ∧ f.site.hub.queues[q]? = some a ∧
    i' = (if (f.site.boxes q).proc.alive then 0 else i) ∧ (f.site.boxes q).mailbox[i']? = some (c, op) ∧
      f.handle E B q i = f.enter E B q a (some (c, i')) op := by
  unfold handle
  cases hx : f.inside q with
  | some x => exact .inl rfl
  | none =>
    cases ha : f.site.hub.queues[q]? with
    | none => exact .inl rfl
    | some a =>
      dsimp only
      cases hm : (f.site.boxes q).mailbox[(if (f.site.boxes q).proc.alive then 0 else i)]? with
      | none => exact .inl rfl
      | some w =>
        obtain ⟨c, op⟩ := w
        obtain ⟨req, again, hu⟩ := (h.links.mail q c op).1 (List.mem_of_getElem? hm)
        refine .inr ⟨a, c, op, _, rfl, rfl, rfl, hm, ?_⟩
        simp only [hu]

theorem turn_cases {q : Nat} {op : Op D O} : f.turn E B q op = f ∨ ∃ a, f.inside q = none ∧ f.site.hub.queues[q]? = some a ∧
    op.inner = true ∧ f.turn E B q op = f.enter E B q a none op := by
  unfold turn
  cases hx : f.inside q with
  | some x => exact .inl rfl
  | none =>
    cases ha : f.site.hub.queues[q]? with
    | none => exact .inl rfl
    | some a =>
      dsimp only
      split
      · next h => exact .inr ⟨a, rfl, rfl, h, rfl⟩
      · exact .inl rfl

theorem tidy_step (h : Tidy f) (op : WeaveOp D O) : Tidy (f.step E B clk op) := by
  have plain : ∀ op : SiteOp D O, op.plain = true → Tidy (f.step E B clk (.site op)) := fun op hop => by
    rw [step_plain hop]
    exact ⟨Site.links_step h.links op, fun q x hx => (h.inside q x hx).calm (Site.calm_plain f.site hop)⟩
  cases op with
  | site op =>
    cases op with
    | handle q i =>
      show Tidy (f.handle E B q i)
      rcases handle_cases (E := E) h (q := q) (i := i) with e | ⟨a, c, op, i', h1, h2, h3, h4, e⟩ <;> rw [e]
      · exact h
      · refine enter_tidy h ⟨⟨a, h2⟩, fun hw => by (cases hw), fun c' j hw => ?_⟩
        cases hw
        exact ⟨h4, fun hal => by rw [h3, if_pos hal]⟩
    | turn q op =>
      show Tidy (f.turn E B q op)
      rcases turn_cases (E := E) (f := f) (q := q) (op := op) with e | ⟨a, h1, h2, h3, e⟩ <;> rw [e]
      · exact h
      · exact enter_tidy h ⟨⟨a, h2⟩, fun _ => h3, fun c' j hw => by (cases hw)⟩
    | begin => exact plain _ rfl
    | client => exact plain _ rfl
    | engine => exact plain _ rfl
    | post => exact plain _ rfl
    | take => exact plain _ rfl
  | go q =>
    show Tidy (f.go B clk q)
    rcases go_cases (B := B) (clk := clk) (f := f) (q := q) with e | ⟨x, a, hx, ha, ⟨p, r, -, e⟩ | ⟨-, e⟩⟩ <;> rw [e]
    · exact h
    · refine ⟨leave_links h hx p r, fun o y hy => ?_⟩
      obtain ⟨h1, -, h3, h4, -⟩ := leave_site h hx p r
      replace hy : upd f.inside q none o = some y := hy
      unfold upd at hy
      split at hy
      · cases hy
      · next ho =>
        have := h.inside o y hy
        refine ⟨by rw [h1]; exact this.queue, this.own, fun c i hw => ?_⟩
        rw [h4 o ho]
        exact this.asked c i hw
    · obtain ⟨h1, h2, h3, h4⟩ := move_calm (clk := clk) f q a x
      refine ⟨links_face h.links ⟨h1, h2, h3, fun o => (h4 o).1⟩, fun o y hy => ?_⟩
      have key : ∀ z : Inside D O, f.inside o = some z → y.who = z.who → y.op = z.op → Taken' (f.move B clk q a x).site o y := by
        intro z hz e1 e2
        have := h.inside o z hz
        refine ⟨by rw [h1]; exact this.queue, fun hw => by rw [e2]; exact this.own (e1 ▸ hw), fun c i hw => ?_⟩
        rw [(h4 o).1, (h4 o).2, e2]
        exact this.asked c i (e1 ▸ hw)
      replace hy : upd f.inside q _ o = some y := hy
      unfold upd at hy
      split at hy
      · next ho => subst ho; cases hy; exact key x hx rfl rfl
      · exact key y hy rfl rfl

theorem tidy_run (h : Tidy f) (ops : List (WeaveOp D O)) : Tidy (f.run E B clk ops) := by
  induction ops generalizing f with
  | nil => exact h
  | cons op ops ih => exact ih (tidy_step h op)

theorem hub_step (hf : Tidy f) (op : WeaveOp D O) : f.site.hub.engines.length ≤ (f.step E B clk op).site.hub.engines.length := by
  cases op with
  | go q =>
    show _ ≤ (f.go B clk q).site.hub.engines.length
    rcases go_cases (B := B) (clk := clk) (f := f) (q := q) with e | ⟨x, a, hx, ha, ⟨p, r, -, e⟩ | ⟨-, e⟩⟩ <;> rw [e]
    · exact Nat.le_refl _
    · rw [(leave_site hf hx p r).1]; exact Nat.le_refl _
    · exact Nat.le_refl _
  | site op =>
    cases hop : op.plain with
    | true => rw [step_plain hop]; exact Site.step_length _ _
    | false =>
      cases op with
      | handle q i =>
        show _ ≤ (f.handle E B q i).site.hub.engines.length
        rcases handle_cases (E := E) hf (q := q) (i := i) with e | ⟨a, c, op, i', -, -, -, -, e⟩ <;> rw [e] <;> exact Nat.le_refl _
      | turn q op =>
        show _ ≤ (f.turn E B q op).site.hub.engines.length
        rcases turn_cases (E := E) (f := f) (q := q) (op := op) with e | ⟨a, -, -, -, e⟩ <;> rw [e] <;> exact Nat.le_refl _
      | _ => cases hop

theorem queue_step (hf : Tidy f) (op : WeaveOp D O) : ∀ a ∈ f.site.hub.queues, a ∈ (f.step E B clk op).site.hub.queues := by
  cases op with
  | go q =>
    show ∀ a ∈ _, a ∈ (f.go B clk q).site.hub.queues
    rcases go_cases (B := B) (clk := clk) (f := f) (q := q) with e | ⟨x, a, hx, ha, ⟨p, r, -, e⟩ | ⟨-, e⟩⟩ <;> rw [e]
    · exact fun _ h => h
    · rw [(leave_site hf hx p r).1]; exact fun _ h => h
    · exact fun _ h => h
  | site op =>
    cases hop : op.plain with
    | true => rw [step_plain hop]; exact Site.step_more _ _
    | false =>
      cases op with
      | handle q i =>
        show ∀ a ∈ _, a ∈ (f.handle E B q i).site.hub.queues
        rcases handle_cases (E := E) hf (q := q) (i := i) with e | ⟨a, c, op, i', -, -, -, -, e⟩ <;> rw [e] <;> exact fun _ h => h
      | turn q op =>
        show ∀ a ∈ _, a ∈ (f.turn E B q op).site.hub.queues
        rcases turn_cases (E := E) (f := f) (q := q) (op := op) with e | ⟨a, -, -, -, e⟩ <;> rw [e] <;> exact fun _ h => h
      | _ => cases hop

end Weave

/-! ## One turn after the other -/

section
variable {α : Type} {B : Backend} {clk : Nat → Time}

theorem Prog.step1_run (p : Prog α) (w : World B) : (p.step1 B clk w).1.run B clk (p.step1 B clk w).2 = p.run B clk w := by
  cases p <;> rfl

end

/-- The same end for work queue `name` with ids in `K`. -/
structure SameEnd {α : Type} (name : Str) (K : Str → Prop) (x y : Out α × World SpecB) : Prop where
  out : x.1 = y.1
  reads : x.2.t = y.2.t
  log : x.2.log = y.2.log
  part : SamePart name K x.2.s y.2.s

theorem SameEnd.trans {α : Type} {name : Str} {K : Str → Prop} {x y z : Out α × World SpecB} (h : SameEnd name K x y) (h' : SameEnd name K y z) :
    SameEnd name K x z := ⟨h.out.trans h'.out, h.reads.trans h'.reads, h.log.trans h'.log, h.part.trans h'.part⟩

theorem keeps_end {D : Type} {E : Env D} {name : Str} {K : Str → Prop} {clk : Nat → Time} {α : Type} {post : α → Prop} {p : Prog α}
    (hk : Keeps E name K post p) {s s' : SpecState} {n : Nat} {l : List Event} (ho : Own E name K s) (hs : SamePart name K s s') :
    SameEnd name K (p.run SpecB clk ⟨s, n, l⟩) (p.run SpecB clk ⟨s', n, l⟩) := by
  obtain ⟨h1, h2, h3, h4, -⟩ := keeps_run (clk := clk) hk (w := ⟨s, n, l⟩) (w' := ⟨s', n, l⟩) ho hs rfl rfl
  exact ⟨h1, h2, h3, h4⟩

namespace Weave
variable {D O : Type} {E : Nat → Env D} {clk : Nat → Nat → Time} {kind : Str → Nat}

/-- What work queue `q` has before it. -/
def world {B : Backend} (t : Site D O B) (q : Nat) (a : QueueActor) : World B := ⟨t.stores a.backend, (t.boxes q).reads, (t.boxes q).log⟩

/-- A turn in progress will end like the turn taken in one step. -/
structure Busy (E : Nat → Env D) (clk : Nat → Nat → Time) (kind : Str → Nat) (f t : Site D O SpecB) (q : Nat) (a : QueueActor) (x : Inside D O) : Prop where
  keeps : Keeps (E a.ty) a.name (kind · = a.ty) (fun _ => True) x.rest
  own : Own (E a.ty) a.name (kind · = a.ty) (f.stores a.backend)
  op : x.op.On (kind · = a.ty)
  same : SameEnd a.name (kind · = a.ty) (x.rest.run SpecB (clk q) (world f q a)) (((t.boxes q).proc.turn (E a.ty) a.name x.op).run SpecB (clk q) (world t q a))

/-- Interleaved turns, and the same turns one after the other. -/
structure Serial (E : Nat → Env D) (clk : Nat → Nat → Time) (kind : Str → Nat) (f : Weave D O SpecB) (t : Site D O SpecB) : Prop where
  face : Site.Face f.site t
  procs : ∀ q, (f.site.boxes q).proc = (t.boxes q).proc
  idle : ∀ q, f.inside q = none → (f.site.boxes q).reads = (t.boxes q).reads ∧ (f.site.boxes q).log = (t.boxes q).log
  calm : ∀ q a, t.hub.queues[q]? = some a → f.inside q = none → SamePart a.name (kind · = a.ty) (f.site.stores a.backend) (t.stores a.backend)
  busy : ∀ q a x, t.hub.queues[q]? = some a → f.inside q = some x → Busy E clk kind f.site t q a x
  blank : ∀ β n ty, (∀ (q : Nat) (a : QueueActor), t.hub.queues[q]? = some a → a.backend = β → a.name ≠ n ∧ a.ty ≠ ty) →
    SamePart n (kind · = ty) (f.site.stores β) (t.stores β)

theorem serial_init {s : Nat → SpecState} : Serial E clk kind (init SpecB s : Weave D O SpecB) (Site.init SpecB s) :=
  ⟨⟨rfl, rfl, rfl, fun _ => rfl⟩, fun _ => rfl, fun _ _ => ⟨rfl, rfl⟩, fun _ _ _ _ => .refl _, fun _ _ _ _ h => (by cases h), fun _ _ _ _ => .refl _⟩

variable {f : Weave D O SpecB} {t : Site D O SpecB} {S : Site.Base E kind}

theorem Serial.plain (h : Serial E clk kind f t) (hf : Tidy f) {op : SiteOp D O} (hop : op.plain = true)
    (ho : (t.step E SpecB clk op).hub.Once) : Serial E clk kind (f.step E SpecB clk (.site op)) (t.step E SpecB clk op) := by
  have hc := Site.calm_plain (E := E) (clk := clk) f.site hop
  have hc' := Site.calm_plain (E := E) (clk := clk) t hop
  rw [step_plain hop]
  revert hc hc' ho
  have hface := h.face.plain (E := E) (clk := clk) hop
  revert hface
  generalize f.site.step E SpecB clk op = f'
  generalize t.step E SpecB clk op = t'
  intro hface ho hc hc'
  obtain ⟨more, hm⟩ := hc'.queues
  have hold : ∀ {q : Nat} {a : QueueActor}, t.hub.queues[q]? = some a → t'.hub.queues[q]? = some a := by
    intro q a h1
    rw [hm, List.getElem?_append_left (List.getElem?_eq_some_iff.1 h1).1]; exact h1
  refine ⟨hface, fun q => ?_, fun q hq => ?_, fun q a ha hq => ?_, fun q a x ha hx => ?_, fun β n ty hn => ?_⟩
  · show (f'.boxes q).proc = _
    rw [(hc.box q).1, (hc'.box q).1]; exact h.procs q
  · show (f'.boxes q).reads = _ ∧ (f'.boxes q).log = _
    rw [(hc.box q).2.1, (hc'.box q).2.1, (hc.box q).2.2, (hc'.box q).2.2]; exact h.idle q hq
  · show SamePart _ _ (f'.stores a.backend) (t'.stores a.backend)
    rw [hc.stores, hc'.stores]
    by_cases e : q < t.hub.queues.length
    · have ha' := ha
      rw [hm, List.getElem?_append_left e] at ha'
      exact h.calm q a ha' hq
    · refine h.blank a.backend a.name a.ty fun p b hp _ => ⟨fun e' => ?_, fun e' => ?_⟩
      · have := ho.names p q b a (hold hp) ha e'
        exact absurd (List.getElem?_eq_some_iff.1 hp).1 (by omega)
      · have := ho.types p q b a (hold hp) ha e'
        exact absurd (List.getElem?_eq_some_iff.1 hp).1 (by omega)
  · obtain ⟨a', ha'⟩ := (hf.inside q x hx).queue
    rw [h.face.hub] at ha'
    have := hold ha'
    rw [ha] at this
    cases this
    obtain ⟨h1, h2, h3, h4⟩ := h.busy q a x ha' hx
    refine ⟨h1, by show Own _ _ _ (f'.stores a.backend); rw [hc.stores]; exact h2, h3, ?_⟩
    have e1 : world f' q a = world f.site q a := by unfold world; rw [hc.stores, (hc.box q).2.1, (hc.box q).2.2]
    have e2 : world t' q a = world t q a := by unfold world; rw [hc'.stores, (hc'.box q).2.1, (hc'.box q).2.2]
    show SameEnd _ _ (x.rest.run SpecB (clk q) (world f' q a)) _
    rw [e1, e2, (hc'.box q).1]
    exact h4
  · show SamePart _ _ (f'.stores β) (t'.stores β)
    rw [hc.stores, hc'.stores]
    exact h.blank β n ty fun q a ha => hn q a (hold ha)

theorem Serial.enter (L : ∀ ty, (E ty).Lawful) (h : Serial E clk kind f t) (hal : Site.AloneFrom E clk kind S t) {q : Nat} {a : QueueActor} (ha : t.hub.queues[q]? = some a)
    (hi : f.inside q = none) (who : Option (Nat × Nat)) {op : Op D O} (hop : op.On (kind · = a.ty)) :
    Serial E clk kind (f.enter E SpecB q a who op) t := by
  have hsome : ∀ p, (f.enter E SpecB q a who op).inside p = none → f.inside p = none := by
    intro p hp
    replace hp : upd f.inside q _ p = none := hp
    unfold upd at hp
    split at hp
    · cases hp
    · exact hp
  refine ⟨h.face, h.procs, fun p hp => h.idle p (hsome p hp), fun p b hb hp => h.calm p b hb (hsome p hp), fun p b x hb hx => ?_, h.blank⟩
  replace hx : upd f.inside q _ p = some x := hx
  unfold upd at hx
  split at hx
  · next e =>
    subst e
    rw [ha] at hb
    cases hb
    cases hx
    have hpart := h.calm p a ha hi
    have hown := (hal.own p a ha).agree hpart.symm
    have hk : Keeps (E a.ty) a.name (kind · = a.ty) (fun r => r.1.On (kind · = a.ty)) ((t.boxes p).proc.turn (E a.ty) a.name op) :=
      keeps_turn (L a.ty) (hal.on p a ha) hop
    refine ⟨?_, hown, hop, ?_⟩
    · show Keeps _ _ _ _ ((f.site.boxes p).proc.turn (E a.ty) a.name op)
      rw [h.procs]
      exact hk.weaken fun _ _ => trivial
    · show SameEnd _ _ (((f.site.boxes p).proc.turn (E a.ty) a.name op).run SpecB (clk p) (world f.site p a)) _
      rw [h.procs]
      unfold world
      rw [(h.idle p hi).1, (h.idle p hi).2]
      exact keeps_end hk hown hpart
  · exact h.busy p b x hb hx

/-- The backends change, but not for work queue `q`. -/
theorem Busy.others {f t f' t' : Site D O SpecB} {q : Nat} {a : QueueActor} {x : Inside D O} (h : Busy E clk kind f t q a x)
    (L : ∀ ty, (E ty).Lawful) (hal : Site.AloneFrom E clk kind S t) (ha : t.hub.queues[q]? = some a) (hf : f'.boxes q = f.boxes q) (ht : t'.boxes q = t.boxes q)
    (hfs : SamePart a.name (kind · = a.ty) (f.stores a.backend) (f'.stores a.backend))
    (hts : SamePart a.name (kind · = a.ty) (t.stores a.backend) (t'.stores a.backend)) : Busy E clk kind f' t' q a x := by
  refine ⟨h.keeps, h.own.agree hfs, h.op, ?_⟩
  have h1 : SameEnd a.name (kind · = a.ty) (x.rest.run SpecB (clk q) (world f' q a)) (x.rest.run SpecB (clk q) (world f q a)) := by
    unfold world
    rw [hf]
    exact keeps_end h.keeps (h.own.agree hfs) hfs.symm
  have h2 : SameEnd a.name (kind · = a.ty) (((t.boxes q).proc.turn (E a.ty) a.name x.op).run SpecB (clk q) (world t q a))
      (((t'.boxes q).proc.turn (E a.ty) a.name x.op).run SpecB (clk q) (world t' q a)) := by
    unfold world
    rw [ht]
    exact keeps_end (keeps_turn (L a.ty) (hal.on q a ha) h.op) (hal.own q a ha) hts
  exact (h1.trans h.same).trans h2

theorem Serial.move (L : ∀ ty, (E ty).Lawful) (h : Serial E clk kind f t) (hal : Site.AloneFrom E clk kind S t) (ho : t.hub.Once) {q : Nat} {a : QueueActor}
    {x : Inside D O} (ha : t.hub.queues[q]? = some a) (hx : f.inside q = some x) : Serial E clk kind (f.move SpecB clk q a x) t := by
  have hb := h.busy q a x ha hx
  obtain ⟨h1, h2, h3, h4⟩ := move_calm (clk := clk) f q a x
  have hstore : ∀ β, (f.move SpecB clk q a x).site.stores β =
      if β = a.backend then (x.rest.step1 SpecB (clk q) (world f.site q a)).2.s else f.site.stores β := fun β => rfl
  have hbox : ∀ p, p ≠ q → (f.move SpecB clk q a x).site.boxes p = f.site.boxes p := by
    intro p hp
    show upd f.site.boxes q _ p = _
    simp [upd, hp]
  have hin : ∀ p, p ≠ q → (f.move SpecB clk q a x).inside p = f.inside p := by
    intro p hp
    show upd f.inside q _ p = _
    simp [upd, hp]
  have hself : (f.move SpecB clk q a x).inside q = some { x with rest := (x.rest.step1 SpecB (clk q) (world f.site q a)).1 } := by
    show upd f.inside q _ q = _
    simp [upd, world]
  have hother : ∀ β n ty, n ≠ a.name → ty ≠ a.ty → SamePart n (kind · = ty) (f.site.stores β) ((f.move SpecB clk q a x).site.stores β) := by
    intro β n ty hn hty
    rw [hstore]
    split
    · next e =>
      subst e
      have hk := hb.keeps
      cases hr : x.rest with
      | call op k =>
        rw [hr] at hk
        exact other_agree (Ne.symm hn) (fun k (h6 : kind k = ty) (h7 : kind k = a.ty) => hty (h6.symm.trans h7)) hk.1 _
      | _ => exact .refl _
    · exact .refl _
  have hne : ∀ {p : Nat} {b : QueueActor}, t.hub.queues[p]? = some b → p ≠ q → b.name ≠ a.name ∧ b.ty ≠ a.ty := fun hp hpq =>
    ⟨fun e => hpq (ho.names _ _ _ _ hp ha e), fun e => hpq (ho.types _ _ _ _ hp ha e)⟩
  refine ⟨⟨h1.trans h.face.hub, h2.trans h.face.users, h3.trans h.face.trace, fun p => (h4 p).1.trans (h.face.mail p)⟩,
    fun p => (h4 p).2.trans (h.procs p), fun p hp => ?_, fun p b hp hi => ?_, fun p b y hp hy => ?_, fun β n ty hn => ?_⟩
  · by_cases e : p = q
    · subst e; rw [hself] at hp; cases hp
    · rw [hbox p e]; rw [hin p e] at hp; exact h.idle p hp
  · by_cases e : p = q
    · subst e; rw [hself] at hi; cases hi
    · rw [hin p e] at hi
      exact (hother b.backend b.name b.ty (hne hp e).1 (hne hp e).2).symm.trans (h.calm p b hp hi)
  · by_cases e : p = q
    · subst e
      rw [ha] at hp
      cases hp
      rw [hself] at hy
      cases hy
      obtain ⟨k1, k2⟩ := Rely.step1 (B := SpecB) (clk := clk p) (own_keep (E := E a.ty) (name := a.name) (K := (kind · = a.ty))) hb.keeps
        (w := world f.site p a) hb.own
      have hw : world (f.move SpecB clk p a x).site p a = (x.rest.step1 SpecB (clk p) (world f.site p a)).2 := by
        have e1 : (f.move SpecB clk p a x).site.boxes p = { f.site.boxes p with
            reads := (x.rest.step1 SpecB (clk p) (world f.site p a)).2.t, log := (x.rest.step1 SpecB (clk p) (world f.site p a)).2.log } := by
          show upd f.site.boxes p _ p = _
          rw [upd_same]; rfl
        unfold world
        rw [e1, hstore, if_pos rfl]
        rfl
      refine ⟨k1, ?_, hb.op, ?_⟩
      · rw [hstore, if_pos rfl]; exact k2
      · rw [hw]
        show SameEnd _ _ ((x.rest.step1 SpecB (clk p) (world f.site p a)).1.run SpecB (clk p) (x.rest.step1 SpecB (clk p) (world f.site p a)).2) _
        rw [Prog.step1_run]
        exact hb.same
    · rw [hin p e] at hy
      exact (h.busy p b y hp hy).others L hal hp (hbox p e) rfl (hother b.backend b.name b.ty (hne hp e).1 (hne hp e).2) (.refl _)
  · refine SamePart.trans ?_ (h.blank β n ty hn)
    by_cases e : a.backend = β
    · exact (hother β n ty (hn q a ha e).1.symm (hn q a ha e).2.symm).symm
    · rw [hstore, if_neg (Ne.symm e)]; exact .refl _

/-- A turn taken in one step. -/
theorem close_site (hl : Site.Links t) (E : Nat → Env D) (clk : Nat → Nat → Time) {q : Nat} {a : QueueActor} {x : Inside D O} (ha : t.hub.queues[q]? = some a) (hx : Taken' t q x) :
    let o : SiteOp D O := match x.who with
      | none => .turn q x.op
      | some (_, i) => .handle q i
    let r := Sys.step (E a.ty) a.name SpecB (clk q) (t.sys q a) x.op
    (t.step E SpecB clk o).hub = t.hub ∧ (∀ β, (t.step E SpecB clk o).stores β = if β = a.backend then r.1.w.s else t.stores β) ∧
    (t.step E SpecB clk o).trace = t.trace ++ [.turn q (x.who.map Prod.fst) x.op r.2] ∧
    (∀ p, p ≠ q → (t.step E SpecB clk o).boxes p = t.boxes p) ∧
    ((t.step E SpecB clk o).boxes q).proc = r.1.proc ∧ ((t.step E SpecB clk o).boxes q).reads = r.1.w.t ∧ ((t.step E SpecB clk o).boxes q).log = r.1.w.log ∧
    (x.who = none → (t.step E SpecB clk o).users = t.users ∧ ((t.step E SpecB clk o).boxes q).mailbox = (t.boxes q).mailbox) ∧
    ∀ c i, x.who = some (c, i) → ∃ req again, t.users c = .posted req x.op again q ∧
      (t.step E SpecB clk o).users = upd t.users c (.told req again r.2) ∧
      ((t.step E SpecB clk o).boxes q).mailbox = (t.boxes q).mailbox.eraseIdx i := by
  obtain ⟨who, op, rest⟩ := x
  have hplay : ∀ w, ∀ p, (t.play E SpecB clk q a w op).1.boxes p = if p = q then { t.boxes q with
      proc := (Sys.step (E a.ty) a.name SpecB (clk q) (t.sys q a) op).1.proc
      reads := (Sys.step (E a.ty) a.name SpecB (clk q) (t.sys q a) op).1.w.t
      log := (Sys.step (E a.ty) a.name SpecB (clk q) (t.sys q a) op).1.w.log } else t.boxes p := fun w p => rfl
  cases who with
  | none =>
    have e : t.step E SpecB clk (.turn q op) = (t.play E SpecB clk q a none op).1 := by
      show t.turn E SpecB clk q op = _
      unfold Site.turn
      rw [ha]
      simp only [hx.own rfl, if_true]
    intro o r
    have e : t.step E SpecB clk o = (t.play E SpecB clk q a none op).1 := e
    rw [e]
    refine ⟨rfl, fun _ => rfl, rfl, fun p hp => ?_, ?_, ?_, ?_, fun _ => ⟨rfl, ?_⟩, fun _ _ h => (by cases h)⟩
    · rw [hplay, if_neg hp]
    all_goals rw [hplay, if_pos rfl]
  | some w =>
    obtain ⟨c, i⟩ := w
    obtain ⟨h1, h2⟩ := hx.asked c i rfl
    obtain ⟨req, again, hu⟩ := (hl.mail q c op).1 (List.mem_of_getElem? h1)
    have e : t.step E SpecB clk (.handle q i) = ({ (t.play E SpecB clk q a (some c) op).1 with
        boxes := upd (t.play E SpecB clk q a (some c) op).1.boxes q { (t.play E SpecB clk q a (some c) op).1.boxes q with
          mailbox := ((t.play E SpecB clk q a (some c) op).1.boxes q).mailbox.eraseIdx i } } : Site D O SpecB).go SpecB c
            (.told req again (t.play E SpecB clk q a (some c) op).2) := by
      show t.handle E SpecB clk q i = _
      unfold Site.handle
      have hi : (if (t.boxes q).proc.alive = true then 0 else i) = i := by
        split
        · next h => exact (h2 h).symm
        · rfl
      simp only [ha, hi, h1, hu]
    intro o r
    have e := e
    change t.step E SpecB clk o = _ at e
    rw [e]
    have hbox : ∀ p, (({ (t.play E SpecB clk q a (some c) op).1 with
        boxes := upd (t.play E SpecB clk q a (some c) op).1.boxes q { (t.play E SpecB clk q a (some c) op).1.boxes q with
          mailbox := ((t.play E SpecB clk q a (some c) op).1.boxes q).mailbox.eraseIdx i } } : Site D O SpecB).go SpecB c
            (.told req again (t.play E SpecB clk q a (some c) op).2)).boxes p = if p = q then { t.boxes q with
      proc := r.1.proc, reads := r.1.w.t, log := r.1.w.log, mailbox := (t.boxes q).mailbox.eraseIdx i } else t.boxes p := by
      intro p
      show upd (t.play E SpecB clk q a (some c) op).1.boxes q _ p = _
      unfold upd
      split
      · rw [hplay, if_pos rfl]
      · next hp => rw [hplay, if_neg hp]
    refine ⟨rfl, fun _ => rfl, rfl, fun p hp => ?_, ?_, ?_, ?_, fun h => (by cases h), fun c' i' h => ?_⟩
    · rw [hbox, if_neg hp]
    · rw [hbox, if_pos rfl]
    · rw [hbox, if_pos rfl]
    · rw [hbox, if_pos rfl]
    · cases h
      refine ⟨req, again, hu, rfl, ?_⟩
      rw [hbox, if_pos rfl]

theorem Serial.leave (L : ∀ ty, (E ty).Lawful) (h : Serial E clk kind f t) (hf : Tidy f) (hl : Site.Links t) (hal : Site.AloneFrom E clk kind S t) (ho : t.hub.Once)
    {q : Nat} {a : QueueActor} {x : Inside D O} (ha : t.hub.queues[q]? = some a) (hx : f.inside q = some x) {p : Proc D} {r : Resp D}
    (hr : x.rest = .ret (p, r)) :
    Serial E clk kind (f.leave SpecB q x.who x.op p r) (t.step E SpecB clk (match x.who with
      | none => .turn q x.op
      | some (_, i) => .handle q i)) := by
  have hb := h.busy q a x ha hx
  have htk : Taken' t q x := by
    have := hf.inside q x hx
    refine ⟨⟨a, ha⟩, this.own, fun c i hw => ?_⟩
    rw [← h.face.mail, ← h.procs]
    exact this.asked c i hw
  obtain ⟨c1, c2, c3, c4, c5, c6, c7, c8, c9⟩ := close_site hl E clk ha htk
  obtain ⟨l1, l2, l3, l4, l5, l6⟩ := leave_site hf hx p r
  have hend := hb.same
  have hrun := run_turn (E := E a.ty) (name := a.name) (clk := clk q) (t.sys q a) x.op
  obtain ⟨-, -, -, -, -, -, hfar⟩ := keeps_run (clk := clk q) (keeps_turn (L a.ty) (hal.on q a ha) hb.op) (w := world t q a) (hal.own q a ha) (.refl _) rfl rfl
  have hrun : ((t.boxes q).proc.turn (E a.ty) a.name x.op).run SpecB (clk q) (world t q a) = _ := hrun
  rw [hrun] at hend hfar
  rw [hr] at hend
  have hout : p = (Sys.step (E a.ty) a.name SpecB (clk q) (t.sys q a) x.op).1.proc ∧ r = (Sys.step (E a.ty) a.name SpecB (clk q) (t.sys q a) x.op).2 := by
    have := hend.out
    simp only [Prog.run, Out.ok.injEq, Prod.mk.injEq] at this
    exact this
  have hreads : (f.site.boxes q).reads = (Sys.step (E a.ty) a.name SpecB (clk q) (t.sys q a) x.op).1.w.t := hend.reads
  have hlog : (f.site.boxes q).log = (Sys.step (E a.ty) a.name SpecB (clk q) (t.sys q a) x.op).1.w.log := hend.log
  have hpart : SamePart a.name (kind · = a.ty) (f.site.stores a.backend) (Sys.step (E a.ty) a.name SpecB (clk q) (t.sys q a) x.op).1.w.s := hend.part
  have hfar : ∀ (n : Str) (K : Str → Prop), a.name ≠ n → (∀ k, K k → ¬ kind k = a.ty) →
    SamePart n K (t.stores a.backend) (Sys.step (E a.ty) a.name SpecB (clk q) (t.sys q a) x.op).1.w.s := hfar
  revert c1 c2 c3 c4 c5 c6 c7 c8 c9 hout hreads hlog hpart hfar
  generalize t.step E SpecB clk (match x.who with
      | none => .turn q x.op
      | some (_, i) => .handle q i) = t'
  generalize Sys.step (E a.ty) a.name SpecB (clk q) (t.sys q a) x.op = y
  intro c1 c2 c3 c4 c5 c6 c7 c8 c9 hout hreads hlog hpart hfar
  obtain ⟨hp, hr'⟩ := hout
  have hin : ∀ o, (f.leave SpecB q x.who x.op p r).inside o = if o = q then none else f.inside o := fun o => rfl
  have hself : ((f.leave SpecB q x.who x.op p r).site.boxes q).proc = p ∧ ((f.leave SpecB q x.who x.op p r).site.boxes q).reads = (f.site.boxes q).reads ∧
      ((f.leave SpecB q x.who x.op p r).site.boxes q).log = (f.site.boxes q).log := by
    cases hw : x.who with
    | none => rw [← hw, (l5 hw).2]; exact ⟨rfl, rfl, rfl⟩
    | some w => obtain ⟨req, again, -, -, l7⟩ := l6 w.1 w.2 hw; rw [← hw, l7]; exact ⟨rfl, rfl, rfl⟩
  have hother : ∀ β n ty, n ≠ a.name → ty ≠ a.ty → SamePart n (kind · = ty) (t.stores β) (t'.stores β) := by
    intro β n ty hn hty
    rw [c2]
    split
    · next e => subst e; exact hfar n (kind · = ty) (Ne.symm hn) fun k h6 h7 => hty (h6.symm.trans h7)
    · exact .refl _
  have hne : ∀ {p : Nat} {b : QueueActor}, t.hub.queues[p]? = some b → p ≠ q → b.name ≠ a.name ∧ b.ty ≠ a.ty := fun hp hpq =>
    ⟨fun e => hpq (ho.names _ _ _ _ hp ha e), fun e => hpq (ho.types _ _ _ _ hp ha e)⟩
  refine ⟨⟨?_, ?_, ?_, fun o => ?_⟩, fun o => ?_, fun o hi => ?_, fun o b hb' hi => ?_, fun o b y' hb' hy => ?_, fun β n ty hn => ?_⟩
  · rw [l1, c1]; exact h.face.hub
  · cases hw : x.who with
    | none => rw [← hw, (l5 hw).1, (c8 hw).1]; exact h.face.users
    | some w =>
      obtain ⟨req, again, k1, k2, -⟩ := l6 w.1 w.2 hw
      obtain ⟨req', again', m1, m2, -⟩ := c9 w.1 w.2 hw
      rw [h.face.users, m1] at k1
      cases k1
      rw [← hw, k2, m2, h.face.users, hr']
  · rw [l3, c3, h.face.trace, hr']
  · by_cases e : o = q
    · subst e
      cases hw : x.who with
      | none => rw [← hw, (l5 hw).2, (c8 hw).2]; exact h.face.mail o
      | some w =>
        obtain ⟨req, again, -, -, k3⟩ := l6 w.1 w.2 hw
        obtain ⟨req', again', -, -, m3⟩ := c9 w.1 w.2 hw
        rw [← hw, k3, m3, ← h.face.mail]
    · rw [l4 o e, c4 o e]; exact h.face.mail o
  · by_cases e : o = q
    · subst e; rw [hself.1, c5, hp]
    · rw [l4 o e, c4 o e]; exact h.procs o
  · by_cases e : o = q
    · subst e; rw [hself.2.1, hself.2.2, c6, c7]; exact ⟨hreads, hlog⟩
    · rw [l4 o e, c4 o e]
      rw [hin, if_neg e] at hi
      exact h.idle o hi
  · rw [c1] at hb'
    rw [l2]
    by_cases e : o = q
    · subst e
      rw [ha] at hb'
      cases hb'
      rw [c2, if_pos rfl]
      exact hpart
    · rw [hin, if_neg e] at hi
      exact (h.calm o b hb' hi).trans (hother b.backend b.name b.ty (hne hb' e).1 (hne hb' e).2)
  · rw [c1] at hb'
    by_cases e : o = q
    · subst e; rw [hin, if_pos rfl] at hy; cases hy
    · rw [hin, if_neg e] at hy
      refine (h.busy o b y' hb' hy).others L hal hb' (l4 o e) (c4 o e) ?_ (hother b.backend b.name b.ty (hne hb' e).1 (hne hb' e).2)
      rw [l2]
      exact .refl _
  · rw [c1] at hn
    rw [l2]
    refine (h.blank β n ty hn).trans ?_
    by_cases e : a.backend = β
    · exact hother β n ty (hn q a ha e).1.symm (hn q a ha e).2.symm
    · rw [c2, if_neg (Ne.symm e)]; exact .refl _

/-- One step. -/
theorem Serial.step (L : ∀ ty, (E ty).Lawful) (h : Serial E clk kind f t) (hf : Tidy f) (hl : Site.Links t) (hal : Site.AloneFrom E clk kind S t) (hs : t.hub.Single)
    (op : WeaveOp D O) (h1 : (f.step E SpecB clk op).site.hub.engines.length ≤ 1) :
    Serial E clk kind (f.step E SpecB clk op) (t.run E SpecB clk (f.closed op)) := by
  have hlen : t.hub.engines.length ≤ (f.step E SpecB clk op).site.hub.engines.length := by
    rw [← h.face.hub]
    exact hub_step hf op
  have ho := hs.once (Nat.le_trans hlen h1)
  cases op with
  | site op =>
    cases hop : op.plain with
    | true =>
      have e : f.closed (.site op) = [op] := by cases op <;> first | rfl | cases hop
      rw [e]
      refine h.plain hf hop ?_
      have hs' := Site.step_single (E := E) (clk := clk) hs (Nat.le_trans hlen h1) op
      refine hs'.once ?_
      have := (h.face.plain (E := E) (clk := clk) hop).hub
      rw [← this]
      rw [step_plain hop] at h1
      exact h1
    | false =>
      cases op with
      | handle q i =>
        show Serial E clk kind (f.handle E SpecB q i) t
        rcases handle_cases (E := E) hf (q := q) (i := i) with e | ⟨a, c, op, i', k1, k2, k3, k4, e⟩ <;> rw [e]
        · exact h
        · rw [h.face.hub] at k2
          refine h.enter L hal k2 k1 _ ?_
          rw [h.face.mail] at k4
          obtain ⟨req, again, hu⟩ := (hl.mail q c op).1 (List.mem_of_getElem? k4)
          have hc := hal.users c
          rw [hu] at hc
          have hlink := hl.users c
          rw [hu] at hlink
          obtain ⟨a', e1, hty⟩ := hlink.2.typed hl.typed
          rw [k2] at e1
          cases e1
          exact hc.2 _ hty
      | turn q op =>
        show Serial E clk kind (f.turn E SpecB q op) t
        rcases turn_cases (E := E) (f := f) (q := q) (op := op) with e | ⟨a, k1, k2, k3, e⟩ <;> rw [e]
        · exact h
        · rw [h.face.hub] at k2
          refine h.enter L hal k2 k1 _ ?_
          cases op <;> trivial
      | _ => cases hop
  | go q =>
    show Serial E clk kind (f.go SpecB clk q) _
    unfold go closed
    dsimp only
    cases hx : f.inside q with
    | none => simp only; exact h
    | some x =>
      obtain ⟨a, ha⟩ := (hf.inside q x hx).queue
      simp only [ha]
      rw [h.face.hub] at ha
      have hm := h.move L hal ho ha hx
      have hv := fun p r => h.leave L hf hl hal ho ha hx (p := p) (r := r)
      obtain ⟨who, op, rest⟩ := x
      cases rest with
      | ret y =>
        obtain ⟨p, r⟩ := y
        have := hv p r rfl
        cases who <;> exact this
      | _ => cases who <;> exact hm

theorem closed_begin {B : Backend} {f : Weave D O B} {op : WeaveOp D O} {c : Nat} {req : Req D} (h : .begin c req ∈ f.closed op) : op = .site (.begin c req) := by
  cases op with
  | site o => cases o <;> simp_all [closed]
  | go q =>
    simp only [closed] at h
    split at h
    · split at h <;> simp at h
    · simp at h

/-- What interleaved turns come to, they come to one after the other. -/
theorem Serial.runFrom (L : ∀ ty, (E ty).Lawful) (h : Serial E clk kind f t) (hf : Tidy f) (hl : Site.Links t) (hal : Site.AloneFrom E clk kind S t) (hs : t.hub.Single)
    (ops : List (WeaveOp D O)) (hops : ∀ c req, .site (.begin c req) ∈ ops → req.On kind) (h1 : (f.run E SpecB clk ops).site.hub.engines.length ≤ 1)
    (hk : ∀ a ∈ (f.run E SpecB clk ops).site.hub.queues, S.ok a) :
    Serial E clk kind (f.run E SpecB clk ops) (t.run E SpecB clk (f.serial E clk ops)) ∧
      Site.AloneFrom E clk kind S (t.run E SpecB clk (f.serial E clk ops)) := by
  induction ops generalizing f t with
  | nil => exact ⟨h, hal⟩
  | cons op ops ih =>
    have hrest : ∀ g : Weave D O SpecB, Tidy g → g.site.hub.engines.length ≤ (g.run E SpecB clk ops).site.hub.engines.length ∧
        ∀ a ∈ g.site.hub.queues, a ∈ (g.run E SpecB clk ops).site.hub.queues := by
      clear ih hops h1 hk
      induction ops with
      | nil => exact fun g _ => ⟨Nat.le_refl _, fun _ h => h⟩
      | cons o ops ih => exact fun g hg => ⟨Nat.le_trans (hub_step hg o) (ih _ (tidy_step hg o)).1, fun a ha => (ih _ (tidy_step hg o)).2 a (queue_step hg o a ha)⟩
    have hf' := tidy_step (E := E) (clk := clk) hf op
    have h2 : (f.step E SpecB clk op).site.hub.engines.length ≤ 1 := Nat.le_trans (hrest _ hf').1 h1
    have h3 := h.step L hf hl hal hs op h2
    have h4 : (t.run E SpecB clk (f.closed op)).hub.engines.length ≤ 1 := by rw [← h3.face.hub]; exact h2
    have h5 := Site.alone_runFrom L hl hal hs (f.closed op) (fun c req hm => hops c req (closed_begin hm ▸ List.mem_cons_self ..)) h4
      (fun a ha => hk a ((hrest _ hf').2 a (by rw [h3.face.hub]; exact ha)))
    have h6 := Site.single_run (E := E) (clk := clk) hs (f.closed op) h4
    have := ih h3 hf' (Site.links_run hl _) h5 h6 (fun c req hm => hops c req (List.mem_cons_of_mem _ hm)) h1 hk
    have e : t.run E SpecB clk (f.serial E clk (op :: ops)) = (t.run E SpecB clk (f.closed op)).run E SpecB clk ((f.step E SpecB clk op).serial E clk ops) := by
      show (f.closed op ++ _).foldl _ t = _
      rw [List.foldl_append]
      rfl
    rw [e]
    exact this

theorem Serial.run (L : ∀ ty, (E ty).Lawful) (h : Serial E clk kind f t) (hf : Tidy f) (hl : Site.Links t) (hal : Site.Alone E clk kind t) (hs : t.hub.Single)
    (ops : List (WeaveOp D O)) (hops : ∀ c req, .site (.begin c req) ∈ ops → req.On kind) (h1 : (f.run E SpecB clk ops).site.hub.engines.length ≤ 1) :
    Serial E clk kind (f.run E SpecB clk ops) (t.run E SpecB clk (f.serial E clk ops)) ∧
      Site.Alone E clk kind (t.run E SpecB clk (f.serial E clk ops)) :=
  h.runFrom L hf hl hal hs ops hops h1 fun _ _ => trivial

end Weave

/-! ## Every backend -/

namespace Weave
variable {D O : Type} {E : Nat → Env D} {clk : Nat → Nat → Time} {b : Impl}

/-- The same process on two backends. -/
structure Rel (b : Impl) (f : Weave D O b.B) (g : Weave D O SpecB) : Prop where
  site : Site.Rel b f.site g.site
  inside : f.inside = g.inside
  ok : ∀ q x, g.inside q = some x → x.rest.AllOps b.ok

theorem rel_init : Rel b (init b.B (fun _ => b.empty) : Weave D O b.B) (init SpecB fun _ => Spec.empty) :=
  ⟨⟨rfl, rfl, fun _ => b.empty_rel, rfl, rfl⟩, rfl, fun _ _ h => (by cases h)⟩

theorem Rel.enter {f : Weave D O b.B} {g : Weave D O SpecB} (h : Rel b f g) (q : Nat) (a : QueueActor) (who : Option (Nat × Nat)) (op : Op D O) :
    Rel b (f.enter E b.B q a who op) (g.enter E SpecB q a who op) := by
  refine ⟨h.site, ?_, fun p x hx => ?_⟩
  · show upd f.inside q _ = upd g.inside q _
    rw [h.inside, h.site.boxes]
  · replace hx : upd g.inside q _ p = some x := hx
    unfold upd at hx
    split at hx
    · cases hx
      exact (aj_turn _ _ _ _).mono (b.okAj a.name)
    · exact h.ok p x hx

theorem Rel.leave {f : Weave D O b.B} {g : Weave D O SpecB} (h : Rel b f g) (q : Nat) (who : Option (Nat × Nat)) (op : Op D O) (p : Proc D) (r : Resp D) :
    Rel b (f.leave b.B q who op p r) (g.leave SpecB q who op p r) := by
  obtain ⟨⟨hub, boxes, stores, users, trace⟩, inside⟩ := f
  obtain ⟨⟨hub', boxes', stores', users', trace'⟩, inside'⟩ := g
  obtain ⟨⟨h1, h2, h3, h4, h5⟩, h6, h7⟩ := h
  simp only at h1 h2 h4 h5 h6
  subst h1 h2 h4 h5 h6
  have hok : ∀ o x, upd inside q none o = some x → x.rest.AllOps b.ok := by
    intro o x hx
    unfold upd at hx
    split at hx
    · cases hx
    · exact h7 o x hx
  refine ⟨?_, rfl, hok⟩
  unfold Weave.leave
  cases who with
  | none => exact ⟨rfl, rfl, h3, rfl, rfl⟩
  | some w =>
    dsimp only
    cases users w.1 <;> exact ⟨rfl, rfl, h3, rfl, rfl⟩

theorem Rel.move {f : Weave D O b.B} {g : Weave D O SpecB} (h : Rel b f g) {q : Nat} (a : QueueActor) {x : Inside D O} (hx : g.inside q = some x) :
    Rel b (f.move b.B clk q a x) (g.move SpecB clk q a x) := by
  have hw : b.sim.RW (world f.site q a) (world g.site q a) := ⟨h.site.stores _, by rw [world, h.site.boxes]; rfl, by rw [world, h.site.boxes]; rfl⟩
  obtain ⟨h1, h2, h3⟩ := step1_rel (clk := clk q) (h.ok q x hx) hw
  refine ⟨⟨h.site.hub, ?_, fun β => ?_, h.site.users, h.site.trace⟩, ?_, fun p y hy => ?_⟩
  · show upd f.site.boxes q { f.site.boxes q with
        reads := (x.rest.step1 b.B (clk q) (world f.site q a)).2.t
        log := (x.rest.step1 b.B (clk q) (world f.site q a)).2.log } = upd g.site.boxes q { g.site.boxes q with
        reads := (x.rest.step1 SpecB (clk q) (world g.site q a)).2.t
        log := (x.rest.step1 SpecB (clk q) (world g.site q a)).2.log }
    rw [h2.t, h2.log, h.site.boxes]
  · show b.sim.R (upd f.site.stores a.backend (x.rest.step1 b.B (clk q) (world f.site q a)).2.s β)
      (upd g.site.stores a.backend (x.rest.step1 SpecB (clk q) (world g.site q a)).2.s β)
    unfold upd
    split
    · exact h2.s
    · exact h.site.stores β
  · show upd f.inside q (some { x with rest := (x.rest.step1 b.B (clk q) (world f.site q a)).1 }) =
      upd g.inside q (some { x with rest := (x.rest.step1 SpecB (clk q) (world g.site q a)).1 })
    rw [h1, h.inside]
  · replace hy : upd g.inside q (some { x with rest := (x.rest.step1 SpecB (clk q) (world g.site q a)).1 }) p = some y := hy
    unfold upd at hy
    split at hy
    · cases hy; exact h3
    · exact h.ok p y hy

theorem Rel.step {f : Weave D O b.B} {g : Weave D O SpecB} (h : Rel b f g) (op : WeaveOp D O) :
    Rel b (f.step E b.B clk op) (g.step E SpecB clk op) := by
  cases op with
  | site op =>
    cases hop : op.plain with
    | true =>
      rw [step_plain hop, step_plain hop]
      exact ⟨h.site.step op, h.inside, h.ok⟩
    | false =>
      cases op with
      | handle q i =>
        show Rel b (f.handle E b.B q i) (g.handle E SpecB q i)
        unfold handle
        rw [h.inside, h.site.hub, h.site.boxes, h.site.users]
        cases g.inside q with
        | some x => exact h
        | none =>
          cases g.site.hub.queues[q]? with
          | none => exact h
          | some a =>
            dsimp only
            cases (g.site.boxes q).mailbox[(if (g.site.boxes q).proc.alive then 0 else i)]? with
            | none => exact h
            | some w =>
              obtain ⟨c, o⟩ := w
              dsimp only
              cases g.site.users c with
              | posted => exact h.enter ..
              | _ => exact h
      | turn q o =>
        show Rel b (f.turn E b.B q o) (g.turn E SpecB q o)
        unfold turn
        rw [h.inside, h.site.hub]
        cases g.inside q with
        | some x => exact h
        | none =>
          cases g.site.hub.queues[q]? with
          | none => exact h
          | some a =>
            dsimp only
            split
            · exact h.enter ..
            · exact h
      | _ => cases hop
  | go q =>
    show Rel b (f.go b.B clk q) (g.go SpecB clk q)
    unfold go
    rw [h.inside, h.site.hub]
    cases hx : g.inside q with
    | none => exact h
    | some x =>
      cases g.site.hub.queues[q]? with
      | none => exact h
      | some a =>
        have hm := h.move (clk := clk) a hx
        have hl := h.leave q x.who x.op
        obtain ⟨who, o, rest⟩ := x
        cases rest with
        | ret y => exact hl y.1 y.2
        | _ => exact hm

theorem Rel.run {f : Weave D O b.B} {g : Weave D O SpecB} (h : Rel b f g) (ops : List (WeaveOp D O)) :
    Rel b (f.run E b.B clk ops) (g.run E SpecB clk ops) := by
  induction ops generalizing f g with
  | nil => exact h
  | cons op ops ih => exact ih (h.step op)

theorem Rel.serial {f : Weave D O b.B} {g : Weave D O SpecB} (h : Rel b f g) (ops : List (WeaveOp D O)) :
    f.serial E clk ops = g.serial E clk ops := by
  induction ops generalizing f g with
  | nil => rfl
  | cons op ops ih =>
    show f.closed op ++ _ = g.closed op ++ _
    rw [ih (h.step op)]
    congr 1
    cases op with
    | site o => cases o <;> rfl
    | go q => unfold closed; dsimp only; rw [h.inside]

end Weave

/-! ## Turns end -/

/-- A program that can only return. -/
def Prog.Sound {α : Type} : Prog α → Prop
  | .ret _ => True
  | .fail _ => False
  | .panic => False
  | .diverge => False
  | .call _ k => ∀ r, (k r).Sound
  | .now k => ∀ t, (k t).Sound
  | .emit _ k => k.Sound

theorem Prog.Sound.bind {α β : Type} {p : Prog α} (hp : p.Sound) {k : α → Prog β} (hk : ∀ a, (k a).Sound) : (p.bind k).Sound := by
  induction p with
  | ret a => exact hk a
  | fail => exact hp
  | panic => exact hp
  | diverge => exact hp
  | call op k ih => exact fun r => ih r (hp r)
  | now k ih => exact fun t => ih t (hp t)
  | emit e k ih => exact ih hp

theorem Prog.sound_attempt {α : Type} (p : Prog α) : p.attempt.Sound := by
  induction p with
  | call op k ih => exact ih
  | now k ih => exact ih
  | emit e k ih => exact ih
  | _ => trivial

theorem sound_turn {D O : Type} (E : Env D) (name : Str) (p : Proc D) (op : Op D O) : (p.turn E name op).Sound := by
  have hh : ∀ {α : Type} (q : Prog α) (dead : Resp D) (f : Except Error α → Resp D), (p.handle q dead f).Sound := by
    intro α q dead f
    exact (sound_attempt q).bind fun r => by cases r <;> trivial
  unfold Proc.turn
  split
  · cases op with
    | enqueue job cfg => exact hh ..
    | cancel id => exact hh ..
    | get id => exact hh ..
    | retry id => exact hh ..
    | config c => trivial
    | tick =>
      have hc : (Prog.queueCount (formatQueueName name .queued)).Sound := fun r => by cases r <;> trivial
      exact hc.bind fun r => (sound_attempt _).bind fun r => by cases r <;> trivial
    | start i =>
      dsimp only
      split
      · exact (sound_attempt _).bind fun r => by rcases r with (_ | _) | _ | _ | _ <;> trivial
      · trivial
    | finish i x =>
      dsimp only
      split
      · exact (sound_attempt _).bind fun r => by cases r <;> trivial
      · trivial
    | userPanic i =>
      dsimp only
      split <;> trivial
  · trivial

end AJ
