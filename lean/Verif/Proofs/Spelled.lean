import Verif.Proofs.Opening
import Verif.Proofs.Weave

/-! # Work queues are registered under the types and names of the requests -/

namespace AJ

/-- The request registers at most a type and name of which `P` holds. An update registers nothing unless its type has a work
queue. -/
def ApiCall.Spells (P : Nat → Str → Prop) : ApiCall → Prop
  | .submit ty n => P ty n
  | .update ty n => (∃ m, P ty m) → P ty n
  | _ => True

def ClientPc.Spells (P : Nat → Str → Prop) : ClientPc → Prop
  | .begun call => call.Spells P
  | .ask _ ty n => P ty n
  | .waiting _ _ ty n => P ty n
  | .reading _ _ ty n => P ty n
  | _ => True

namespace Hub
variable {P : Nat → Str → Prop} {h : Hub}

structure Spelled (P : Nat → Str → Prop) (h : Hub) : Prop where
  types : ∀ ty q, h.byType ty = some q → ∃ m, P ty m
  queues : ∀ a ∈ h.queues, P a.ty a.name
  mail : ∀ G ∈ h.engines, ∀ m ∈ G.mailbox, P m.ty m.name
  pcs : ∀ G ∈ h.engines, ∀ m ∈ EnginePc.msgs G.pc, P m.ty m.name
  clients : ∀ c, (h.clients c).Spells P

theorem spelled_init : Spelled P ({} : Hub) :=
  ⟨fun _ _ h => (by cases h), fun _ h => (by cases h), fun _ h => (by cases h), fun _ h => (by cases h), fun _ => trivial⟩

theorem Spelled.go (hs : Spelled P h) (c : Nat) {pc : ClientPc} (hp : pc.Spells P) : Spelled P (h.go c pc) := by
  refine ⟨hs.types, hs.queues, hs.mail, hs.pcs, fun d => ?_⟩
  show (upd h.clients c pc d).Spells P
  unfold upd
  split
  · exact hp
  · exact hs.clients d

theorem Spelled.look (hs : Spelled P h) {call : ApiCall} (hc : call.Spells P) : (h.look call).Spells P := by
  unfold Hub.look
  cases call with
  | start b => dsimp only; split <;> trivial
  | submit ty n =>
    dsimp only
    split
    · trivial
    · exact hc
  | cancel ty => dsimp only; split <;> trivial
  | retry ty => dsimp only; split <;> trivial
  | config ty => dsimp only; split <;> trivial
  | get ty => dsimp only; split <;> trivial
  | update ty n =>
    dsimp only
    split
    · next q hq => exact hc (hs.types ty q hq)
    · trivial

private theorem set_mail {l : List Engine} {P : Engine → Prop} (h : ∀ G ∈ l, P G) (e : Nat) {G : Engine} (hG : P G) : ∀ G' ∈ l.set e G, P G' := by
  intro G' hm
  rcases List.mem_or_eq_of_mem_set hm with hm | rfl
  · exact h _ hm
  · exact hG

theorem Spelled.client (hs : Spelled P h) (c : Nat) (x : Bool) : Spelled P (h.client c x) := by
  have hc := hs.clients c
  unfold Hub.client
  split
  · next call e => rw [e] at hc; exact hs.go c (hs.look hc)
  · next call b e =>
    refine ⟨hs.types, hs.queues, fun G hG => ?_, fun G hG => ?_, (hs.go c (pc := .lock call h.engines.length) trivial).clients⟩
    · rcases List.mem_append.1 hG with hG | hG
      · exact hs.mail G hG
      · rw [List.mem_singleton.1 hG]; exact fun _ h => (by cases h)
    · rcases List.mem_append.1 hG with hG | hG
      · exact hs.pcs G hG
      · rw [List.mem_singleton.1 hG]; exact fun _ h => (by cases h)
  · split
    · exact hs.go c trivial
    · next call e _ _ => exact ⟨hs.types, hs.queues, hs.mail, hs.pcs, (hs.go c (pc := .write call e) trivial).clients⟩
  · next call e _ => exact ⟨hs.types, hs.queues, hs.mail, hs.pcs, (hs.go c (pc := .reread call) trivial).clients⟩
  · split <;> exact hs.go c trivial
  · next call ty n e =>
    rw [e] at hc
    split
    · next g _ =>
      unfold send
      split
      · next G hG =>
        have hm := List.mem_of_getElem? hG
        split
        · refine ⟨hs.types, hs.queues, set_mail (P := fun G => ∀ m ∈ G.mailbox, P m.ty m.name) hs.mail g fun m hm' => ?_,
            set_mail (P := fun G => ∀ m ∈ EnginePc.msgs G.pc, P m.ty m.name) hs.pcs g (hs.pcs G hm), (hs.go c (pc := .waiting call g ty n) hc).clients⟩
          rcases List.mem_append.1 hm' with hm' | hm'
          · exact hs.mail G hm m hm'
          · rw [List.mem_singleton.1 hm']; exact hc
        · exact hs.go c trivial
      · exact hs.go c trivial
    · exact hs.go c trivial
  · next call q ty n e =>
    rw [e] at hc
    split
    · refine hs.go c ?_
      unfold lookAgain
      split
      · trivial
      · exact hc
    · exact hs.go c trivial
  · exact hs

private theorem Spelled.crash (hs : Spelled P h) (e : Nat) (G : Engine) : Spelled P (h.crash e G) := by
  refine ⟨hs.types, hs.queues, set_mail (P := fun G => ∀ m ∈ G.mailbox, P m.ty m.name) hs.mail e fun _ h => (by cases h),
    set_mail (P := fun G => ∀ m ∈ EnginePc.msgs G.pc, P m.ty m.name) hs.pcs e fun _ h => (by cases h), fun c => ?_⟩
  have hc := hs.clients c
  show (match h.clients c with
    | .waiting call e' ty name => if e' = e then ClientPc.done call .mailboxError else .waiting call e' ty name
    | pc => pc).Spells P
  split
  · next e' => rw [e'] at hc; split
               · trivial
               · exact hc
  · exact hc

theorem Spelled.engine (hs : Spelled P h) (e : Nat) : Spelled P (h.engine e) := by
  unfold Hub.engine
  split
  · exact hs
  · next G hG =>
    have hm := List.mem_of_getElem? hG
    have hmail := hs.mail G hm
    have hpc := hs.pcs G hm
    split
    · next hp =>
      split
      · exact hs
      · next m ms hl =>
        rw [hl] at hmail
        split
        · exact hs.crash e _
        · exact ⟨hs.types, hs.queues, set_mail (P := fun G => ∀ m ∈ G.mailbox, P m.ty m.name) hs.mail e fun m' h' => hmail m' (List.mem_cons_of_mem _ h'),
            set_mail (P := fun G => ∀ m ∈ EnginePc.msgs G.pc, P m.ty m.name) hs.pcs e fun m' h' => by
              rw [List.mem_singleton.1 h']; exact hmail m (List.mem_cons_self ..), hs.clients⟩
    · next m hp =>
      rw [hp] at hpc
      split
      · exact hs.crash e _
      · exact ⟨hs.types, hs.queues, set_mail (P := fun G => ∀ m ∈ G.mailbox, P m.ty m.name) hs.mail e hmail,
          set_mail (P := fun G => ∀ m ∈ EnginePc.msgs G.pc, P m.ty m.name) hs.pcs e hpc, hs.clients⟩
    · next m hp =>
      rw [hp] at hpc
      have hP : P m.ty m.name := hpc m (List.mem_singleton.2 rfl)
      refine ⟨fun ty q hq => ?_, fun a ha => ?_, set_mail (P := fun G => ∀ m ∈ G.mailbox, P m.ty m.name) hs.mail e hmail,
        set_mail (P := fun G => ∀ m ∈ EnginePc.msgs G.pc, P m.ty m.name) hs.pcs e (fun _ h => by cases h), hs.clients⟩
      · replace hq : upd h.byType m.ty _ ty = some q := hq
        unfold upd at hq
        split at hq
        · next e' => subst e'; exact ⟨_, hP⟩
        · exact hs.types ty q hq
      · rcases List.mem_append.1 ha with ha | ha
        · exact hs.queues a ha
        · rw [List.mem_singleton.1 ha]; exact hP
    · next m q hp =>
      have ha : Spelled P (h.answer m q) := by
        unfold answer
        split
        · exact hs.go _ trivial
        · exact hs
      have he : (h.answer m q).engines = h.engines ∧ (h.answer m q).byType = h.byType ∧ (h.answer m q).queues = h.queues := by
        unfold answer
        split <;> exact ⟨rfl, rfl, rfl⟩
      exact ⟨ha.types, ha.queues, set_mail (P := fun G => ∀ m ∈ G.mailbox, P m.ty m.name) hs.mail e hmail,
        set_mail (P := fun G => ∀ m ∈ EnginePc.msgs G.pc, P m.ty m.name) hs.pcs e (fun _ h => by cases h), ha.clients⟩

theorem Spelled.begin (hs : Spelled P h) (c : Nat) {call : ApiCall} (hc : call.Spells P) : Spelled P (h.begin c call) := by
  unfold Hub.begin
  split
  · exact hs.go c hc
  · exact hs.go c hc
  · exact hs

end Hub

namespace Site
variable {D O : Type} {E : Nat → Env D} {B : Backend} {clk : Nat → Nat → Time} {P : Nat → Str → Prop}

theorem spelled_step {t : Site D O B} (h : t.hub.Spelled P) (o : SiteOp D O) (ho : ∀ c req, o = .begin c req → req.call.Spells P) :
    (t.step E B clk o).hub.Spelled P := by
  cases o with
  | begin c req =>
    show (t.begin B c req).hub.Spelled P
    unfold begin
    cases t.users c <;> first | exact h | exact Hub.Spelled.begin h c (ho c req rfl)
  | client c x =>
    show (t.client B c x).hub.Spelled P
    unfold client
    split
    · exact h
    · exact Hub.Spelled.client h c x
  | engine e => exact Hub.Spelled.engine h e
  | take c =>
    show (t.take B c).hub.Spelled P
    unfold take
    split
    · dsimp only
      split <;> exact Hub.Spelled.client h c _
    · exact h
    · exact h
  | post c =>
    show (t.post B c).hub.Spelled P
    unfold post
    split
    · split
      · exact h
      · split <;> exact h
      · exact h
      · exact h
    · exact h
  | handle q i =>
    show (t.handle E B clk q i).hub.Spelled P
    unfold handle
    split
    · exact h
    · dsimp only
      split
      · exact h
      · split <;> exact h
  | turn q op =>
    show (t.turn E B clk q op).hub.Spelled P
    unfold turn
    split
    · exact h
    · split <;> exact h

end Site

namespace Weave
variable {D O : Type} {E : Nat → Env D} {B : Backend} {clk : Nat → Nat → Time} {P : Nat → Str → Prop} {f : Weave D O B}

theorem spelled_step (ht : Tidy f) (h : f.site.hub.Spelled P) (o : WeaveOp D O) (ho : ∀ c req, o = .site (.begin c req) → req.call.Spells P) :
    (f.step E B clk o).site.hub.Spelled P := by
  cases o with
  | go q =>
    show (f.go B clk q).site.hub.Spelled P
    rcases go_cases (B := B) (clk := clk) (f := f) (q := q) with e | ⟨x, a, hx, ha, ⟨p, r, -, e⟩ | ⟨-, e⟩⟩ <;> rw [e]
    · exact h
    · rw [(leave_site ht hx p r).1]; exact h
    · exact h
  | site o =>
    cases hop : o.plain with
    | true => rw [step_plain hop]; exact Site.spelled_step h o fun c req e => ho c req (by rw [e])
    | false =>
      cases o with
      | handle q i =>
        show (f.handle E B q i).site.hub.Spelled P
        rcases handle_cases (E := E) ht (q := q) (i := i) with e | ⟨a, c, op, i', -, -, -, -, e⟩ <;> rw [e] <;> exact h
      | turn q op =>
        show (f.turn E B q op).site.hub.Spelled P
        rcases turn_cases (E := E) (f := f) (q := q) (op := op) with e | ⟨a, -, -, -, e⟩ <;> rw [e] <;> exact h
      | _ => cases hop

theorem spelled_run (ht : Tidy f) (h : f.site.hub.Spelled P) (ops : List (WeaveOp D O)) (ho : ∀ c req, .site (.begin c req) ∈ ops → req.call.Spells P) :
    (f.run E B clk ops).site.hub.Spelled P := by
  induction ops generalizing f with
  | nil => exact h
  | cons o ops ih =>
    exact ih (tidy_step ht o) (spelled_step ht h o fun c req e => ho c req (e ▸ List.mem_cons_self ..)) fun c req hm => ho c req (List.mem_cons_of_mem _ hm)

end Weave
end AJ
