import Verif.Proofs.SiteAlone
import Verif.Spec.EndToEnd

/-! # Requests about one job -/

namespace AJ
namespace Site
variable {D O : Type} {E : Nat → Env D} {clk : Nat → Nat → Time} {kind : Str → Nat} {k : Str}

/-- Nothing the client is about to send touches `k`. -/
def Clean (k : Str) : User D O → Prop
  | .free => True
  | .asking req op again => (∀ o, op = some o → ¬ o.Touches k) ∧ (again = false → ∀ ty n id d x, req = .update ty n id d x → ¬ req.Touches k)
  | .posted req op again _ => ¬ op.Touches k ∧ (again = false → ∀ ty n id d x, req = .update ty n id d x → ¬ req.Touches k)
  | .told req again r => again = false → ∀ ty n id d x, req = .update ty n id d x → ¬ req.Touches k ∧ ∀ j, r = .job (some j) → j.id = id
  | .done _ _ => True

theorem clean_asking {req : Req D} (h : ¬ req.Touches k) : Clean k (.asking req req.op false : User D O) := by
  refine ⟨fun o ho => ?_, fun _ _ _ _ _ _ _ => h⟩
  cases req <;> cases ho <;> first | exact h | exact fun h => h

variable {t : Site D O SpecB}

/-- Clients stay clean. -/
theorem step_clean {S : Base E kind} (hl : Links t) (h : AloneFrom E clk kind S t) (o : SiteOp D O) (hop : ∀ d req, o = .begin d req → ¬ req.Touches k) (d : Nat)
    (hd : Clean k (t.users d)) : Clean k ((t.step E SpecB clk o).users d) := by
  have go : ∀ (t' : Site D O SpecB) (c : Nat) (u : User D O), t'.users = t.users → (d = c → Clean k (t.users c) → Clean k u) →
      Clean k ((t'.go SpecB c u).users d) := by
    intro t' c u e hu
    show Clean k (upd t'.users c u d)
    unfold upd
    split
    · next e => subst e; exact hu rfl hd
    · rw [e]; exact hd
  cases o with
  | begin c req =>
    have hr := hop c req rfl
    show Clean k ((t.begin SpecB c req).users d)
    unfold begin
    have := go { t with hub := t.hub.begin c req.call } c (.asking req req.op false) rfl fun _ _ => clean_asking hr
    cases t.users c with
    | free => exact this
    | done => exact this
    | _ => exact hd
  | client c x =>
    show Clean k ((t.client SpecB c x).users d)
    unfold client
    split <;> exact hd
  | engine e => exact hd
  | post c =>
    show Clean k ((t.post SpecB c).users d)
    unfold post
    split
    · next req op again hu =>
      have send : ∀ o q, op = some o → Clean k ((t.send SpecB c req o again q).users d) := by
        intro o q ho
        refine go { t with boxes := upd t.boxes q { t.boxes q with mailbox := (t.boxes q).mailbox ++ [(c, o)] } } c (.posted req o again q) rfl ?_
        intro _ hc
        rw [hu] at hc
        exact ⟨hc.1 o ho, hc.2⟩
      split
      · exact send _ _ rfl
      · split
        · exact hd
        · exact send _ _ rfl
      · next call r _ _ => exact go t c (.done req (.short r)) rfl fun _ _ => trivial
      · exact hd
    · exact hd
  | handle q i =>
    show Clean k ((t.handle E SpecB clk q i).users d)
    unfold handle
    split
    · exact hd
    · next a ha =>
      dsimp only
      generalize (if (t.boxes q).proc.alive then 0 else i) = i
      split
      · exact hd
      · next c op hi =>
        obtain ⟨req, again, hu⟩ := (hl.mail q c op).1 (List.mem_of_getElem? hi)
        rw [hu]
        dsimp only
        have hon := h.users c
        rw [hu] at hon
        have hlink := hl.users c
        rw [hu] at hlink
        obtain ⟨a', h1, hty⟩ := hlink.2.typed hl.typed
        rw [ha] at h1
        cases h1
        obtain ⟨past, now, -, -, evs, -, hunder⟩ : Tale _ c _ (.posted req op again q) := by have := hl.tale c; rwa [hu] at this
        refine go { (t.play E SpecB clk q a (some c) op).1 with boxes := _ } c (.told req again (t.play E SpecB clk q a (some c) op).2) rfl ?_
        intro _ hc
        rw [hu] at hc
        rintro rfl ty n id d x rfl
        refine ⟨hc.2 rfl _ _ _ _ _ rfl, fun j hj => ?_⟩
        generalize hso : some op = so at hunder
        cases hunder
        have : op = .get id := by cases hso; rfl
        subst this
        have hid : kind id = ty := hon.1.1
        have hty : ty = a.ty := by cases hty; rfl
        exact get_id (clk := clk q) (s := t.sys q a) (h.own q a ha) (id := id) (hid.trans hty) hj
  | turn q op =>
    show Clean k ((t.turn E SpecB clk q op).users d)
    unfold turn
    split
    · exact hd
    · split <;> exact hd
  | take c =>
    show Clean k ((t.take SpecB c).users d)
    unfold take
    split
    · next ty name id data context r hu =>
      dsimp only
      split
      · next op hop =>
        obtain ⟨j, hj, hop'⟩ : ∃ j, r = .job (some j) ∧ op = updated j data context := by
          cases r with
          | job j =>
            cases j with
            | none => cases hop
            | some j => exact ⟨j, rfl, by cases hop; rfl⟩
          | unit => cases hop
          | bool => cases hop
          | silent => cases hop
        subst hj
        subst hop'
        refine go { t with hub := t.hub.client c true } c (.asking (.update ty name id data context) (some (updated j data context)) true) rfl ?_
        intro _ hc
        rw [hu] at hc
        refine ⟨fun o ho => ?_, fun h => (by cases h)⟩
        cases ho
        obtain ⟨h1, h2⟩ := hc rfl _ _ _ _ _ rfl
        intro ht
        have ht : (context.getD j.context).jobId = k := ht
        cases hx : context with
        | none => rw [hx] at ht; exact h1 (.inl ((h2 j rfl).symm.trans ht))
        | some x => rw [hx] at ht; exact h1 (.inr ⟨x, hx, ht⟩)
      · exact go { t with hub := t.hub.client c false } c (.done (.update ty name id data context) (.answer (.unit (.ok ())))) rfl fun _ _ => trivial
    · next req again r _ _ => exact go t c (.done req (.answer r)) rfl fun _ _ => trivial
    · exact hd

/-- At most one thing is seen in a step. A turn about `k` is taken for a client that has sent its message. -/
theorem step_touch (hl : Links t) (k : Str) (o : SiteOp D O) : ∃ l, (t.step E SpecB clk o).trace = t.trace ++ l ∧ l.length ≤ 1 ∧
    ∀ q who op r, .turn q who op r ∈ l → op.Touches k → ∃ d req again, who = some d ∧ t.users d = .posted req op again q ∧
      (t.step E SpecB clk o).users d = .told req again r := by
  have none : ∀ {t' : Site D O SpecB}, t'.trace = t.trace → ∃ l, t'.trace = t.trace ++ l ∧ l.length ≤ 1 ∧
      ∀ q who op r, .turn q who op r ∈ l → op.Touches k → ∃ d req again, who = some d ∧ t.users d = .posted req op again q ∧
        t'.users d = .told req again r := fun h => ⟨[], by rw [h, List.append_nil], Nat.zero_le _, fun _ _ _ _ h => by cases h⟩
  have one : ∀ {t' : Site D O SpecB} {e}, t'.trace = t.trace ++ [e] → (∀ q who op r, e = .turn q who op r → op.Touches k →
      ∃ d req again, who = some d ∧ t.users d = .posted req op again q ∧ t'.users d = .told req again r) →
      ∃ l, t'.trace = t.trace ++ l ∧ l.length ≤ 1 ∧
      ∀ q who op r, .turn q who op r ∈ l → op.Touches k → ∃ d req again, who = some d ∧ t.users d = .posted req op again q ∧
        t'.users d = .told req again r := fun h1 h2 => ⟨_, h1, Nat.le_refl _, fun q who op r h => h2 q who op r (List.mem_singleton.1 h).symm⟩
  cases o with
  | begin c req =>
    show ∃ l, (t.begin SpecB c req).trace = _ ∧ _ ∧ ∀ q who op r, _ → _ → ∃ d req again, _ ∧ _ ∧ (t.begin SpecB c _).users d = _
    unfold begin
    cases t.users c with
    | free => exact one rfl (fun _ _ _ _ h => by cases h)
    | done => exact one rfl (fun _ _ _ _ h => by cases h)
    | _ => exact none rfl
  | client c x =>
    show ∃ l, (t.client SpecB c x).trace = _ ∧ _ ∧ ∀ q who op r, _ → _ → ∃ d req again, _ ∧ _ ∧ (t.client SpecB c x).users d = _
    unfold client
    split <;> exact none rfl
  | engine e => exact none rfl
  | post c =>
    show ∃ l, (t.post SpecB c).trace = _ ∧ _ ∧ ∀ q who op r, _ → _ → ∃ d req again, _ ∧ _ ∧ (t.post SpecB c).users d = _
    unfold post
    split
    · split
      · exact none rfl
      · split <;> exact none rfl
      · exact one rfl (fun _ _ _ _ h => by cases h)
      · exact none rfl
    · exact none rfl
  | handle p i =>
    show ∃ l, (t.handle E SpecB clk p i).trace = _ ∧ _ ∧ ∀ q who op r, _ → _ → ∃ d req again, _ ∧ _ ∧ (t.handle E SpecB clk p i).users d = _
    unfold handle
    split
    · exact none rfl
    · next a ha =>
      dsimp only
      generalize (if (t.boxes p).proc.alive then 0 else i) = i
      split
      · exact none rfl
      · next c op' hi =>
        obtain ⟨req, again, hu⟩ := (hl.mail p c op').1 (List.mem_of_getElem? hi)
        split
        · next req' op'' again' q' hu' =>
          rw [hu] at hu'
          cases hu'
          refine one (e := .turn p (some c) op' (t.play E SpecB clk p a (some c) op').2) rfl ?_
          rintro q who op r h -
          cases h
          exact ⟨c, req, again, rfl, hu, upd_same _ _ _⟩
        · exact none rfl
  | turn p op' =>
    show ∃ l, (t.turn E SpecB clk p op').trace = _ ∧ _ ∧ ∀ q who op r, _ → _ → ∃ d req again, _ ∧ _ ∧ (t.turn E SpecB clk p op').users d = _
    unfold turn
    split
    · exact none rfl
    · split
      · next a ha hi =>
        refine one (e := .turn p .none op' (t.play E SpecB clk p a .none op').2) rfl ?_
        intro q who op r h ht
        cases h
        cases op' <;> first | exact ht.elim | cases hi
      · exact none rfl
  | take c =>
    show ∃ l, (t.take SpecB c).trace = _ ∧ _ ∧ ∀ q who op r, _ → _ → ∃ d req again, _ ∧ _ ∧ (t.take SpecB c).users d = _
    unfold take
    split
    · dsimp only
      split
      · exact none rfl
      · exact one rfl (fun _ _ _ _ h => by cases h)
    · exact one rfl (fun _ _ _ _ h => by cases h)
    · exact none rfl

/-- Ticks are not asked for. -/
theorem step_tick (hl : Links t) (o : SiteOp D O) {q : Nat} {who : Option Nat} {r : Resp D}
    (h : (t.step E SpecB clk o).trace = t.trace ++ [.turn q who .tick r]) : o.ticks q = true := by
  have none : ∀ {t' : Site D O SpecB}, t'.trace = t.trace → t'.trace = t.trace ++ [.turn q who .tick r] → o.ticks q = true := by
    intro t' h1 h2
    rw [h1] at h2
    exact absurd (congrArg List.length h2) (by simp)
  have one : ∀ {t' : Site D O SpecB} {e}, t'.trace = t.trace ++ [e] → (e = .turn q who .tick r → o.ticks q = true) →
      t'.trace = t.trace ++ [.turn q who .tick r] → o.ticks q = true := by
    intro t' e h1 h2 h3
    rw [h1] at h3
    exact h2 (by simpa using h3)
  revert h
  cases o with
  | begin c req =>
    show (t.begin SpecB c req).trace = _ → _
    unfold begin
    cases t.users c with
    | free => exact one rfl (fun h => by cases h)
    | done => exact one rfl (fun h => by cases h)
    | _ => exact none rfl
  | client c x =>
    show (t.client SpecB c x).trace = _ → _
    unfold client
    split <;> exact none rfl
  | engine e => exact none rfl
  | post c =>
    show (t.post SpecB c).trace = _ → _
    unfold post
    split
    · split
      · exact none rfl
      · split <;> exact none rfl
      · exact one rfl (fun h => by cases h)
      · exact none rfl
    · exact none rfl
  | handle p i =>
    show (t.handle E SpecB clk p i).trace = _ → _
    unfold handle
    split
    · exact none rfl
    · next a ha =>
      dsimp only
      generalize (if (t.boxes p).proc.alive then 0 else i) = i
      split
      · exact none rfl
      · next c op hi =>
        split
        · refine one (e := .turn p (some c) op (t.play E SpecB clk p a (some c) op).2) rfl ?_
          intro h
          have hop : op = .tick := by injection h
          obtain ⟨req, again, hu⟩ := (hl.mail p c op).1 (List.mem_of_getElem? hi)
          obtain ⟨past, now, -, -, evs, -, hunder⟩ : Tale _ c _ (.posted req op again p) := by have := hl.tale c; rwa [hu] at this
          rw [hop] at hunder
          generalize hso : some (Op.tick : Op D O) = so at hunder
          cases hunder with
          | first => cases req <;> cases hso
          | again => cases hso
        · exact none rfl
  | turn p op =>
    show (t.turn E SpecB clk p op).trace = _ → _
    unfold turn
    split
    · exact none rfl
    · split
      · next a ha hi =>
        refine one (e := .turn p .none op (t.play E SpecB clk p a .none op).2) rfl ?_
        intro h
        cases h
        simp [SiteOp.ticks]
      · exact none rfl
  | take c =>
    show (t.take SpecB c).trace = _ → _
    unfold take
    split
    · dsimp only
      split
      · exact none rfl
      · exact one rfl (fun h => by cases h)
    · exact one rfl (fun h => by cases h)
    · exact none rfl

/-- No turn is about `k`. -/
def Quiet (k : Str) (l : List (SiteEvent D O)) : Prop := ∀ q who op r, .turn q who op r ∈ l → ¬ op.Touches k

theorem Quiet.append {l l' : List (SiteEvent D O)} (h : Quiet k l) (h' : Quiet k l') : Quiet k (l ++ l') := fun q who op r hm =>
  (List.mem_append.1 hm).elim (h q who op r) (h' q who op r)

/-- Client `c` is on its way to submit `job`. -/
def Bound (c : Nat) (job : Job D) (cfg : EnqueueConfig) (t : Site D O SpecB) : Prop :=
  ∃ ty n, t.users c = .asking (.submit ty n job cfg) (some (.enqueue job cfg)) false ∨
    ∃ q, t.users c = .posted (.submit ty n job cfg) (.enqueue job cfg) false q

/-- Job `job` was not submitted yet, or once, by client `c`; nobody else touches it. -/
structure Track (c : Nat) (job : Job D) (cfg : EnqueueConfig) (t : Site D O SpecB) : Prop where
  others : ∀ d, d ≠ c → Clean job.id (t.users d)
  state : (Quiet job.id t.trace ∧ Bound c job cfg t) ∨ (Clean job.id (t.users c) ∧
    (Quiet job.id t.trace ∨ ∃ l p r l', t.trace = l ++ .turn p (some c) (.enqueue job cfg) r :: l' ∧ Quiet job.id l ∧ Quiet job.id l'))

/-- A client that has its message sent off. -/
theorem bound_step {c : Nat} {job : Job D} {cfg : EnqueueConfig} (o : SiteOp D O) (h : Bound c job cfg t) :
    Bound c job cfg (t.step E SpecB clk o) ∨ Clean k ((t.step E SpecB clk o).users c) := by
  obtain ⟨ty, n, h⟩ := h
  have stay : ∀ {t' : Site D O SpecB}, t'.users c = t.users c → Bound c job cfg t' ∨ Clean k (t'.users c) := fun e =>
    .inl ⟨ty, n, by rw [e]; exact h⟩
  have go : ∀ (t' : Site D O SpecB) (d : Nat) (u : User D O), t'.users = t.users →
      (d = c → (∃ ty n, u = .asking (.submit ty n job cfg) (some (.enqueue job cfg)) false ∨
        ∃ q, u = .posted (.submit ty n job cfg) (.enqueue job cfg) false q) ∨ Clean k u) →
      Bound c job cfg (t'.go SpecB d u) ∨ Clean k ((t'.go SpecB d u).users c) := by
    intro t' d u e hu
    by_cases ed : d = c
    · subst ed
      have e' : (t'.go SpecB d u).users d = u := upd_same _ _ _
      unfold Bound
      rw [e']
      exact hu rfl
    · refine stay ?_
      show upd t'.users d u c = _
      rw [upd_ne _ _ (fun h => ed h.symm), e]
  cases o with
  | begin d req =>
    show Bound c job cfg (t.begin SpecB d req) ∨ Clean k ((t.begin SpecB d req).users c)
    unfold begin
    by_cases ed : d = c
    · subst ed
      rcases h with h | ⟨q, h⟩ <;> rw [h] <;> exact stay rfl
    · have := go { t with hub := t.hub.begin d req.call } d (.asking req req.op false) rfl fun e => absurd e ed
      cases t.users d with
      | free => exact this
      | done => exact this
      | _ => exact stay rfl
  | client d x =>
    show Bound c job cfg (t.client SpecB d x) ∨ Clean k ((t.client SpecB d x).users c)
    unfold client
    split <;> exact stay rfl
  | engine e => exact stay rfl
  | post d =>
    show Bound c job cfg (t.post SpecB d) ∨ Clean k ((t.post SpecB d).users c)
    unfold post
    split
    · next req op again hu =>
      have send : ∀ o q, op = some o → Bound c job cfg (t.send SpecB d req o again q) ∨ Clean k ((t.send SpecB d req o again q).users c) := by
        intro o q ho
        refine go { t with boxes := upd t.boxes q { t.boxes q with mailbox := (t.boxes q).mailbox ++ [(d, o)] } } d (.posted req o again q) rfl ?_
        intro ed
        subst ed
        rcases h with h | ⟨q', h⟩ <;> rw [h] at hu <;> cases hu
        cases ho
        exact .inl ⟨ty, n, .inr ⟨q, rfl⟩⟩
      split
      · exact send _ _ rfl
      · split
        · exact stay rfl
        · exact send _ _ rfl
      · next call r _ _ => exact go t d (.done req (.short r)) rfl fun _ => .inr trivial
      · exact stay rfl
    · exact stay rfl
  | handle p i =>
    show Bound c job cfg (t.handle E SpecB clk p i) ∨ Clean k ((t.handle E SpecB clk p i).users c)
    unfold handle
    split
    · exact stay rfl
    · next a ha =>
      dsimp only
      generalize (if (t.boxes p).proc.alive then 0 else i) = i
      split
      · exact stay rfl
      · next d op hi =>
        split
        · next req op' again q' hu =>
          refine go { (t.play E SpecB clk p a (some d) op).1 with boxes := _ } d (.told req again (t.play E SpecB clk p a (some d) op).2) rfl ?_
          intro ed
          subst ed
          rcases h with h | ⟨q', h⟩ <;> rw [h] at hu <;> cases hu
          exact .inr (by rintro - ty n id d x h; cases h)
        · exact stay rfl
  | turn q op =>
    show Bound c job cfg (t.turn E SpecB clk q op) ∨ Clean k ((t.turn E SpecB clk q op).users c)
    unfold turn
    split
    · exact stay rfl
    · split <;> exact stay rfl
  | take d =>
    show Bound c job cfg (t.take SpecB d) ∨ Clean k ((t.take SpecB d).users c)
    have hne : ∀ req again r, t.users d = .told req again r → d ≠ c := by
      rintro req again r hu rfl
      rcases h with h | ⟨q', h⟩ <;> rw [h] at hu <;> cases hu
    unfold take
    split
    · next ty name id data context r hu =>
      dsimp only
      split
      · next op _ => exact go { t with hub := t.hub.client d true } d (.asking (.update ty name id data context) (some op) true) rfl fun e => absurd e (hne _ _ _ hu)
      · exact go { t with hub := t.hub.client d false } d (.done (.update ty name id data context) (.answer (.unit (.ok ())))) rfl fun e => absurd e (hne _ _ _ hu)
    · next req again r _ hu => exact go t d (.done req (.answer r)) rfl fun e => absurd e (hne _ _ _ hu)
    · exact stay rfl

theorem eq_singleton {α : Type} {l : List α} {x : α} (h : x ∈ l) (h' : l.length ≤ 1) : l = [x] := by
  match l, h, h' with
  | [y], h, _ => rw [List.mem_singleton.1 h]

/-- The job is submitted no more than once. -/
theorem track_step {c : Nat} {job : Job D} {cfg : EnqueueConfig} (hl : Links t) (h : Alone E clk kind t) (o : SiteOp D O)
    (hop : ∀ d req, o = .begin d req → ¬ req.Touches job.id) (ht : Track c job cfg t) : Track c job cfg (t.step E SpecB clk o) := by
  refine ⟨fun d hd => step_clean hl h o hop d (ht.others d hd), ?_⟩
  obtain ⟨l, h1, h2, h3⟩ := step_touch (E := E) (clk := clk) hl job.id o
  have calm : Clean job.id (t.users c) → Quiet job.id l := by
    intro hc q who op r hm hto
    obtain ⟨d, req, again, -, hu, -⟩ := h3 q who op r hm hto
    have hd : Clean job.id (t.users d) := by
      by_cases e : d = c
      · rw [e]; exact hc
      · exact ht.others d e
    rw [hu] at hd
    exact hd.1 hto
  rcases ht.state with ⟨hq, hb⟩ | ⟨hc, hs⟩
  · rcases bound_step (E := E) (clk := clk) (k := job.id) o hb with hb' | hc'
    · refine .inl ⟨?_, hb'⟩
      rw [h1]
      refine hq.append ?_
      intro q who op r hm hto
      obtain ⟨d, req, again, -, hu, hu'⟩ := h3 q who op r hm hto
      by_cases e : d = c
      · subst e
        obtain ⟨ty, n, h | ⟨q', h⟩⟩ := hb' <;> rw [h] at hu' <;> cases hu'
      · have hd := ht.others d e
        rw [hu] at hd
        exact hd.1 hto
    · refine .inr ⟨hc', ?_⟩
      by_cases hl : Quiet job.id l
      · left; rw [h1]; exact hq.append hl
      · right
        simp only [Quiet, not_forall, not_not] at hl
        obtain ⟨q, who, op, r, hm, hto⟩ := hl
        obtain ⟨d, req, again, hwho, hu, hu'⟩ := h3 q who op r hm hto
        have e : d = c := by
          by_contra e
          have hd := ht.others d e
          rw [hu] at hd
          exact hd.1 hto
        subst e hwho
        have hop' : op = .enqueue job cfg := by
          obtain ⟨ty, n, h | ⟨q', h⟩⟩ := hb <;> rw [h] at hu <;> cases hu
          rfl
        subst hop'
        have hl' := eq_singleton hm h2
        exact ⟨t.trace, q, r, [], by rw [h1, hl'], hq, fun _ _ _ _ h => by cases h⟩
  · refine .inr ⟨step_clean hl h o hop c hc, ?_⟩
    rcases hs with hs | ⟨l1, p, r, l2, h4, h5, h6⟩
    · left; rw [h1]; exact hs.append (calm hc)
    · right
      exact ⟨l1, p, r, l2 ++ l, by rw [h1, h4]; simp, h5, h6.append (calm hc)⟩

/-- The request is made. -/
theorem track_begin {c ty : Nat} {n : Str} {job : Job D} {cfg : EnqueueConfig} (hcl : ∀ d, Clean job.id (t.users d)) (hq : Quiet job.id t.trace) :
    Track c job cfg (t.step E SpecB clk (.begin c (.submit ty n job cfg))) := by
  show Track c job cfg (t.begin SpecB c (.submit ty n job cfg))
  have stay : Track c job cfg t := ⟨fun d _ => hcl d, .inr ⟨hcl c, .inl hq⟩⟩
  have ask : Track c job cfg (({ t with hub := t.hub.begin c (.submit ty n) }.go SpecB c (.asking (.submit ty n job cfg)
      (some (.enqueue job cfg)) false)).see SpecB (.call c (.submit ty n job cfg))) := by
    refine ⟨fun d hd => ?_, .inl ⟨?_, ty, n, .inl (upd_same _ _ _)⟩⟩
    · show Clean job.id (upd t.users c _ d)
      rw [upd_ne _ _ hd]
      exact hcl d
    · exact hq.append fun q who op r h => by cases List.mem_singleton.1 h
  unfold begin
  cases t.users c with
  | free => exact ask
  | done => exact ask
  | _ => exact stay

/-- Nobody has touched `k`. -/
theorem calm_step (hl : Links t) (h : Alone E clk kind t) (o : SiteOp D O) (hop : ∀ d req, o = .begin d req → ¬ req.Touches k)
    (hcl : ∀ d, Clean k (t.users d)) (hq : Quiet k t.trace) :
    (∀ d, Clean k ((t.step E SpecB clk o).users d)) ∧ Quiet k (t.step E SpecB clk o).trace := by
  refine ⟨fun d => step_clean hl h o hop d (hcl d), ?_⟩
  obtain ⟨l, h1, -, h3⟩ := step_touch (E := E) (clk := clk) hl k o
  rw [h1]
  refine hq.append ?_
  intro q who op r hm hto
  obtain ⟨d, req, again, -, hu, -⟩ := h3 q who op r hm hto
  have hd := hcl d
  rw [hu] at hd
  exact hd.1 hto

end Site
end AJ
