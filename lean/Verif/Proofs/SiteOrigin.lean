import Verif.Proofs.EndToEnd

/-! # Where the turns of a process come from -/

namespace AJ
namespace Site
variable {D O : Type} {E : Nat → Env D} {clk : Nat → Nat → Time}

/-- Turns come from steps, and requests of clients from requests that were begun. -/
structure Origin (ops : List (SiteOp D O)) (t : Site D O SpecB) : Prop where
  users : ∀ d, match t.users d with
    | .asking req _ _ => .begin d req ∈ ops
    | .posted req _ _ _ => .begin d req ∈ ops
    | .told req _ _ => .begin d req ∈ ops
    | _ => True
  turns : ∀ q who op r, .turn q who op r ∈ t.trace → (who = none ∧ .turn q op ∈ ops) ∨ ∃ d req, who = some d ∧ .begin d req ∈ ops ∧ req.Sends op

theorem origin_init {s : Nat → SpecState} : Origin [] (init SpecB s : Site D O SpecB) :=
  ⟨fun _ => trivial, fun _ _ _ _ h => by cases h⟩

theorem origin_step {ops : List (SiteOp D O)} {t : Site D O SpecB} (hl : Links t) (h : Origin ops t) (o : SiteOp D O) :
    Origin (ops ++ [o]) (t.step E SpecB clk o) := by
  have old : ∀ {x}, x ∈ ops → x ∈ ops ++ [o] := fun h => List.mem_append_left _ h
  have new : o ∈ ops ++ [o] := List.mem_append_right _ (List.mem_singleton.2 rfl)
  have hu : ∀ d, match t.users d with
      | .asking req _ _ => .begin d req ∈ ops ++ [o]
      | .posted req _ _ _ => .begin d req ∈ ops ++ [o]
      | .told req _ _ => .begin d req ∈ ops ++ [o]
      | _ => True := by
    intro d
    have := h.users d
    cases e : t.users d <;> rw [e] at this <;> first | trivial | exact old this
  have ht : ∀ q who op r, .turn q who op r ∈ t.trace → (who = none ∧ .turn q op ∈ ops ++ [o]) ∨
      ∃ d req, who = some d ∧ .begin d req ∈ ops ++ [o] ∧ req.Sends op := by
    intro q who op r hm
    rcases h.turns q who op r hm with ⟨h1, h2⟩ | ⟨d, req, h1, h2, h3⟩
    · exact .inl ⟨h1, old h2⟩
    · exact .inr ⟨d, req, h1, old h2, h3⟩
  have same : ∀ {t' : Site D O SpecB}, t'.users = t.users → t'.trace = t.trace → Origin (ops ++ [o]) t' := by
    intro t' e1 e2
    exact ⟨by rw [e1]; exact hu, by rw [e2]; exact ht⟩
  have go : ∀ {t' : Site D O SpecB} {c : Nat} {u : User D O} {l}, t'.users = upd t.users c u → t'.trace = t.trace ++ l →
      (match u with
      | .asking req _ _ => .begin c req ∈ ops ++ [o]
      | .posted req _ _ _ => .begin c req ∈ ops ++ [o]
      | .told req _ _ => .begin c req ∈ ops ++ [o]
      | _ => True) → (∀ q who op r, .turn q who op r ∈ l → (who = none ∧ .turn q op ∈ ops ++ [o]) ∨
        ∃ d req, who = some d ∧ .begin d req ∈ ops ++ [o] ∧ req.Sends op) → Origin (ops ++ [o]) t' := by
    intro t' c u l e1 e2 h1 h2
    refine ⟨fun d => ?_, fun q who op r hm => ?_⟩
    · rw [e1]
      by_cases e : d = c
      · subst e; rw [upd_same]; exact h1
      · rw [upd_ne _ _ e]; exact hu d
    · rw [e2] at hm
      rcases List.mem_append.1 hm with hm | hm
      · exact ht q who op r hm
      · exact h2 q who op r hm
  have no : ∀ (e : SiteEvent D O), (∀ q who op r, e ≠ .turn q who op r) → ∀ q who op r, .turn q who op r ∈ [e] →
      (who = none ∧ .turn q op ∈ ops ++ [o]) ∨ ∃ d req, who = some d ∧ .begin d req ∈ ops ++ [o] ∧ req.Sends op := by
    intro e he q who op r hm
    exact absurd (List.mem_singleton.1 hm).symm (he _ _ _ _)
  cases o with
  | begin c req =>
    show Origin _ (t.begin SpecB c req)
    have := go (t' := ({ t with hub := t.hub.begin c req.call }.go SpecB c (.asking req req.op false)).see SpecB (.call c req)) rfl rfl new
      (no _ fun _ _ _ _ h => by cases h)
    unfold begin
    cases t.users c with
    | free => exact this
    | done => exact this
    | _ => exact same rfl rfl
  | client c x =>
    show Origin _ (t.client SpecB c x)
    unfold client
    split <;> exact same rfl rfl
  | engine e => exact same rfl rfl
  | post c =>
    show Origin _ (t.post SpecB c)
    unfold post
    split
    · next req op again e =>
      have hc := hu c
      rw [e] at hc
      have send : ∀ op' q, Origin (ops ++ [.post c]) (t.send SpecB c req op' again q) := fun op' q =>
        go (l := []) rfl (List.append_nil _).symm hc (fun _ _ _ _ h => by cases h)
      split
      · exact send _ _
      · split
        · exact same rfl rfl
        · exact send _ _
      · exact go rfl rfl trivial (no _ fun _ _ _ _ h => by cases h)
      · exact same rfl rfl
    · exact same rfl rfl
  | handle p i =>
    show Origin _ (t.handle E SpecB clk p i)
    unfold handle
    split
    · exact same rfl rfl
    · next a ha =>
      dsimp only
      generalize (if (t.boxes p).proc.alive then 0 else i) = i
      split
      · exact same rfl rfl
      · next c op hi =>
        split
        · next req op' again q' e =>
          have hc := hu c
          rw [e] at hc
          obtain ⟨req', again', e'⟩ := (hl.mail p c op).1 (List.mem_of_getElem? hi)
          rw [e] at e'
          cases e'
          refine go (c := c) (u := .told req again _) rfl rfl hc fun q who op'' r hm => ?_
          cases List.mem_singleton.1 hm
          refine .inr ⟨c, req, rfl, hc, ?_⟩
          obtain ⟨past, now, -, -, evs, -, hunder⟩ : Tale _ c _ (.posted req op again p) := by have := hl.tale c; rwa [e] at this
          generalize hso : some op = so at hunder
          cases hunder with
          | first => exact .inl hso.symm
          | again ty n id data context j _ h1 _ => cases hso; exact .inr ⟨ty, n, id, data, context, j, h1, rfl⟩
        · exact same rfl rfl
  | turn p op =>
    show Origin _ (t.turn E SpecB clk p op)
    unfold turn
    split
    · exact same rfl rfl
    · split
      · refine ⟨hu, fun q who op' r hm => ?_⟩
        rcases List.mem_append.1 hm with hm | hm
        · exact ht q who op' r hm
        · cases List.mem_singleton.1 hm
          exact .inl ⟨rfl, new⟩
      · exact same rfl rfl
  | take c =>
    show Origin _ (t.take SpecB c)
    unfold take
    split
    · next e =>
      have hc := hu c
      rw [e] at hc
      dsimp only
      split
      · exact go (l := []) rfl (List.append_nil _).symm hc (fun _ _ _ _ h => by cases h)
      · exact go rfl rfl trivial (no _ fun _ _ _ _ h => by cases h)
    · exact go rfl rfl trivial (no _ fun _ _ _ _ h => by cases h)
    · exact same rfl rfl

theorem origin_run {ops : List (SiteOp D O)} {t : Site D O SpecB} (hl : Links t) (h : Origin ops t) (more : List (SiteOp D O)) :
    Origin (ops ++ more) (t.run E SpecB clk more) := by
  induction more generalizing ops t with
  | nil => rw [List.append_nil]; exact h
  | cons o more ih =>
    have := ih (links_step hl o) (origin_step (E := E) (clk := clk) hl h o)
    rwa [List.append_assoc] at this

end Site
end AJ
