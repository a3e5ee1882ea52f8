import Verif.Proofs.Fair
import Verif.Proofs.Drain
import Verif.Spec.DrainWeave

/-! # Requests on their way to work queues -/

namespace AJ
namespace Site
variable {D O : Type} {E : Nat → Env D} {clk : Nat → Nat → Time} {B : Backend} {t : Site D O B}

/-- The request of the client satisfies `P`, and its message is that of the request. -/
def Meets (P : Req D → Prop) : User D O → Prop
  | .asking req op _ => P req ∧ op = req.op
  | .posted req op _ _ => P req ∧ some op = req.op
  | .told req _ _ => P req
  | _ => True

/-- How many steps of its way a request that may bring a job has still before it. -/
def ahead : User D O → Nat
  | .asking req _ again => if req.brings then (if again then 3 else 6) else 0
  | .posted req _ again _ => if req.brings then (if again then 2 else 5) else 0
  | .told req again _ => if req.brings then (if again then 1 else 4) else 0
  | _ => 0

/-- What a step does to a client. -/
inductive Fares (t : Site D O B) (d : Nat) : SiteOp D O → User D O → User D O → Prop
  | same (o u) : Fares t d o u u
  | asks (req u) (hu : ahead u = 0) : Fares t d (.begin d req) u (.asking req req.op false)
  | sends (req op again q) : Fares t d (.post d) (.asking req (some op) again) (.posted req op again q)
  | short (req op again r) : Fares t d (.post d) (.asking req op again) (.done req (.short r))
  | told (req op again q i p r) : Fares t d (.handle p i) (.posted req op again q) (.told req again r)
  | again (ty name id data context r op) : Fares t d (.take d) (.told (.update ty name id data context) false r)
      (.asking (.update ty name id data context) (some op) true)
  | ends (req again r r') : Fares t d (.take d) (.told req again r) (.done req r')

theorem step_fares (t : Site D O B) (o : SiteOp D O) (d : Nat) : Fares t d o (t.users d) ((t.step E B clk o).users d) := by
  have go : ∀ (t' : Site D O B) (c : Nat) (u : User D O), t'.users = t.users → (c = d → Fares t d o (t.users d) u) →
      Fares t d o (t.users d) ((t'.go B c u).users d) := by
    intro t' c u e hu
    show Fares t d o (t.users d) (upd t'.users c u d)
    unfold upd
    split
    · next e => exact hu e.symm
    · rw [e]; exact .same _ _
  cases o with
  | begin c req =>
    show Fares t d _ _ ((t.begin B c req).users d)
    have key : ahead (t.users c) = 0 → Fares t d (.begin c req) (t.users d) (({ t with hub := t.hub.begin c req.call }.go B c (.asking req req.op false)).users d) := fun h =>
      go { t with hub := t.hub.begin c req.call } c (.asking req req.op false) rfl fun e => by subst e; exact .asks req _ h
    unfold begin
    cases hu : t.users c with
    | free => exact key (by rw [hu]; rfl)
    | done => exact key (by rw [hu]; rfl)
    | _ => exact .same _ _
  | client c x =>
    show Fares t d _ _ ((t.client B c x).users d)
    unfold client
    split <;> exact .same _ _
  | engine e => exact .same _ _
  | post c =>
    show Fares t d _ _ ((t.post B c).users d)
    unfold post
    split
    · next req op again hu =>
      have send : ∀ o q, op = some o → Fares t d (.post c) (t.users d) ((t.send B c req o again q).users d) := by
        intro o q ho
        refine go { t with boxes := upd t.boxes q { t.boxes q with mailbox := (t.boxes q).mailbox ++ [(c, o)] } } c (.posted req o again q) rfl ?_
        rintro rfl
        rw [hu, ho]
        exact .sends _ _ _ _
      split
      · exact send _ _ rfl
      · split
        · exact .same _ _
        · exact send _ _ rfl
      · next call r _ _ =>
        refine go t c (.done req (.short r)) rfl ?_
        rintro rfl
        rw [hu]
        exact .short _ _ _ _
      · exact .same _ _
    · exact .same _ _
  | handle q i =>
    show Fares t d _ _ ((t.handle E B clk q i).users d)
    unfold handle
    split
    · exact .same _ _
    · next a ha =>
      dsimp only
      split
      · exact .same _ _
      · next c op hi =>
        split
        · next req op' again q' hu =>
          refine go { (t.play E B clk q a (some c) op).1 with boxes := _ } c (.told req again (t.play E B clk q a (some c) op).2) rfl ?_
          rintro rfl
          rw [hu]
          exact .told _ _ _ _ _ _ _
        · exact .same _ _
  | turn q op =>
    show Fares t d _ _ ((t.turn E B clk q op).users d)
    unfold turn
    split
    · exact .same _ _
    · split <;> exact .same _ _
  | take c =>
    show Fares t d _ _ ((t.take B c).users d)
    unfold take
    split
    · next ty name id data context r hu =>
      dsimp only
      split
      · next op hop =>
        refine go { t with hub := t.hub.client c true } c (.asking (.update ty name id data context) (some op) true) rfl ?_
        rintro rfl
        rw [hu]
        exact .again _ _ _ _ _ _ _
      · refine go { t with hub := t.hub.client c false } c (.done (.update ty name id data context) (.answer (.unit (.ok ())))) rfl ?_
        rintro rfl
        rw [hu]
        exact .ends _ _ _ _
    · next req again r _ hu =>
      refine go t c (.done req (.answer r)) rfl ?_
      rintro rfl
      rw [hu]
      exact .ends _ _ _ _
    · exact .same _ _

/-- If all requests satisfy `P`, then so do those under way. -/
theorem step_meets {P : Req D → Prop} (hP : ∀ ty n id d x, ¬ P (.update ty n id d x)) (o : SiteOp D O) (ho : ∀ d req, o = .begin d req → P req) (d : Nat)
    (h : Meets P (t.users d)) : Meets P ((t.step E B clk o).users d) := by
  have hf := step_fares (E := E) (clk := clk) t o d
  generalize t.users d = u at hf h
  generalize (t.step E B clk o).users d = u' at hf
  cases hf with
  | same => exact h
  | asks req => exact ⟨ho _ _ rfl, rfl⟩
  | sends => exact h
  | short => trivial
  | told => exact h.1
  | again => exact absurd h (hP _ _ _ _ _)
  | ends => trivial

/-- When nobody begins a request that may bring a job, the ways that are left get no longer. -/
theorem step_ahead (o : SiteOp D O) (ho : ∀ d req, o = .begin d req → req.brings = false) (d : Nat) :
    ahead ((t.step E B clk o).users d) ≤ ahead (t.users d) := by
  have hf := step_fares (E := E) (clk := clk) t o d
  generalize t.users d = u at hf
  generalize (t.step E B clk o).users d = u' at hf
  cases hf with
  | same => exact Nat.le_refl _
  | asks req =>
    show (if req.brings = true then _ else 0) ≤ _
    rw [ho _ _ rfl]
    exact Nat.zero_le _
  | sends req op again q => cases again <;> cases h : req.brings <;> simp [ahead, h]
  | short => exact Nat.zero_le _
  | told req op again => cases again <;> cases h : req.brings <;> simp [ahead, h]
  | again => simp [ahead, Req.brings]
  | ends => exact Nat.zero_le _

/-- At most one client begins to be ahead in a step. -/
theorem step_bounded (o : SiteOp D O) {C : Nat} (h : ∀ d, C ≤ d → ahead (t.users d) = 0) : ∃ C', ∀ d, C' ≤ d → ahead ((t.step E B clk o).users d) = 0 := by
  by_cases hb : ∃ c req, o = .begin c req
  · obtain ⟨c, req, rfl⟩ := hb
    refine ⟨max C (c + 1), fun d hd => ?_⟩
    have hf := step_fares (E := E) (clk := clk) t (.begin c req) d
    have h0 := h d (by omega)
    generalize t.users d = u at hf h0
    generalize (t.step E B clk (.begin c req)).users d = u' at hf
    cases hf with
    | same => exact h0
    | asks => omega
  · exact ⟨C, fun d hd => Nat.le_zero.1 (Nat.le_trans (step_ahead o (fun d req h => absurd ⟨d, req, h⟩ hb) d) (Nat.le_of_eq (h d hd)))⟩

/-- A turn that no work queue takes by itself is taken for a client that has sent its message. -/
theorem step_asked (hl : Links t) (o : SiteOp D O) {q : Nat} {who : Option Nat} {op : Op D O} {r : Resp D} (hi : op.inner = false)
    (htr : (t.step E B clk o).trace = t.trace ++ [.turn q who op r]) :
    ∃ d req again, who = some d ∧ t.users d = .posted req op again q ∧ (t.step E B clk o).users d = .told req again r := by
  have none : ∀ {t' : Site D O B}, t'.trace = t.trace → t'.trace = t.trace ++ [.turn q who op r] → False := by
    intro t' h1 h2
    rw [h1] at h2
    have := congrArg List.length h2
    simp at this
  have one : ∀ {t' : Site D O B} {e}, t'.trace = t.trace ++ [e] → t'.trace = t.trace ++ [.turn q who op r] → e = .turn q who op r := by
    intro t' e h1 h2
    rw [h1] at h2
    exact (List.cons.inj (List.append_cancel_left h2)).1
  cases o with
  | begin c req =>
    change (t.begin B c req).trace = _ at htr
    exfalso
    unfold begin at htr
    cases hu : t.users c with
    | free => rw [hu] at htr; cases one rfl htr
    | done => rw [hu] at htr; cases one rfl htr
    | _ => rw [hu] at htr; exact none rfl htr
  | client c x =>
    change (t.client B c x).trace = _ at htr
    exfalso
    unfold client at htr
    split at htr <;> exact none rfl htr
  | engine e => exact (none (t' := { t with hub := t.hub.engine e }) rfl htr).elim
  | post c =>
    change (t.post B c).trace = _ at htr
    exfalso
    unfold post at htr
    split at htr
    · split at htr
      · exact none rfl htr
      · split at htr <;> exact none rfl htr
      · cases one rfl htr
      · exact none rfl htr
    · exact none rfl htr
  | handle p i =>
    change (t.handle E B clk p i).trace = _ at htr
    show ∃ d req again, _ ∧ _ ∧ (t.handle E B clk p i).users d = _
    unfold handle at htr ⊢
    split at htr
    · exact (none rfl htr).elim
    · next a ha =>
      dsimp only at htr ⊢
      generalize (if (t.boxes p).proc.alive then 0 else i) = i at htr ⊢
      split at htr
      · exact (none rfl htr).elim
      · next c op' hi' =>
        obtain ⟨req, again, hu⟩ := (hl.mail p c op').1 (List.mem_of_getElem? hi')
        rw [hu] at htr
        have e := one (e := .turn p (some c) op' (t.play E B clk p a (some c) op').2) rfl htr
        cases e
        refine ⟨c, req, again, rfl, hu, ?_⟩
        simp only [hu]
        exact upd_same _ _ _
  | turn p op' =>
    change (t.turn E B clk p op').trace = _ at htr
    exfalso
    unfold turn at htr
    split at htr
    · exact none rfl htr
    · split at htr
      · next a ha hin =>
        have e := one (e := .turn p .none op' (t.play E B clk p a .none op').2) rfl htr
        cases e
        rw [hi] at hin
        cases hin
      · exact none rfl htr
  | take c =>
    change (t.take B c).trace = _ at htr
    exfalso
    unfold take at htr
    split at htr
    · dsimp only at htr
      split at htr
      · exact none rfl htr
      · cases one rfl htr
    · cases one rfl htr
    · exact none rfl htr

section
variable {ops : Nat → SiteOp D O}

local notation "τ" n:max => Site.after E B clk t ops n

/-- When nobody begins a request that may bring a job from some point on, then from some point on no work queue takes a turn for one. -/
theorem brings_end {n0 C : Nat} (hC : ∀ d, C ≤ d → ahead (t.users d) = 0) (hno : ∀ n d req, n0 ≤ n → ops n = .begin d req → req.brings = false) :
    ∃ N, n0 ≤ N ∧ ∀ n, N ≤ n → ∀ d, ahead ((τ (n + 1)).users d) = ahead ((τ n).users d) := by
  have hB : ∀ n, ∃ C, ∀ d, C ≤ d → ahead ((τ n).users d) = 0 := by
    intro n
    induction n with
    | zero => exact ⟨C, hC⟩
    | succ n ih =>
      obtain ⟨C, h⟩ := ih
      exact step_bounded (E := E) (clk := clk) (ops n) h
  obtain ⟨C, h0⟩ := hB n0
  have mono : ∀ n m, n0 ≤ n → n ≤ m → ∀ d, ahead ((τ m).users d) ≤ ahead ((τ n).users d) := by
    intro n m hn hm d
    induction hm with
    | refl => exact Nat.le_refl _
    | @step m hm ih => exact Nat.le_trans (step_ahead (E := E) (clk := clk) (ops m) (fun d req => hno m d req (Nat.le_trans hn hm)) d) ih
  have one : ∀ d, ∃ N, n0 ≤ N ∧ ∀ n, N ≤ n → ahead ((τ n).users d) = ahead ((τ N).users d) := by
    intro d
    have : ∀ r n, n0 ≤ n → ahead ((τ n).users d) ≤ r → ∃ N, n0 ≤ N ∧ ∀ n, N ≤ n → ahead ((τ n).users d) = ahead ((τ N).users d) := by
      intro r
      induction r with
      | zero =>
        intro n hn h
        refine ⟨n, hn, fun m hm => ?_⟩
        have := mono n m hn hm d
        omega
      | succ r ih =>
        intro n hn h
        by_cases hc : ∃ m, n ≤ m ∧ ahead ((τ m).users d) < ahead ((τ n).users d)
        · obtain ⟨m, h1, h2⟩ := hc
          exact ih m (by omega) (by omega)
        · refine ⟨n, hn, fun m hm => ?_⟩
          have := mono n m hn hm d
          by_contra hne
          exact hc ⟨m, hm, by omega⟩
    exact this _ n0 (Nat.le_refl _) (Nat.le_refl _)
  have all : ∀ c, ∃ N, n0 ≤ N ∧ ∀ d, d < c → ∀ n, N ≤ n → ahead ((τ n).users d) = ahead ((τ N).users d) := by
    intro c
    induction c with
    | zero => exact ⟨n0, Nat.le_refl _, fun d hd => absurd hd (Nat.not_lt_zero _)⟩
    | succ c ih =>
      obtain ⟨N, h1, h2⟩ := ih
      obtain ⟨M, h3, h4⟩ := one c
      refine ⟨max N M, by omega, fun d hd n hn => ?_⟩
      rcases Nat.lt_succ_iff_lt_or_eq.1 hd with h | rfl
      · rw [h2 d h n (by omega), h2 d h (max N M) (by omega)]
      · rw [h4 n (by omega), h4 (max N M) (by omega)]
  obtain ⟨N, h1, h2⟩ := all C
  refine ⟨N, h1, fun n hn d => ?_⟩
  by_cases hd : d < C
  · rw [h2 d hd _ (by omega), h2 d hd n hn]
  · have g1 := mono n0 n (Nat.le_refl _) (by omega) d
    have g2 := mono n0 (n + 1) (Nat.le_refl _) (by omega) d
    rw [h0 d (by omega)] at g1 g2
    omega

end

end Site
end AJ
