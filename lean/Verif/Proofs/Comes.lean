import Verif.Proofs.EndlessWeave
import Verif.Proofs.Spelled
import Verif.Props.WeaveRun
import Verif.Spec.EndlessBoot

/-! # A submission brings up a work queue of its type, on the backend of the engine -/

namespace AJ

namespace Hub
variable {h : Hub} {β : Nat}

/-- There is one engine, with backend `β`, and all work queues are on this backend. -/
structure Based (β : Nat) (h : Hub) : Prop where
  engine : h.engines.map (·.backend) = [β]
  queues : ∀ a ∈ h.queues, a.backend = β

theorem Based.go (hb : Based β h) (c : Nat) (pc : ClientPc) : Based β (h.go c pc) := ⟨hb.engine, hb.queues⟩

theorem Based.begin (hb : Based β h) (c : Nat) (call : ApiCall) : Based β (h.begin c call) := by
  unfold Hub.begin
  split
  · exact hb.go ..
  · exact hb.go ..
  · exact hb

theorem Based.client (hb : Based β h) (c : Nat) (x : Bool) (h1 : (h.client c x).engines.length ≤ 1) : Based β (h.client c x) := by
  have hl : h.engines.length = 1 := by
    have := congrArg List.length hb.engine
    simpa using this
  unfold Hub.client at h1 ⊢
  split at h1
  · exact hb.go ..
  · have h1 : (h.engines ++ _).length ≤ 1 := h1
    simp [hl] at h1
  · split
    · exact hb.go ..
    · exact ⟨hb.engine, hb.queues⟩
  · exact ⟨hb.engine, hb.queues⟩
  · split <;> exact hb.go ..
  · next call ty n e =>
    split
    · refine ⟨(engines_send ..).trans hb.engine, fun a ha => hb.queues a ?_⟩
      unfold send at ha
      split at ha
      · split at ha <;> exact ha
      · exact ha
    · exact hb.go ..
  · split <;> exact hb.go ..
  · exact hb

theorem Based.step (hb : Based β h) (e : Nat) : Based β (h.engine e) := by
  refine ⟨(engines_engine h e).trans hb.engine, ?_⟩
  unfold Hub.engine
  split
  · exact hb.queues
  · next G hG =>
    split
    · split
      · exact hb.queues
      · split <;> exact hb.queues
    · split <;> exact hb.queues
    · intro a ha
      rcases List.mem_append.1 ha with ha | ha
      · exact hb.queues a ha
      · rw [List.mem_singleton.1 ha]
        have : G.backend ∈ h.engines.map (·.backend) := List.mem_map.2 ⟨G, List.mem_of_getElem? hG, rfl⟩
        rw [hb.engine] at this
        exact List.mem_singleton.1 this
    · next m q hp =>
      have : (h.answer m q).queues = h.queues := by
        unfold answer
        split <;> rfl
      show ∀ a ∈ (h.answer m q).queues, _
      rw [this]; exact hb.queues

end Hub

namespace Weave
variable {D O : Type} {E : Nat → Env D} {B : Backend} {clk : Nat → Nat → Time} {N : Nat → Str} {f : Weave D O B} {ops : Nat → WeaveOp D O} {β : Nat}

local notation "φ" n:max => Weave.after E B clk f ops n

theorem based_step (ht : Tidy f) (h : f.site.hub.Based β) (o : WeaveOp D O) (h1 : (f.step E B clk o).site.hub.engines.length ≤ 1) :
    (f.step E B clk o).site.hub.Based β := by
  rcases plain_or o with ⟨o, rfl, hp⟩ | hq
  · rw [step_plain hp] at h1 ⊢
    show (f.site.step E B clk o).hub.Based β
    replace h1 : (f.site.step E B clk o).hub.engines.length ≤ 1 := h1
    cases o with
    | begin c req =>
      show (f.site.begin B c req).hub.Based β
      unfold Site.begin
      cases f.site.users c <;> first | exact h | exact Hub.Based.begin h c _
    | client c x =>
      change (f.site.client B c x).hub.engines.length ≤ 1 at h1
      show (f.site.client B c x).hub.Based β
      unfold Site.client at h1 ⊢
      split at h1
      · exact h
      · exact Hub.Based.client h c x h1
    | engine e => exact Hub.Based.step h e
    | take c =>
      change (f.site.take B c).hub.engines.length ≤ 1 at h1
      show (f.site.take B c).hub.Based β
      unfold Site.take at h1 ⊢
      split at h1
      · dsimp only at h1 ⊢
        split at h1 <;> exact Hub.Based.client h c _ h1
      · exact h
      · exact h
    | post c =>
      show (f.site.post B c).hub.Based β
      unfold Site.post
      split
      · split
        · exact h
        · split <;> exact h
        · exact h
        · exact h
      · exact h
    | handle q i => cases hp
    | turn q op => cases hp
  · rw [(quiet_step ht o hq).1]; exact h

/-- One step of a client that looks for a work queue. -/
theorem asks_key (hN : ∀ a b, N a = N b → a = b) {c ty : Nat} {n : Str} {job : Job D} {cfg : EnqueueConfig} {op : Op D O} (ht : Tidy f) {G : Engine}
    (ho : f.site.hub.Orderly N G) (o : WeaveOp D O) (hp : ∀ o', o = .site o' → o'.Polite N f.site) (ha : f.site.Asks c (.submit ty n job cfg) op) :
    (o = .site (.post c) ∧ ∃ q, (f.step E B clk o).site.users c = .posted (.submit ty n job cfg) op false q) ∨
    (f.step E B clk o).site.Asks c (.submit ty n job cfg) op ∧
    ∃ G', (f.step E B clk o).site.hub.Orderly N G' ∧
      Hub.stage ((f.step E B clk o).site.hub.clients c) ≤ Hub.stage (f.site.hub.clients c) ∧
      ((∃ x, o = .site (.client c x)) → 2 ≤ Hub.stage (f.site.hub.clients c) →
        Hub.stage ((f.step E B clk o).site.hub.clients c) < Hub.stage (f.site.hub.clients c)) ∧
      (Hub.stage (f.site.hub.clients c) = 1 → Hub.stage ((f.step E B clk o).site.hub.clients c) = 1 →
        Hub.left c G' ≤ Hub.left c G ∧ (o = .site (.engine 0) → Hub.left c G' < Hub.left c G)) ∧
      (o = .site (.post c) → Hub.stage (f.site.hub.clients c) ≠ 0) := by
  rcases plain_or o with ⟨o, rfl, h⟩ | h
  · rw [step_plain h]
    simp only [WeaveOp.site.injEq]
    exact Site.asks_key (E := E) (clk := clk) hN ht.links ho o (hp o rfl) ha
  · obtain ⟨h1, h2⟩ := quiet_step (E := E) (clk := clk) ht o h
    have no : ∀ o' : SiteOp D O, o'.plain = true → o ≠ .site o' := fun o' hp e => by rw [h o' e] at hp; cases hp
    refine .inr ⟨(h2 c _ _ _ ha).trans ha, G, by rw [h1]; exact ho, Nat.le_of_eq (by rw [h1]), fun ⟨x, e⟩ => absurd e (no _ rfl), fun _ _ =>
      ⟨Nat.le_refl _, fun e => absurd e (no _ rfl)⟩, fun e => absurd e (no _ rfl)⟩

theorem orderly_after (hN : ∀ a b, N a = N b → a = b) (ht : Tidy f) {G : Engine} (ho : f.site.hub.Orderly N G)
    (hp : ∀ n o, ops n = .site o → o.Polite N (φ n).site) (n : Nat) : ∃ G', (φ n).site.hub.Orderly N G' := by
  induction n with
  | zero => exact ⟨G, ho⟩
  | succ n ih =>
    obtain ⟨G', ho'⟩ := ih
    exact orderly_step hN (after_tidy ht n) ho' _ (hp n)

/-- A client that looks for the work queue finds it and sends its message. -/
theorem posted_after (hN : ∀ a b, N a = N b → a = b) {G : Engine} (ht : Tidy f) (ho : f.site.hub.Orderly N G)
    (hp : ∀ n o, ops n = .site o → o.Polite N (φ n).site) {c ty : Nat} (hm1 : ∀ m, ∃ n x, m ≤ n ∧ ops n = .site (.client c x))
    (hm2 : ∀ m, ∃ n, m ≤ n ∧ ops n = .site (.engine 0)) (hm3 : ∀ m, ∃ n, m ≤ n ∧ ops n = .site (.post c)) {n0 : Nat} {nm : Str} {job : Job D}
    {cfg : EnqueueConfig} {op : Op D O} (ha : (φ n0).site.Asks c (.submit ty nm job cfg) op) :
    ∃ n, n0 ≤ n ∧ ∃ q, (φ n).site.users c = .posted (.submit ty nm job cfg) op false q := by
  by_contra hcon
  choose G hG using fun n => orderly_after (E := E) (clk := clk) hN ht ho hp n
  have key := fun n (ha : (φ n).site.Asks c (.submit ty nm job cfg) op) =>
    asks_key (E := E) (clk := clk) hN (after_tidy (E := E) (clk := clk) (ops := ops) ht n) (hG n) (ops n) (hp n) ha
  have hA : ∀ i, (φ (n0 + i)).site.Asks c (.submit ty nm job cfg) op := by
    intro i
    induction i with
    | zero => exact ha
    | succ i ih =>
      rcases key _ ih with ⟨-, q, h⟩ | ⟨h, -⟩
      · exact absurd ⟨n0 + i + 1, by omega, q, h⟩ hcon
      · exact h
  have key : ∀ i, Hub.stage ((φ (n0 + (i + 1))).site.hub.clients c) ≤ Hub.stage ((φ (n0 + i)).site.hub.clients c) ∧
      ((∃ x, ops (n0 + i) = .site (.client c x)) → 2 ≤ Hub.stage ((φ (n0 + i)).site.hub.clients c) →
        Hub.stage ((φ (n0 + (i + 1))).site.hub.clients c) < Hub.stage ((φ (n0 + i)).site.hub.clients c)) ∧
      (Hub.stage ((φ (n0 + i)).site.hub.clients c) = 1 → Hub.stage ((φ (n0 + (i + 1))).site.hub.clients c) = 1 →
        Hub.left c (G (n0 + (i + 1))) ≤ Hub.left c (G (n0 + i)) ∧
        (ops (n0 + i) = .site (.engine 0) → Hub.left c (G (n0 + (i + 1))) < Hub.left c (G (n0 + i)))) ∧
      (ops (n0 + i) = .site (.post c) → Hub.stage ((φ (n0 + i)).site.hub.clients c) ≠ 0) := by
    intro i
    rcases key _ (hA i) with ⟨-, q, h⟩ | ⟨-, G', g1, g2⟩
    · exact absurd ⟨n0 + i + 1, by omega, q, h⟩ hcon
    · have : G' = G (n0 + (i + 1)) := by
        have h1 := g1.engines
        have h2 := (hG (n0 + i + 1)).engines
        have h2 : ((φ (n0 + i)).step E B clk (ops (n0 + i))).site.hub.engines = _ := h2
        rw [h1] at h2
        exact (by simpa using h2 : G' = G (n0 + i + 1))
      rw [this] at g2
      exact g2
  refine Site.no_stand (st := fun i => Hub.stage ((φ (n0 + i)).site.hub.clients c)) (lf := fun i => Hub.left c (G (n0 + i))) (fun i => (key i).1)
    (fun m => ?_) (fun i h1 h2 => ((key i).2.2.1 h1 h2).1) (fun m => ?_) (fun m => ?_)
  · obtain ⟨n, x, h1, h2⟩ := hm1 (n0 + m)
    obtain ⟨i, rfl⟩ := Nat.exists_eq_add_of_le (show n0 ≤ n by omega)
    exact ⟨i, by omega, (key i).2.1 ⟨x, h2⟩⟩
  · obtain ⟨n, h1, h2⟩ := hm2 (n0 + m)
    obtain ⟨i, rfl⟩ := Nat.exists_eq_add_of_le (show n0 ≤ n by omega)
    exact ⟨i, by omega, fun a b => ((key i).2.2.1 a b).2 h2⟩
  · obtain ⟨n, h1, h2⟩ := hm3 (n0 + m)
    obtain ⟨i, rfl⟩ := Nat.exists_eq_add_of_le (show n0 ≤ n by omega)
    exact ⟨i, by omega, (key i).2.2.2 h2⟩

/-- There is one engine, and the names are right. -/
theorem started_one (hN : ∀ a b, N a = N b → a = b) {s : Nat → B.S} {c0 : Nat}
    (hstart : (List.range 7).map ops = (Site.starting c0 β).map (.site : SiteOp D O → WeaveOp D O))
    (hpolite : ∀ n o, 7 ≤ n → ops n = .site o → o.Polite N (Weave.after E B clk (init B s) ops n).site) :
    (∀ n, (Weave.after E B clk (init B s) ops n).site.hub.engines.length ≤ 1) ∧ (∀ n d req, ops n = .site (.begin d req) → req.Named N) ∧
    ∀ n, 7 ≤ n → ∃ G, (Weave.after E B clk (init B s) ops n).site.hub.Orderly N G := by
  have hT := fun n => after_tidy (E := E) (clk := clk) (ops := ops) (tidy_init (D := D) (O := O) s) n
  have hhub : (Weave.after E B clk (init B s) ops 7).site.hub = Hub.run {} (Props.startAlone c0 β) := by
    rw [after_run, hstart, run_plain _ _ (Props.starting_plain c0 β)]
    exact Props.starting_hub B s c0 β
  have ho7 : (Weave.after E B clk (init B s) ops 7).site.hub.Orderly N { backend := β } := by
    rw [hhub]; exact Props.started_orderly N c0 β
  have e := fun m => after_add (E := E) (clk := clk) (f := (init B s : Weave D O B)) (ops := ops) 7 m
  have hpol : ∀ n o, ops (7 + n) = .site o → o.Polite N (Weave.after E B clk (Weave.after E B clk (init B s) ops 7) (fun i => ops (7 + i)) n).site := by
    intro n o h
    rw [← e]
    exact hpolite _ o (by omega) h
  have hO : ∀ n, 7 ≤ n → ∃ G, (Weave.after E B clk (init B s) ops n).site.hub.Orderly N G := by
    intro n hn
    obtain ⟨m, rfl⟩ := Nat.exists_eq_add_of_le hn
    rw [e]
    exact orderly_after hN (hT 7) ho7 hpol m
  have one : ∀ n, (Weave.after E B clk (init B s) ops n).site.hub.engines.length ≤ 1 := by
    intro n
    have mono : ∀ i, (Weave.after E B clk (init B s) ops n).site.hub.engines.length ≤ (Weave.after E B clk (init B s) ops (n + i)).site.hub.engines.length := by
      intro i
      induction i with
      | zero => exact Nat.le_refl _
      | succ i ih => exact Nat.le_trans ih (hub_step (hT _) _)
    obtain ⟨G, hG⟩ := hO (n + 7) (by omega)
    have := mono 7
    rw [hG.engines] at this
    exact this
  refine ⟨one, fun n d req h => ?_, hO⟩
  · by_cases hn : n < 7
    · have hm : ops n ∈ (Site.starting c0 β).map (.site : SiteOp D O → WeaveOp D O) := by
        rw [← hstart]
        exact List.mem_map.2 ⟨n, List.mem_range.2 hn, rfl⟩
      rw [h] at hm
      simp [Site.starting] at hm
      rw [hm.2]
      trivial
    · have := hpolite n _ (by omega) h
      cases req with
      | submit => exact this.1
      | update => exact this
      | _ => trivial

/-- A submission brings up a work queue. -/
theorem Opens.comes (hN : ∀ a b, N a = N b → a = b) {s : Nat → B.S} {c0 c ty n0 : Nat} (H : Opens E clk N c0 β c ty n0 (init B s : Weave D O B) ops) :
    (∀ n, (Weave.after E B clk (init B s) ops n).site.hub.engines.length ≤ 1) ∧
    (∀ n d req, ops n = .site (.begin d req) → req.Named N) ∧
    ∃ (n q : Nat) (a : QueueActor), (Weave.after E B clk (init B s) ops n).site.hub.queues[q]? = some a ∧ a.ty = ty ∧ a.backend = β := by
  have hT := fun n => after_tidy (E := E) (clk := clk) (ops := ops) (tidy_init (D := D) (O := O) s) n
  have hhub : (Weave.after E B clk (init B s) ops 7).site.hub = Hub.run {} (Props.startAlone c0 β) := by
    rw [after_run, H.start, run_plain _ _ (Props.starting_plain c0 β)]
    exact Props.starting_hub B s c0 β
  have ho7 : (Weave.after E B clk (init B s) ops 7).site.hub.Orderly N { backend := β } := by
    rw [hhub]; exact Props.started_orderly N c0 β
  have hb7 : (Weave.after E B clk (init B s) ops 7).site.hub.Based β := by
    refine ⟨by rw [ho7.engines]; rfl, ?_⟩
    rw [hhub, Props.started]
    exact fun _ h => by cases h
  have e := fun m => after_add (E := E) (clk := clk) (f := (init B s : Weave D O B)) (ops := ops) 7 m
  have hpol : ∀ n o, ops (7 + n) = .site o → o.Polite N (Weave.after E B clk (Weave.after E B clk (init B s) ops 7) (fun i => ops (7 + i)) n).site := by
    intro n o h
    rw [← e]
    exact H.polite _ o (by omega) h
  obtain ⟨one, names, hO⟩ := started_one (E := E) (clk := clk) hN H.start H.polite
  refine ⟨one, names, ?_⟩
  · obtain ⟨nm, job, cfg, hcall⟩ := H.call
    have hask : (Weave.after E B clk (init B s) ops (n0 + 1)).site.Asks c (.submit ty nm job cfg) (.enqueue job cfg) := by
      show ((Weave.after E B clk (init B s) ops n0).step E B clk (ops n0)).site.users c = _
      rw [hcall, step_plain rfl]
      show ((Weave.after E B clk (init B s) ops n0).site.begin B c _).users c = _
      unfold Site.begin
      rcases H.free with h | ⟨_, _, h⟩ <;> rw [h] <;> exact upd_same _ _ _
    obtain ⟨m0, hm0⟩ := Nat.exists_eq_add_of_le (show 7 ≤ n0 + 1 by have := H.late; omega)
    rw [hm0, e] at hask
    have late : ∀ {P : WeaveOp D O → Prop}, (∀ m, ∃ n, m ≤ n ∧ P (ops n)) → ∀ m, ∃ n, m ≤ n ∧ P (ops (7 + n)) := by
      intro P h m
      obtain ⟨n, h1, h2⟩ := h (7 + m)
      obtain ⟨i, rfl⟩ := Nat.exists_eq_add_of_le (show 7 ≤ n by omega)
      exact ⟨i, by omega, h2⟩
    obtain ⟨n, -, q, hq⟩ := posted_after (E := E) (clk := clk) hN (hT 7) ho7 hpol (c := c)
      (fun m => by
        obtain ⟨n, h1, x, h2⟩ := late (P := fun o => ∃ x, o = .site (.client c x)) (fun m => by
          obtain ⟨n, x, h1, h2⟩ := H.client m
          exact ⟨n, h1, x, h2⟩) m
        exact ⟨n, x, h1, h2⟩) (late (P := fun o => o = .site (.engine 0)) H.engine) (late (P := fun o => o = .site (.post c)) H.post) hask
    rw [← e] at hq
    obtain ⟨G, hG⟩ := hO (7 + n) (by omega)
    obtain ⟨a, ha, hty, -⟩ := Site.posted_queue (hT (7 + n)).links hG hq
    refine ⟨7 + n, q, a, ha, hty, ?_⟩
    have hb : ∀ m, (Weave.after E B clk (init B s) ops (7 + m)).site.hub.Based β := by
      intro m
      induction m with
      | zero => exact hb7
      | succ m ih => exact based_step (hT _) ih _ (one (7 + m + 1))
    exact (hb n).queues a (List.mem_of_getElem? ha)

end Weave
end AJ
