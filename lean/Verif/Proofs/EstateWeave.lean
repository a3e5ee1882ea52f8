import Verif.Proofs.Estate
import Verif.Spec.Estate

/-! # A process that takes over what others have left: its work queues come to rest -/

namespace AJ
open W Props

/-- What others have left. -/
theorem estate_found {D : Type} {v0 v : Snap D} {K : Str → Prop} (ht : v.Tidy) (hown : ∀ k, v.own k = []) (hl : v0.lists = v.lists)
    (hj : ∀ k, K k → v0.job k = v.job k) (hdom : ∀ st, ∀ k ∈ v0.lists st, K k) (hw : ∀ k ∈ v0.lists .queued, ∃ j, v0.Waiting k j) :
    Estate (fun k => ¬ K k ∨ v0.Astray k) (v0.lists .running) v := by
  have est : ∀ {u v : Snap D} {k : Str}, u.job k = v.job k → u.status k = v.status k := fun h => congrArg (Option.map fun j : Job D => j.context.jobStatus) h
  refine ⟨ht, fun k hk => ?_, fun k hk => ⟨fun hm => ?_, hown k⟩, fun k _ => by rw [hl], fun k hk => ?_⟩
  · simp only [not_or, not_not] at hk
    obtain ⟨h1, h2⟩ := hk
    by_cases hq : k ∈ v0.lists .queued
    · obtain ⟨j, hw⟩ := hw k hq
      have hst : v.status k = some .queued := by
        rw [← est (hj k h1), status_of hw.job, hw.status]
      refine ⟨?_, ?_, fun _ => hown k, fun _ j' hj' hs' => ?_⟩
      · rw [hst, if_pos rfl, ← hl]; exact hw.queued
      · rw [hst, if_neg (by decide), ← hl]; exact List.count_eq_zero.2 hw.running
      · rw [status_of hj', hs'] at hst; cases hst
    · have hno := not_and.1 h2 hq
      simp only [not_or] at hno
      obtain ⟨n1, n2, n3⟩ := hno
      rw [est (hj k h1)] at n1 n2
      refine ⟨?_, ?_, fun _ => hown k, fun _ j' hj' hs' => ?_⟩
      · rw [if_neg n1, ← hl]; exact List.count_eq_zero.2 hq
      · rw [if_neg n2, ← hl]; exact List.count_eq_zero.2 n3
      · rw [status_of hj', hs'] at n2; exact absurd rfl n2
  · rw [← hl] at hm
    rcases hk with hk | hk
    · exact hk (hdom _ _ hm)
    · exact hk.1 hm
  · simp only [not_or, not_not] at hk
    refine List.count_eq_zero.2 fun hm => ?_
    by_cases hq : k ∈ v0.lists .queued
    · obtain ⟨j, hw⟩ := hw k hq
      exact hw.running hm
    · exact hk.2 ⟨hq, .inr (.inr hm)⟩

namespace Weave
variable {D O : Type} {E : Nat → Env D} {clk : Nat → Nat → Time} {kind : Str → Nat} {S : Site.Base E kind}
variable {f : Weave D O SpecB} {t : Site D O SpecB} {ops : Nat → WeaveOp D O}

local notation "φ" n:max => Weave.after E SpecB clk f ops n

local notation "ψ" => serially E clk f ops

local notation "τ" n:max => Site.after E SpecB clk t (serially E clk f ops) n

local notation "μ" n:max => lone E clk S (Site.after E SpecB clk t (serially E clk f ops) n)

/-- Once nobody submits or retries jobs any more, a work queue comes to rest, but for what others have lost. -/
theorem HeirsOn.rests (hP : ∀ n, PairFrom E clk kind S (φ n) (τ n))
    (h0 : ∀ q, f.inside q = none) (h1 : ∀ n, (τ n).hub.engines.length ≤ 1) {n0 n1 q : Nat} {a : QueueActor} (ha : (φ n1).site.hub.queues[q]? = some a)
    (L : ∀ ty, (E ty).Lawful) (hs : turnsOf q t.trace = []) (hclk : Elapses (clk q))
    (hM : ∀ P : Req D → Prop, (∀ ty n id d x, ¬ P (.update ty n id d x)) → (∀ β, P (.start β)) → ∀ d, Site.Meets P (t.users d))
    (hC : ∃ C, ∀ d, C ≤ d → Site.ahead (t.users d) = 0)
    (hok : S.ok a) {v0 : Snap D} (ht0 : (Impl.spec.snap (E a.ty) a.name (Sys.init SpecB (S.start a) : Sys D SpecB)).Tidy)
    (hl0 : v0.lists = (Impl.spec.snap (E a.ty) a.name (Sys.init SpecB (S.start a) : Sys D SpecB)).lists)
    (hj0 : ∀ k, kind k = a.ty → v0.job k = (Impl.spec.snap (E a.ty) a.name (Sys.init SpecB (S.start a) : Sys D SpecB)).job k)
    (hV : v0.InOrder) (H : HeirsOn .spec E kind v0 n0 q a (Weave.after E SpecB clk f ops) ops) :
    ∃ N, ∀ n, N ≤ n → (φ n).inside q = none →
      let v := (φ n).site.snap .spec E q a
      v.lists .queued = [] ∧ (v.lists .running).Perm (v0.lists .running) ∧ v.tasks = [] ∧
      (∀ who j c r, .turn q who (.enqueue j c) r ∈ (φ n).site.trace → kind j.id = a.ty ∧ ¬ v0.Astray j.id ∧ v.status j.id ≠ none) ∧
      (∀ k, kind k = a.ty → v0.Astray k → v.job k = v0.job k) ∧
      ∀ k, kind k = a.ty → ¬ v0.Astray k → (v.status k ≠ some .queued ∧ v.status k ≠ some .running) ∧
        (v0.status k ≠ none → v.status k ≠ none) ∧
        (∀ m, m ≤ n → (φ m).site.hub.queues[q]? = some a → (φ m).inside q = none → ((φ m).site.snap .spec E q a).status k ≠ none → v.status k ≠ none) ∧
        ((∀ m d ty, ops m ≠ .site (.begin d (.cancel ty k))) → v0.status k ≠ some .canceled → v.status k ≠ some .canceled) := by
  have hq : ∀ n, n1 ≤ n → (φ n).site.hub.queues[q]? = some a := fun n hn => after_queues (hP 0).tidy hn ha
  have hub : ∀ n, (τ n).hub = (φ n).site.hub := fun n => (hP n).serial.face.hub.symm
  obtain ⟨ops', hm, -, g4, F⟩ := H.room.alone hP h0 h1 ha hs
  have begun : ∀ n d req, ψ n = .begin d req → ops n = .site (.begin d req) := fun n d req e => flat_begin e
  have meets : ∀ P : Req D → Prop, (∀ ty n id d x, ¬ P (.update ty n id d x)) → (∀ β, P (.start β)) → (∀ n d req, ops n = .site (.begin d req) → P req) →
      ∀ n d, Site.Meets P ((τ n).users d) := by
    intro P k1 k2 k3 n
    induction n with
    | zero => exact hM P k1 k2
    | succ n ih => exact fun d => Site.step_meets k1 (ψ n) (fun d req e => k3 n d req (begun n d req e)) d (ih d)
  -- the request for which a turn is taken
  have asked : ∀ n, ops' n ≠ .get [] → (ops' n).inner = false → ∃ d req again r, (τ n).users d = .posted req (ops' n) again q ∧
      (τ (n + 1)).users d = .told req again r ∧ req.call.ty? = some a.ty := by
    intro n hne hin
    rcases g4 n with e | ⟨e1, who, r, e2⟩
    · exact absurd e hne
    · obtain ⟨d, req, again, -, k1, k2⟩ := Site.step_asked (hP n).links (ψ n) hin e2
      refine ⟨d, req, again, r, k1, k2, ?_⟩
      have hlink := (hP n).links.users d
      rw [k1] at hlink
      obtain ⟨a', k3, hty⟩ := hlink.2.typed (hP n).links.typed
      rw [hub, e1] at k3
      cases k3
      exact hty
  have hdec := meets (Req.Decent E) (fun _ _ _ _ _ h => h) (fun _ => trivial) H.decent
  have hD : ∀ n, (ops' n).Decent (E a.ty) (Impl.spec.snap (E a.ty) a.name (Sys.after (E a.ty) a.name Impl.spec.B (clk q) (Sys.init SpecB (S.start a)) ops' n)) := by
    intro n
    cases hop : ops' n with
    | enqueue j c =>
      obtain ⟨d, req, again, r, k1, -, k2⟩ := asked n (by rw [hop]; simp) (by rw [hop]; rfl)
      have k3 := hdec n d
      rw [k1, hop] at k3
      obtain ⟨k3, k4⟩ := k3
      cases req with
      | submit ty nm job cfg =>
        cases k4
        have k2 : some ty = some a.ty := k2
        cases k2
        exact k3
      | _ => cases k4
    | finish i x =>
      intro orig job ht
      rcases g4 n with e | ⟨e1, who, r, e2⟩
      · rw [hop] at e; cases e
      · rw [hop] at e2
        have k1 := Site.step_inner (hP n).links (ψ n) rfl e2
        refine runs_flat hP h0 (H.code orig.id) n i x orig job k1 ?_ rfl
        have hS := (Site.lone_snap (hP n).alone (q := q) (a := a) (by rw [hub]; exact e1)).2.1
        have k2 : (Impl.spec.snap (E a.ty) a.name ((μ n) q a)).tasks[i]? = some ⟨orig, some job⟩ := by rw [hm n]; exact ht
        rw [← hS] at k2
        exact k2
    | _ => trivial
  -- what is found
  have est : ∀ {u v : Snap D} {k : Str}, u.job k = v.job k → u.status k = v.status k := fun h => congrArg (Option.map fun j : Job D => j.context.jobStatus) h
  have hA : Estate (fun k => kind k ≠ a.ty ∨ v0.Astray k) (v0.lists .running) (Impl.spec.snap (E a.ty) a.name (Sys.init SpecB (S.start a) : Sys D SpecB)) :=
    estate_found (K := fun k => kind k = a.ty) ht0 (fun _ => rfl) hl0 hj0 (fun st k hk => by
      rw [hl0] at hk
      exact (S.own a hok).lists st k hk) fun k hk => (hV k hk).imp fun _ h => h.1
  have hspare := meets (fun req => req.Decent E ∧ ∀ k, kind k = a.ty → v0.Astray k → ¬ req.Concerns k) (fun _ _ _ _ _ h => h.1)
    (fun _ => ⟨trivial, fun _ _ _ h => by rcases h with h | ⟨_, h⟩ <;> cases h⟩) (fun n d req h => ⟨H.decent n d req h, fun k => H.spares n d req k h⟩)
  have hno : ∀ n k, kind k ≠ a.ty ∨ v0.Astray k → NotAbout k (ops' n) := by
    intro n k hk
    have key : ops' n ≠ .get [] → (ops' n).inner = false → ∃ req : Req D, some (ops' n) = req.op ∧ req.On kind ∧ req.call.ty? = some a.ty ∧
        (kind k = a.ty → ¬ req.Concerns k) := by
      intro h1 h2
      obtain ⟨d, req, again, r, k1, -, k2⟩ := asked n h1 h2
      have k3 := hspare n d
      have k4 := (hP n).alone.users d
      rw [k1] at k3 k4
      exact ⟨req, k3.2, k4.1, k2, fun e => k3.1.2 k e (hk.resolve_left fun h => h e)⟩
    refine ⟨fun j c e ej => ?_, fun e => ?_, fun e => ?_⟩
    · obtain ⟨req, k1, k2, k3, k4⟩ := key (by rw [e]; simp) (by rw [e]; rfl)
      rw [e] at k1
      cases req <;> cases k1
      cases k3
      exact k4 (by rw [← ej]; exact k2) (.inl ej)
    · obtain ⟨req, k1, k2, k3, k4⟩ := key (by rw [e]; simp) (by rw [e]; rfl)
      rw [e] at k1
      cases req <;> cases k1
      cases k3
      exact k4 k2 (.inl rfl)
    · obtain ⟨req, k1, k2, k3, k4⟩ := key (by rw [e]; simp) (by rw [e]; rfl)
      rw [e] at k1
      cases req <;> cases k1
      cases k3
      exact k4 k2 (.inr ⟨_, rfl⟩)
  have htame : ∀ k, ¬ (kind k ≠ a.ty ∨ v0.Astray k) → TameOr ops' (Impl.spec.snap (E a.ty) a.name (Sys.init SpecB (S.start a) : Sys D SpecB)) k := by
    intro k hk
    simp only [not_or, not_not] at hk
    by_cases hr : ∃ n d ty, ops n = .site (.begin d (.retry ty k))
    · obtain ⟨n, d, ty, e⟩ := hr
      exact .inl fun j hj => H.retried n d ty k j e ((hj0 k hk.1).trans hj)
    refine .inr ⟨fun n e => ?_, fun j hj hs => ?_⟩
    · have hmeet := meets (fun req => req.Decent E ∧ ∀ ty, req ≠ .retry ty k) (fun _ _ _ _ _ h => h.1) (fun _ => ⟨trivial, fun _ h => by cases h⟩)
        (fun n d req h => ⟨H.decent n d req h, fun ty e => hr ⟨n, d, ty, by rw [h, e]⟩⟩)
      obtain ⟨d, req, again, r, k1, -, -⟩ := asked n (by rw [e]; simp) (by rw [e]; rfl)
      have k3 := hmeet n d
      rw [k1, e] at k3
      obtain ⟨k3, k4⟩ := k3
      cases req with
      | retry ty id => cases k4; exact k3.2 ty rfl
      | _ => cases k4
    · rw [← hj0 k hk.1] at hj
      have hq : k ∈ v0.lists .queued := by
        by_contra hq
        refine hk.2 ⟨hq, ?_⟩
        rw [status_of hj]
        rcases hs with h | h <;> rw [h] <;> simp
      obtain ⟨j', h1, h2⟩ := hV k hq
      cases hj.symm.trans h1.job
      exact h2
  have hgood : Impl.spec.Good (Sys.init SpecB (S.start a) : Sys D SpecB).w.s := ⟨_, rfl⟩
  obtain ⟨C, hC⟩ := hC
  obtain ⟨N0, h2, h3⟩ := Site.brings_end (E := E) (clk := clk) (B := SpecB) (ops := ψ) (n0 := n0) hC fun n d req hn e => H.closed n d req hn (begun n d req e)
  obtain ⟨N1, h4, h5, -⟩ := H.room.ticks (N0 + n1)
  have quiet : ∀ n, N1 ≤ n → ∀ req : Req D, ops' n ≠ .get [] → (ops' n).inner = false → some (ops' n) = req.op → req.brings = true →
      (∀ req' : Req D, some (ops' n) = req'.op → req'.brings = true) → False := by
    intro n hn _ hne hin _ _ hall
    obtain ⟨d, req, again, r, k1, k2, -⟩ := asked n hne hin
    have k3 := hdec n d
    rw [k1] at k3
    have k4 := h3 n (by omega) d
    rw [k1, k2] at k4
    have k5 := hall req k3.2
    cases again <;> simp [Site.ahead, k5] at k4
  have i1 := ticks_idle h5
  obtain ⟨c1, c2, -⟩ := calm_lone hP (hq N1 (by omega)) i1
  obtain ⟨N, hN⟩ := estate_rests (b := .spec) (s := Sys.init SpecB (S.start a)) (name := a.name) (clk := clk q) (L a.ty) hgood hA hD hno htame hclk N1
    (fun n hn j c e => quiet n hn (.submit a.ty [] j c) (by rw [e]; simp) (by rw [e]; rfl) (by rw [e]; rfl) rfl (fun req' h => by
      rw [e] at h; cases req' <;> first | rfl | cases h))
    (fun n hn id e => quiet n hn (.retry a.ty id) (by rw [e]; simp) (by rw [e]; rfl) (by rw [e]; rfl) rfl (fun req' h => by
      rw [e] at h; cases req' <;> first | rfl | cases h)) F (by
      have := H.small N1 (by omega) h5
      unfold Snap.inFlight at this ⊢
      rw [c1, c2, hm N1] at this
      exact this)
  obtain ⟨hest, -, hkept, hcan, hsame⟩ := estate_decent (b := .spec) (name := a.name) (clk := clk q) (L a.ty) hgood hA hD hno htame
  have hlive : ∀ i, (Sys.after (E a.ty) a.name Impl.spec.B (clk q) (Sys.init SpecB (S.start a)) ops' i).alive = true := by
    intro i
    by_contra hd
    obtain ⟨n, k1, -, k3⟩ := F.ticks i
    have := after_dead (n := i) (m := n) k1 (by simpa using hd)
    have k3 : (Sys.after (E a.ty) a.name Impl.spec.B (clk q) (Sys.init SpecB (S.start a)) ops' n).alive = true := k3
    rw [this] at k3
    cases k3
  refine ⟨N + n1, fun n hn hi => ?_⟩
  obtain ⟨c1, c2, -, -, c5⟩ := calm_lone hP (hq n (by omega)) hi
  rw [hm n] at c1 c2 c5
  obtain ⟨r1, r2, r3, r4⟩ := hN n (by omega)
  refine ⟨(congrFun c1 _).trans r1, by rw [c1]; exact r2, c2.trans r3, fun who j c r htr => ?_, fun k hk hk2 => ?_, fun k hk hk2 => ?_⟩
  · rw [(hP n).serial.face.trace] at htr
    obtain ⟨i, hin, htr⟩ := Site.event_at (fun h => by
      have : (Op.enqueue j c, r) ∈ turnsOf q t.trace := List.mem_filterMap.2 ⟨_, h, by simp [SiteEvent.at]⟩
      rw [hs] at this
      exact absurd this List.not_mem_nil) htr
    obtain ⟨d, req, again, -, k1, -⟩ := Site.step_asked (hP i).links (ψ i) rfl htr
    have hlink := (hP i).links.users d
    rw [k1] at hlink
    obtain ⟨a', k2, hty⟩ := hlink.2.typed (hP i).links.typed
    have ea : a' = a := same_queue hP ha (by rw [← hub]; exact k2)
    rw [ea] at k2 hty
    have k3 := hdec i d
    have k4 := (hP i).alone.users d
    rw [k1] at k3 k4
    obtain ⟨k3, k5⟩ := k3
    cases req with
    | submit ty nm job cfg =>
      cases k5
      have hty : some ty = some a.ty := hty
      cases hty
      have hk : kind j.id = a.ty := k4.1
      have hk2 : ¬ v0.Astray j.id := fun h => by
        have := hspare i d
        rw [k1] at this
        exact this.1.2 j.id hk h (.inl rfl)
      refine ⟨hk, hk2, ?_⟩
      rw [est (c5 j.id hk)]
      refine hkept j.id (i + 1) n (by omega) ?_
      have e1 : turnsOf q (τ (i + 1)).trace = turnsOf q (τ i).trace ++ [(.enqueue j c, r)] := by
        rw [htr]
        simp [turnsOf, SiteEvent.at]
      have e2 : (μ (i + 1)) q a = (Sys.step (E a.ty) a.name SpecB (clk q) ((μ i) q a) (.enqueue j c : Op D O)).1 := by
        unfold lone
        rw [e1, List.map_append]
        exact congrArg Prod.fst (runOps_snoc ..)
      have e3 := hm (i + 1)
      rw [e2, hm i] at e3
      have e3 : _ = Sys.after (E a.ty) a.name Impl.spec.B (clk q) (Sys.init SpecB (S.start a)) ops' (i + 1) := e3
      rw [← e3]
      exact estate_known (b := .spec) (L a.ty) (hest i).1 (hest i).2 (hlive i) (by simp only [not_or, not_not]; exact ⟨hk, hk2⟩) k3
    | _ => cases k5
  · exact (c5 k hk).trans ((hsame n k (.inr hk2)).trans (hj0 k hk).symm)
  have estn := est (c5 k hk)
  refine ⟨?_, fun h => ?_, fun m hmn hqm him hst => ?_, fun hnc hc0 => ?_⟩
  · rw [estn]; exact r4 k (by simp only [not_or, not_not]; exact ⟨hk, hk2⟩)
  · rw [estn]
    exact hkept k 0 n (Nat.zero_le _) (by rw [est (hj0 k hk)] at h; exact h)
  · obtain ⟨-, -, -, -, d5⟩ := calm_lone hP hqm him
    rw [hm m] at d5
    rw [est (d5 k hk)] at hst
    rw [estn]
    exact hkept k m n hmn hst
  · rw [estn]
    refine hcan k (fun i e => ?_) (by rw [← est (hj0 k hk)]; exact hc0) n
    have hmeet := meets (fun req => req.Decent E ∧ ∀ ty, req ≠ .cancel ty k) (fun _ _ _ _ _ h => h.1) (fun _ => ⟨trivial, fun _ h => by cases h⟩)
      (fun n d req h => ⟨H.decent n d req h, fun ty e => hnc n d ty (by rw [h, e])⟩)
    obtain ⟨d, req, again, r, k1, -, -⟩ := asked i (by rw [e]; simp) (by rw [e]; rfl)
    have k3 := hmeet i d
    rw [k1, e] at k3
    obtain ⟨k3, k4⟩ := k3
    cases req with
    | cancel ty id => cases k4; exact k3.2 ty rfl
    | _ => cases k4

end Weave

section
variable {D O : Type} {E : Nat → Env D} {clk : Nat → Nat → Time} {f : Weave D O SpecB}
variable {b : Impl} {φ : Nat → Weave D O b.B} {os : Nat → WeaveOp D O} {hist : Nat → WeaveOp D O} {idx : Nat → Nat}

theorem Weave.Stretch.heirs (h : Weave.Stretch b φ os (Weave.after E SpecB clk f hist) hist idx) {n0 q : Nat} {a : QueueActor} {kind : Str → Nat} {v0 : Snap D} (H : Weave.HeirsOn b E kind v0 n0 q a φ os) :
    Weave.HeirsOn .spec E kind v0 (idx n0) q a (Weave.after E SpecB clk f hist) hist where
  decent := by
    intro m d req hm
    obtain ⟨n, rfl, e⟩ := h.said hm
    exact H.decent n d req e
  closed := by
    intro m d req hn hm
    obtain ⟨n, rfl, e⟩ := h.said hm
    exact H.closed n d req (h.of_le hn) e
  retried := by
    intro m d ty k j hm
    obtain ⟨n, rfl, e⟩ := h.said hm
    exact H.retried n d ty k j e
  spares := by
    intro m d req k hm
    obtain ⟨n, rfl, e⟩ := h.said hm
    exact H.spares n d req k e
  code := fun k => h.runs (H.code k)
  room := h.roomy H.room
  small := by
    intro m hn hm
    obtain ⟨n, rfl⟩ := Weave.tick_at h hm
    have e : (φ n).site.snap b E q a = Site.snap Impl.spec E (Weave.after E SpecB clk f hist (idx n)).site q a := Site.snap_rel (h.site n) q a
    have := H.small n (h.of_le hn) (by rw [h.ticks_eq]; exact hm)
    rw [e] at this
    exact this

end
end AJ
