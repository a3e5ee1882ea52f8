import Verif.Proofs.DrainWeave
import Verif.Props.Fair

/-!
# Processes that come to rest (C92)

C91 lets a work queue alone come to rest. Here it is one of the work queues of a whole process: with clients whose requests pass through the
engine, and with work queues that interleave call by call.
-/

namespace AJ.Props

section
variable {D O : Type} {E : Nat → Env D} {clk : Nat → Nat → Time} {N : Nat → Str} {kind : Str → Nat}

/-- What is proved of both theorems at once. -/
private theorem drained (hN : ∀ a b, N a = N b → a = b) (b : Impl) (L : ∀ ty, (E ty).Lawful) (c0 b0 : Nat) (ops : Nat → WeaveOp D O × Nat) :
    let s := (Weave.init b.B fun _ => b.empty).run E b.B clk ((Site.starting c0 b0).map .site)
    let φ := Weave.afterIn E b.B clk s ops
    let ψ := fun n => (ops n).1
    (∀ n, (φ n).Ample E b (ops n)) → (∀ n o, ψ n = .site o → o.Polite N (φ n).site) → (∀ n d req, ψ n = .site (.begin d req) → req.On kind) →
    ∀ n0 m q a, (φ m).site.hub.queues[q]? = some a → Elapses (clk q) → Weave.ClosesOn b E n0 q a φ ψ →
    ∃ n1, ∀ n, n1 ≤ n → (φ n).inside q = none →
      let v := (φ n).site.snap b E q a
      v.lists .queued = [] ∧ v.lists .running = [] ∧ v.tasks = [] ∧
      ∀ k, (kind k = a.ty ∧ (∃ i, i ≤ n ∧ (φ i).site.hub.queues[q]? = some a ∧ (φ i).inside q = none ∧ ((φ i).site.snap b E q a).status k ≠ none) ∨
          ∃ d nm job cfg r, .ret d (.submit a.ty nm job cfg) (.answer r) ∈ (φ n).site.trace ∧ job.id = k) →
        (v.Ended k ∨ v.status k = some .canceled) ∧ ((∀ j d ty, ψ j ≠ .site (.begin d (.cancel ty k))) → v.Ended k) := by
  intro s φ ψ hr hp hon n0 m q a ha hclk H
  obtain ⟨hist, idx, h⟩ := longer (kind := kind) hN b L c0 b0 ops hr hp hon
  obtain ⟨ho, hEnd, -, -⟩ := started_site (O := O) (E := E) (clk := clk) (kind := kind) (N := N) L c0 b0 []
  obtain ⟨g4, h0, hP⟩ := started_woven (O := O) (E := E) (clk := clk) (kind := kind) L c0 b0
  have hs : turnsOf q ((Site.init SpecB fun _ => Spec.empty : Site D O SpecB).run E SpecB clk (Site.starting c0 b0)).trace = [] := by
    refine (hEnd.alone.fresh q ?_).2.2.2
    rw [starting_hub, started]
    exact Nat.zero_le _
  have hM : ∀ P : Req D → Prop, (∀ ty n id d x, ¬ P (.update ty n id d x)) → (∀ β, P (.start β)) →
      ∀ d, Site.Meets P (((Site.init SpecB fun _ => Spec.empty : Site D O SpecB).run E SpecB clk (Site.starting c0 b0)).users d) :=
    fun P k1 k2 => Site.run_meets k1 _ (fun d req hm => by
      simp [Site.starting] at hm
      rw [hm.2]
      exact k2 b0) fun _ => trivial
  have hC : ∃ C, ∀ d, C ≤ d → Site.ahead (((Site.init SpecB fun _ => Spec.empty : Site D O SpecB).run E SpecB clk (Site.starting c0 b0)).users d) = 0 :=
    Site.run_bounded _ (C := 0) fun _ _ => rfl
  generalize (Site.init SpecB fun _ => Spec.empty).run E SpecB clk (Site.starting c0 b0) = t at *
  generalize (Weave.init SpecB fun _ => Spec.empty).run E SpecB clk ((Site.starting c0 b0).map .site) = f at *
  have hA := fun n => Weave.pair_after (ops := hist) hN L hP (by rw [g4]; exact ho)
    (fun m o hm => by
      obtain ⟨n, rfl, e⟩ := h.said hm
      exact (h.polite n o).1 (hp n o e))
    (fun m d req hm => by
      obtain ⟨n, rfl, e⟩ := h.said hm
      exact hon n d req e) n
  have ha' : (Weave.after E SpecB clk f hist (idx m)).site.hub.queues[q]? = some a := by rw [← (h.site m).hub]; exact ha
  obtain ⟨n1, hn1⟩ := (h.closes H).rests (fun n => (hA n).1) h0 (fun n => (by
    obtain ⟨h1, G, h2⟩ := hA n
    rw [← h1.serial.face.hub, h2.engines]
    simp)) ha' L hs hclk hM hC
  have es : ∀ n, (φ n).site.snap b E q a = Site.snap Impl.spec E (Weave.after E SpecB clk f hist (idx n)).site q a := fun n => Site.snap_rel (h.site n) q a
  refine ⟨n1 + m, fun n hn hi => ?_⟩
  obtain ⟨r1, r2, r3, r5, r4⟩ := hn1 (idx n) (Nat.le_trans (by omega) (h.le n)) ((h.none_iff n q).1 hi)
  simp only [es]
  refine ⟨r1, r2, r3, fun k hk => ?_⟩
  have hk : kind k = a.ty ∧ (Site.snap Impl.spec E (Weave.after E SpecB clk f hist (idx n)).site q a).status k ≠ none := by
    rcases hk with ⟨hk, i, hin, hqi, hii, hst⟩ | ⟨d, nm, job, cfg, r, hret, rfl⟩
    · exact ⟨hk, (r4 k hk).2.1 (idx i) (h.mono hin) (by rw [← (h.site i).hub]; exact hqi) ((h.none_iff i q).1 hii) hst⟩
    · have hret : .ret d (.submit a.ty nm job cfg) (.answer r) ∈ (φ n).site.trace := hret
      have hP := (hA (idx n)).1
      rw [(h.site n).trace, hP.serial.face.trace] at hret
      obtain ⟨q', a', k1, k2, k3⟩ := Site.history_turn (hP.links.tale d).history (List.mem_filter.2 ⟨hret, by simp [SiteEvent.of]⟩)
      have k4 := (hP.single.queue q' a' k1).1
      have k5 := (hP.single.queue q a (by
        rw [← hP.serial.face.hub]
        exact Weave.after_queues (hA 0).1.tidy (h.mono (by omega)) ha')).1
      rw [k2, k5] at k4
      cases k4
      exact r5 (some d) job cfg r (by rw [hP.serial.face.trace]; exact (List.mem_filter.1 k3).1)
  obtain ⟨hk, u3⟩ := hk
  obtain ⟨⟨u1, u2⟩, -, u4⟩ := r4 k hk
  have u4 : (∀ j d ty, ψ j ≠ .site (.begin d (.cancel ty k))) → _ := fun hc => u4 fun j d ty e => by
    obtain ⟨j', -, e'⟩ := h.said e
    exact hc j' d ty e'
  unfold Snap.Ended
  generalize (Site.snap Impl.spec E (Weave.after E SpecB clk f hist (idx n)).site q a).status k = w at *
  cases w with
  | none => exact absurd rfl u3
  | some w => cases w with
    | queued => exact absurd rfl u1
    | running => exact absurd rfl u2
    | finished => exact ⟨.inl (.inl rfl), fun _ => .inl rfl⟩
    | failed => exact ⟨.inl (.inr rfl), fun _ => .inr rfl⟩
    | canceled => exact ⟨.inr rfl, fun hc => absurd rfl (u4 hc)⟩

/-- C92: in a process whose engine was started by one client alone, whose work queues interleave call by call and whose ticks make the
calls of the code alone, on any backend: once nobody submits or retries jobs any more, a work queue that is treated fairly comes to rest, and
stays so. Nothing is queued, nothing is running, and every job of its type that it ever knew is Finished, Failed or Canceled; those that no request cancels
are Finished or Failed. -/
theorem C92_drains (hN : ∀ a b, N a = N b → a = b) (b : Impl) (L : ∀ ty, (E ty).Lawful) (c0 b0 : Nat) (ops : Nat → WeaveOp D O × Nat) :
    let s := (Weave.init b.B fun _ => b.empty).run E b.B clk ((Site.starting c0 b0).map .site)
    let φ := Weave.afterIn E b.B clk s ops
    let ψ := fun n => (ops n).1
    (∀ n, (φ n).Ample E b (ops n)) → (∀ n o, ψ n = .site o → o.Polite N (φ n).site) → (∀ n d req, ψ n = .site (.begin d req) → req.On kind) →
    ∀ n0 m q a, (φ m).site.hub.queues[q]? = some a → Elapses (clk q) → Weave.ClosesOn b E n0 q a φ ψ →
    ∃ n1, ∀ n, n1 ≤ n → (φ n).inside q = none →
      let v := (φ n).site.snap b E q a
      v.lists .queued = [] ∧ v.lists .running = [] ∧ v.tasks = [] ∧
      ∀ k i, kind k = a.ty → i ≤ n → (φ i).site.hub.queues[q]? = some a → (φ i).inside q = none → ((φ i).site.snap b E q a).status k ≠ none →
        (v.Ended k ∨ v.status k = some .canceled) ∧ ((∀ j d ty, ψ j ≠ .site (.begin d (.cancel ty k))) → v.Ended k) := by
  intro s φ ψ hr hp hon n0 m q a ha hclk H
  obtain ⟨n1, h⟩ := drained hN b L c0 b0 ops hr hp hon n0 m q a ha hclk H
  refine ⟨n1, fun n hn hi => ?_⟩
  obtain ⟨h1, h2, h3, h4⟩ := h n hn hi
  exact ⟨h1, h2, h3, fun k i hk hin hqi hii hst => h4 k (.inl ⟨hk, i, hin, hqi, hii, hst⟩)⟩

/-- C92, as clients see it: every `add_job` of the type of the work queue that has returned with an answer of the work queue has its job end. When the work
queue has come to rest the job is Finished, Failed or Canceled, and if no request cancels it, Finished or Failed. -/
theorem C92_submitted (hN : ∀ a b, N a = N b → a = b) (b : Impl) (L : ∀ ty, (E ty).Lawful) (c0 b0 : Nat) (ops : Nat → WeaveOp D O × Nat) :
    let s := (Weave.init b.B fun _ => b.empty).run E b.B clk ((Site.starting c0 b0).map .site)
    let φ := Weave.afterIn E b.B clk s ops
    let ψ := fun n => (ops n).1
    (∀ n, (φ n).Ample E b (ops n)) → (∀ n o, ψ n = .site o → o.Polite N (φ n).site) → (∀ n d req, ψ n = .site (.begin d req) → req.On kind) →
    ∀ n0 m q a, (φ m).site.hub.queues[q]? = some a → Elapses (clk q) → Weave.ClosesOn b E n0 q a φ ψ →
    ∃ n1, ∀ n, n1 ≤ n → (φ n).inside q = none → ∀ d nm job cfg r, .ret d (.submit a.ty nm job cfg) (.answer r) ∈ (φ n).site.trace →
      let v := (φ n).site.snap b E q a
      (v.Ended job.id ∨ v.status job.id = some .canceled) ∧ ((∀ j d ty, ψ j ≠ .site (.begin d (.cancel ty job.id))) → v.Ended job.id) := by
  intro s φ ψ hr hp hon n0 m q a ha hclk H
  obtain ⟨n1, h⟩ := drained hN b L c0 b0 ops hr hp hon n0 m q a ha hclk H
  exact ⟨n1, fun n hn hi d nm job cfg r hret => (h n hn hi).2.2.2 job.id (.inr ⟨d, nm, job, cfg, r, hret, rfl⟩)⟩

end

/-! ## The endless history of C88 comes to rest -/

section
open Demo
variable {J : Job Int} {x : Executable Int Unit}

theorem woven_serves_all (H : Enters J x) (k : Str) : Weave.Serves .spec (fun _ => E) (fun _ => clk) k 0 printer openedW (woven J x) := by
  refine lasting_serves openedW_pair.2.2.tidy openedW_pair.2.1 (woven_steady H) (woven_snap H) (List.all_eq_true.2 fun n hn => ?_)
  have h1 := List.all_eq_true.1 H.turns n hn
  have h2 : (hall J x).all (fun o => match o with
    | .site (.turn _ (.enqueue ..)) => false
    | _ => true) = true := rfl
  cases e : (hall J x)[n]? with
  | none => rfl
  | some o =>
    have h2 := List.all_eq_true.1 h2 o (List.mem_of_getElem? e)
    rw [e] at h1
    cases o with
    | go q => rfl
    | site o => cases o with
      | turn q op => cases q with
        | zero => cases op with
          | enqueue j c => cases h2
          | _ => exact h1
        | succ q => rfl
      | _ => rfl

/-- The ticks after the first 89 steps see at most 20 jobs. -/
theorem woven_small (H : Enters J x) {n : Nat} (hn : 89 ≤ n)
    (hi : (Weave.after (fun _ => E) SpecB (fun _ => clk) openedW (woven J x) n).inside 0 = none) :
    let v := (Weave.after (fun _ => E) SpecB (fun _ => clk) openedW (woven J x) n).site.snap .spec (fun _ => E) 0 printer
    (v.lists .queued).length + v.inFlight.length ≤ 20 := by
  obtain ⟨m, rfl⟩ : ∃ m, n = (hall J x).length + m := ⟨n - 89, by rw [hall_length]; omega⟩
  have hst : ∃ p, Steady Spec.empty p (Weave.after (fun _ => E) SpecB (fun _ => clk) openedW (woven J x) ((hall J x).length + m)).site := by
    unfold woven at hi ⊢
    rw [lasting_course] at hi ⊢
    rcases going openedW_pair.2.2.tidy (woven_steady H) m with ⟨-, g⟩ | ⟨y, _, _, g, -⟩
    · exact ⟨_, g⟩
    · rw [hi] at g; cases g
  obtain ⟨p, hst⟩ := hst
  obtain ⟨e1, e2⟩ := woven_snap H _ hst.queues
  obtain ⟨e2, -, -⟩ := e2 hi
  intro v
  unfold Snap.inFlight
  show (v.lists .queued).length + (v.tasks.map _).length ≤ 20
  rw [e1, e2]
  obtain ⟨-, -, -, ⟨ht, -, hq⟩ | ⟨j, -, ht, -, -, -, hq⟩⟩ := hst.work
  · rw [show (Impl.spec.snap E c!"print" (Site.played Spec.empty _)).tasks = _ from ht]
    exact hq
  · rw [show (Impl.spec.snap E c!"print" (Site.played Spec.empty _)).tasks = _ from ht]
    exact hq

/-- A job with two retries. -/
def shaky : Job Int := flaky (.newIntervalRetry (some 2) nsPerSec)

theorem shaky_enters : Enters shaky bad := flaky_enters
theorem shaky_just : Just shaky bad := flaky_just

theorem shaky_idle : (sofar openedW (hall shaky bad) 89).inside 0 = none := by
  have h := (woven_steady shaky_enters).1
  rw [hall_length] at h
  exact h

/-- `C92_drains` applies, on every backend: two clients have submitted jobs `a` and `b`; the first run of job `a` fails. -/
theorem woven_closes (b : Impl) : Weave.ClosesOn b (fun _ => E) 89 0 printer
    (Weave.afterIn (fun _ => E) b.B (fun _ => clk) (openedWeave b) (wovenIn shaky bad)) fun n => (wovenIn shaky bad n).1 := by
  have h := (woven_in shaky_enters b).2
  have hf := h.fair_back (lasting_fair openedW_pair.2.2.tidy openedW_pair.2.1 (woven_steady shaky_enters) (woven_snap shaky_enters)
    (woven_serves shaky_enters) shaky_just)
  refine ⟨fun n d req e => ?_, fun n d req hn e => ?_, fun k => ?_, hf.room, fun n hn ht => ?_⟩
  · rcases woven_begin e with ⟨-, -, rfl⟩ | ⟨-, -, rfl⟩ | ⟨-, -, rfl⟩
    · exact ⟨by decide +kernel, rfl, fun _ => rfl, (fun _ _ _ _ h => by cases h), fun r h => by cases h⟩
    · trivial
    · refine ⟨by decide +kernel, rfl, fun _ => rfl, (fun _ _ _ _ h => by cases h), fun r h => ?_⟩
      cases h
      exact ⟨by constructor <;> decide, 2, rfl, by constructor <;> decide⟩
  · have hle : 89 ≤ Weave.places (fun _ => E) (fun _ => clk) openedW (woven shaky bad) n := Nat.le_trans hn (h.le n)
    have e : woven shaky bad (Weave.places (fun _ => E) (fun _ => clk) openedW (woven shaky bad) n) = .site (.begin d req) := e
    rcases woven_begin e with ⟨e, -⟩ | ⟨e, -⟩ | ⟨e, -⟩ <;> omega
  · have := h.runs_back (woven_serves_all shaky_enters k).code
    exact fun n i y orig j e hi ht hid => ⟨this n i y orig j e hi ht hid, .inl (by rcases wovenIn_finish e with rfl | rfl <;> rfl)⟩
  · have e : Site.snap b (fun _ => E) (Weave.afterIn (fun _ => E) b.B (fun _ => clk) (openedWeave b) (wovenIn shaky bad) n).site 0 printer = _ :=
      Site.snap_rel (h.site n) 0 printer
    rw [e]
    rw [h.ticks_eq] at ht
    exact Nat.lt_of_le_of_lt (woven_small shaky_enters (Nat.le_trans hn (h.le n)) (Weave.ticks_idle ht)) (by decide)

/-- The step of the history on backend `b` that is step 89 of the history on the specification. -/
theorem woven_mid (b : Impl) : ∃ m, 89 = Weave.places (fun _ => E) (fun _ => clk) openedW (woven shaky bad) m := by
  obtain ⟨m, -, e | ⟨-, -, ⟨q, e⟩, -⟩⟩ := (woven_in shaky_enters b).2.back 89
  · exact ⟨m, e⟩
  · have : woven shaky bad ((hall shaky bad).length + 0) = .go q := e
    unfold woven at this
    rw [lasting_late, course_zero, hall_length] at this
    have hi := shaky_idle
    generalize sofar openedW (hall shaky bad) 89 = g at this hi
    have e : nextOp g 0 0 = .site (siteRounds 0) := by
      unfold nextOp
      rw [hi]
    cases e.symm.trans this

theorem woven_knows : (sofar openedW (hall shaky bad) 89).site.hub.queues[0]? = some printer ∧
    Snap.status ((sofar openedW (hall shaky bad) 89).site.snap .spec (fun _ => E) 0 printer) c!"a" = some .queued ∧
    Snap.status ((sofar openedW (hall shaky bad) 89).site.snap .spec (fun _ => E) 0 printer) c!"b" = some .finished := by
  decide +kernel

/-- Nothing is left queued or running for good, and both jobs end. -/
example (b : Impl) : ∃ n1, ∀ n, n1 ≤ n → (Weave.afterIn (fun _ => E) b.B (fun _ => clk) (openedWeave b) (wovenIn shaky bad) n).inside 0 = none →
    let v := (Weave.afterIn (fun _ => E) b.B (fun _ => clk) (openedWeave b) (wovenIn shaky bad) n).site.snap b (fun _ => E) 0 printer
    v.lists .queued = [] ∧ v.lists .running = [] ∧ v.Ended c!"a" ∧ v.Ended c!"b" := by
  have h := (woven_in shaky_enters b).2
  obtain ⟨m, hm⟩ := woven_mid b
  have hsite := h.site m
  have hnone := h.none_iff m 0
  rw [← hm, woven_early (Nat.le_refl _)] at hsite hnone
  have hq : (Weave.afterIn (fun _ => E) b.B (fun _ => clk) (openedWeave b) (wovenIn shaky bad) m).site.hub.queues[0]? = some printer := by
    rw [hsite.hub]; exact woven_knows.1
  have hi := hnone.2 shaky_idle
  have hsn : Site.snap b (fun _ => E) (Weave.afterIn (fun _ => E) b.B (fun _ => clk) (openedWeave b) (wovenIn shaky bad) m).site 0 printer = _ :=
    Site.snap_rel hsite 0 printer
  obtain ⟨n1, hn1⟩ := C92_drains (N := signs) (kind := fun _ => 5) signs_inj b (fun _ => lawful) 0 7 (wovenIn shaky bad) (woven_in shaky_enters b).1
    (woven_offer shaky_enters shaky_just b rfl).polite (woven_offer shaky_enters shaky_just b rfl).on 89 m 0 printer hq clk_passes (woven_closes b)
  refine ⟨n1 + m, fun n hn hin => ?_⟩
  obtain ⟨r1, r2, -, r4⟩ := hn1 n (by omega) hin
  have nc : ∀ k (j d ty : Nat), (wovenIn shaky bad j).1 ≠ .site (.begin d (.cancel ty k)) := by
    intro k j d ty e
    rcases woven_begin e with ⟨-, -, e⟩ | ⟨-, -, e⟩ | ⟨-, -, e⟩ <;> cases e
  refine ⟨r1, r2, (r4 c!"a" m rfl (by omega) hq hi ?_).2 (nc _), (r4 c!"b" m rfl (by omega) hq hi ?_).2 (nc _)⟩
  · rw [hsn]
    intro e
    exact absurd (woven_knows.2.1.symm.trans e) (by decide)
  · rw [hsn]
    intro e
    exact absurd (woven_knows.2.2.symm.trans e) (by decide)

/-- The event: `add_job` of a job with id `k` has returned to a client, with an answer of the work queue. -/
def returned (k : Str) : SiteEvent Int Unit → Bool
  | .ret _ (.submit ty _ j _) (.answer _) => ty == 5 && j.id == k
  | _ => false

theorem returned_iff {k : Str} {tr : List (SiteEvent Int Unit)} (h : tr.any (returned k) = true) :
    ∃ d nm j cfg r, .ret d (.submit 5 nm j cfg) (.answer r) ∈ tr ∧ j.id = k := by
  obtain ⟨e, he, hk⟩ := List.any_eq_true.1 h
  cases e with
  | ret d req r =>
    cases req with
    | submit ty nm j cfg =>
      cases r with
      | answer r =>
        have hk : (ty == 5 && j.id == k) = true := hk
        rw [Bool.and_eq_true, beq_iff_eq, beq_iff_eq] at hk
        obtain ⟨rfl, hj⟩ := hk
        exact ⟨d, nm, j, cfg, r, he, hj⟩
      | short => cases hk
    | _ => cases hk
  | _ => cases hk

theorem woven_returned : ((sofar openedW (hall shaky bad) 89).site.trace.any (returned c!"a") &&
    (sofar openedW (hall shaky bad) 89).site.trace.any (returned c!"b")) = true := by decide +kernel

/-- `C92_submitted` applies to both requests: their jobs end. -/
example (b : Impl) : ∃ n1, ∀ n, n1 ≤ n → (Weave.afterIn (fun _ => E) b.B (fun _ => clk) (openedWeave b) (wovenIn shaky bad) n).inside 0 = none →
    let v := (Weave.afterIn (fun _ => E) b.B (fun _ => clk) (openedWeave b) (wovenIn shaky bad) n).site.snap b (fun _ => E) 0 printer
    v.Ended c!"a" ∧ v.Ended c!"b" := by
  have h := (woven_in shaky_enters b).2
  obtain ⟨m, hm⟩ := woven_mid b
  have hsite := h.site m
  rw [← hm, woven_early (Nat.le_refl _)] at hsite
  have hq : (Weave.afterIn (fun _ => E) b.B (fun _ => clk) (openedWeave b) (wovenIn shaky bad) m).site.hub.queues[0]? = some printer := by
    rw [hsite.hub]; exact woven_knows.1
  obtain ⟨n1, hn1⟩ := C92_submitted (N := signs) (kind := fun _ => 5) signs_inj b (fun _ => lawful) 0 7 (wovenIn shaky bad) (woven_in shaky_enters b).1
    (woven_offer shaky_enters shaky_just b rfl).polite (woven_offer shaky_enters shaky_just b rfl).on 89 m 0 printer hq clk_passes (woven_closes b)
  refine ⟨n1 + m, fun n hn hin => ?_⟩
  have nc : ∀ k (j d ty : Nat), (wovenIn shaky bad j).1 ≠ .site (.begin d (.cancel ty k)) := by
    intro k j d ty e
    rcases woven_begin e with ⟨-, -, e⟩ | ⟨-, -, e⟩ | ⟨-, -, e⟩ <;> cases e
  have htr : ∀ i, ∃ l, (Weave.after (fun _ => E) SpecB (fun _ => clk) openedW (woven shaky bad) (89 + i)).site.trace =
      (sofar openedW (hall shaky bad) 89).site.trace ++ l := by
    intro i
    induction i with
    | zero => exact ⟨[], by rw [Nat.add_zero, woven_early (Nat.le_refl _), List.append_nil]⟩
    | succ i ih =>
      obtain ⟨l, ih⟩ := ih
      obtain ⟨l', hl⟩ := Weave.step_trace (E := fun _ => E) (clk := fun _ => clk) (Weave.after_tidy openedW_pair.2.2.tidy (89 + i)) (woven shaky bad (89 + i))
      exact ⟨l ++ l', by rw [← List.append_assoc, ← ih]; exact hl⟩
  have hat : ∀ k, (sofar openedW (hall shaky bad) 89).site.trace.any (returned k) = true →
      Snap.Ended ((Weave.afterIn (fun _ => E) b.B (fun _ => clk) (openedWeave b) (wovenIn shaky bad) n).site.snap b (fun _ => E) 0 printer) k := by
    intro k hk
    obtain ⟨d, nm, j, cfg, r, h1, rfl⟩ := returned_iff hk
    refine (hn1 n (by omega) hin d nm j cfg r ?_).2 (nc _)
    have hle : 89 ≤ Weave.places (fun _ => E) (fun _ => clk) openedW (woven shaky bad) n := by
      have := h.mono (show m ≤ n by omega)
      omega
    obtain ⟨l, hl⟩ := htr (Weave.places (fun _ => E) (fun _ => clk) openedW (woven shaky bad) n - 89)
    rw [Nat.add_sub_cancel' hle] at hl
    have ht := (h.site n).trace
    rw [hl] at ht
    rw [ht]
    exact List.mem_append_left _ h1
  have hr := woven_returned
  rw [Bool.and_eq_true] at hr
  exact ⟨hat _ hr.1, hat _ hr.2⟩

end
end AJ.Props
