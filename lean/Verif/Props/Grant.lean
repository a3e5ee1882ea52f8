import Verif.Proofs.GrantEndless
import Verif.Props.EndlessBoot

/-!
# Scans of any number of rounds (C88)

In `Weave` a tick first reads how many rounds its scan may take. The code makes no such call, and its scan has no limit. Both behave alike.
-/

namespace AJ.Props

section
variable {D O : Type} {E : Nat → Env D} {clk : Nat → Nat → Time} {N : Nat → Str} {kind : Str → Nat}

theorem known_empty (b : Impl) : Weave.Known b E clk kind (Site.Base.empty E kind) (Weave.init b.B fun _ => b.empty : Weave D O b.B)
    (Weave.init SpecB fun _ => Spec.empty) := Weave.known_init (fun _ => b.empty_rel) fun _ _ => .refl _

/-- C88: a process whose ticks make the calls of the code alone, each with any number of rounds larger than that of the queued entries
that it finds, cannot be told apart from one whose ticks count their rounds first: after any history, on any backend, the registry,
the work queues, the clients, what has been seen, everything stored and the turns in progress are the same. -/
theorem C88_scans (b : Impl) (L : ∀ ty, (E ty).Lawful) (ops : List (WeaveOp D O × Nat)) :
    let f : Weave D O b.B := Weave.init b.B fun _ => b.empty
    f.AllAmple E clk b ops → (∀ c req n, (.site (.begin c req), n) ∈ ops → req.On kind) → (f.runIn E b.B clk ops).site.hub.engines.length ≤ 1 →
    Weave.Same b E (f.runIn E b.B clk ops) (f.run E b.B clk (f.spelling E clk ops)) := by
  intro f hr ho h1
  exact ((known_empty b).run L ops hr ho h1 fun _ _ => trivial).same_rel (Weave.rel_init.run _)

/-- C88, the rounds granted do not matter: two processes with the same steps, whose ticks may go through different numbers of rounds,
cannot be told apart. So no tick is cut short, and the code, which has no limit, does the same. -/
theorem C88_rounds (b : Impl) (L : ∀ ty, (E ty).Lawful) (ops ops' : List (WeaveOp D O × Nat)) (e : ops.map Prod.fst = ops'.map Prod.fst) :
    let f : Weave D O b.B := Weave.init b.B fun _ => b.empty
    f.AllAmple E clk b ops → f.AllAmple E clk b ops' → (∀ c req n, (.site (.begin c req), n) ∈ ops → req.On kind) →
    (f.runIn E b.B clk ops).site.hub.engines.length ≤ 1 → Weave.Same b E (f.runIn E b.B clk ops) (f.runIn E b.B clk ops') := by
  intro f hr hr' ho h1
  exact ((known_empty b).run L ops hr ho h1 fun _ _ => trivial).same
    (Weave.spelling_eq L (known_empty b) (known_empty b) ops ops' e hr hr' ho h1 fun _ _ => trivial).2

/-- C88, processes one after the other: a later process finds what it would find if the ticks of the earlier ones had counted their
rounds first. -/
theorem C88_leave (hN : ∀ a b, N a = N b → a = b) (b : Impl) (L : ∀ ty, (E ty).Lawful) (ls : List (BootIn D O)) (hfit : ∀ l ∈ ls, l.Fit kind N)
    (h1 : BootIn.Lone E b.B (fun _ => b.empty) ls) (ha : BootIn.Ample E b (fun _ => b.empty) ls) (β ty : Nat) (n : Str) :
    Boot.found E b (BootIn.leave E b.B (fun _ => b.empty) ls β) ty n =
      Boot.found E b (Boot.leave E b.B (fun _ => b.empty) (BootIn.counted E b.B (fun _ => b.empty) ls) β) ty n := by
  have h := (BootIn.counted_rel (s' := fun _ => Spec.empty) L hN ls hfit (fun _ => b.empty_rel) h1 ha fun a _ => ⟨_, Boot.standing_empty _ a⟩).1
  exact (Boot.found_rel b (h β) ty n).trans (Boot.found_rel b ((Boot.leave_rel b (fun _ => b.empty_rel) _).1 β) ty n).symm

/-- C88, there is always a number of rounds that is large enough. -/
theorem C88_enough (b : Impl) (f : Weave D O b.B) (ops : Nat → WeaveOp D O) :
    ∃ rounds : Nat → Nat, ∀ n, (Weave.afterIn E b.B clk f (fun i => (ops i, rounds i)) n).Ample E b (ops n, rounds n) := by
  let st : Nat → Weave D O b.B := fun n => n.rec f fun i g => g.stepIn E b.B clk (ops i, Weave.enough E b g (ops i))
  have e : ∀ n, Weave.afterIn E b.B clk f (fun i => (ops i, Weave.enough E b (st i) (ops i))) n = st n := by
    intro n
    induction n with
    | zero => rfl
    | succ n ih =>
      show (Weave.afterIn E b.B clk f (fun i => (ops i, Weave.enough E b (st i) (ops i))) n).stepIn E b.B clk _ = _
      rw [ih]
  exact ⟨fun i => Weave.enough E b (st i) (ops i), fun n => by rw [e]; exact Weave.enough_ample _ _⟩

/-- The longer history of a process whose engine was started by one client alone. -/
theorem longer (hN : ∀ a b, N a = N b → a = b) (b : Impl) (L : ∀ ty, (E ty).Lawful) (c0 b0 : Nat) (ops : Nat → WeaveOp D O × Nat) :
    let s := (Weave.init b.B fun _ => b.empty).run E b.B clk ((Site.starting c0 b0).map .site)
    let s' := (Weave.init SpecB fun _ => Spec.empty).run E SpecB clk ((Site.starting c0 b0).map .site)
    (∀ n, (Weave.afterIn E b.B clk s ops n).Ample E b (ops n)) →
    (∀ n o, (ops n).1 = .site o → o.Polite N (Weave.afterIn E b.B clk s ops n).site) →
    (∀ n d req, (ops n).1 = .site (.begin d req) → req.On kind) →
    ∃ hist idx, Weave.Stretch b (Weave.afterIn E b.B clk s ops) (fun n => (ops n).1) (Weave.after E SpecB clk s' hist) hist idx := by
  intro s s' hr hp ho
  have hrel : Weave.Rel b s s' := Weave.rel_init.run _
  obtain ⟨e, h0, hP⟩ := started_woven (O := O) (E := E) (clk := clk) (kind := kind) L c0 b0
  have hK : Weave.Known b E clk kind (Site.Base.empty E kind) s s' :=
    ⟨⟨hrel.site, fun q => by rw [hrel.inside, show s'.inside q = none from h0 q]; exact .none⟩, ⟨_, hP⟩, hrel.ok⟩
  have horder : s.site.hub.Orderly N { backend := b0 } := by
    show ((Weave.init b.B fun _ => b.empty : Weave D O b.B).run E b.B clk ((Site.starting c0 b0).map .site)).site.hub.Orderly N _
    rw [Weave.run_plain _ _ (starting_plain c0 b0)]
    show ((Site.init b.B fun _ => b.empty).run E b.B clk (Site.starting c0 b0)).hub.Orderly N _
    rw [starting_hub]
    exact started_orderly N c0 b0
  obtain ⟨idx, h, -⟩ := hK.stretch L ops hr ho (fun n => by
    obtain ⟨G, hG⟩ := Weave.orderly_afterIn (n0 := 0) (E := E) (clk := clk) (f := s) (ops := ops) hN horder (fun n o _ => hp n o) (Nat.zero_le n)
    rw [hG.engines]; simp) fun _ _ _ => trivial
  exact ⟨_, idx, h⟩

/-- What is found in the longer history is found in the shorter one. -/
theorem shorter {b : Impl} {φ : Nat → Weave D O b.B} {ops : Nat → WeaveOp D O} {ψ : Nat → Weave D O SpecB} {hist : Nat → WeaveOp D O} {idx : Nat → Nat}
    (h : Weave.Stretch b φ ops ψ hist idx) {n0 c : Nat} {req : Req D} (hc : ops n0 = .site (.begin c req)) {m : Nat} (hm : idx n0 < m) :
    ∃ n, n0 < n ∧ Site.Rel b (φ n).site (ψ m).site := by
  obtain ⟨n, hs, rfl | ⟨-, h2, -, p, hp⟩⟩ := h.back m
  · refine ⟨n, ?_, hs⟩
    by_contra hcon
    exact absurd (h.mono (Nat.le_of_not_lt hcon)) (by omega)
  · refine ⟨n, ?_, hs⟩
    have h3 : n0 ≤ n := by
      by_contra hcon
      exact absurd (h.mono (n := n + 1) (m := n0) (by omega)) (by omega)
    rcases Nat.eq_or_lt_of_le h3 with rfl | h3
    · rw [hc] at hp; cases hp
    · exact h3

/-- C88: `C86_ends_partial` where ticks make the calls of the code alone.

Missing: as in `C85_ends_partial`. -/
theorem C88_ends_partial (hN : ∀ a b, N a = N b → a = b) (b : Impl) (L : ∀ ty, (E ty).Lawful) (c0 b0 : Nat) (ops : Nat → WeaveOp D O × Nat) (c ty : Nat)
    (nm : Str) (job : Job D) (cfg : EnqueueConfig) (n0 : Nat) :
    let s := (Weave.init b.B fun _ => b.empty).run E b.B clk ((Site.starting c0 b0).map .site)
    let φ := Weave.afterIn E b.B clk s ops
    let ψ := fun n => (ops n).1
    (∀ n, (φ n).Ample E b (ops n)) → Weave.ChanceOn b E kind N c ty nm job cfg n0 φ ψ → (∀ q, Elapses (clk q)) → (E ty).Encodable job → NonCron job →
    (∀ r, job.context.retry = some r → IsI32 r.retriedTimes ∧ ∃ n, r.maxRetries = some n ∧ IsI32 n) →
    ((∀ q a, a.ty = ty → Weave.EachRunOn b E job.id q a φ ψ fun x _ => x.retryAt = none) ∨ job.context.retry = none) →
    ∃ n q a, n0 < n ∧ (φ n).site.hub.queues[q]? = some a ∧ a.ty = ty ∧ a.name = nm ∧ ((φ n).site.snap b E q a).Ended job.id := by
  intro s φ ψ hr H hclk henc hty hret hx
  obtain ⟨hist, idx, h⟩ := longer (kind := kind) hN b L c0 b0 ops hr H.polite H.on
  obtain ⟨m, q, a, h1, h2, h3, h4, h5⟩ := C86_ends_partial hN .spec L c0 b0 hist c ty nm job cfg (idx n0) (h.chance H) hclk henc hty hret
    (hx.imp (fun hx q a e => h.runs (hx q a e)) id)
  obtain ⟨n, g1, g2⟩ := shorter h H.call h1
  exact ⟨n, q, a, g1, by rw [g2.hub]; exact h2, h3, h4, by rw [Site.snap_rel g2]; exact h5⟩

/-- C88: `C86_forever_partial` where ticks make the calls of the code alone.

Missing: as in `C85_ends_partial`. -/
theorem C88_forever_partial (hN : ∀ a b, N a = N b → a = b) (b : Impl) (L : ∀ ty, (E ty).Lawful) (c0 b0 : Nat) (ops : Nat → WeaveOp D O × Nat)
    (c ty : Nat) (nm : Str) (job : Job D) (cfg : EnqueueConfig) (n0 : Nat) (e : Str) (at_ : Time) (t : Int) (x : CronContext) (R : Nat) :
    let s := (Weave.init b.B fun _ => b.empty).run E b.B clk ((Site.starting c0 b0).map .site)
    let φ := Weave.afterIn E b.B clk s ops
    let ψ := fun n => (ops n).1
    (∀ n, (φ n).Ample E b (ops n)) → Weave.ChanceOn b E kind N c ty nm job cfg n0 φ ψ → (∀ q, Elapses (clk q)) → (E ty).Encodable job →
    job.context.jobType = .cron e at_ t x → ((E ty).cron e).isSome = true → x.maxRepeat = none → x.endAt = none →
    ((∀ q a, a.ty = ty → Weave.EachRunOn b E job.id q a φ ψ fun x _ => x.retryAt = none) ∨ job.context.retry = none) →
    (∀ q a, a.ty = ty → Weave.EachRunOn b E job.id q a φ ψ Unretried) →
    ∃ n q a, n0 < n ∧ (φ n).site.hub.queues[q]? = some a ∧ a.ty = ty ∧ a.name = nm ∧ R ≤ (((φ n).site.snap b E q a).runs job.id).length := by
  intro s φ ψ hr H hclk henc hty hc hmax hend hx hno
  obtain ⟨hist, idx, h⟩ := longer (kind := kind) hN b L c0 b0 ops hr H.polite H.on
  obtain ⟨m, q, a, h1, h2, h3, h4, h5⟩ := C86_forever_partial hN .spec L c0 b0 hist c ty nm job cfg (idx n0) e at_ t x R (h.chance H) hclk henc hty hc hmax
    hend (hx.imp (fun hx q a e => h.runs (hx q a e)) id) fun q a e => h.runs (hno q a e)
  obtain ⟨n, g1, g2⟩ := shorter h H.call h1
  exact ⟨n, q, a, g1, by rw [g2.hub]; exact h2, h3, h4, by rw [Site.snap_rel g2]; exact h5⟩

/-- C88: `C86_max_repeat_partial` where ticks make the calls of the code alone.

Missing: as in `C85_ends_partial`. -/
theorem C88_max_repeat_partial (hN : ∀ a b, N a = N b → a = b) (b : Impl) (L : ∀ ty, (E ty).Lawful) (c0 b0 : Nat) (ops : Nat → WeaveOp D O × Nat)
    (c ty : Nat) (nm : Str) (job : Job D) (cfg : EnqueueConfig) (n0 : Nat) (e : Str) (at_ : Time) (t M : Int) (x : CronContext) :
    let s := (Weave.init b.B fun _ => b.empty).run E b.B clk ((Site.starting c0 b0).map .site)
    let φ := Weave.afterIn E b.B clk s ops
    let ψ := fun n => (ops n).1
    (∀ n, (φ n).Ample E b (ops n)) → Weave.ChanceOn b E kind N c ty nm job cfg n0 φ ψ → (∀ q, Elapses (clk q)) → (E ty).Encodable job →
    job.context.jobType = .cron e at_ t x → ((E ty).cron e).isSome = true → x.maxRepeat = some M → x.endAt = none → IsI32 t → IsI32 (M + 1) →
    ((∀ q a, a.ty = ty → Weave.EachRunOn b E job.id q a φ ψ fun x _ => x.retryAt = none) ∨ job.context.retry = none) →
    (∀ q a, a.ty = ty → Weave.EachRunOn b E job.id q a φ ψ Unretried) →
    ∃ n q a, n0 < n ∧ (φ n).site.hub.queues[q]? = some a ∧ a.ty = ty ∧ a.name = nm ∧
      (M + 1 - t).toNat ≤ (((φ n).site.snap b E q a).runs job.id).length := by
  intro s φ ψ hr H hclk henc hty hc hmax hend ht hM hx hno
  obtain ⟨hist, idx, h⟩ := longer (kind := kind) hN b L c0 b0 ops hr H.polite H.on
  obtain ⟨m, q, a, h1, h2, h3, h4, h5⟩ := C86_max_repeat_partial hN .spec L c0 b0 hist c ty nm job cfg (idx n0) e at_ t M x (h.chance H) hclk henc hty hc
    hmax hend ht hM (hx.imp (fun hx q a e => h.runs (hx q a e)) id) fun q a e => h.runs (hno q a e)
  obtain ⟨n, g1, g2⟩ := shorter h H.call h1
  exact ⟨n, q, a, g1, by rw [g2.hub]; exact h2, h3, h4, by rw [Site.snap_rel g2]; exact h5⟩

/-! ## Later processes -/

/-- The longer history of a later process. -/
theorem later_in {b : Impl} (hN : ∀ a b, N a = N b → a = b) (L : ∀ ty, (E ty).Lawful) (before : List (BootIn D O))
    (hfit : ∀ l ∈ before, l.Fit kind N) (h1 : BootIn.Lone E b.B (fun _ => b.empty) before) (ha : BootIn.Ample E b (fun _ => b.empty) before)
    (ops : Nat → WeaveOp D O × Nat) :
    let s := BootIn.leave E b.B (fun _ => b.empty) before
    let φ := Weave.afterIn E b.B clk (Weave.init b.B s : Weave D O b.B) ops
    (∀ n, (φ n).Ample E b (ops n)) → (∀ n d req, (ops n).1 = .site (.begin d req) → req.On kind ∧ req.Named N) →
    (∀ n, (φ n).site.hub.engines.length ≤ 1) →
    ∃ before' : List (Boot D O), (∀ l ∈ before', l.Fit kind N) ∧ Boot.Lone E SpecB (fun _ => Spec.empty) before' ∧
      (∀ β ty n, Boot.found E b (s β) ty n = Boot.found E .spec (Boot.leave E SpecB (fun _ => Spec.empty) before' β) ty n) ∧
      ∃ hist idx, Weave.Stretch b φ (fun n => (ops n).1)
        (Weave.after E SpecB clk (Weave.init SpecB (Boot.leave E SpecB (fun _ => Spec.empty) before')) hist) hist idx := by
  intro s φ hr ho h1'
  obtain ⟨g1, g2, g3⟩ := BootIn.counted_rel (s' := fun _ => Spec.empty) L hN before hfit (fun _ => b.empty_rel) h1 ha
    fun a _ => ⟨_, Boot.standing_empty _ a⟩
  refine ⟨_, g3, g2, fun β ty n => Boot.found_rel b (g1 β) ty n, ?_⟩
  obtain ⟨S, hok, hS⟩ := Boot.base_of (Boot.first L hN _ g3 g2)
  obtain ⟨idx, h, -⟩ := (Weave.known_init (b := b) (O := O) (clk := clk) g1 fun a ha => (hS a ha).part).stretch L ops hr (fun n d req e => (ho n d req e).1) h1'
    fun n a hm => (hok a).2 ((Weave.spelled_afterIn (P := fun ty n => n = N ty) Hub.spelled_init
      (fun n c req e => Weave.spells_named (ho n c req e).2) n).queues a hm)
  exact ⟨_, idx, h⟩

variable (hN : ∀ a b, N a = N b → a = b) (b : Impl) (L : ∀ ty, (E ty).Lawful) (before : List (BootIn D O)) (hfit : ∀ l ∈ before, l.Fit kind N)
  (h1 : BootIn.Lone E b.B (fun _ => b.empty) before) (ha : BootIn.Ample E b (fun _ => b.empty) before)
  (ops : Nat → WeaveOp D O × Nat) (k : Str) (β : Nat) (job : Job D)
include hN L hfit h1 ha

/-- C88: `C87_ends_partial` where the ticks of all processes make the calls of the code alone.

Missing: as in `C87_ends_partial`. -/
theorem C88_resumed_ends_partial :
    let s := BootIn.leave E b.B (fun _ => b.empty) before
    let φ := Weave.afterIn E b.B clk (Weave.init b.B s : Weave D O b.B) ops
    let ψ := fun n => (ops n).1
    (∀ n, (φ n).Ample E b (ops n)) → (Boot.found E b (s β) (kind k) (N (kind k))).Waiting k job → Weave.ResumesOn b E kind N k (kind k) β φ ψ →
    (∀ q, Elapses (clk q)) → NonCron job →
    (∀ r, job.context.retry = some r → IsI32 r.retriedTimes ∧ ∃ n, r.maxRetries = some n ∧ IsI32 n) →
    ((∀ q a, a.ty = kind k → Weave.EachRunOn b E k q a φ ψ fun x _ => x.retryAt = none) ∨ job.context.retry = none) →
    ∃ n q a, (φ n).site.hub.queues[q]? = some a ∧ a.ty = kind k ∧ a.backend = β ∧ ((φ n).site.snap b E q a).Ended k := by
  intro s φ ψ hr hw H hclk hty hret hx
  obtain ⟨before', g1, g2, g3, hist, idx, h⟩ := later_in hN L before hfit h1 ha ops hr H.fits H.one
  rw [g3] at hw
  obtain ⟨m, q, a, h1, h2, h3, h4⟩ := C87_ends_partial hN .spec L before' g1 g2 hist k β job hw (h.resumes H) hclk hty hret
    (hx.imp (fun hx q a e => h.runs (hx q a e)) id)
  obtain ⟨n, hs, -⟩ := h.back m
  exact ⟨n, q, a, by rw [hs.hub]; exact h1, h2, h3, by rw [Site.snap_rel hs]; exact h4⟩

/-- C88: `C87_forever_partial` where the ticks of all processes make the calls of the code alone.

Missing: as in `C87_ends_partial`. -/
theorem C88_resumed_forever_partial (e : Str) (at_ : Time) (t : Int) (c : CronContext) (R : Nat) :
    let s := BootIn.leave E b.B (fun _ => b.empty) before
    let φ := Weave.afterIn E b.B clk (Weave.init b.B s : Weave D O b.B) ops
    let ψ := fun n => (ops n).1
    (∀ n, (φ n).Ample E b (ops n)) → (Boot.found E b (s β) (kind k) (N (kind k))).Waiting k job → Weave.ResumesOn b E kind N k (kind k) β φ ψ →
    (∀ q, Elapses (clk q)) → job.context.jobType = .cron e at_ t c → ((E (kind k)).cron e).isSome = true → c.maxRepeat = none → c.endAt = none →
    ((∀ q a, a.ty = kind k → Weave.EachRunOn b E k q a φ ψ fun x _ => x.retryAt = none) ∨ job.context.retry = none) →
    (∀ q a, a.ty = kind k → Weave.EachRunOn b E k q a φ ψ Unretried) →
    ∃ n q a, (φ n).site.hub.queues[q]? = some a ∧ a.ty = kind k ∧ a.backend = β ∧ R ≤ (((φ n).site.snap b E q a).runs k).length := by
  intro s φ ψ hr hw H hclk hty hc hmax hend hx hno
  obtain ⟨before', g1, g2, g3, hist, idx, h⟩ := later_in hN L before hfit h1 ha ops hr H.fits H.one
  rw [g3] at hw
  obtain ⟨m, q, a, h1, h2, h3, h4⟩ := C87_forever_partial hN .spec L before' g1 g2 hist k β job e at_ t c R hw (h.resumes H) hclk hty hc hmax hend
    (hx.imp (fun hx q a e => h.runs (hx q a e)) id) fun q a e => h.runs (hno q a e)
  obtain ⟨n, hs, -⟩ := h.back m
  exact ⟨n, q, a, by rw [hs.hub]; exact h1, h2, h3, by rw [Site.snap_rel hs]; exact h4⟩

/-- C88: `C87_max_repeat_partial` where the ticks of all processes make the calls of the code alone.

Missing: as in `C87_ends_partial`. -/
theorem C88_resumed_max_repeat_partial (e : Str) (at_ : Time) (t M : Int) (c : CronContext) :
    let s := BootIn.leave E b.B (fun _ => b.empty) before
    let φ := Weave.afterIn E b.B clk (Weave.init b.B s : Weave D O b.B) ops
    let ψ := fun n => (ops n).1
    (∀ n, (φ n).Ample E b (ops n)) → (Boot.found E b (s β) (kind k) (N (kind k))).Waiting k job → Weave.ResumesOn b E kind N k (kind k) β φ ψ →
    (∀ q, Elapses (clk q)) → job.context.jobType = .cron e at_ t c → ((E (kind k)).cron e).isSome = true → c.maxRepeat = some M → c.endAt = none →
    IsI32 t → IsI32 (M + 1) →
    ((∀ q a, a.ty = kind k → Weave.EachRunOn b E k q a φ ψ fun x _ => x.retryAt = none) ∨ job.context.retry = none) →
    (∀ q a, a.ty = kind k → Weave.EachRunOn b E k q a φ ψ Unretried) →
    ∃ n q a, (φ n).site.hub.queues[q]? = some a ∧ a.ty = kind k ∧ a.backend = β ∧
      (M + 1 - t).toNat ≤ (((φ n).site.snap b E q a).runs k).length := by
  intro s φ ψ hr hw H hclk hty hc hmax hend ht hM hx hno
  obtain ⟨before', g1, g2, g3, hist, idx, h⟩ := later_in hN L before hfit h1 ha ops hr H.fits H.one
  rw [g3] at hw
  obtain ⟨m, q, a, h1, h2, h3, h4⟩ := C87_max_repeat_partial hN .spec L before' g1 g2 hist k β job e at_ t M c hw (h.resumes H) hclk hty hc hmax hend ht hM
    (hx.imp (fun hx q a e => h.runs (hx q a e)) id) fun q a e => h.runs (hno q a e)
  obtain ⟨n, hs, -⟩ := h.back m
  exact ⟨n, q, a, by rw [hs.hub]; exact h1, h2, h3, by rw [Site.snap_rel hs]; exact h4⟩

end

/-! ## Concrete histories -/

section
open Demo

/-- A check that all ticks are granted enough rounds. -/
def amples (b : Impl) : Weave Int Unit b.B → List (WeaveOp Int Unit × Nat) → Bool
  | _, [] => true
  | f, o :: ops => decide (Weave.enough (fun _ => E) b f o.1 ≤ o.2) && amples b (f.stepIn (fun _ => E) b.B (fun _ => clk) o) ops

theorem amples.ample {b : Impl} {f : Weave Int Unit b.B} {ops : List (WeaveOp Int Unit × Nat)} (h : amples b f ops = true) :
    f.AllAmple (fun _ => E) (fun _ => clk) b ops := by
  induction ops generalizing f with
  | nil => trivial
  | cons o ops ih =>
    simp only [amples, Bool.and_eq_true, decide_eq_true_eq] at h
    exact ⟨fun q a h1 h2 => Nat.lt_of_lt_of_le (Weave.enough_ample (E := fun _ => E) f o.1 q a h1 h2) h.1, ih h.2⟩

/-- The steps of `hall`, from the start of the engine on, with the same rounds for all ticks. -/
def granted (n : Nat) : List (WeaveOp Int Unit × Nat) :=
  (opening ++ hall (flaky (.newIntervalRetry (some 2) nsPerSec)) bad).map fun o => (o, n)

theorem granted_on (n : Nat) (c : Nat) (req : Req Int) (m : Nat) (h : (.site (.begin c req), m) ∈ granted n) : req.On fun _ => 5 := by
  have h : .site (.begin c req) ∈ opening ++ hall (flaky (.newIntervalRetry (some 2) nsPerSec)) bad := by
    obtain ⟨o, h1, h2⟩ := List.mem_map.1 h
    cases h2
    exact h1
  simp [opening, Site.starting, hall] at h
  rcases h with ⟨-, rfl⟩ | ⟨-, rfl⟩ | ⟨-, rfl⟩ | ⟨-, rfl⟩
  · trivial
  · exact rfl
  · exact rfl
  · trivial

theorem granted_named (n : Nat) (c : Nat) (req : Req Int) (m : Nat) (h : (.site (.begin c req), m) ∈ granted n) : req.Named signs := by
  have h : .site (.begin c req) ∈ opening ++ hall (flaky (.newIntervalRetry (some 2) nsPerSec)) bad := by
    obtain ⟨o, h1, h2⟩ := List.mem_map.1 h
    cases h2
    exact h1
  simp [opening, Site.starting, hall] at h
  rcases h with ⟨-, rfl⟩ | ⟨-, rfl⟩ | ⟨-, rfl⟩ | ⟨-, rfl⟩ <;> trivial

/-- `C88_scans` and `C88_rounds` apply: with two jobs queued, three rounds or a hundred are as good as those that `Weave` counts. -/
example :
    let f : Weave Int Unit Impl.redis.B := Weave.init Impl.redis.B fun _ => Impl.redis.empty
    Weave.Same .redis (fun _ => E) (f.runIn (fun _ => E) Impl.redis.B (fun _ => clk) (granted 3))
      (f.run (fun _ => E) Impl.redis.B (fun _ => clk) (f.spelling (fun _ => E) (fun _ => clk) (granted 3))) ∧
    Weave.Same .redis (fun _ => E) (f.runIn (fun _ => E) Impl.redis.B (fun _ => clk) (granted 3)) (f.runIn (fun _ => E) Impl.redis.B (fun _ => clk) (granted 100)) ∧
    (f.spelling (fun _ => E) (fun _ => clk) (granted 3)).length = (granted 3).length + 2 := by
  intro f
  have h3 : f.AllAmple (fun _ => E) (fun _ => clk) .redis (granted 3) := amples.ample (by decide +kernel)
  have h100 : f.AllAmple (fun _ => E) (fun _ => clk) .redis (granted 100) := amples.ample (by decide +kernel)
  have h1 : (f.runIn (fun _ => E) Impl.redis.B (fun _ => clk) (granted 3)).site.hub.engines.length ≤ 1 := by decide +kernel
  have h2 : (f.spelling (fun _ => E) (fun _ => clk) (granted 3)).length = (granted 3).length + 2 := by decide +kernel
  have h4 : (granted 3).map (·.1) = (granted 100).map (·.1) := by unfold granted; rw [List.map_map, List.map_map]; rfl
  have h5 := granted_on 3
  generalize granted 3 = ops at *
  generalize granted 100 = more at *
  exact ⟨C88_scans (kind := fun _ => 5) .redis (fun _ => lawful) _ h3 h5 h1,
    C88_rounds (kind := fun _ => 5) .redis (fun _ => lawful) _ _ h4 h3 h100 h5 h1, h2⟩

variable {J : Job Int} {x : Executable Int Unit}

/-- Which steps begin ticks, and which are calls. -/
def stamp : WeaveOp Int Unit → Nat
  | .site (.turn 0 .tick) => 1
  | .go 0 => 2
  | _ => 0

theorem stamp_tick {o : WeaveOp Int Unit} (h : o = .site (.turn 0 .tick)) : stamp o = 1 := by rw [h]; rfl

theorem stamp_go {o : WeaveOp Int Unit} (h : stamp o = 2) : o = .go 0 := by
  unfold stamp at h
  split at h
  · cases h
  · rfl
  · cases h

/-- Ticks are followed by calls. -/
def prompt : List Nat → Bool
  | 1 :: 2 :: l => prompt (2 :: l)
  | 1 :: _ => false
  | _ :: l => prompt l
  | [] => true

theorem prompt.next {l : List Nat} (h : prompt l = true) {n : Nat} (hn : l[n]? = some 1) : l[n + 1]? = some 2 := by
  induction n generalizing l with
  | zero =>
    match l with
    | 1 :: 2 :: l => rfl
    | [1] => cases h
    | 1 :: 0 :: l => cases h
    | 1 :: 1 :: l => cases h
    | 1 :: (n + 3) :: l => cases h
    | 0 :: _ => cases hn
    | (n + 2) :: _ => cases hn
    | [] => cases hn
  | succ n ih =>
    match l with
    | 1 :: 2 :: l => exact ih (l := 2 :: l) h hn
    | [1] => cases h
    | 1 :: 0 :: l => cases h
    | 1 :: 1 :: l => cases h
    | 1 :: (n + 3) :: l => cases h
    | 0 :: _ => exact ih h hn
    | (n + 2) :: _ => exact ih h hn
    | [] => cases hn

/-- Which steps begin ticks of any work queue. -/
def begins : WeaveOp Int Unit → Bool
  | .site (.turn _ .tick) => true
  | _ => false

theorem hall_stamps12 : (hall J x).map begins = (hall (job c!"a") good).map begins := rfl

theorem hall_stamps : (hall J x).map stamp = (hall (job c!"a") good).map stamp := rfl

attribute [local irreducible] hall openedW

/-- In rounds that last for ever the call that `Weave` adds to a tick comes at once. -/
theorem lasting_prompt {f : Weave Int Unit SpecB} {pro : List (WeaveOp Int Unit)} {s0 : SpecState} (ht : Weave.Tidy f)
    (hs : (sofar f pro pro.length).inside 0 = none ∧ Steady s0 0 (sofar f pro pro.length).site) (hp : prompt (pro.map stamp) = true) :
    f.Prompt (fun _ => E) (fun _ => clk) (lasting f pro) := by
  intro n q hq
  obtain ⟨a, h1, h2, h3, h4⟩ : ∃ a, lasting f pro n = .site (.turn q .tick) ∧ (Weave.after (fun _ => E) SpecB (fun _ => clk) f (lasting f pro) n).inside q = none ∧
      (Weave.after (fun _ => E) SpecB (fun _ => clk) f (lasting f pro) n).site.hub.queues[q]? = some a ∧
      ((Weave.after (fun _ => E) SpecB (fun _ => clk) f (lasting f pro) n).site.boxes q).proc.alive = true := by
    generalize Weave.after (fun _ => E) SpecB (fun _ => clk) f (lasting f pro) n = g at hq
    generalize lasting f pro n = o at hq
    unfold Weave.scans at hq
    split at hq
    · split at hq
      · split at hq
        · cases hq
          exact ⟨_, rfl, by assumption, by assumption, by assumption⟩
        · cases hq
      · cases hq
    · cases hq
  obtain ⟨rfl, rfl⟩ := lasting_queues ht hs h3
  by_cases hn : n < pro.length
  · have e : (pro.map stamp)[n]? = some 1 := by
      rw [List.getElem?_map, lasting_some (f := f) hn, h1]; rfl
    have e := prompt.next hp e
    rw [List.getElem?_map] at e
    obtain ⟨o, ho, hst⟩ := Option.map_eq_some_iff.1 e
    have hn' : n + 1 < pro.length := (List.getElem?_eq_some_iff.1 ho).1
    rw [lasting_some (f := f) hn'] at ho
    rw [Option.some.inj ho]
    exact stamp_go hst
  · obtain ⟨m, rfl⟩ : ∃ m, n = pro.length + m := ⟨n - pro.length, by omega⟩
    show lasting f pro (pro.length + (m + 1)) = _
    rw [lasting_late]
    have hin : (course (sofar f pro pro.length) (m + 1)).1.inside 0 =
        some ⟨none, .tick, ((Weave.after (fun _ => E) SpecB (fun _ => clk) f (lasting f pro) (pro.length + m)).site.boxes 0).proc.turn (O := Unit) E printer.name .tick⟩ := by
      rw [← lasting_course]
      show (Weave.step (fun _ => E) SpecB (fun _ => clk) (Weave.after (fun _ => E) SpecB (fun _ => clk) f (lasting f pro) (pro.length + m)) (lasting f pro (pro.length + m))).inside 0 = _
      rw [h1]
      show (Weave.turn (fun _ => E) SpecB _ 0 .tick).inside 0 = _
      unfold Weave.turn
      rw [h2, h3]
      rfl
    unfold nextOp
    rw [hin]
    dsimp only
    rw [if_pos]
    unfold Proc.turn
    rw [if_pos h4]
    rfl

theorem woven_prompt (H : Enters J x) : openedW.Prompt (fun _ => E) (fun _ => clk) (woven J x) :=
  lasting_prompt openedW_pair.2.2.tidy (woven_steady H) (by rw [hall_stamps]; decide +kernel)

/-- The steps of the example, each tick with enough rounds. -/
def wovenIn (J : Job Int) (x : Executable Int Unit) (n : Nat) : WeaveOp Int Unit × Nat :=
  let m := Weave.places (fun _ => E) (fun _ => clk) openedW (woven J x) n
  (woven J x m, Weave.enough (fun _ => E) .spec (Weave.after (fun _ => E) SpecB (fun _ => clk) openedW (woven J x) m) (woven J x m))

theorem places_start {g : Weave Int Unit SpecB} {hist : Nat → WeaveOp Int Unit} (n : Nat)
    (h : ∀ i, i < n → ∀ p, hist i ≠ .site (.turn p .tick)) : Weave.places (fun _ => E) (fun _ => clk) g hist n = n := by
  induction n with
  | zero => rfl
  | succ n ih =>
    show Weave.places (fun _ => E) (fun _ => clk) g hist n + (Weave.spelt _ _).length = _
    rw [ih fun i hi => h i (by omega)]
    rcases Weave.spelt_cases (Weave.after (fun _ => E) SpecB (fun _ => clk) g hist n) (hist n) with e | ⟨q, -, e, -⟩
    · rw [e]; rfl
    · exact absurd e (h n (Nat.lt_succ_self n) q)

theorem woven_in (H : Enters J x) (b : Impl) :
    (∀ n, (Weave.afterIn (fun _ => E) b.B (fun _ => clk) (openedWeave b) (wovenIn J x) n).Ample (fun _ => E) b (wovenIn J x n)) ∧
    Weave.Stretch b (Weave.afterIn (fun _ => E) b.B (fun _ => clk) (openedWeave b) (wovenIn J x)) (fun n => (wovenIn J x n).1)
      (Weave.after (fun _ => E) SpecB (fun _ => clk) openedW (woven J x)) (woven J x) (Weave.places (fun _ => E) (fun _ => clk) openedW (woven J x)) := by
  have hrel : Weave.Rel b (openedWeave b) openedW := by unfold openedW; exact Weave.rel_init.run _
  have hK : Weave.Known b (fun _ => E) (fun _ => clk) (fun _ => 5) (Site.Base.empty _ _) (openedWeave b) openedW :=
    ⟨⟨hrel.site, fun q => by rw [hrel.inside, openedW_pair.2.1]; exact .none⟩, ⟨_, openedW_pair.2.2⟩, hrel.ok⟩
  exact hK.shrink (fun _ => lawful) (woven J x) (woven_prompt H) woven_on (fun n => by
    obtain ⟨G, hG⟩ := (Weave.pair_after (N := signs) (E := fun _ => E) (clk := fun _ => clk) (kind := fun _ => 5) (ops := woven J x) signs_inj (fun _ => lawful)
      openedW_pair.2.2 (by rw [openedW_pair.1]; unfold opened; rw [starting_hub]; exact started_orderly signs 0 7) (woven_polite H) woven_on n).2
    rw [hG.engines]; simp) fun _ _ _ => trivial

theorem woven_twelve : Weave.places (fun _ => E) (fun _ => clk) openedW (woven J x) 12 = 12 := by
  refine places_start 12 fun i hi p hp => ?_
  have e : (hall J x)[i]? = some (woven J x i) := lasting_some (by rw [hall_length]; omega)
  rw [hp] at e
  have e2 : ((hall (job c!"a") good).map (begins))[i]? = some true := by
    rw [← hall_stamps12 (J := J) (x := x), List.getElem?_map, e]; rfl
  have : ∀ i < 12, ((hall (job c!"a") good).map begins)[i]? ≠ some true := by decide +kernel
  exact this i hi e2

theorem woven_in_chance (H : Enters J x) (b : Impl) {m : Nat} (hm : m = 12) :
    Weave.ChanceOn b (fun _ => E) (fun _ => 5) signs 2 5 c!"print" J .newReRun m
      (Weave.afterIn (fun _ => E) b.B (fun _ => clk) (openedWeave b) (wovenIn J x)) fun n => (wovenIn J x n).1 :=
  (woven_in H b).2.chance_back (woven_chance H (by rw [hm]; exact woven_twelve))

theorem wovenIn_finish {n q i : Nat} {y : Executable Int Unit} (h : (wovenIn J x n).1 = .site (.turn q (.finish i y))) : y = good ∨ y = x := woven_finish h

/-- `C88_ends_partial` applies, on every backend: job `a` ends, although its first run fails. -/
example (b : Impl) : ∃ n q a, 12 < n ∧
    (Weave.afterIn (fun _ => E) b.B (fun _ => clk) (openedWeave b) (wovenIn (flaky (.newIntervalRetry (some 2) nsPerSec)) bad) n).site.hub.queues[q]? = some a ∧ a.ty = 5 ∧ a.name = c!"print" ∧
    ((Weave.afterIn (fun _ => E) b.B (fun _ => clk) (openedWeave b) (wovenIn (flaky (.newIntervalRetry (some 2) nsPerSec)) bad) n).site.snap b (fun _ => E) q a).Ended c!"a" := by
  refine C88_ends_partial signs_inj b (fun _ => lawful) 0 7 _ 2 5 c!"print" (flaky (.newIntervalRetry (some 2) nsPerSec)) .newReRun 12
    (woven_in flaky_enters b).1 (woven_in_chance flaky_enters b rfl) (fun _ => clk_passes) (by decide +kernel) (by intro e n m c h; cases h) ?_ (.inl ?_)
  · intro r h
    cases h
    exact ⟨by constructor <;> decide, 2, rfl, by constructor <;> decide⟩
  · intro q a _ n i y orig j h _ _ _
    rcases wovenIn_finish h with rfl | rfl <;> rfl

/-- An every-second job runs a thousand times, on every backend. -/
example (b : Impl) : ∃ n q a, 12 < n ∧
    (Weave.afterIn (fun _ => E) b.B (fun _ => clk) (openedWeave b) (wovenIn (cronJob c!"* * * * * *" 3 {}) good) n).site.hub.queues[q]? = some a ∧
    a.ty = 5 ∧ a.name = c!"print" ∧
    1000 ≤ (((Weave.afterIn (fun _ => E) b.B (fun _ => clk) (openedWeave b) (wovenIn (cronJob c!"* * * * * *" 3 {}) good) n).site.snap b (fun _ => E) q
      a).runs c!"a").length := by
  refine C88_forever_partial signs_inj b (fun _ => lawful) 0 7 _ 2 5 c!"print" (cronJob c!"* * * * * *" 3 {}) .newReRun 12 c!"* * * * * *" _ 1 {} 1000
    (woven_in seconds_enters b).1 (woven_in_chance seconds_enters b rfl) (fun _ => clk_passes) (by decide +kernel) rfl rfl rfl rfl (.inr rfl) ?_
  intro q a _ n i y orig j h _ _ _
  rcases wovenIn_finish h with rfl | rfl <;> exact .inl rfl

/-- One with `max_repeat = 2` runs twice. -/
example (b : Impl) : ∃ n q a, 12 < n ∧
    (Weave.afterIn (fun _ => E) b.B (fun _ => clk) (openedWeave b) (wovenIn (cronJob c!"* * * * * *" 3 { maxRepeat := some 2 }) good) n).site.hub.queues[q]? =
      some a ∧ a.ty = 5 ∧ a.name = c!"print" ∧
    2 ≤ (((Weave.afterIn (fun _ => E) b.B (fun _ => clk) (openedWeave b) (wovenIn (cronJob c!"* * * * * *" 3 { maxRepeat := some 2 }) good) n).site.snap b
      (fun _ => E) q a).runs c!"a").length := by
  refine C88_max_repeat_partial signs_inj b (fun _ => lawful) 0 7 _ 2 5 c!"print" (cronJob c!"* * * * * *" 3 { maxRepeat := some 2 }) .newReRun 12
    c!"* * * * * *" _ 1 2 { maxRepeat := some 2 } (woven_in two_enters b).1 (woven_in_chance two_enters b rfl) (fun _ => clk_passes) (by decide +kernel)
    rfl rfl rfl rfl (by constructor <;> decide) (by constructor <;> decide) (.inr rfl) ?_
  intro q a _ n i y orig j h _ _ _
  rcases wovenIn_finish h with rfl | rfl <;> exact .inl rfl

/-! ### A later process -/

/-- Without turns the rounds granted do not matter. -/
theorem runIn_calm {B : Backend} (ops : List (WeaveOp Int Unit)) (f : Weave Int Unit B) (h : ∀ o ∈ ops, ∀ q op, o ≠ .site (.turn q op)) :
    f.runIn (fun _ => E) B (fun _ => clk) (ops.map fun o => (o, 0)) = f.run (fun _ => E) B (fun _ => clk) ops := by
  induction ops generalizing f with
  | nil => rfl
  | cons o ops ih =>
    have e : f.stepIn (fun _ => E) B (fun _ => clk) (o, 0) = f.step (fun _ => E) B (fun _ => clk) o := by
      unfold Weave.stepIn
      split
      · next q op he => exact absurd he (h o (List.mem_cons_self ..) q op)
      · rfl
    show Weave.runIn _ B _ (f.stepIn _ B _ (o, 0)) (ops.map fun o => (o, 0)) = Weave.run _ B _ (f.step _ B _ o) ops
    rw [e]
    exact ih _ fun o' ho => h o' (List.mem_cons_of_mem _ ho)

theorem ample_calm (b : Impl) (ops : List (WeaveOp Int Unit)) (f : Weave Int Unit b.B) (h : ∀ o ∈ ops, ∀ q op, o ≠ .site (.turn q op)) :
    f.AllAmple (fun _ => E) (fun _ => clk) b (ops.map fun o => (o, 0)) := by
  induction ops generalizing f with
  | nil => trivial
  | cons o ops ih =>
    refine ⟨fun q a hq _ => ?_, ih _ fun o' ho => h o' (List.mem_cons_of_mem _ ho)⟩
    have hq : f.scans o = some q := hq
    unfold Weave.scans at hq
    split at hq
    · exact absurd rfl (h _ (List.mem_cons_self ..) _ .tick)
    · cases hq

/-- A process accepts job `J` and dies. -/
def acceptIn (J : Job Int) : BootIn Int Unit := ⟨fun _ => clk, (accept J).ops.map fun o => (o, 0)⟩

theorem accept_calm : ∀ o ∈ (accept J).ops, ∀ q op, o ≠ .site (.turn q op) := by
  intro o ho q op e
  subst e
  simp [accept, boot, opening, Site.starting] at ho

theorem accept_clk : (accept J).clk = fun _ => clk := rfl

theorem acceptIn_fit : (acceptIn J).Fit (fun _ => 5) signs := by
  intro c req n h
  obtain ⟨o, h1, h2⟩ := List.mem_map.1 h
  cases h2
  exact accept_fit c req h1

attribute [local irreducible] begun accept

theorem acceptIn_last (B : Backend) (s : Nat → B.S) : (acceptIn J).last (fun _ => E) B s = (accept J).last (fun _ => E) B s := by
  unfold BootIn.last Boot.last
  rw [accept_clk]
  exact runIn_calm _ _ accept_calm

theorem acceptIn_leave (B : Backend) (s : Nat → B.S) : BootIn.leave (fun _ => E) B s [acceptIn J] = Boot.leave (fun _ => E) B s [accept J] := by
  show ((acceptIn J).last (fun _ => E) B s).site.stores = ((accept J).last (fun _ => E) B s).site.stores
  rw [acceptIn_last]

theorem acceptIn_lone (H : Revives J x) (b : Impl) : BootIn.Lone (fun _ => E) b.B (fun _ => b.empty) [acceptIn J] := by
  have h := (accept_lone H b).1
  exact ⟨by rw [acceptIn_last]; exact h, trivial⟩

theorem acceptIn_ample (b : Impl) : BootIn.Ample (fun _ => E) b (fun _ => b.empty) [acceptIn J] :=
  ⟨ample_calm b _ _ accept_calm, trivial⟩

theorem reopened_stamps : (reopened x).map stamp = (reopened good).map stamp := by
  unfold reopened
  rw [List.map_append, List.map_append, hall_stamps, hall_stamps (J := job c!"c") (x := good)]

theorem revived_prompt (H : Revives J x) : (begun J).Prompt (fun _ => E) (fun _ => clk) (revived J x) := by
  obtain ⟨s0, h, -⟩ := revived_steady H
  exact lasting_prompt begun_calm.1 h (by rw [reopened_stamps]; decide +kernel)

/-- The steps of the later process, each tick with enough rounds. -/
def revivedIn (J : Job Int) (x : Executable Int Unit) (n : Nat) : WeaveOp Int Unit × Nat :=
  let m := Weave.places (fun _ => E) (fun _ => clk) (begun J) (revived J x) n
  (revived J x m, Weave.enough (fun _ => E) .spec (Weave.after (fun _ => E) SpecB (fun _ => clk) (begun J) (revived J x) m) (revived J x m))

/-- The later process begins. -/
abbrev begunIn (b : Impl) (J : Job Int) : Weave Int Unit b.B := Weave.init b.B (BootIn.leave (fun _ => E) b.B (fun _ => b.empty) [acceptIn J])

theorem revived_stretch (H : Revives J x) (b : Impl) :
    (∀ n, (Weave.afterIn (fun _ => E) b.B (fun _ => clk) (begunIn b J) (revivedIn J x) n).Ample (fun _ => E) b (revivedIn J x n)) ∧
    Weave.Stretch b (Weave.afterIn (fun _ => E) b.B (fun _ => clk) (begunIn b J) (revivedIn J x)) (fun n => (revivedIn J x n).1)
      (Weave.after (fun _ => E) SpecB (fun _ => clk) (begun J) (revived J x)) (revived J x) (Weave.places (fun _ => E) (fun _ => clk) (begun J) (revived J x)) := by
  obtain ⟨h1, h2⟩ := revived_one H
  obtain ⟨S, hok, hS⟩ := Boot.base_of (Boot.first (E := fun _ => E) (kind := fun _ => 5) (fun _ => lawful) signs_inj [accept J]
    (fun l hl => by rw [List.mem_singleton.1 hl]; exact accept_fit) ⟨H.one, trivial⟩)
  have hK : Weave.Known b (fun _ => E) (fun _ => clk) (fun _ => 5) S (begunIn b J) (begun J) := by
    unfold begun begunIn
    rw [acceptIn_leave]
    exact Weave.known_init (Boot.leave_rel b (fun _ => b.empty_rel) [accept J]).1 fun a ha => (hS a ha).part
  have hnm : ∀ n, ∀ a ∈ (Weave.after (fun _ => E) SpecB (fun _ => clk) (begun J) (revived J x) n).site.hub.queues, a.name = signs a.ty := by
    have := fun n => named_after (B := SpecB) (E := fun _ => E) (clk := fun _ => clk) (kind := fun _ => 5) (N := signs)
      (s := Boot.leave (fun _ => E) SpecB (fun _ => Spec.empty) [accept J]) (ops := revived J x)
      (fun n d req h => ⟨revived_on n d req h, h2 n d req h⟩) n
    unfold begun
    exact this
  exact hK.shrink (fun _ => lawful) (revived J x) (revived_prompt H) revived_on h1 fun n a ha => (hok a).2 (hnm n a ha)

theorem revived_in (H : Revives J x) (b : Impl) :
    (∀ n, (Weave.afterIn (fun _ => E) b.B (fun _ => clk) (begunIn b J) (revivedIn J x) n).Ample (fun _ => E) b (revivedIn J x n)) ∧
    Weave.ResumesOn b (fun _ => E) (fun _ => 5) signs c!"a" 5 7 (Weave.afterIn (fun _ => E) b.B (fun _ => clk) (begunIn b J) (revivedIn J x))
      fun n => (revivedIn J x n).1 :=
  ⟨(revived_stretch H b).1, (revived_stretch H b).2.resumes_back (revived_resumes H)⟩

theorem revivedIn_finish {n q i : Nat} {y : Executable Int Unit} (h : (revivedIn J x n).1 = .site (.turn q (.finish i y))) : y = good ∨ y = x :=
  revived_finish h

theorem waits.waitingIn (h : waits J = true) (b : Impl) :
    (Boot.found (fun _ => E) b (BootIn.leave (fun _ => E) b.B (fun _ => b.empty) [acceptIn J] 7) 5 c!"print").Waiting c!"a" (leftOf J) := by
  rw [acceptIn_leave]
  exact waits.waiting h b

/-- `C88_resumed_ends_partial` applies, on every backend. -/
example (b : Impl) : ∃ n q a,
    (Weave.afterIn (fun _ => E) b.B (fun _ => clk) (begunIn b (flaky (.newIntervalRetry (some 2) nsPerSec))) (revivedIn (flaky (.newIntervalRetry (some 2) nsPerSec)) bad) n).site.hub.queues[q]? = some a ∧ a.ty = 5 ∧ a.backend = 7 ∧
    ((Weave.afterIn (fun _ => E) b.B (fun _ => clk) (begunIn b (flaky (.newIntervalRetry (some 2) nsPerSec))) (revivedIn (flaky (.newIntervalRetry (some 2) nsPerSec)) bad) n).site.snap b (fun _ => E) q a).Ended c!"a" := by
  refine C88_resumed_ends_partial (kind := fun _ => 5) signs_inj b (fun _ => lawful) [acceptIn _]
    (fun l hl => by rw [List.mem_singleton.1 hl]; exact acceptIn_fit) (acceptIn_lone flaky_revives b) (acceptIn_ample b) _ c!"a" 7 (leftOf (flaky (.newIntervalRetry (some 2) nsPerSec)))
    (revived_in flaky_revives b).1 (waits.waitingIn (by decide +kernel) b) (revived_in flaky_revives b).2 (fun _ => clk_passes) ?_ ?_ (.inl ?_)
  · have h : (match (leftOf (flaky (.newIntervalRetry (some 2) nsPerSec))).context.jobType with
      | .cron _ _ _ _ => false
      | _ => true) = true := by decide +kernel
    intro e n m c hc
    rw [hc] at h
    cases h
  · have h : (match (leftOf (flaky (.newIntervalRetry (some 2) nsPerSec))).context.retry with
      | some r => decide (r.retriedTimes = 0 ∧ r.maxRetries = some 2)
      | none => true) = true := by decide +kernel
    intro r hr
    rw [hr] at h
    obtain ⟨h1, h2⟩ := of_decide_eq_true h
    exact ⟨by rw [h1]; constructor <;> decide, 2, h2, by constructor <;> decide⟩
  · intro q a _ n i y orig j h _ _ _
    rcases revivedIn_finish h with rfl | rfl <;> rfl

/-- An every-second job that has been left runs a thousand times in the next process, on every backend. -/
example (b : Impl) : ∃ n q a,
    (Weave.afterIn (fun _ => E) b.B (fun _ => clk) (begunIn b (cronJob c!"* * * * * *" 3 {})) (revivedIn (cronJob c!"* * * * * *" 3 {}) good) n).site.hub.queues[q]? =
      some a ∧ a.ty = 5 ∧ a.backend = 7 ∧
    1000 ≤ (((Weave.afterIn (fun _ => E) b.B (fun _ => clk) (begunIn b (cronJob c!"* * * * * *" 3 {})) (revivedIn (cronJob c!"* * * * * *" 3 {}) good) n).site.snap b
      (fun _ => E) q a).runs c!"a").length := by
  obtain ⟨u, c, h1, h2, h3, h4⟩ := leftCron.eq (M := none) (J := (cronJob c!"* * * * * *" 3 {})) (by decide +kernel)
  refine C88_resumed_forever_partial (kind := fun _ => 5) signs_inj b (fun _ => lawful) [acceptIn _]
    (fun l hl => by rw [List.mem_singleton.1 hl]; exact acceptIn_fit) (acceptIn_lone seconds_revives b) (acceptIn_ample b) _ c!"a" 7 (leftOf (cronJob c!"* * * * * *" 3 {}))
    _ u 1 c 1000 (revived_in seconds_revives b).1 (waits.waitingIn (by decide +kernel) b) (revived_in seconds_revives b).2 (fun _ => clk_passes) h1 rfl h2 h3
    (.inr h4) ?_
  intro q a _ n i y orig j h _ _ _
  rcases revivedIn_finish h with rfl | rfl <;> exact .inl rfl

/-- One with `max_repeat = 2` runs twice. -/
example (b : Impl) : ∃ n q a,
    (Weave.afterIn (fun _ => E) b.B (fun _ => clk) (begunIn b (cronJob c!"* * * * * *" 3 { maxRepeat := some 2 })) (revivedIn (cronJob c!"* * * * * *" 3 { maxRepeat := some 2 }) good) n).site.hub.queues[q]? = some a ∧ a.ty = 5 ∧ a.backend = 7 ∧
    2 ≤ (((Weave.afterIn (fun _ => E) b.B (fun _ => clk) (begunIn b (cronJob c!"* * * * * *" 3 { maxRepeat := some 2 })) (revivedIn (cronJob c!"* * * * * *" 3 { maxRepeat := some 2 }) good) n).site.snap b (fun _ => E) q a).runs c!"a").length := by
  obtain ⟨u, c, h1, h2, h3, h4⟩ := leftCron.eq (M := some 2) (J := (cronJob c!"* * * * * *" 3 { maxRepeat := some 2 })) (by decide +kernel)
  refine C88_resumed_max_repeat_partial (kind := fun _ => 5) signs_inj b (fun _ => lawful) [acceptIn _]
    (fun l hl => by rw [List.mem_singleton.1 hl]; exact acceptIn_fit) (acceptIn_lone two_revives b) (acceptIn_ample b) _ c!"a" 7 (leftOf (cronJob c!"* * * * * *" 3 { maxRepeat := some 2 }))
    _ u 1 2 c (revived_in two_revives b).1 (waits.waitingIn (by decide +kernel) b) (revived_in two_revives b).2 (fun _ => clk_passes) h1 rfl h2 h3
    (by constructor <;> decide) (by constructor <;> decide) (.inr h4) ?_
  intro q a _ n i y orig j h _ _ _
  rcases revivedIn_finish h with rfl | rfl <;> exact .inl rfl

end

end AJ.Props
