import Verif.Proofs.WeaveRun
import Verif.Proofs.WeaveSend
import Verif.Props.Weave
import Verif.Props.Sent

/-!
# From the call of a submission to the execution, with work queues that interleave call by call (C79)
-/

namespace AJ.Props

section
variable {D O : Type} {E : Nat → Env D} {clk : Nat → Nat → Time} {N : Nat → Str}

/-- C79, from the mailbox to the execution (`C74_executed_partial` when the work queues interleave call by call), in a process
with one engine whose job types have ids of their own, on any backend: a job that one request submits and no other request
touches, and that is due, is executed. That is, once its message is in the mailbox of the work queue, the job is in flight at
some moment within any further history in which the work queue, between turns, first turns to the front of its mailbox more
often than there are messages in it, and then begins more than `n` ticks alive and with free capacity, where no tick finds, as
it begins, more than `n` entries queued, `n` at most 20; whatever else all clients, all other work queues and all executions do
meanwhile, and wherever they do it. The job is due if it is at all clock reads of the work queue after some moment at which
that was between turns.

Missing: as in `C74_executed_partial`. -/
theorem C79_executed_partial (b : Impl) (L : ∀ ty, (E ty).Lawful) (kind : Str → Nat) (pre mid wait work early : List (WeaveOp D O)) (c ty : Nat) (nm : Str)
    (job : Job D) (cfg : EnqueueConfig) (q : Nat) (a : QueueActor) (n : Nat) :
    let f0 : Weave D O b.B := Weave.init b.B fun _ => b.empty
    let f := f0.run E b.B clk (pre ++ .site (.begin c (.submit ty nm job cfg)) :: mid)
    WeaveSole kind pre (mid ++ (wait ++ work)) c ty nm job cfg → (f.run E b.B clk (wait ++ work)).site.hub.engines.length ≤ 1 →
    f.site.users c = .posted (.submit ty nm job cfg) (.enqueue job cfg) false q → f.site.hub.queues[q]? = some a →
    early <+: pre ++ .site (.begin c (.submit ty nm job cfg)) :: mid → (f0.run E b.B clk early).inside q = none →
    (E a.ty).Encodable job → (∀ i, ((f0.run E b.B clk early).site.boxes q).reads ≤ i → (job.norm (L a.ty).normD).Due (clk q i)) →
    1 ≤ n → n ≤ 20 → f.Short E clk b n q a (wait ++ work) →
    (f.site.boxes q).mailbox.length < f.looks E clk q wait → n < (f.run E b.B clk wait).goodTicks E clk b q a work →
    ∃ ops, ops <+: wait ++ work ∧ job.id ∈ ((f.run E b.B clk ops).site.snap b E q a).inFlight := by
  intro f0 f hsole h1 hu ha hearly hidle henc hdue hn1 hn hsh hwait hwork
  -- the same on the specification
  have r0 : Weave.Rel b f0 (Weave.init SpecB fun _ => Spec.empty) := Weave.rel_init
  have hrel := r0.run (E := E) (clk := clk) (pre ++ .site (.begin c (.submit ty nm job cfg)) :: mid)
  have hrele := r0.run (E := E) (clk := clk) early
  have hops : ∀ d req, .site (.begin d req) ∈ pre ++ .site (.begin c (.submit ty nm job cfg)) :: mid → req.On kind := fun d req hm =>
    hsole.on d req (by
      rw [show pre ++ .site (.begin c (.submit ty nm job cfg)) :: (mid ++ (wait ++ work)) =
        (pre ++ .site (.begin c (.submit ty nm job cfg)) :: mid) ++ (wait ++ work) by simp]
      exact List.mem_append_left _ hm)
  have hops2 : ∀ d req, .site (.begin d req) ∈ wait ++ work → req.On kind := fun d req hm =>
    hsole.on d req (by
      rw [show pre ++ .site (.begin c (.submit ty nm job cfg)) :: (mid ++ (wait ++ work)) =
        (pre ++ .site (.begin c (.submit ty nm job cfg)) :: mid) ++ (wait ++ work) by simp]
      exact List.mem_append_right _ hm)
  have hto : ∀ d req, .site (.begin d req) ∈ wait ++ work → ¬ req.Touches job.id := fun d req hm =>
    hsole.alone d req (List.mem_append_right _ (List.mem_append_right _ hm))
  have hto1 : ∀ d req, .site (.begin d req) ∈ pre ++ mid → ¬ req.Touches job.id := fun d req hm =>
    hsole.alone d req (by rw [← List.append_assoc]; exact List.mem_append_left _ hm)
  let g0 : Weave D O SpecB := Weave.init SpecB fun _ => Spec.empty
  let t0 : Site D O SpecB := Site.init SpecB fun _ => Spec.empty
  let start := pre ++ .site (.begin c (.submit ty nm job cfg)) :: mid
  have h1' : ((g0.run E SpecB clk start).run E SpecB clk (wait ++ work)).site.hub.engines.length ≤ 1 := by rw [← (hrel.run _).site.hub]; exact h1
  have tg : Weave.Tidy (g0.run E SpecB clk start) := Weave.tidy_run (Weave.tidy_init _) _
  have h2 : (g0.run E SpecB clk start).site.hub.engines.length ≤ 1 := Nat.le_trans (Weave.run_hub _ tg) h1'
  have p0 : Weave.Pair E clk kind g0 t0 := Weave.pair_init
  have p1 := p0.run L start hops h2
  -- the serial history
  let g1 := g0.run E SpecB clk pre
  let g2 := g1.step E SpecB clk (.site (.begin c (.submit ty nm job cfg)))
  have e : g0.serial E clk start = g0.serial E clk pre ++ .begin c (.submit ty nm job cfg) :: g2.serial E clk mid := by
    rw [Weave.serial_append]; rfl
  have hT : Site.Track c job cfg (t0.run E SpecB clk (g0.serial E clk start)) := by
    have h3 : (t0.run E SpecB clk (g0.serial E clk start)).hub.engines.length ≤ 1 := by rw [← p1.serial.face.hub]; exact h2
    rw [e] at h3 ⊢
    refine site_track L _ _ c ty nm job cfg (fun d req hm => hops d req (Weave.serial_begin (by rw [← e] at hm; exact hm))) (fun d req hm => ?_) h3
    rcases List.mem_append.1 hm with hm | hm
    · exact hto1 d req (List.mem_append_left _ (Weave.serial_begin hm))
    · exact hto1 d req (List.mem_append_right _ (Weave.serial_begin hm))
  -- its clock
  obtain ⟨late, hlate⟩ := hearly
  have hreads : ((f0.run E b.B clk early).site.boxes q).reads ≤ ((t0.run E SpecB clk (g0.serial E clk start)).boxes q).reads := by
    have h3 : (g0.run E SpecB clk early).site.hub.engines.length ≤ 1 := by
      refine Nat.le_trans (Weave.run_hub (E := E) (clk := clk) late (Weave.tidy_run (Weave.tidy_init _) _)) ?_
      rw [← Weave.run_append, hlate]; exact h2
    have p2 := p0.run L early (fun d req hm => hops d req (by rw [← hlate]; exact List.mem_append_left _ hm)) h3
    have e2 : g0.serial E clk start = g0.serial E clk early ++ (g0.run E SpecB clk early).serial E clk late := by
      rw [← Weave.serial_append, hlate]
    rw [hrele.site.boxes, (p2.serial.idle q (by rw [← hrele.inside]; exact hidle)).1, e2, Site.run_append]
    refine Site.reads_mono L p2.links p2.alone p2.single _ (fun d req hm => hops d req ?_) ?_ q
    · rw [← hlate]; exact List.mem_append_right _ (Weave.serial_begin hm)
    · rw [← Site.run_append, ← e2, ← p1.serial.face.hub]; exact h2
  rw [hrel.site.users] at hu
  rw [hrel.site.hub] at ha
  obtain ⟨m, hm⟩ := List.mem_iff_getElem?.1 ((tg.links.mail q c _).2 ⟨_, _, hu⟩)
  rw [hrel.site.boxes, hrel.looks] at hwait
  rw [(hrel.run wait).goodTicks] at hwork
  obtain ⟨ops, h3, h4⟩ := p1.executed L wait work hops2 h1' hto hT (by rw [← p1.serial.face.hub]; exact ha) hm henc (fun i hi => hdue i (Nat.le_trans hreads hi))
    (by
      refine Nat.lt_of_le_of_lt ?_ hwait
      have : m < ((g0.run E SpecB clk start).site.boxes q).mailbox.length := (List.getElem?_eq_some_iff.1 hm).1
      unfold Weave.need
      split
      · exact Nat.le_of_lt this
      · exact this) hn hn1 (hrel.short hsh) hwork
  exact ⟨ops, h3, by rw [Site.snap_rel (hrel.run ops).site]; exact h4⟩

/-- The starting steps are about no turn. -/
theorem starting_plain (c b : Nat) : ∀ o ∈ (Site.starting c b : List (SiteOp D O)), o.plain = true := by
  intro o hm
  simp only [Site.starting, List.mem_cons, List.not_mem_nil, or_false] at hm
  rcases hm with rfl | rfl | rfl | rfl | rfl | rfl | rfl <;> rfl

/-- The registry of a polite process. -/
theorem weave_orderly (hN : ∀ a b, N a = N b → a = b) (B : Backend) (stores : Nat → B.S) (c b : Nat) (ops : List (WeaveOp D O))
    (hp : ((Weave.init B stores).run E B clk ((Site.starting c b).map .site)).PoliteRun E clk N ops) :
    ∃ G, (((Weave.init B stores).run E B clk ((Site.starting c b).map .site)).run E B clk ops).site.hub.Orderly N G := by
  refine Weave.orderly_run hN (Weave.tidy_run (Weave.tidy_init _) _) (G := { backend := b }) ?_ ops hp
  rw [Weave.run_plain _ _ (starting_plain c b)]
  show ((Site.init B stores).run E B clk (Site.starting c b)).hub.Orderly N _
  rw [starting_hub]
  exact started_orderly N c b

/-- C79, from the call to the mailbox (`C74_sent_partial` when the work queues interleave call by call), on any backend, which
may fail: in a process whose engine was started by one client alone, and whose clients submit every type under a name of its
own and do not begin two first submissions of a type at once, a submission reaches the mailbox of a work queue of its type and
name. It does so within any further history that has, in this order and with anything in between, two steps of the client,
`4 (m + 1)` steps of the engine, and the sending of the message, if the mailbox of the engine never has more than `m` messages.

Missing: as in `C74_sent_partial`. -/
theorem C79_sent_partial (hN : ∀ a b, N a = N b → a = b) (B : Backend) (stores : Nat → B.S) (c0 b0 : Nat) (pre ops : List (WeaveOp D O)) (c ty : Nat)
    (nm : Str) (job : Job D) (cfg : EnqueueConfig) (m : Nat) (x y : Bool) :
    let s := (Weave.init B stores).run E B clk ((Site.starting c0 b0).map .site)
    let f := s.run E B clk pre
    let f' := f.step E B clk (.site (.begin c (.submit ty nm job cfg)))
    s.PoliteRun E clk N (pre ++ .site (.begin c (.submit ty nm job cfg)) :: ops) → (f.site.users c = .free ∨ ∃ req r, f.site.users c = .done req r) →
    f'.Few E clk m ops → ((Site.road c [x, y] (4 * (m + 1))).map .site).Sublist ops →
    ∃ p, p <+: ops ∧ ∃ q a, (f'.run E B clk p).site.users c = .posted (.submit ty nm job cfg) (.enqueue job cfg) false q ∧
      (f'.run E B clk p).site.hub.queues[q]? = some a ∧ a.ty = ty ∧ a.name = nm := by
  intro s f f' hp hfree hfew hroad
  obtain ⟨hp1, hp2⟩ := Weave.PoliteRun.append hp
  have ts : Weave.Tidy s := Weave.tidy_run (Weave.tidy_init _) _
  have tf : Weave.Tidy f := Weave.tidy_run ts _
  obtain ⟨G, ho⟩ := weave_orderly hN B stores c0 b0 pre hp1
  obtain ⟨G', ho'⟩ := Weave.orderly_step (E := E) (clk := clk) hN tf ho _ hp2.head
  have tf' : Weave.Tidy f' := Weave.tidy_step tf _
  have e : f'.site = ({ f.site with hub := f.site.hub.begin c (.submit ty nm) }.go B c (.asking (.submit ty nm job cfg) (some (.enqueue job cfg)) false)).see B
      (.call c (.submit ty nm job cfg)) := by
    show f.site.begin B c _ = _
    unfold Site.begin
    rcases hfree with h | ⟨_, _, h⟩ <;> rw [h] <;> rfl
  have ha : f'.site.Asks c (.submit ty nm job cfg) (.enqueue job cfg) := by
    rw [e]; exact upd_same _ _ _
  have hst : f'.site.hub.clients c = .begun (.submit ty nm) := by
    rw [e]
    show (f.site.hub.begin c (.submit ty nm)).clients c = _
    have := tf.links.users c
    unfold Hub.begin
    rcases hfree with h | ⟨_, _, h⟩
    · rw [h] at this
      rw [show f.site.hub.clients c = .idle from this]; simp [Hub.go_clients]
    · rw [h] at this
      obtain ⟨call, r, h2⟩ := this
      rw [h2]; simp [Hub.go_clients]
  have ho' : f'.site.hub.Orderly N G' := ho'
  have hnm : nm = N ty := by
    have := ho'.client c
    rw [hst] at this
    exact this
  obtain ⟨p, hp3, q, hq⟩ := Weave.sent (E := E) (clk := clk) hN ops [x, y] (4 * (m + 1)) tf' ⟨tf'.links, ho', ha, by rw [hst]; simp [Hub.stage],
    (fun h => by rw [hst] at h; cases h), fun _ => Nat.le_refl _⟩ hp2.2 hfew hroad
  refine ⟨p, hp3, q, ?_⟩
  obtain ⟨more, rfl⟩ := hp3
  obtain ⟨G2, ho2⟩ := Weave.orderly_run (E := E) (clk := clk) hN tf' ho' p (Weave.PoliteRun.append hp2.2).1
  have hl2 : Site.Links (f'.run E B clk p).site := (Weave.tidy_run tf' p).links
  have h1 := hl2.users c
  rw [hq] at h1
  have h2 : (f'.run E B clk p).site.hub.clients c = .done (.submit ty nm) (.answer q) := by
    obtain ⟨g1, g2 | ⟨ty', n', g2⟩⟩ := h1
    · exact g2
    · rw [g2] at g1
      obtain ⟨-, g1, -⟩ := g1
      cases g1
  have h3 := ho2.client c
  rw [h2] at h3
  obtain ⟨q', h4, h5⟩ := h3
  cases h4
  obtain ⟨a, h6, h7⟩ := hl2.typed.types ty q h5
  refine ⟨a, hq, h6, h7, ?_⟩
  rw [ho2.names a (List.mem_of_getElem? h6), h7, hnm]

/-- C79, from the call to the execution (`C74_partial` when the work queues interleave call by call): in such a process, whose
job types have ids of their own, on any backend, a due job that one request submits and no other request touches is executed.
It is in flight at some moment within any history after the call that consists of: steps that bring the request to a work queue
(as in `C79_sent_partial`), then more turns of the work queues of this type, between turns, to the front of their mailboxes
than messages were in them meanwhile, then more than `n` ticks of these work queues begun alive and with free capacity, where
no tick finds, as it begins, more than `n` entries queued, `n` at most 20; with anything else in between, and wherever.

Missing: as in `C74_partial`. -/
theorem C79_partial (hN : ∀ a b, N a = N b → a = b) (b : Impl) (L : ∀ ty, (E ty).Lawful) (kind : Str → Nat) (c0 b0 : Nat)
    (pre way wait work : List (WeaveOp D O)) (c ty : Nat) (nm : Str) (job : Job D) (cfg : EnqueueConfig) (m n : Nat) (x y : Bool) :
    let s := (Weave.init b.B fun _ => b.empty).run E b.B clk ((Site.starting c0 b0).map .site)
    let f := s.run E b.B clk pre
    let f' := f.step E b.B clk (.site (.begin c (.submit ty nm job cfg)))
    s.PoliteRun E clk N (pre ++ .site (.begin c (.submit ty nm job cfg)) :: (way ++ (wait ++ work))) →
    WeaveSole kind pre (way ++ (wait ++ work)) c ty nm job cfg → (f.site.users c = .free ∨ ∃ req r, f.site.users c = .done req r) →
    f'.Few E clk m way → ((Site.road c [x, y] (4 * (m + 1))).map .site).Sublist way →
    (E ty).Encodable job → (∀ q i, (job.norm (L ty).normD).Due (clk q i)) → 1 ≤ n → n ≤ 20 →
    (∀ q a, (f'.run E b.B clk way).site.hub.queues[q]? = some a → a.ty = ty →
      f'.Short E clk b n q a (way ++ (wait ++ work)) ∧
      (∀ p, p <+: way → ((f'.run E b.B clk p).site.boxes q).mailbox.length < (f'.run E b.B clk way).looks E clk q wait) ∧
      n < (f'.run E b.B clk (way ++ wait)).goodTicks E clk b q a work) →
    ∃ p, p <+: way ++ (wait ++ work) ∧ ∃ q a, (f'.run E b.B clk p).site.hub.queues[q]? = some a ∧ a.ty = ty ∧ a.name = nm ∧
      job.id ∈ ((f'.run E b.B clk p).site.snap b E q a).inFlight := by
  intro s f f' hp hsole hfree hfew hroad henc hdue hn1 hn hq
  have hp' : s.PoliteRun E clk N (pre ++ .site (.begin c (.submit ty nm job cfg)) :: way) := by
    have : pre ++ .site (.begin c (.submit ty nm job cfg)) :: (way ++ (wait ++ work)) = (pre ++ .site (.begin c (.submit ty nm job cfg)) :: way) ++ (wait ++ work) := by simp
    rw [this] at hp
    exact (Weave.PoliteRun.append hp).1
  obtain ⟨p, ⟨rest, rfl⟩, q, a, h1, h2, h3, h4⟩ := C79_sent_partial hN b.B (fun _ => b.empty) c0 b0 pre way c ty nm job cfg m x y hp' hfree hfew hroad
  have tf' : Weave.Tidy f' := Weave.tidy_step (Weave.tidy_run (Weave.tidy_run (Weave.tidy_init _) _) _) _
  have tp : Weave.Tidy (f'.run E b.B clk p) := Weave.tidy_run tf' p
  obtain ⟨g1, g2, g3⟩ := hq q a (by rw [Weave.run_append]; exact Weave.run_queues tp rest h2) h3
  have erun : ∀ ops, (Weave.init b.B fun _ => b.empty).run E b.B clk (((Site.starting c0 b0).map .site ++ pre) ++ .site (.begin c (.submit ty nm job cfg)) :: ops) =
      f'.run E b.B clk ops := by
    intro ops
    rw [Weave.run_append, Weave.run_append]; rfl
  obtain ⟨G, ho⟩ := weave_orderly hN b.B (fun _ => b.empty) c0 b0 _ hp
  have heng : ((f'.run E b.B clk p).run E b.B clk ((rest ++ wait) ++ work)).site.hub.engines.length ≤ 1 := by
    have e2 : s.run E b.B clk (pre ++ .site (.begin c (.submit ty nm job cfg)) :: (p ++ rest ++ (wait ++ work))) =
        (f'.run E b.B clk p).run E b.B clk ((rest ++ wait) ++ work) := by
      rw [Weave.run_append, show p ++ rest ++ (wait ++ work) = p ++ (rest ++ wait ++ work) by simp]
      exact Weave.run_append (f := f') p _
    rw [← e2, ho.engines]; simp
  subst h3
  have hstart : ∀ d req, WeaveOp.site (SiteOp.begin d req) ∈ ((Site.starting c0 b0).map .site : List (WeaveOp D O)) → req = .start b0 := by
    intro d req hm
    simp [Site.starting] at hm
    exact hm.2
  have key := C79_executed_partial (E := E) (clk := clk) b L kind ((Site.starting c0 b0).map .site ++ pre) p (rest ++ wait) work [] c a.ty nm job cfg q a n
  simp only [erun] at key
  obtain ⟨ops, k1, k2⟩ := key
    ⟨fun d req hm => by
      simp only [List.append_assoc, List.mem_append] at hm
      rcases hm with hm | hm
      · rw [hstart d req hm]; trivial
      · exact hsole.on d req (by simpa [List.append_assoc] using hm),
    fun d req hm => by
      simp only [List.append_assoc, List.mem_append] at hm
      rcases hm with hm | hm
      · rw [hstart d req hm]; exact id
      · exact hsole.alone d req (by simpa [List.append_assoc] using hm)⟩
    heng h1 h2 List.nil_prefix rfl henc (fun i _ => hdue q i) hn1 hn
    (by
      rw [show p ++ rest ++ (wait ++ work) = p ++ ((rest ++ wait) ++ work) by simp] at g1
      exact Weave.short_append g1)
    (by
      refine Nat.lt_of_lt_of_le (g2 p ⟨rest, rfl⟩) ?_
      rw [Weave.looks_append, Weave.run_append]; exact Nat.le_add_left _ _)
    (by
      rw [show p ++ rest ++ wait = p ++ (rest ++ wait) by simp, Weave.run_append] at g3
      exact g3)
  refine ⟨p ++ ops, ?_, q, a, ?_, rfl, h4, ?_⟩
  · rw [show p ++ rest ++ (wait ++ work) = p ++ ((rest ++ wait) ++ work) by simp]
    exact (List.prefix_append_right_inj p).2 k1
  · rw [Weave.run_append]; exact Weave.run_queues tp ops h2
  · rw [Weave.run_append]; exact k2

end

/-! ## Cases -/

section
open Demo

/-- A history without requests is polite. -/
theorem weave_rest {D O : Type} {E : Nat → Env D} {clk : Nat → Nat → Time} {N : Nat → Str} {B : Backend} (ops : List (WeaveOp D O))
    (h : ∀ c req, .site (.begin c req) ∉ ops) (f : Weave D O B) : f.PoliteRun E clk N ops := by
  induction ops generalizing f with
  | nil => trivial
  | cons o ops ih =>
    refine ⟨?_, ih (fun c req hm => h c req (List.mem_cons_of_mem _ hm)) _⟩
    cases o with
    | site o =>
      cases o with
      | begin c req => exact absurd (List.mem_cons_self ..) (h c req)
      | _ => trivial
    | go q => trivial

/-- The first work queue begins a tick on the way, which goes on while the submissions do. -/
def interleaving : SiteOp Int Unit → List Nat
  | .turn _ _ => [0]
  | _ => []

/-- Both work queues take their messages, and go on with this in turns. -/
def handlingBoth : List (WeaveOp Int Unit) :=
  [.site (.handle 0 0), .site (.handle 1 0)] ++ (List.replicate 20 [.go 0, .go 1]).flatten ++ [.site (.handle 1 0), .site (.handle 0 0)]

/-- Both tick twice, in turns. -/
def workingBoth : List (WeaveOp Int Unit) :=
  [.site (.take 1), .site (.turn 0 .tick), .go 0, .site (.turn 1 .tick)] ++ (List.replicate 20 [.go 1, .go 0]).flatten ++
  [.site (.turn 1 .tick), .site (.take 2)] ++ (List.replicate 20 [.go 1]).flatten

/-- After the call. -/
def calledBoth : Weave Int Unit Impl.memory.B :=
  (((Weave.init Impl.memory.B fun _ => Impl.memory.empty).run (fun _ => E) Impl.memory.B (fun _ => clk) ((Site.starting 0 7).map .site)).run (fun _ => E)
    Impl.memory.B (fun _ => clk) (before.map .site)).step (fun _ => E) Impl.memory.B (fun _ => clk)
      (.site (.begin 2 (.submit 5 c!"aaaaa" (job c!"b" 2) .newReRun)))

def wayBoth : List (WeaveOp Int Unit) := drawn interleaving onTheWay

/-- What happens after the call. -/
def bothOps : List (WeaveOp Int Unit) := wayBoth ++ (handlingBoth ++ workingBoth)

/-- The first work queue is inside a turn when the messages are sent. -/
example : ((calledBoth.run (fun _ => E) Impl.memory.B (fun _ => clk) wayBoth).inside 0).isSome = true := by decide +kernel

theorem calledBoth_eq : calledBoth = { site := called } := by
  unfold calledBoth
  rw [Weave.run_plain _ _ (starting_plain 0 7), Weave.run_plain _ before (by intro o hm; simp [before] at hm; rcases hm with rfl | rfl <;> rfl)]
  rfl

theorem both_begins : ∀ c req, WeaveOp.site (SiteOp.begin c req) ∉ bothOps := by
  intro c req h
  rcases List.mem_append.1 h with h | h
  · have := mem_drawn h
    simp [onTheWay] at this
  · simp [handlingBoth, workingBoth, List.replicate] at h

theorem both_polite : ((Weave.init Impl.memory.B fun _ => Impl.memory.empty).run (fun _ => E) Impl.memory.B (fun _ => clk) ((Site.starting 0 7).map .site)).PoliteRun
    (fun _ => E) (fun _ => clk) letters (before.map .site ++ .site (.begin 2 (.submit 5 c!"aaaaa" (job c!"b" 2) .newReRun)) :: bothOps) := by
  rw [Weave.run_plain _ _ (starting_plain 0 7)]
  have h := sent_polite
  exact ⟨h.1, h.2.1, h.2.2.1, weave_rest _ both_begins _⟩

theorem both_sole : WeaveSole kindOf (before.map .site) bothOps 2 5 c!"aaaaa" (job c!"b" 2) .newReRun where
  on := by
    intro d req h
    rcases List.mem_append.1 h with h | h
    · obtain ⟨o, h1, h2⟩ := List.mem_map.1 h
      cases h2
      exact sent_sole.on d req (List.mem_append_left _ h1)
    · rcases List.mem_cons.1 h with h | h
      · cases h
        exact sent_sole.on _ _ (List.mem_append_right _ (List.mem_cons_self ..))
      · exact absurd h (both_begins d req)
  alone := by
    intro d req h
    rcases List.mem_append.1 h with h | h
    · obtain ⟨o, h1, h2⟩ := List.mem_map.1 h
      cases h2
      exact sent_sole.alone d req (List.mem_append_left _ h1)
    · exact absurd h (both_begins d req)

theorem sublist_drawn {g : SiteOp Int Unit → List Nat} {l ops : List (SiteOp Int Unit)} (h : l.Sublist ops) : (l.map .site).Sublist (drawn g ops) := by
  induction h with
  | slnil => exact .slnil
  | cons o _ ih =>
    exact .cons _ (ih.trans (List.sublist_append_right _ _))
  | cons_cons o _ ih =>
    exact .cons_cons _ (ih.trans (List.sublist_append_right _ _))

/-- Whether the queue stays short can be computed. -/
def weaveShort {m q : Nat} {a : QueueActor} : (f : Weave Int Unit Impl.memory.B) → (ops : List (WeaveOp Int Unit)) →
    Decidable (f.Short (fun _ => E) (fun _ => clk) .memory m q a ops)
  | _, [] => .isTrue trivial
  | _, _ :: ops => @instDecidableAnd _ _ inferInstance (weaveShort _ ops)

theorem both_few : calledBoth.Few (fun _ => E) (fun _ => clk) 2 wayBoth := all_inits (by decide +kernel)
theorem both_queues : (calledBoth.run (fun _ => E) Impl.memory.B (fun _ => clk) wayBoth).site.hub.queues = [⟨4, c!"aaaa", 7⟩, fifth] := by decide +kernel
theorem both_short : calledBoth.Short (fun _ => E) (fun _ => clk) .memory 1 1 fifth bothOps := @of_decide_eq_true _ (weaveShort _ _) (by decide +kernel)
theorem both_mail : ∀ p, p <+: wayBoth → ((calledBoth.run (fun _ => E) Impl.memory.B (fun _ => clk) p).site.boxes 1).mailbox.length <
    (calledBoth.run (fun _ => E) Impl.memory.B (fun _ => clk) wayBoth).looks (fun _ => E) (fun _ => clk) 1 handlingBoth := all_inits (by decide +kernel)
theorem both_ticks : 1 < (calledBoth.run (fun _ => E) Impl.memory.B (fun _ => clk) (wayBoth ++ handlingBoth)).goodTicks (fun _ => E) (fun _ => clk) .memory 1 fifth
    workingBoth := by decide +kernel

theorem both_all (q : Nat) (a : QueueActor) (hq : (calledBoth.run (fun _ => E) Impl.memory.B (fun _ => clk) wayBoth).site.hub.queues[q]? = some a) (ha : a.ty = 5) :
    calledBoth.Short (fun _ => E) (fun _ => clk) .memory 1 q a bothOps ∧
    (∀ p, p <+: wayBoth → ((calledBoth.run (fun _ => E) Impl.memory.B (fun _ => clk) p).site.boxes q).mailbox.length <
      (calledBoth.run (fun _ => E) Impl.memory.B (fun _ => clk) wayBoth).looks (fun _ => E) (fun _ => clk) q handlingBoth) ∧
    1 < (calledBoth.run (fun _ => E) Impl.memory.B (fun _ => clk) (wayBoth ++ handlingBoth)).goodTicks (fun _ => E) (fun _ => clk) .memory q a workingBoth := by
  rw [both_queues] at hq
  rcases q with _ | _ | q
  · cases hq; cases ha
  · cases hq; exact ⟨both_short, both_mail, both_ticks⟩
  · cases hq

/-- `C79_partial` applies, and with it `C79_sent_partial` and `C79_executed_partial`. -/
example : ∃ p, p <+: bothOps ∧ ∃ q a, (calledBoth.run (fun _ => E) Impl.memory.B (fun _ => clk) p).site.hub.queues[q]? = some a ∧ a.ty = 5 ∧ a.name = c!"aaaaa" ∧
    c!"b" ∈ ((calledBoth.run (fun _ => E) Impl.memory.B (fun _ => clk) p).site.snap .memory (fun _ => E) q a).inFlight := by
  refine C79_partial letters_inj .memory (fun _ => lawful) kindOf 0 7 (before.map .site) wayBoth handlingBoth workingBoth 2 5 c!"aaaaa" (job c!"b" 2) .newReRun 2 1
    false false both_polite both_sole ?_ both_few (sublist_drawn sent_road) (by decide +kernel) (fun _ _ => trivial) (by decide) (by decide) ?_
  · left
    rw [Weave.run_plain _ _ (starting_plain 0 7), Weave.run_plain _ before (by intro o hm; simp [before] at hm; rcases hm with rfl | rfl <;> rfl)]
    have h := sent_free
    split at h
    · assumption
    · cases h
  · exact both_all

end
end AJ.Props
