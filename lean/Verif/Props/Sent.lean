import Verif.Proofs.SiteSend
import Verif.Props.Registry
import Verif.Props.EndToEnd

/-!
# From the call of a submission to the execution (C74)
-/

namespace AJ.Props

section
variable {D O : Type} {E : Nat → Env D} {clk : Nat → Nat → Time} {N : Nat → Str}

/-- The registry after a client has started an engine. -/
theorem starting_hub (B : Backend) (stores : Nat → B.S) (c b : Nat) :
    ((Site.init B stores : Site D O B).run E B clk (Site.starting c b)).hub = Hub.run {} (startAlone c b) := by
  have hu : ∀ (f : Nat → ClientPc) (p q : ClientPc), upd (upd f c p) c q = upd f c q := by
    intro f p q; funext x; simp only [upd]; split <;> rfl
  simp [Site.starting, startAlone, Site.run, Hub.run, Site.step, Site.init, Site.begin, Site.client, Site.post, Site.finish, Site.see, Site.go,
    Req.call, Req.op, Hub.step, Hub.begin, Hub.go, Hub.client, Hub.look, Hub.readAddr, upd_same, hu]

/-- The registry of a polite process. -/
theorem polite_orderly (hN : ∀ a b, N a = N b → a = b) (B : Backend) (stores : Nat → B.S) (c b : Nat) (ops : List (SiteOp D O))
    (hp : ((Site.init B stores).run E B clk (Site.starting c b)).PoliteRun E clk N ops) :
    ∃ G, ((Site.init B stores).run E B clk (Site.starting c b ++ ops)).hub.Orderly N G := by
  rw [Site.run_append]
  exact Site.orderly_run hN (by rw [starting_hub]; exact started_orderly N c b) ops hp

/-- C74, from the call to the mailbox, on any backend, which may fail: in a process whose engine was started by one
client alone, and whose clients submit every type under a name of its own and do not begin two first submissions of a
type at once, a submission reaches the mailbox of a work queue of its type and name. It does so within any further
history that has, in this order and with anything in between, two steps of the client, `4 (m + 1)` steps of the engine,
and the sending of the message, if the mailbox of the engine never has more than `m` messages.

Missing: overlapping first submissions of a type, which may kill the engine (`C56_refuted`). -/
theorem C74_sent_partial (hN : ∀ a b, N a = N b → a = b) (B : Backend) (stores : Nat → B.S) (c0 b0 : Nat) (pre ops : List (SiteOp D O)) (c ty : Nat)
    (nm : Str) (job : Job D) (cfg : EnqueueConfig) (m : Nat) (x y : Bool) :
    let s := (Site.init B stores).run E B clk (Site.starting c0 b0)
    let t := s.run E B clk pre
    let t' := t.step E B clk (.begin c (.submit ty nm job cfg))
    s.PoliteRun E clk N (pre ++ .begin c (.submit ty nm job cfg) :: ops) → (t.users c = .free ∨ ∃ req r, t.users c = .done req r) →
    t'.Few E clk m ops → (Site.road c [x, y] (4 * (m + 1))).Sublist ops →
    ∃ p, p <+: ops ∧ ∃ q a, (t'.run E B clk p).users c = .posted (.submit ty nm job cfg) (.enqueue job cfg) false q ∧
      (t'.run E B clk p).hub.queues[q]? = some a ∧ a.ty = ty ∧ a.name = nm := by
  intro s t t' hp hfree hfew hroad
  obtain ⟨hp1, hp2⟩ := Site.PoliteRun.append hp
  have ho0 : s.hub.Orderly N { backend := b0 } := by
    show ((Site.init B stores).run E B clk (Site.starting c0 b0)).hub.Orderly N _
    rw [starting_hub]; exact started_orderly N c0 b0
  obtain ⟨G, ho⟩ := Site.orderly_run hN ho0 pre hp1
  obtain ⟨G', ho'⟩ := Site.orderly_step (E := E) (clk := clk) hN ho _ hp2.1
  have hl : t.Links := Site.links_run (Site.links_run (Site.links_init stores) _) _
  have hl' : t'.Links := Site.links_step hl _
  have e : t' = ({ t with hub := t.hub.begin c (.submit ty nm) }.go B c (.asking (.submit ty nm job cfg) (some (.enqueue job cfg)) false)).see B
      (.call c (.submit ty nm job cfg)) := by
    show t.begin B c _ = _
    unfold Site.begin
    rcases hfree with h | ⟨_, _, h⟩ <;> rw [h] <;> rfl
  have ha : t'.Asks c (.submit ty nm job cfg) (.enqueue job cfg) := by
    rw [e]; exact upd_same _ _ _
  have hst : t'.hub.clients c = .begun (.submit ty nm) := by
    rw [e]
    show (t.hub.begin c (.submit ty nm)).clients c = _
    have := hl.users c
    unfold Hub.begin
    rcases hfree with h | ⟨_, _, h⟩
    · rw [h] at this
      rw [show t.hub.clients c = .idle from this]; simp [Hub.go_clients]
    · rw [h] at this
      obtain ⟨call, r, h2⟩ := this
      rw [h2]; simp [Hub.go_clients]
  have hnm : nm = N ty := by
    have := ho'.client c
    rw [show (t.step E B clk _).hub.clients c = _ from hst] at this
    exact this
  obtain ⟨p, hp3, q, hq⟩ := Site.sent (E := E) (clk := clk) hN ops [x, y] _ ⟨hl', ho', ha, by rw [show (t.step E B clk _).hub.clients c = _ from hst]; simp [Hub.stage],
    (fun h => by rw [show (t.step E B clk _).hub.clients c = _ from hst] at h; cases h), fun _ => Nat.le_refl _⟩ hp2.2 hfew hroad
  refine ⟨p, hp3, q, ?_⟩
  obtain ⟨more, rfl⟩ := hp3
  obtain ⟨G2, ho2⟩ := Site.orderly_run (E := E) (clk := clk) hN ho' p (Site.PoliteRun.append hp2.2).1
  have hl2 : (t'.run E B clk p).Links := Site.links_run hl' p
  have h1 := hl2.users c
  rw [hq] at h1
  have h2 : (t'.run E B clk p).hub.clients c = .done (.submit ty nm) (.answer q) := by
    obtain ⟨g1, g2 | ⟨ty', n', g2⟩⟩ := h1
    · exact g2
    · rw [g2] at g1
      obtain ⟨-, g1, -⟩ := g1
      cases g1
  have h3 := ho2.client c
  rw [show ((t.step E B clk _).run E B clk p).hub.clients c = _ from h2] at h3
  obtain ⟨q', h4, h5⟩ := h3
  cases h4
  obtain ⟨a, h6, h7⟩ := hl2.typed.types ty q h5
  refine ⟨a, hq, h6, h7, ?_⟩
  rw [ho2.names a (List.mem_of_getElem? h6), h7, hnm]

/-- C74, from the call to the execution: in such a process, whose job types have ids of their own, on any backend, a due
job that one request submits and no other request touches is executed. It is in flight at some moment within any history
after the call that consists of: steps that bring the request to a work queue (as in `C74_sent_partial`), then as many
turns of the work queues of this type to the front of their mailboxes as messages were in them meanwhile, then `n` ticks
of these work queues alive and with free capacity, where no tick finds more than `n` entries queued, `n` at most 20; with
anything else in between.

Missing: as in `C74_sent_partial` and `C74_executed_partial`. -/
theorem C74_partial (hN : ∀ a b, N a = N b → a = b) (b : Impl) (L : ∀ ty, (E ty).Lawful) (kind : Str → Nat) (c0 b0 : Nat)
    (pre way wait work : List (SiteOp D O)) (c ty : Nat) (nm : Str) (job : Job D) (cfg : EnqueueConfig) (m n : Nat) (x y : Bool) :
    let s := (Site.init b.B fun _ => b.empty).run E b.B clk (Site.starting c0 b0)
    let t := s.run E b.B clk pre
    let t' := t.step E b.B clk (.begin c (.submit ty nm job cfg))
    s.PoliteRun E clk N (pre ++ .begin c (.submit ty nm job cfg) :: (way ++ (wait ++ work))) →
    Sole kind pre (way ++ (wait ++ work)) c ty nm job cfg → (t.users c = .free ∨ ∃ req r, t.users c = .done req r) →
    t'.Few E clk m way → (Site.road c [x, y] (4 * (m + 1))).Sublist way →
    (E ty).Encodable job → (∀ q i, (job.norm (L ty).normD).Due (clk q i)) → 1 ≤ n → n ≤ 20 →
    (∀ q a, (t'.run E b.B clk way).hub.queues[q]? = some a → a.ty = ty →
      t'.Short b E clk n q a (way ++ (wait ++ work)) ∧
      (∀ p, p <+: way → ((t'.run E b.B clk p).boxes q).mailbox.length ≤ wait.countP (·.takes q)) ∧
      n ≤ (t'.run E b.B clk (way ++ wait)).goodTicks b E clk q a work) →
    ∃ p, p <+: way ++ (wait ++ work) ∧ ∃ q a, (t'.run E b.B clk p).hub.queues[q]? = some a ∧ a.ty = ty ∧ a.name = nm ∧
      job.id ∈ ((t'.run E b.B clk p).snap b E q a).inFlight := by
  intro s t t' hp hsole hfree hfew hroad henc hdue hn1 hn hq
  have hp' : s.PoliteRun E clk N (pre ++ .begin c (.submit ty nm job cfg) :: way) := by
    have : pre ++ .begin c (.submit ty nm job cfg) :: (way ++ (wait ++ work)) = (pre ++ .begin c (.submit ty nm job cfg) :: way) ++ (wait ++ work) := by simp
    rw [this] at hp
    exact hp.append.1
  obtain ⟨p, ⟨rest, rfl⟩, q, a, h1, h2, h3, h4⟩ := C74_sent_partial hN b.B (fun _ => b.empty) c0 b0 pre way c ty nm job cfg m x y hp' hfree hfew hroad
  obtain ⟨g1, g2, g3⟩ := hq q a (by rw [Site.run_append]; exact Site.run_queues _ rest h2) h3
  have erun : ∀ ops, (Site.init b.B fun _ => b.empty).run E b.B clk ((Site.starting c0 b0 ++ pre) ++ .begin c (.submit ty nm job cfg) :: ops) =
      t'.run E b.B clk ops := by
    intro ops
    rw [Site.run_append, Site.run_append]; rfl
  obtain ⟨G, ho⟩ := polite_orderly hN b.B (fun _ => b.empty) c0 b0 _ hp
  have heng : ((t'.run E b.B clk p).run E b.B clk ((rest ++ wait) ++ work)).hub.engines.length ≤ 1 := by
    have e2 : (Site.init b.B fun _ => b.empty).run E b.B clk (Site.starting c0 b0 ++ (pre ++ .begin c (.submit ty nm job cfg) :: (p ++ rest ++ (wait ++ work)))) =
        (t'.run E b.B clk p).run E b.B clk ((rest ++ wait) ++ work) := by
      rw [← Site.run_append, ← erun]
      simp only [List.append_assoc]
    rw [← e2, ho.engines]; simp
  subst h3
  have hstart : ∀ d req, SiteOp.begin d req ∈ (Site.starting c0 b0 : List (SiteOp D O)) → req = .start b0 := by
    intro d req hm
    simp [Site.starting] at hm
    exact hm.2
  have key := C74_executed_partial (E := E) (clk := clk) b L kind (Site.starting c0 b0 ++ pre) p (rest ++ wait) work c a.ty nm job cfg q a n
  simp only [erun] at key
  obtain ⟨ops, k1, k2⟩ := key
    (fun d req hm => by
      simp only [List.append_assoc, List.cons_append, List.mem_append] at hm
      rcases hm with hm | hm
      · rw [hstart d req hm]; trivial
      · exact hsole.on d req (by simpa [List.append_assoc] using hm))
    (fun d req hm => by
      simp only [List.append_assoc, List.mem_append] at hm
      rcases hm with hm | hm
      · rw [hstart d req hm]; exact id
      · exact hsole.alone d req (by simpa [List.append_assoc] using hm))
    heng h1 h2 henc (fun i _ => hdue q i) hn1 hn
    (by
      rw [show p ++ rest ++ (wait ++ work) = p ++ ((rest ++ wait) ++ work) by simp] at g1
      exact Site.short_append g1)
    (by
      refine Nat.le_trans (g2 p ⟨rest, rfl⟩) ?_
      rw [List.countP_append]; exact Nat.le_add_left _ _)
    (by
      rw [show p ++ rest ++ wait = p ++ (rest ++ wait) by simp, Site.run_append] at g3
      exact g3)
  refine ⟨p ++ ops, ?_, q, a, ?_, rfl, h4, ?_⟩
  · rw [show p ++ rest ++ (wait ++ work) = p ++ ((rest ++ wait) ++ work) by simp]
    exact (List.prefix_append_right_inj p).2 k1
  · rw [Site.run_append]; exact Site.run_queues _ ops h2
  · rw [Site.run_append]; exact k2

end

section
open Demo

/-- A history without requests is polite. -/
theorem polite_rest {D O : Type} {E : Nat → Env D} {clk : Nat → Nat → Time} {N : Nat → Str} {B : Backend} (ops : List (SiteOp D O))
    (h : ∀ c req, .begin c req ∉ ops) (t : Site D O B) : t.PoliteRun E clk N ops := by
  induction ops generalizing t with
  | nil => trivial
  | cons o ops ih =>
    refine ⟨?_, ih (fun c req hm => h c req (List.mem_cons_of_mem _ hm)) _⟩
    cases o with
    | begin c req => exact absurd (List.mem_cons_self ..) (h c req)
    | _ => trivial

/-- Client `1` submits a job of type 4 and has looked for the work queue. -/
def before : List (SiteOp Int Unit) := [.begin 1 (.submit 4 c!"aaaa" (job c!"a") .newReRun), .client 1 false]

/-- Then `2` submits a job of type 5; both are registered by the engine. -/
def onTheWay : List (SiteOp Int Unit) :=
  [.client 2 false, .client 1 false, .client 2 false, .engine 0, .engine 0, .engine 0, .engine 0, .post 1, .engine 0, .engine 0, .engine 0, .engine 0,
   .turn 0 .tick, .engine 0, .engine 0, .engine 0, .engine 0, .post 2]

/-- Both work queues take their messages. -/
def handling : List (SiteOp Int Unit) := [.handle 0 0, .turn 1 .tick, .handle 1 0]

/-- And tick. -/
def working : List (SiteOp Int Unit) := [.take 1, .turn 0 .tick, .turn 1 .tick, .turn 1 (.start 0), .take 2, .turn 1 (.finish 0 good)]

def fifth : QueueActor := ⟨5, c!"aaaaa", 7⟩

/-- What happens after the call. -/
def sentOps : List (SiteOp Int Unit) := onTheWay ++ (handling ++ working)

/-- After the call. -/
def called : Site Int Unit Impl.memory.B :=
  (((Site.init Impl.memory.B fun _ => Impl.memory.empty).run (fun _ => E) Impl.memory.B (fun _ => clk) (Site.starting 0 7)).run (fun _ => E) Impl.memory.B
    (fun _ => clk) before).step (fun _ => E) Impl.memory.B (fun _ => clk) (.begin 2 (.submit 5 c!"aaaaa" (job c!"b" 2) .newReRun))

theorem begin_clients {D O : Type} {E : Nat → Env D} {clk : Nat → Nat → Time} {B : Backend} (t : Site D O B) (c : Nat) (req : Req D) (d : Nat) (h : d ≠ c) :
    (t.step E B clk (.begin c req)).hub.clients d = t.hub.clients d := by
  show (t.begin B c req).hub.clients d = _
  unfold Site.begin
  split <;> first | rfl | (show (t.hub.begin c req.call).clients d = _; unfold Hub.begin; split <;> simp [Hub.go_clients, h])

theorem client_clients {D O : Type} {E : Nat → Env D} {clk : Nat → Nat → Time} {B : Backend} (t : Site D O B) (c : Nat) (x : Bool) (d : Nat) (h : d ≠ c) :
    (t.step E B clk (.client c x)).hub.clients d = t.hub.clients d := by
  show (t.client B c x).hub.clients d = _
  unfold Site.client
  split
  · rfl
  · exact Hub.client_clients _ _ _ h

instance (ty : Nat) (pc : ClientPc) : Decidable (pc.Opening ty) := by unfold ClientPc.Opening; split <;> infer_instance

theorem sent_polite : ((Site.init Impl.memory.B fun _ => Impl.memory.empty).run (fun _ => E) Impl.memory.B (fun _ => clk) (Site.starting 0 7)).PoliteRun
    (fun _ => E) (fun _ => clk) letters (before ++ .begin 2 (.submit 5 c!"aaaaa" (job c!"b" 2) .newReRun) :: sentOps) := by
  have hs : ∀ d, d ≠ 0 → ((Site.init Impl.memory.B fun _ => Impl.memory.empty : Site Int Unit _).run (fun _ => E) Impl.memory.B (fun _ => clk)
      (Site.starting 0 7)).hub.clients d = .idle := by
    intro d hd
    rw [starting_hub, started]
    simp [upd, hd]
  refine ⟨⟨rfl, fun _ d hd => ?_⟩, trivial, ⟨rfl, fun _ d hd => ?_⟩, polite_rest _ ?_ _⟩
  · by_cases h : d = 0
    · subst h; decide +kernel
    · rw [hs d h]; exact id
  · by_cases h : d = 0
    · subst h; decide +kernel
    · by_cases h1 : d = 1
      · subst h1; decide +kernel
      · rw [client_clients _ _ _ _ h1, begin_clients _ _ _ _ h1, hs d h]; exact id
  · intro c req h
    simp [sentOps, onTheWay, handling, working] at h

theorem sent_sole : Sole kindOf before sentOps 2 5 c!"aaaaa" (job c!"b" 2) .newReRun where
  on := by
    intro d req h
    simp only [before, sentOps, onTheWay, handling, working, List.cons_append, List.nil_append, List.mem_cons, SiteOp.begin.injEq, reduceCtorEq,
      List.not_mem_nil, or_false, false_or] at h
    rcases h with ⟨-, rfl⟩ | ⟨-, rfl⟩
    · exact if_neg (by decide)
    · exact if_pos rfl
  alone := by
    intro d req h
    simp only [before, sentOps, onTheWay, handling, working, List.cons_append, List.nil_append, List.mem_cons, SiteOp.begin.injEq, reduceCtorEq,
      List.not_mem_nil, or_false] at h
    obtain ⟨-, rfl⟩ := h
    simp [Req.Touches]; decide

/-- Whether all moments have a property can be computed. -/
theorem all_inits {α : Type} {P : List α → Prop} {l : List α} (h : ∀ n ∈ List.range (l.length + 1), P (l.take n)) :
    ∀ p, p <+: l → P p := by
  intro p hp
  rw [List.prefix_iff_eq_take.1 hp]
  exact h _ (List.mem_range.2 (Nat.lt_succ_of_le hp.length_le))

theorem sent_few : called.Few (fun _ => E) (fun _ => clk) 2 onTheWay := all_inits (by decide +kernel)
theorem sent_road : (Site.road 2 [false, false] (4 * (2 + 1)) : List (SiteOp Int Unit)).Sublist onTheWay := by
  refine .cons_cons _ (.cons _ (.cons_cons _ ?_))
  refine .cons_cons _ (.cons_cons _ (.cons_cons _ (.cons_cons _ (.cons _ ?_))))
  refine .cons_cons _ (.cons_cons _ (.cons_cons _ (.cons_cons _ (.cons _ ?_))))
  exact .cons_cons _ (.cons_cons _ (.cons_cons _ (.cons_cons _ (.cons_cons _ .slnil))))

theorem sent_queues : (called.run (fun _ => E) Impl.memory.B (fun _ => clk) onTheWay).hub.queues = [⟨4, c!"aaaa", 7⟩, fifth] := by decide +kernel
theorem sent_short : called.Short .memory (fun _ => E) (fun _ => clk) 1 1 fifth sentOps := @of_decide_eq_true _ (shortDec _ _) (by decide +kernel)
theorem sent_mail : ∀ p, p <+: onTheWay → ((called.run (fun _ => E) Impl.memory.B (fun _ => clk) p).boxes 1).mailbox.length ≤ handling.countP (·.takes 1) :=
  all_inits (by decide +kernel)
theorem sent_ticks : 1 ≤ (called.run (fun _ => E) Impl.memory.B (fun _ => clk) (onTheWay ++ handling)).goodTicks .memory (fun _ => E) (fun _ => clk) 1 fifth
    working := by decide +kernel

theorem sent_all (q : Nat) (a : QueueActor) (hq : (called.run (fun _ => E) Impl.memory.B (fun _ => clk) onTheWay).hub.queues[q]? = some a) (ha : a.ty = 5) :
    called.Short .memory (fun _ => E) (fun _ => clk) 1 q a sentOps ∧
    (∀ p, p <+: onTheWay → ((called.run (fun _ => E) Impl.memory.B (fun _ => clk) p).boxes q).mailbox.length ≤ handling.countP (·.takes q)) ∧
    1 ≤ (called.run (fun _ => E) Impl.memory.B (fun _ => clk) (onTheWay ++ handling)).goodTicks .memory (fun _ => E) (fun _ => clk) q a working := by
  rw [sent_queues] at hq
  rcases q with _ | _ | q
  · cases hq; cases ha
  · cases hq; exact ⟨sent_short, sent_mail, sent_ticks⟩
  · cases hq

theorem sent_free : (match (((Site.init Impl.memory.B fun _ => Impl.memory.empty).run (fun _ => E) Impl.memory.B (fun _ => clk) (Site.starting 0 7)).run
    (fun _ => E) Impl.memory.B (fun _ => clk) before : Site Int Unit Impl.memory.B).users 2 with
    | .free => true
    | _ => false) = true := by decide +kernel

/-- `C74_partial` applies, and with it `C74_sent_partial`. -/
example : ∃ p, p <+: sentOps ∧ ∃ q a, (called.run (fun _ => E) Impl.memory.B (fun _ => clk) p).hub.queues[q]? = some a ∧ a.ty = 5 ∧ a.name = c!"aaaaa" ∧
    c!"b" ∈ ((called.run (fun _ => E) Impl.memory.B (fun _ => clk) p).snap .memory (fun _ => E) q a).inFlight := by
  refine C74_partial letters_inj .memory (fun _ => lawful) kindOf 0 7 before onTheWay handling working 2 5 c!"aaaaa" (job c!"b" 2) .newReRun 2 1 false false
    sent_polite sent_sole ?_ sent_few sent_road (by decide +kernel) (fun _ _ => trivial) (by decide) (by decide) ?_
  · left
    have h := sent_free
    split at h
    · assumption
    · cases h
  · exact sent_all

end
end AJ.Props
