import Verif.Proofs.Comes
import Verif.Proofs.EndlessBoot
import Verif.Props.EndlessWeave
import Verif.Props.Reboot

/-!
# A waiting job that earlier processes have left comes to an end in a later one (C87)
-/

namespace AJ.Props

section
open Boot
variable {D O : Type} {E : Nat → Env D} {clk : Nat → Nat → Time} {N : Nat → Str} {kind : Str → Nat}

/-- The names of the work queues of a process that never ends. -/
theorem named_after {B : Backend} {s : Nat → B.S} {ops : Nat → WeaveOp D O}
    (hfit : ∀ n d req, ops n = .site (.begin d req) → req.On kind ∧ req.Named N) (n : Nat) :
    ∀ a ∈ (Weave.after E B clk (Weave.init B s) ops n).site.hub.queues, a.name = N a.ty := by
  have e : Weave.after E B clk (Weave.init B s) ops n = Boot.last E B ⟨clk, (List.range n).map ops⟩ s := Weave.after_run ..
  rw [e]
  refine named (E := E) (kind := kind) ⟨clk, (List.range n).map ops⟩ (fun c req hm => ?_) s
  obtain ⟨i, -, hi⟩ := List.mem_map.1 hm
  exact hfit i c req hi

/-- Whether a waiting job gets its chance does not depend on the backend. -/
theorem rel_resumes {b : Impl} {f : Weave D O b.B} {g : Weave D O SpecB} (h : Weave.Rel b f g) {ops : Nat → WeaveOp D O} {k : Str} {ty β : Nat} :
    Weave.Resumes b E clk kind N k ty β f ops ↔ Weave.Resumes .spec E clk kind N k ty β g ops := by
  have e : ∀ n, (Weave.after E b.B clk f ops n).site.hub = (Weave.after E Impl.spec.B clk g ops n).site.hub := fun n => (rel_after h ops n).site.hub
  constructor
  · intro H
    refine ⟨H.fits, H.spares, fun n => by rw [← e]; exact H.one n, ?_, fun n q a h1 h2 h3 => ?_⟩
    · obtain ⟨n, q, a, h1, h2⟩ := H.up
      exact ⟨n, q, a, by rw [← e]; exact h1, h2⟩
    · rw [← e] at h1
      exact (rel_serves h ..).1 (H.serves n q a h1 h2 h3)
  · intro H
    refine ⟨H.fits, H.spares, fun n => by rw [e]; exact H.one n, ?_, fun n q a h1 h2 h3 => ?_⟩
    · obtain ⟨n, q, a, h1, h2⟩ := H.up
      exact ⟨n, q, a, by rw [e]; exact h1, h2⟩
    · rw [e] at h1
      exact (rel_serves h ..).2 (H.serves n q a h1 h2 h3)

/-- The next process on a backend and on the specification. -/
theorem rel_begun (b : Impl) (before : List (Boot D O)) :
    Weave.Rel b (Weave.init b.B (leave E b.B (fun _ => b.empty) before) : Weave D O b.B) (Weave.init SpecB (leave E SpecB (fun _ => Spec.empty) before)) :=
  ⟨⟨rfl, rfl, left_rel (E := E) b before, rfl, rfl⟩, rfl, fun _ _ h => (by cases h)⟩

/-- The work queue that takes up a waiting job, alone. -/
private theorem taken_up (hN : ∀ a b, N a = N b → a = b) (b : Impl) (L : ∀ ty, (E ty).Lawful) (before : List (Boot D O))
    (hfit : ∀ l ∈ before, l.Fit kind N) (h1 : Lone E b.B (fun _ => b.empty) before) (ops : Nat → WeaveOp D O) (k : Str) (β : Nat) (job : Job D) :
    let s := leave E b.B (fun _ => b.empty) before
    let f := (Weave.init b.B s : Weave D O b.B)
    (found E b (s β) (kind k) (N (kind k))).Waiting k job → Weave.Resumes b E clk kind N k (kind k) β f ops →
    ∃ q a ops', ∃ x : SpecState, a.ty = kind k ∧ a.backend = β ∧ InHand .spec (E (kind k)) a.name k (Sys.init SpecB x) ∧
      (Impl.spec.snap (E (kind k)) a.name (Sys.init SpecB x)).job k = some job ∧
      Sys.Serves (O := O) .spec (E (kind k)) a.name (clk q) k (Sys.init SpecB x) ops' ∧
      (∀ P, f.EachRun b E clk k q a ops P → ∀ m i x' orig j, ops' m = .finish i x' →
        (Sys.after (E (kind k)) a.name Impl.spec.B (clk q) (Sys.init SpecB x) ops' m).tasks[i]? = some ⟨orig, some j⟩ → orig.id = k → P x' j) ∧
      ∀ m, ∃ n, (Weave.after E b.B clk f ops n).site.hub.queues[q]? = some a ∧
        (Sys.after (E (kind k)) a.name Impl.spec.B (clk q) (Sys.init SpecB x) ops' m = Sys.init SpecB x ∨
          ((Weave.after E b.B clk f ops n).site.snap b E q a).job k =
            (Impl.spec.snap (E (kind k)) a.name (Sys.after (E (kind k)) a.name Impl.spec.B (clk q) (Sys.init SpecB x) ops' m)).job k ∧
          ((Weave.after E b.B clk f ops n).site.snap b E q a).log =
            (Impl.spec.snap (E (kind k)) a.name (Sys.after (E (kind k)) a.name Impl.spec.B (clk q) (Sys.init SpecB x) ops' m)).log) := by
  intro s f hw H
  have hrel := rel_begun (E := E) b before
  have hr := fun n => rel_after (E := E) (clk := clk) hrel ops n
  have H' := (rel_resumes hrel).1 H
  obtain ⟨S, hok, hS⟩ := base_of (Boot.first L hN before hfit ((leave_rel b (fun _ => b.empty_rel) before).2.1 h1))
  have hw' : (found E .spec (leave E SpecB (fun _ => Spec.empty) before β) (kind k) (N (kind k))).Waiting k job := by
    rw [← found_left]; exact hw
  generalize leave E SpecB (fun _ => Spec.empty) before = s' at *
  have hpair : Weave.PairFrom E clk kind S (Weave.init SpecB s' : Weave D O SpecB) (Site.init SpecB s') := Weave.pairFrom_init fun a ha => (hS a ha).part
  have hnm := named_after (B := SpecB) (E := E) (clk := clk) (s := s') H'.fits
  obtain ⟨n1, q, a, ha, hty, hβ⟩ := H'.up
  obtain ⟨ops', g1, g2, g3⟩ := Weave.resumed L hpair (fun _ => rfl) (fun _ => trivial) (fun n d req e => (H'.fits n d req e).1) H'.spares H'.one
    (fun n a hm => (hok a).2 (hnm n a hm)) ha (H'.serves n1 q a ha hty hβ) hty.symm
  have ha' : a.name = N a.ty := hnm n1 a (List.mem_of_getElem? ha)
  have hSa := hS a ((hok a).2 ha')
  have hp := found_eq (E := E) hSa.part hty.symm
  rw [← hty, ← hβ, ← ha'] at hw'
  rw [← hty]
  refine ⟨q, a, ops', S.start a, rfl, hβ, ?_, (hp.2.symm.trans hw'.job), g1, fun P hP => g2 P ((rel_runs hrel ..).1 hP), fun m => ?_⟩
  · exact InHand.init (b := .spec) (x := S.start a) rfl (tidy_iff.1 (hSa.tidy L)).keyed (hp.2.symm.trans hw'.job) hw'.status
      (by have := hw'.queued; rw [hp.1] at this; exact this) (by have := hw'.running; rw [hp.1] at this; exact this)
  · obtain ⟨n, e1, e2⟩ := g3 m
    refine ⟨n, by rw [(hr n).site.hub]; exact e1, ?_⟩
    rw [Site.snap_rel (hr n).site]
    exact e2

variable (hN : ∀ a b, N a = N b → a = b) (b : Impl) (L : ∀ ty, (E ty).Lawful) (before : List (Boot D O)) (hfit : ∀ l ∈ before, l.Fit kind N)
  (h1 : Lone E b.B (fun _ => b.empty) before) (ops : Nat → WeaveOp D O) (k : Str) (β : Nat) (job : Job D)
include hN L hfit h1

/-- C87: a job that waits in a backend when processes have died, and that is not a cron job, with a bounded number of retries or
without retry policy, reaches Finished or Failed in a later process, in every endless history in which time passes, a work queue of
its type comes up, the work queues of its type keep ticking and the runs of the job come to an end, and no request touches the job.

Missing: as in `C82_lives_partial`; that a work queue of the type comes up, which takes a submission of another job of the type
(`C82_unregistered`), and that ticks find capacity, which executions lost with earlier processes hold for ever (`C82_lost`). -/
theorem C87_ends_partial :
    let s := leave E b.B (fun _ => b.empty) before
    let f := (Weave.init b.B s : Weave D O b.B)
    (found E b (s β) (kind k) (N (kind k))).Waiting k job → Weave.Resumes b E clk kind N k (kind k) β f ops → (∀ q, Elapses (clk q)) → NonCron job →
    (∀ r, job.context.retry = some r → IsI32 r.retriedTimes ∧ ∃ n, r.maxRetries = some n ∧ IsI32 n) →
    ((∀ q a, a.ty = kind k → f.EachRun b E clk k q a ops fun x _ => x.retryAt = none) ∨ job.context.retry = none) →
    ∃ n q a, (Weave.after E b.B clk f ops n).site.hub.queues[q]? = some a ∧ a.ty = kind k ∧ a.backend = β ∧
      ((Weave.after E b.B clk f ops n).site.snap b E q a).Ended k := by
  intro s f hw H hclk hty hr hx
  obtain ⟨q, a, ops', x, k1, k2, k3, k4, k5, k6, k7⟩ := taken_up hN b L before hfit h1 ops k β job hw H
  obtain ⟨m, hm⟩ := ends_inHand (L (kind k)) k3 k5 (hclk q) k4 hty (by rw [hw.status]; decide) hr
    (hx.imp (fun h m i x orig j => k6 (fun x _ => x.retryAt = none) (h q a k1) m i x orig j) id)
  obtain ⟨n, e1, e2⟩ := k7 m
  refine ⟨n, q, a, e1, k1, k2, ?_⟩
  unfold Snap.Ended Snap.status at hm ⊢
  rcases e2 with e2 | ⟨e2, -⟩
  · rw [e2, k4] at hm
    simp [hw.status] at hm
  · rw [e2]; exact hm

/-- C87, cron jobs: in the same setting, a waiting cron job without limit and without end runs any number of times in the later
process, if its expression is valid and none of its runs is retried.

Missing: as in `C87_ends_partial`. -/
theorem C87_forever_partial (e : Str) (at_ : Time) (t : Int) (c : CronContext) (R : Nat) :
    let s := leave E b.B (fun _ => b.empty) before
    let f := (Weave.init b.B s : Weave D O b.B)
    (found E b (s β) (kind k) (N (kind k))).Waiting k job → Weave.Resumes b E clk kind N k (kind k) β f ops → (∀ q, Elapses (clk q)) →
    job.context.jobType = .cron e at_ t c → ((E (kind k)).cron e).isSome = true → c.maxRepeat = none → c.endAt = none →
    ((∀ q a, a.ty = kind k → f.EachRun b E clk k q a ops fun x _ => x.retryAt = none) ∨ job.context.retry = none) →
    (∀ q a, a.ty = kind k → f.EachRun b E clk k q a ops Unretried) →
    ∃ n q a, (Weave.after E b.B clk f ops n).site.hub.queues[q]? = some a ∧ a.ty = kind k ∧ a.backend = β ∧
      R ≤ (((Weave.after E b.B clk f ops n).site.snap b E q a).runs k).length := by
  intro s f hw H hclk hty hc hmax hend hx hno
  obtain ⟨q, a, ops', x, k1, k2, k3, k4, k5, k6, k7⟩ := taken_up hN b L before hfit h1 ops k β job hw H
  obtain ⟨m, hm⟩ := forever_inHand (L (kind k)) k3 k5 (hclk q) k4 hw.status hty hc hmax hend
    (hx.imp (fun h m i x orig j => k6 (fun x _ => x.retryAt = none) (h q a k1) m i x orig j) id)
    (fun m i x orig j => k6 _ (hno q a k1) m i x orig j) R
  obtain ⟨n, e1, e2⟩ := k7 m
  refine ⟨n, q, a, e1, k1, k2, ?_⟩
  rcases e2 with e2 | ⟨-, e2⟩
  · rw [e2] at hm
    exact Nat.le_trans hm (Nat.zero_le _)
  · rw [runs_log e2]; exact hm

/-- C87, cron jobs with a limit: in the same setting, a waiting cron job that has had `t` of `M` repetitions, without end, runs at least
`M + 1 - t` times in the later process.

Missing: as in `C87_ends_partial`. -/
theorem C87_max_repeat_partial (e : Str) (at_ : Time) (t M : Int) (c : CronContext) :
    let s := leave E b.B (fun _ => b.empty) before
    let f := (Weave.init b.B s : Weave D O b.B)
    (found E b (s β) (kind k) (N (kind k))).Waiting k job → Weave.Resumes b E clk kind N k (kind k) β f ops → (∀ q, Elapses (clk q)) →
    job.context.jobType = .cron e at_ t c → ((E (kind k)).cron e).isSome = true → c.maxRepeat = some M → c.endAt = none → IsI32 t → IsI32 (M + 1) →
    ((∀ q a, a.ty = kind k → f.EachRun b E clk k q a ops fun x _ => x.retryAt = none) ∨ job.context.retry = none) →
    (∀ q a, a.ty = kind k → f.EachRun b E clk k q a ops Unretried) →
    ∃ n q a, (Weave.after E b.B clk f ops n).site.hub.queues[q]? = some a ∧ a.ty = kind k ∧ a.backend = β ∧
      (M + 1 - t).toNat ≤ (((Weave.after E b.B clk f ops n).site.snap b E q a).runs k).length := by
  intro s f hw H hclk hty hc hmax hend ht hM hx hno
  obtain ⟨q, a, ops', x, k1, k2, k3, k4, k5, k6, k7⟩ := taken_up hN b L before hfit h1 ops k β job hw H
  obtain ⟨m, hm⟩ := max_repeat_inHand (L (kind k)) k3 k5 (hclk q) k4 hw.status hty hc hmax hend ht hM
    (hx.imp (fun h m i x orig j => k6 (fun x _ => x.retryAt = none) (h q a k1) m i x orig j) id)
    (fun m i x orig j => k6 _ (hno q a k1) m i x orig j)
  obtain ⟨n, e1, e2⟩ := k7 m
  refine ⟨n, q, a, e1, k1, k2, ?_⟩
  have h0 : (Impl.spec.snap (E (kind k)) a.name (Sys.init SpecB x : Sys D SpecB)).runs k = [] := rfl
  rcases e2 with e2 | ⟨-, e2⟩
  · rw [e2, h0] at hm
    exact Nat.le_trans (by simpa using hm) (Nat.zero_le _)
  · rw [runs_log e2]
    rw [h0] at hm
    simpa using hm

omit L hfit h1 in
/-- C87, what brings up a work queue of the type: if one client alone starts an engine with backend `β`, clients submit every type
under a name of its own and do not begin two first submissions of a type at once, and one of them submits any job of the type, then
there is at most one engine at all times and a work queue of the type comes up on that backend; so a waiting job of the type that no
request touches gets its chance, if such work queues serve it. -/
theorem C87_resumes (s : Nat → b.B.S) (c0 c n0 : Nat) (H : Weave.Opens E clk N c0 β c (kind k) n0 (Weave.init b.B s : Weave D O b.B) ops)
    (hon : ∀ n d req, ops n = .site (.begin d req) → req.On kind) (hsp : ∀ n d req, ops n = .site (.begin d req) → ¬ req.Touches k)
    (hsv : ∀ (n q : Nat) (a : QueueActor), (Weave.after E b.B clk (Weave.init b.B s) ops n).site.hub.queues[q]? = some a → a.ty = kind k → a.backend = β →
      Weave.Serves b E clk k q a (Weave.init b.B s) ops) :
    Weave.Resumes b E clk kind N k (kind k) β (Weave.init b.B s) ops := by
  obtain ⟨h1, h2, h3⟩ := H.comes hN
  exact ⟨fun n d req h => ⟨hon n d req h, h2 n d req h⟩, hsp, h1, h3, hsv⟩

end

/-! ## A concrete later process that never ends -/

section
open Demo

/-- A process accepts job `J` and dies. -/
def accept (J : Job Int) : Boot Int Unit := boot (opening ++ [.site (.begin 2 (.submit 5 c!"print" J .newReRun)), .site (.client 2 false),
  .site (.client 2 false), .site (.engine 0), .site (.engine 0), .site (.engine 0), .site (.engine 0), .site (.post 2), .site (.handle 0 0)] ++
  List.replicate 12 (.go 0) ++ [.site (.take 2)])

/-- The next process begins. -/
def begun (J : Job Int) : Weave Int Unit SpecB := Weave.init SpecB (Boot.leave (fun _ => E) SpecB (fun _ => Spec.empty) [accept J])

/-- A client starts AJ again, clients submit jobs `b` and `c` and have one job executed at a time. The first run is one of job `J`, with
user code `x` unless it is a cron job. -/
def reopened (x : Executable Int Unit) : List (WeaveOp Int Unit) := opening ++ hall (job c!"c") x

variable {J : Job Int} {x : Executable Int Unit}

theorem reopened_length : (reopened x).length = 96 := rfl

theorem opening_length : opening.length = 7 := rfl

theorem reopened_take : (reopened x).take 7 = opening := by
  unfold reopened
  rw [← opening_length, List.take_left]

theorem reopened_19 : (reopened x)[19]? = some (.site (.begin 2 (.submit 5 c!"print" (job c!"c") .newReRun))) := rfl

theorem accept_fit : (accept J).Fit (fun _ => 5) signs := by
  intro c req hm
  simp [accept, boot, opening, Site.starting] at hm
  rcases hm with ⟨-, rfl⟩ | ⟨-, rfl⟩
  · exact ⟨trivial, trivial⟩
  · exact ⟨rfl, rfl⟩

attribute [local irreducible] hall begun accept

/-- From then on all goes well, for ever. -/
def revived (J : Job Int) (x : Executable Int Unit) : Nat → WeaveOp Int Unit := lasting (begun J) (reopened x)

local notation "φ" n:max => Weave.after (fun _ => E) SpecB (fun _ => clk) (begun J) (revived J x) n

/-- The requests. -/
theorem revived_begin {n : Nat} {d : Nat} {req : Req Int} (h : revived J x n = .site (.begin d req)) :
    n < 7 ∧ req = .start 7 ∨ n = 7 ∧ d = 1 ∧ req = .submit 5 c!"print" (job c!"b") .newReRun ∨
      n = 26 ∧ d = 1 ∧ req = .config 5 { maxProcessingJobs := 1 } ∨ n = 19 ∧ d = 2 ∧ req = .submit 5 c!"print" (job c!"c") .newReRun := by
  have hs := lasting_begin h
  unfold reopened at hs
  by_cases hn : n < 7
  · rw [List.getElem?_append_left (by rw [opening_length]; exact hn)] at hs
    exact .inl ⟨hn, opening_begin (List.mem_of_getElem? hs)⟩
  · obtain ⟨m, rfl⟩ : ∃ m, n = 7 + m := ⟨n - 7, by omega⟩
    rw [List.getElem?_append_right (by rw [opening_length]; omega), opening_length, show 7 + m - 7 = m by omega] at hs
    rcases (hall_mark hs).1 rfl with rfl | rfl | rfl
    · rw [hall_0] at hs; cases hs; exact .inr (.inl ⟨rfl, rfl, rfl⟩)
    · rw [hall_12] at hs; cases hs; exact .inr (.inr (.inr ⟨rfl, rfl, rfl⟩))
    · rw [hall_19] at hs; cases hs; exact .inr (.inr (.inl ⟨rfl, rfl, rfl⟩))

/-- The runs of the example all go well, but for one. -/
theorem revived_finish {n q i : Nat} {y : Executable Int Unit} (h : revived J x n = .site (.turn q (.finish i y))) : y = good ∨ y = x := by
  rcases lasting_finish h with h | hs
  · exact .inl h
  · unfold reopened at hs
    by_cases hn : n < 7
    · rw [List.getElem?_append_left (by rw [opening_length]; exact hn)] at hs
      have := List.mem_of_getElem? hs
      simp [opening, Site.starting] at this
    · obtain ⟨m, rfl⟩ : ∃ m, n = 7 + m := ⟨n - 7, by omega⟩
      rw [List.getElem?_append_right (by rw [opening_length]; omega), opening_length, show 7 + m - 7 = m by omega] at hs
      rcases (hall_mark hs).2 rfl with rfl | rfl
      · rw [hall_54] at hs; cases hs; exact .inl rfl
      · rw [hall_79] at hs; cases hs; exact .inr rfl

/-- What is checked of the first 96 steps. -/
structure Revives (J : Job Int) (x : Executable Int Unit) : Prop where
  one : ((accept J).last (fun _ => E) SpecB fun _ => Spec.empty).site.hub.engines.length ≤ 1
  settled : settled (sofar (begun J) (reopened x) (reopened x).length) = true
  turns : ((List.range (reopened x).length).all fun n => match (reopened x)[n]? with
    | some (.site (.turn 0 op)) => ok c!"a" ((sofar (begun J) (reopened x) n).site.snap .spec (fun _ => E) 0 printer) op &&
      (((sofar (begun J) (reopened x) n).site.snap .spec (fun _ => E) 0 printer).lists .queued).length ≤ 20
    | _ => true) = true
  known : (sofar (begun J) (reopened x) 19).site.hub.byType 5 ≠ none
  free : (match (sofar (begun J) (reopened x) 19).site.users 2 with
    | .free => true
    | _ => false) = true

theorem revived_early {n : Nat} (hn : n ≤ 96) : φ n = sofar (begun J) (reopened x) n := lasting_early (by rw [reopened_length]; exact hn)

theorem revived_start : (List.range 7).map (revived J x) = (Site.starting 0 7).map .site := by
  refine Eq.trans ?_ (reopened_take (x := x))
  refine List.ext_getElem? fun i => ?_
  rw [List.getElem?_map, List.getElem?_take]
  by_cases h : i < 7
  · rw [List.getElem?_range h, if_pos h]
    exact (lasting_some (by rw [reopened_length]; omega)).symm
  · rw [if_neg h, List.getElem?_eq_none (by simpa using h)]
    rfl

theorem revived_on (n : Nat) (d : Nat) (req : Req Int) (h : revived J x n = .site (.begin d req)) : req.On fun _ => 5 := by
  rcases revived_begin h with ⟨-, rfl⟩ | ⟨-, -, rfl⟩ | ⟨-, -, rfl⟩ | ⟨-, -, rfl⟩
  · trivial
  · exact rfl
  · trivial
  · exact rfl

theorem revived_hub : (φ 7).site.hub = Hub.run {} (startAlone 0 7) := by
  rw [Weave.after_run, revived_start, Weave.run_plain _ _ (starting_plain 0 7)]
  unfold begun
  exact starting_hub SpecB _ 0 7

section
variable (H : Revives J x)
include H

theorem revived_polite (n : Nat) (o : SiteOp Int Unit) (hn : 7 ≤ n) (ho : revived J x n = .site o) : o.Polite signs (φ n).site := by
  cases o with
  | begin d req =>
    rcases revived_begin ho with ⟨h, -⟩ | ⟨rfl, rfl, rfl⟩ | ⟨rfl, rfl, rfl⟩ | ⟨hn, rfl, rfl⟩
    · omega
    · refine ⟨rfl, fun _ d hd => ?_⟩
      rw [revived_hub, started]
      by_cases h : d = 0
      · subst h; decide +kernel
      · simp [upd, h]; exact id
    · trivial
    · refine ⟨rfl, fun h => ?_⟩
      rw [revived_early (by omega), hn] at h
      exact absurd h H.known
  | _ => trivial

theorem revived_one : (∀ n, (φ n).site.hub.engines.length ≤ 1) ∧ ∀ n d req, revived J x n = .site (.begin d req) → req.Named signs := by
  have h1 := revived_start (J := J) (x := x)
  have h2 := revived_polite H
  unfold begun at h2 ⊢
  obtain ⟨g1, g2, -⟩ := Weave.started_one (E := fun _ => E) (clk := fun _ => clk) signs_inj h1 h2
  exact ⟨g1, g2⟩

/-- The work queue alone. -/
theorem revived_alike : ∃ s0, (Impl.spec.snap E c!"print" (Sys.init SpecB s0 : Sys Int SpecB)).Tidy ∧
    ∀ n, (φ n).site.hub.queues = [printer] → Alike s0 (φ n) := by
  obtain ⟨h1, h2⟩ := revived_one H
  obtain ⟨S, hok, hS⟩ := Boot.base_of (Boot.first (E := fun _ => E) (kind := fun _ => 5) (fun _ => lawful) signs_inj [accept J]
    (fun l hl => by rw [List.mem_singleton.1 hl]; exact accept_fit) ⟨H.one, trivial⟩)
  have hpr : S.ok printer := (hok printer).2 rfl
  refine ⟨S.start printer, (hS printer hpr).tidy (fun _ => lawful), fun n hq => ?_⟩
  have hpair : Weave.PairFrom (fun _ => E) (fun _ => clk) (fun _ => 5) S (begun J)
      (Site.init SpecB (Boot.leave (fun _ => E) SpecB (fun _ => Spec.empty) [accept J])) := by
    unfold begun
    exact Weave.pairFrom_init fun a ha => (hS a ha).part
  have hnm : ∀ n, ∀ a ∈ (φ n).site.hub.queues, a.name = signs a.ty := by
    have := fun n => named_after (B := SpecB) (E := fun _ => E) (clk := fun _ => clk) (kind := fun _ => 5) (N := signs)
      (s := Boot.leave (fun _ => E) SpecB (fun _ => Spec.empty) [accept J]) (ops := revived J x)
      (fun n d req h => ⟨revived_on n d req h, h2 n d req h⟩) n
    unfold begun
    exact this
  have hP := Weave.pairFrom_after (fun _ => lawful) hpair revived_on h1 (fun n a ha => (hok a).2 (hnm n a ha)) n
  have hT := congrArg (fun h : Hub => h.queues[0]?) hP.serial.face.hub
  rw [hq] at hT
  have hT := hT.symm
  obtain ⟨s1, s2, s3, s4, -⟩ := Site.lone_snap hP.alone (a := printer) hT
  have hm : Weave.lone (fun _ => E) (fun _ => clk) S (Site.after (fun _ => E) SpecB (fun _ => clk)
      (Site.init SpecB (Boot.leave (fun _ => E) SpecB (fun _ => Spec.empty) [accept J]))
      (Weave.serially (fun _ => E) (fun _ => clk) (begun J) (revived J x)) n) 0 printer = (φ n).site.played (S.start printer) := by
    unfold Weave.lone Site.played
    rw [hP.serial.face.trace]
    rfl
  rw [hm] at s1 s2 s3 s4
  refine ⟨(hP.tasks 0 printer).trans s2, fun hi => ?_⟩
  obtain ⟨i1, i2, i3, -⟩ := hP.calm hT hi
  exact ⟨i1.trans s1, i2.trans s3, i3.trans s4⟩

omit H in
theorem begun_calm : Weave.Tidy (begun J) ∧ ∀ q, (begun J).inside q = none := by
  unfold begun
  exact ⟨Weave.tidy_init _, fun _ => rfl⟩

theorem revived_steady : ∃ s0, ((sofar (begun J) (reopened x) (reopened x).length).inside 0 = none ∧
    Steady s0 0 (sofar (begun J) (reopened x) (reopened x).length).site) ∧ ∀ n, (φ n).site.hub.queues = [printer] → Alike s0 (φ n) := by
  obtain ⟨s0, h1, h2⟩ := revived_alike H
  have h := H.settled
  have hq : (sofar (begun J) (reopened x) (reopened x).length).site.hub.queues = [printer] := by
    simp only [settled, Bool.and_eq_true, beq_iff_eq] at h
    exact h.1.1.1.1.1.1.1.1.1.2
  refine ⟨s0, settled.steady h ?_ h1, h2⟩
  have := h2 96
  rw [revived_early (Nat.le_refl _), ← reopened_length (x := x)] at this
  exact this hq

theorem revived_takes (p : Nat) : ∃ n, p ≤ n ∧ revived J x ((reopened x).length + n) = .site (siteRounds p) := by
  obtain ⟨s0, h1, -⟩ := revived_steady H
  obtain ⟨n, h1, h2, -⟩ := lasting_takes begun_calm.1 begun_calm.2 h1 p
  exact ⟨n, h1, h2⟩

theorem revived_opens {m : Nat} (hm : m = 19) : Weave.Opens (fun _ => E) (fun _ => clk) signs 0 7 2 5 m (begun J) (revived J x) where
  start := revived_start
  polite := revived_polite H
  late := by omega
  call := by
    have : (reopened x)[19]? = some (revived J x 19) := lasting_some (by rw [reopened_length]; omega)
    rw [reopened_19] at this
    rw [hm]
    exact ⟨_, _, _, (Option.some.inj this).symm⟩
  free := .inl (by
    rw [revived_early (by omega), hm]
    have h := H.free
    split at h
    · assumption
    · cases h)
  client := fun m => by
    obtain ⟨n, k1, k2⟩ := revived_takes H (7 * m + 3)
    refine ⟨(reopened x).length + n, false, by omega, k2.trans ?_⟩
    unfold siteRounds; rw [show (7 * m + 3) % 7 = 3 by omega]; rfl
  engine := fun m => by
    obtain ⟨n, k1, k2⟩ := revived_takes H (7 * m + 4)
    refine ⟨(reopened x).length + n, by omega, k2.trans ?_⟩
    unfold siteRounds; rw [show (7 * m + 4) % 7 = 4 by omega]; rfl
  post := fun m => by
    obtain ⟨n, k1, k2⟩ := revived_takes H (7 * m + 5)
    refine ⟨(reopened x).length + n, by omega, k2.trans ?_⟩
    unfold siteRounds; rw [show (7 * m + 5) % 7 = 5 by omega]; rfl

/-- The work queue of type 5 comes up and serves job `a`. -/
theorem revived_resumes : Weave.Resumes .spec (fun _ => E) (fun _ => clk) (fun _ => 5) signs c!"a" 5 7 (begun J) (revived J x) := by
  obtain ⟨s0, h1, h2⟩ := revived_steady H
  have hs : ∀ (n q : Nat) (a : QueueActor), (φ n).site.hub.queues[q]? = some a → a.ty = 5 → a.backend = 7 →
      Weave.Serves .spec (fun _ => E) (fun _ => clk) c!"a" q a (begun J) (revived J x) := by
    intro n q a ha _ _
    obtain ⟨rfl, rfl⟩ := lasting_queues begun_calm.1 h1 ha
    exact lasting_serves begun_calm.1 begun_calm.2 h1 h2 H.turns
  have ho := revived_opens H rfl
  unfold begun at ho hs ⊢
  refine C87_resumes (kind := fun _ => 5) signs_inj .spec _ c!"a" 7 _ 0 2 19 ho revived_on (fun n d req h => ?_) hs
  rcases revived_begin h with ⟨-, rfl⟩ | ⟨-, -, rfl⟩ | ⟨-, -, rfl⟩ | ⟨-, -, rfl⟩
  · exact id
  · show ¬(_ = _); decide
  · exact id
  · show ¬(_ = _); decide

end

/-- The next process, on any backend. -/
abbrev begunOn (b : Impl) (J : Job Int) : Weave Int Unit b.B := Weave.init b.B (Boot.leave (fun _ => E) b.B (fun _ => b.empty) [accept J])

theorem revived_on_any (H : Revives J x) (b : Impl) :
    Weave.Resumes b (fun _ => E) (fun _ => clk) (fun _ => 5) signs c!"a" 5 7 (begunOn b J) (revived J x) := by
  have h := revived_resumes H
  unfold begun at h
  exact (rel_resumes (rel_begun b [accept J])).2 h

theorem accept_lone (H : Revives J x) (b : Impl) : Boot.Lone (fun _ => E) b.B (fun _ => b.empty) [accept J] :=
  (Boot.leave_rel b (fun _ => b.empty_rel) [accept J]).2.2 ⟨H.one, trivial⟩

/-- What the first process has left of job `a`. -/
def leftOf (J : Job Int) : Job Int :=
  ((Boot.found (fun _ => E) .spec (Boot.leave (fun _ => E) SpecB (fun _ => Spec.empty) [accept J] 7) 5 c!"print").job c!"a").getD (job [])

/-- A check that the job waits. -/
def waits (J : Job Int) : Bool :=
  let v := Boot.found (fun _ => E) .spec (Boot.leave (fun _ => E) SpecB (fun _ => Spec.empty) [accept J] 7) 5 c!"print"
  (v.job c!"a").isSome && (leftOf J).context.jobStatus == .queued && (v.lists .queued).count c!"a" == 1 && decide (c!"a" ∉ v.lists .running)

theorem waits.waiting (h : waits J = true) (b : Impl) :
    (Boot.found (fun _ => E) b (Boot.leave (fun _ => E) b.B (fun _ => b.empty) [accept J] 7) 5 c!"print").Waiting c!"a" (leftOf J) := by
  rw [found_left]
  simp only [waits, Bool.and_eq_true, beq_iff_eq, decide_eq_true_eq] at h
  obtain ⟨⟨⟨h1, h2⟩, h3⟩, h4⟩ := h
  refine ⟨?_, h2, h3, h4⟩
  obtain ⟨j, hj⟩ := Option.isSome_iff_exists.1 h1
  unfold leftOf
  rw [hj]
  rfl

theorem flaky_revives : Revives (flaky (.newIntervalRetry (some 2) nsPerSec)) bad := by constructor <;> decide +kernel

/-- `C87_ends_partial` applies, on every backend: job `a`, left by a process that has died, ends in the next one, although its first run
fails there. -/
example (b : Impl) : ∃ n q a,
    (Weave.after (fun _ => E) b.B (fun _ => clk) (begunOn b (flaky (.newIntervalRetry (some 2) nsPerSec)))
      (revived (flaky (.newIntervalRetry (some 2) nsPerSec)) bad) n).site.hub.queues[q]? = some a ∧ a.ty = 5 ∧ a.backend = 7 ∧
    ((Weave.after (fun _ => E) b.B (fun _ => clk) (begunOn b (flaky (.newIntervalRetry (some 2) nsPerSec)))
      (revived (flaky (.newIntervalRetry (some 2) nsPerSec)) bad) n).site.snap b (fun _ => E) q a).Ended c!"a" := by
  refine C87_ends_partial (kind := fun _ => 5) signs_inj b (fun _ => lawful) [accept _] (fun l hl => by rw [List.mem_singleton.1 hl]; exact accept_fit)
    (accept_lone flaky_revives b) _ c!"a" 7 (leftOf (flaky (.newIntervalRetry (some 2) nsPerSec))) (waits.waiting (by decide +kernel) b)
    (revived_on_any flaky_revives b) (fun _ => clk_passes) ?_ ?_ (.inl ?_)
  · have h : (match (leftOf (flaky (.newIntervalRetry (some 2) nsPerSec))).context.jobType with
      | .cron _ _ _ _ => false
      | _ => true) = true := by decide +kernel
    intro e n m c hc
    rw [hc] at h
    cases h
  · have h : (match (leftOf (flaky (.newIntervalRetry (some 2) nsPerSec))).context.retry with
      | some r => decide (r.retriedTimes = 0 ∧ r.maxRetries = some 2)
      | none => true) = true := by decide +kernel
    intro r hr
    rw [hr] at h
    obtain ⟨h1, h2⟩ := of_decide_eq_true h
    exact ⟨by rw [h1]; constructor <;> decide, 2, h2, by constructor <;> decide⟩
  · intro q a _ n i y orig j h _ _ _
    rcases revived_finish h with rfl | rfl <;> rfl

/-- What is checked of a cron job that has been left. -/
def leftCron (M : Option Int) (J : Job Int) : Bool :=
  match (leftOf J).context.jobType with
  | .cron e _ t c => e == c!"* * * * * *" && t == 1 && c.maxRepeat == M && c.endAt.isNone && (leftOf J).context.retry.isNone
  | _ => false

theorem leftCron.eq {M : Option Int} (h : leftCron M J = true) : ∃ u c, (leftOf J).context.jobType = .cron c!"* * * * * *" u 1 c ∧ c.maxRepeat = M ∧
    c.endAt = none ∧ (leftOf J).context.retry = none := by
  unfold leftCron at h
  split at h
  · next e u t c hc =>
    simp only [Bool.and_eq_true, beq_iff_eq, Option.isNone_iff_eq_none] at h
    obtain ⟨⟨⟨⟨rfl, rfl⟩, h3⟩, h4⟩, h5⟩ := h
    exact ⟨u, c, hc, h3, h4, h5⟩
  · cases h

theorem seconds_revives : Revives (cronJob c!"* * * * * *" 3 {}) good := by constructor <;> decide +kernel

/-- An every-second job that has been left runs a thousand times in the next process, on every backend. -/
example (b : Impl) : ∃ n q a,
    (Weave.after (fun _ => E) b.B (fun _ => clk) (begunOn b (cronJob c!"* * * * * *" 3 {})) (revived (cronJob c!"* * * * * *" 3 {}) good) n).site.hub.queues[q]? =
      some a ∧ a.ty = 5 ∧ a.backend = 7 ∧
    1000 ≤ (((Weave.after (fun _ => E) b.B (fun _ => clk) (begunOn b (cronJob c!"* * * * * *" 3 {})) (revived (cronJob c!"* * * * * *" 3 {}) good) n).site.snap b
      (fun _ => E) q a).runs c!"a").length := by
  obtain ⟨u, c, h1, h2, h3, h4⟩ := leftCron.eq (M := none) (J := cronJob c!"* * * * * *" 3 {}) (by decide +kernel)
  refine C87_forever_partial (kind := fun _ => 5) signs_inj b (fun _ => lawful) [accept _] (fun l hl => by rw [List.mem_singleton.1 hl]; exact accept_fit)
    (accept_lone seconds_revives b) _ c!"a" 7 (leftOf (cronJob c!"* * * * * *" 3 {})) _ u 1 c 1000 (waits.waiting (by decide +kernel) b)
    (revived_on_any seconds_revives b) (fun _ => clk_passes) h1 rfl h2 h3 (.inr h4) ?_
  intro q a _ n i y orig j h _ _ _
  rcases revived_finish h with rfl | rfl <;> exact .inl rfl

theorem two_revives : Revives (cronJob c!"* * * * * *" 3 { maxRepeat := some 2 }) good := by constructor <;> decide +kernel

/-- One with `max_repeat = 2` runs twice. -/
example (b : Impl) : ∃ n q a,
    (Weave.after (fun _ => E) b.B (fun _ => clk) (begunOn b (cronJob c!"* * * * * *" 3 { maxRepeat := some 2 }))
      (revived (cronJob c!"* * * * * *" 3 { maxRepeat := some 2 }) good) n).site.hub.queues[q]? = some a ∧ a.ty = 5 ∧ a.backend = 7 ∧
    2 ≤ (((Weave.after (fun _ => E) b.B (fun _ => clk) (begunOn b (cronJob c!"* * * * * *" 3 { maxRepeat := some 2 }))
      (revived (cronJob c!"* * * * * *" 3 { maxRepeat := some 2 }) good) n).site.snap b (fun _ => E) q a).runs c!"a").length := by
  obtain ⟨u, c, h1, h2, h3, h4⟩ := leftCron.eq (M := some 2) (J := cronJob c!"* * * * * *" 3 { maxRepeat := some 2 }) (by decide +kernel)
  refine C87_max_repeat_partial (kind := fun _ => 5) signs_inj b (fun _ => lawful) [accept _] (fun l hl => by rw [List.mem_singleton.1 hl]; exact accept_fit)
    (accept_lone two_revives b) _ c!"a" 7 (leftOf (cronJob c!"* * * * * *" 3 { maxRepeat := some 2 })) _ u 1 2 c (waits.waiting (by decide +kernel) b)
    (revived_on_any two_revives b) (fun _ => clk_passes) h1 rfl h2 h3 (by constructor <;> decide) (by constructor <;> decide) (.inr h4) ?_
  intro q a _ n i y orig j h _ _ _
  rcases revived_finish h with rfl | rfl <;> exact .inl rfl

end

end AJ.Props
