import Verif.Proofs.Timer
import Verif.Props.Crash

/-!
# The timer (C72)

The theorems about the timer alone hold on any backend, also on one whose calls fail (`Faulty`).
-/

namespace AJ.Props
open Timed

section
variable {D O : Type} {E : Env D} {name : Str} {B : Backend} {clk : Nat → Time} {δ : Nat}

/-- C72: while the work queue lives, exactly one scan is pending: the one the last scan asked for, with the tick
duration configured then. A work queue that has died has none. -/
theorem C72_pending (s : Sys D B) (now : Nat) (ops : List (TimedOp D O)) :
    let t := run E name B clk (start E name B clk s now) ops
    ∃ x d l, t.scans = (x, d) :: l ∧ x ≤ t.now ∧ t.timers = if t.sys.alive then [x + d] else [] :=
  (armed_run (armed_start s now) ops).last

/-- C72: two scans in a row are at least as far apart as the tick duration configured at the first of them; if
no callback waits for more than `δ`, they are at most `δ` farther apart. -/
theorem C72_spacing (s : Sys D B) (now : Nat) (ops : List (TimedOp D O)) :
    let t := run E name B clk (start E name B clk s now) ops
    ∀ i x d x' d', t.scans[i + 1]? = some (x, d) → t.scans[i]? = some (x', d') →
      x + d ≤ x' ∧ (Prompt E name B clk δ (start E name B clk s now) ops → x' ≤ x + d + δ) := by
  intro t i x d x' d' h1 h2
  have key : ∀ {R : Nat × Nat → Nat × Nat → Prop}, List.IsChain R t.scans → R (x', d') (x, d) := by
    intro R hc
    rw [List.isChain_iff_getElem] at hc
    obtain ⟨hlt, e1⟩ := List.getElem?_eq_some_iff.mp h1
    obtain ⟨_, e2⟩ := List.getElem?_eq_some_iff.mp h2
    have := hc i hlt
    rwa [e1, e2] at this
  exact ⟨key (armed_run (armed_start s now) ops).chain,
    fun hp => key (onTime_run (armed_start s now) (onTime_start s now) hp).chain⟩

/-- C72: as long as the configuration stays, the number of scans follows the time: with `p` the tick duration,
`n` scans take at least `(n - 1) p`, and while the work queue lives, at most `n (p + δ)` have passed. -/
theorem C72_rate (s : Sys D B) (now : Nat) (ops : List (TimedOp D O)) (hk : ∀ op ∈ ops, op.KeepsConfig) :
    let t := run E name B clk (start E name B clk s now) ops
    let p := s.cfg.processTickDuration
    now + (t.scans.length - 1) * p ≤ t.now ∧
    (t.sys.alive = true → Prompt E name B clk δ (start E name B clk s now) ops →
      t.now ≤ now + t.scans.length * (p + δ)) := by
  intro t p
  have ha : Armed t := armed_run (armed_start s now) ops
  obtain ⟨_, x, l, hs, hx⟩ := counted_run (armed_start s now) (counted_start (E := E) (name := name) (clk := clk) s now) hk
  obtain ⟨_, y, d, l', hs', hy, ht⟩ := ha
  have e := hs
  rw [hs'] at e
  simp only [List.cons.injEq, Prod.mk.injEq] at e
  obtain ⟨⟨rfl, rfl⟩, rfl⟩ := e
  have hs : t.scans = (y, p) :: l' := hs
  refine ⟨?_, fun hal hp => ?_⟩
  · rw [hs, List.length_cons, Nat.add_sub_cancel]
    exact Nat.le_trans hx hy
  · have ho := onTime_run (armed_start s now) (onTime_start s now) hp
    have h1 : t.now ≤ y + p + δ := by
      refine ho.last _ ?_
      rw [ht, if_pos hal]
      exact List.mem_singleton.mpr rfl
    have h2 : ∀ z ∈ t.scans, z.2 = p := by
      refine same_delay (counted_start s now).cfg ?_ hk
      intro z hz
      have hz : z ∈ [(now, (Sys.step E name B clk s (.tick : Op D Unit)).1.cfg.processTickDuration)] := hz
      rw [tick_cfg] at hz
      rw [List.mem_singleton.mp hz]
    have h3 : t.scans.getLast? = some (now, p) := by
      refine scans_last ?_ ops
      show [(now, (Sys.step E name B clk s (.tick : Op D Unit)).1.cfg.processTickDuration)].getLast? = _
      rw [tick_cfg]
      rfl
    have hc : List.IsChain (Near δ) t.scans := ho.chain
    rw [hs] at hc h3 h2
    have h4 : y ≤ now + l'.length * (p + δ) :=
      near_total hc (fun z hz => h2 z (List.mem_cons_of_mem _ hz)) h3
    rw [hs, List.length_cons, Nat.add_mul]
    omega

/-- C72: a new tick duration does not move the pending scan: whatever happens, there is none before its time. -/
theorem C72_unmoved (s : Sys D B) (now : Nat) (ops ops' : List (TimedOp D O)) :
    let t := run E name B clk (start E name B clk s now) ops
    ∀ x d l, t.scans = (x, d) :: l → (run E name B clk t ops').now < x + d →
      (run E name B clk t ops').scans = t.scans := by
  intro t x d l hs hn
  obtain ⟨y, d', l', hs', _, ht⟩ := C72_pending (E := E) (name := name) (clk := clk) s now ops
  have hs' : t.scans = (y, d') :: l' := hs'
  rw [hs] at hs'
  simp only [List.cons.injEq, Prod.mk.injEq] at hs'
  obtain ⟨⟨rfl, rfl⟩, rfl⟩ := hs'
  refine no_scan ?_ ops' hn
  rw [ht]
  split
  · exact .inl rfl
  · exact .inr rfl

/-- C72: once the work queue has died there are no more scans, however much time passes. -/
theorem C72_dead (s : Sys D B) (now : Nat) (ops ops' : List (TimedOp D O)) :
    let t := run E name B clk (start E name B clk s now) ops
    t.sys.alive = false → (run E name B clk t ops').scans = t.scans := by
  intro t ha
  obtain ⟨_, _, _, _, _, ht⟩ := C72_pending (E := E) (name := name) (clk := clk) s now ops
  have ht : t.timers = [] := by rw [show t.timers = _ from ht, if_neg (by rw [ha]; simp)]
  refine no_scan (x := (run E name B clk t ops').now + 1) (.inr ht) ops' (Nat.lt_succ_self _)

end

section
variable {D O : Type} {E : Env D} {name : Str} {clk : Nat → Time} {b : Impl} {k : Str} {δ : Nat}

private theorem picked_in_time (L : E.Lawful) {t : Timed D b.B} (hs : Reach (O := O) b E name clk (Orderly k) t.sys)
    {j : Job D} (hj : (b.snap E name t.sys).job k = some j) (hq : j.context.jobStatus = .queued)
    (hdue : ∀ i, (b.snap E name t.sys).reads ≤ i → j.Due (clk i))
    {ops : List (TimedOp D O)} {x : Nat} :
    ∀ u : Timed D b.B, Reach (O := O) b E name clk (Orderly k) u.sys →
    Lives (O := O) b E name clk (fun v op => NotAbout k op ∧ k ∉ v.lists .running) t.sys u.sys →
    (b.snap E name t.sys).reads ≤ (b.snap E name u.sys).reads →
    k ∉ (b.snap E name u.sys).lists .running → u.sys.alive = true → u.timers = [x] → u.now ≤ x + δ →
    Prompt E name b.B clk δ u ops →
    Obeys b E name clk (fun v op => NotAbout k op ∧
      (op = .tick → (v.lists .queued).length ≤ v.free ∧ (v.lists .queued).length < 2 ^ 31)) u ops →
    x + δ < (run E name b.B clk u ops).now →
    ∃ n, (run E name b.B clk u (ops.take n)).now ≤ x + δ ∧
      ((run E name b.B clk u (ops.take n)).sys.alive = false ∨
        k ∈ (b.snap E name (run E name b.B clk u (ops.take n)).sys).inFlight) := by
  induction ops with
  | nil =>
    intro u _ _ _ _ _ _ hn _ _ hend
    exact absurd hend (Nat.not_lt.mpr hn)
  | cons op ops ih =>
    intro u hr hl hreads hk ha ht hn hp ho hend
    obtain ⟨hp1, hp2⟩ := hp
    obtain ⟨ho1, ho2, ho3⟩ := ho
    -- it is enough to settle the state after this step
    have next : ∀ u', step E name b.B clk u op = u' →
        Reach (O := O) b E name clk (Orderly k) u'.sys →
        Lives (O := O) b E name clk (fun v op => NotAbout k op ∧ k ∉ v.lists .running) t.sys u'.sys →
        (b.snap E name t.sys).reads ≤ (b.snap E name u'.sys).reads →
        u'.now ≤ x + δ → (u'.sys.alive = true → u'.timers = [x]) → 
        ∃ n, (run E name b.B clk u ((op :: ops).take n)).now ≤ x + δ ∧
          ((run E name b.B clk u ((op :: ops).take n)).sys.alive = false ∨
            k ∈ (b.snap E name (run E name b.B clk u ((op :: ops).take n)).sys).inFlight) := by
      intro u' e hr' hl' hreads' hn' ht'
      subst e
      cases ha' : (step E name b.B clk u op).sys.alive with
      | false => exact ⟨1, hn', .inl ha'⟩
      | true =>
        by_cases hk' : k ∈ (b.snap E name (step E name b.B clk u op).sys).lists .running
        · refine ⟨1, hn', .inr ?_⟩
          show k ∈ (b.snap E name (step E name b.B clk u op).sys).inFlight
          generalize hv : b.snap E name (step E name b.B clk u op).sys = v at hk'
          have hpos := List.count_pos_iff.mpr hk'
          have hsolo : Solo k v := by
            rcases reach_orderly L (fun _ _ h => h) hr' with h | h
            · rw [hv] at h; exact h
            · have := h.running
              rw [hv] at this
              omega
          have hst : v.status k = some .running := by
            by_contra hne
            rw [hsolo.running, if_neg hne] at hpos
            omega
          obtain ⟨r, hr1, hr2⟩ := Option.map_eq_some_iff.mp hst
          have hal : v.alive = true := by rw [← hv]; exact ha'
          have : ∃ y ∈ v.own k, True := by
            rcases hsolo.busy hal r hr1 hr2 with e | e <;> rw [e] <;> exact ⟨_, List.mem_singleton.mpr rfl, trivial⟩
          obtain ⟨y, hy, _⟩ := this
          obtain ⟨hy1, hy2⟩ := List.mem_filter.mp hy
          exact List.mem_map.mpr ⟨y, hy1, by simpa using hy2⟩
        · obtain ⟨n, hn⟩ := ih _ hr' hl' hreads' hk' ha' (ht' ha') hn' hp2 ho3 hend
          exact ⟨n + 1, hn⟩
    have hcase := step_case (E := E) (name := name) (clk := clk) u op
    generalize hu : step E name b.B clk u op = u' at hcase next
    have next := next u' rfl
    cases hcase with
    | pass d e =>
      refine next hr hl hreads ?_ (fun _ => ht)
      exact hp1 d e x (by rw [ht]; exact List.mem_singleton.mpr rfl)
    | idle => exact next hr hl hreads hn (fun _ => ht)
    | turn o e hne =>
      have h1 := (ho1 o e).1
      refine next (.step o hr ?_) (.turn o hl ⟨h1, hk⟩) (Nat.le_trans hreads (reach_reads L hr o)) hn ?_
      · intro job cfg e' hid
        exact absurd hid (h1.1 job cfg e')
      · intro ha'
        show (if _ then u.timers else []) = [x]
        rw [if_pos ha', ht]
    | fire i d e hd hle =>
      obtain ⟨h1, h2⟩ := ho2 i e
      obtain ⟨hcap, hlen⟩ := h2 rfl
      refine ⟨1, ?_, .inr ?_⟩
      · show (step E name b.B clk u op).now ≤ _
        rw [hu]
        exact hn
      · show k ∈ (b.snap E name (step E name b.B clk u op).sys).inFlight
        rw [hu]
        exact (C47_picked_partial L hs hj hq hl hk ha hlen hcap
          (fun i hi _ => hdue i (Nat.le_trans hreads hi))).1

/-- C72: a Queued job that is due is in the hands of an execution at latest when the pending scan is `δ` late, if
every scan finds room for the whole queue and no request is about the job. So the wait is at most the tick
duration in force and `δ`. Missing for C72 as stated: the tick duration in force is the one of the last scan, not
the one configured (`C72_refuted`). -/
theorem C72_latency_partial (L : E.Lawful) (now : Nat) {ops ops' : List (TimedOp D O)} {j : Job D} {x d : Nat} {l : List (Nat × Nat)} :
    let t0 := start E name b.B clk (Sys.init b.B b.empty) now
    let t := run E name b.B clk t0 ops
    let u := fun n => run E name b.B clk t (ops'.take n)
    Obeys b E name clk (Orderly k) t0 ops → Prompt E name b.B clk δ t0 ops → t.sys.alive = true →
    (b.snap E name t.sys).job k = some j → j.context.jobStatus = .queued →
    (∀ i, (b.snap E name t.sys).reads ≤ i → j.Due (clk i)) → t.scans = (x, d) :: l →
    Prompt E name b.B clk δ t ops' →
    Obeys b E name clk (fun v op => NotAbout k op ∧
      (op = .tick → (v.lists .queued).length ≤ v.free ∧ (v.lists .queued).length < 2 ^ 31)) t ops' →
    x + d + δ < (run E name b.B clk t ops').now →
    ∃ n, (u n).now ≤ x + d + δ ∧ ((u n).sys.alive = false ∨ k ∈ (b.snap E name (u n).sys).inFlight) := by
  intro t0 t u ho hp ha hj hq hdue hs hp' ho' hend
  have h0 : Reach (O := O) b E name clk (Orderly k) t0.sys := .step (.tick : Op D O) .start (by intro _ _ h; cases h)
  have hr := obeys_reach h0 ho
  obtain ⟨y, d', l', hs', _, ht⟩ := C72_pending (E := E) (name := name) (clk := clk) (Sys.init b.B b.empty) now ops
  have hs' : t.scans = (y, d') :: l' := hs'
  rw [hs] at hs'
  simp only [List.cons.injEq, Prod.mk.injEq] at hs'
  obtain ⟨⟨rfl, rfl⟩, rfl⟩ := hs'
  have ht : t.timers = [x + d] := by rw [show t.timers = _ from ht, if_pos ha]
  have hot := onTime_run (armed_start _ now) (onTime_start _ now) hp
  have hsolo := solo_of L hr hj
  have hst : (b.snap E name t.sys).status k = some .queued := by
    show Option.map _ _ = _
    rw [hj, ← hq]; rfl
  refine picked_in_time L hr hj hq hdue t hr .refl (Nat.le_refl _) ?_ ha ht (hot.last _ ?_) hp' ho' hend
  · rw [← List.count_eq_zero, hsolo.running, if_neg (by rw [hst]; simp)]
  · show x + d ∈ t.timers
    rw [ht]; exact List.mem_singleton.mpr rfl

end

open Demo

/-- A scan of a concrete work queue. -/
theorem fire_on (b : Impl) (l : List (Op Int Unit)) {now x : Nat} {sc : List (Nat × Nat)}
    (ha : (see (l ++ [.tick])).alive = true) (hx : x ≤ now) :
    step E c!"print" b.B clk ⟨on b l, now, [x], sc⟩ (.fire 0 : TimedOp Int Unit) =
      ⟨on b (l ++ [.tick]), now, [now + (see (l ++ [.tick])).cfg.processTickDuration],
        (now, (see (l ++ [.tick])).cfg.processTickDuration) :: sc⟩ := by
  rw [← see_on b] at ha ⊢
  show (if x ≤ now then _ else _) = _
  rw [if_pos hx, on_snoc] at *
  have ha : (Sys.step E c!"print" b.B clk (on b l) (.tick : Op Int Unit)).1.alive = true := ha
  show Timed.mk _ _ (if _ then _ else _) _ = _
  rw [if_pos ha]
  rfl

/-- A callback does not run early. -/
theorem fire_early {B : Backend} (s : Sys Int B) {now x : Nat} {sc : List (Nat × Nat)} (h : now < x) :
    step E c!"print" B clk ⟨s, now, [x], sc⟩ (.fire 0 : TimedOp Int Unit) = ⟨s, now, [x], sc⟩ := by
  show (if x ≤ now then scan E c!"print" B clk ⟨s, now, [], sc⟩ else _) = _
  rw [if_neg (by omega)]

/-- A turn of a concrete work queue. -/
theorem turn_on (b : Impl) (l : List (Op Int Unit)) {now : Nat} {tm : List Nat} {sc : List (Nat × Nat)} (op : Op Int Unit)
    (ho : op ≠ .tick) (ha : (see (l ++ [op])).alive = true) :
    step E c!"print" b.B clk ⟨on b l, now, tm, sc⟩ (.turn op) = ⟨on b (l ++ [op]), now, tm, sc⟩ := by
  rw [← see_on b, on_snoc] at ha
  rw [on_snoc]
  have ha : (Sys.step E c!"print" b.B clk (on b l) op).1.alive = true := ha
  cases op with
  | tick => exact absurd rfl ho
  | _ =>
    show Timed.mk _ _ (if _ then _ else _) _ = _
    rw [if_pos ha]

/-- The start of a concrete work queue. -/
theorem start_on (b : Impl) : start E c!"print" b.B clk (Sys.init b.B b.empty) 0 = ⟨on b [.tick], 0, [100], [(0, 100)]⟩ := by
  have ha : (b.snap E c!"print" (on b [.tick])).alive = true := by rw [see_on]; decide +kernel
  have hc : (b.snap E c!"print" (on b [.tick])).cfg.processTickDuration = 100 := by rw [see_on]; decide +kernel
  have ha : (on b [.tick]).alive = true := ha
  have hc : (on b [.tick]).cfg.processTickDuration = 100 := hc
  show Timed.mk (on b [.tick]) 0 (if (on b [.tick]).alive then [0 + (on b [.tick]).cfg.processTickDuration] else [])
    [(0, (on b [.tick]).cfg.processTickDuration)] = _
  rw [if_pos ha, hc]

/-- A work queue with a tick duration of 5000 that is then configured to 10, and gets a job. -/
def slowed : List (TimedOp Int Unit) :=
  [.turn (.config { processTickDuration := 5000 }), .pass 100, .fire 0, .turn (.config { processTickDuration := 10 }),
    .turn (.enqueue (job c!"a") .newReRun)]

/-- The turns of this history. -/
def slowedTurns : List (Op Int Unit) :=
  [.tick, .config { processTickDuration := 5000 }, .tick, .config { processTickDuration := 10 },
    .enqueue (job c!"a") .newReRun]

private theorem slowed_steps (b : Impl) :
    let t0 : Timed Int b.B := ⟨on b [.tick], 0, [100], [(0, 100)]⟩
    let t1 : Timed Int b.B := ⟨on b (slowedTurns.take 2), 0, [100], [(0, 100)]⟩
    let t2 : Timed Int b.B := ⟨on b (slowedTurns.take 2), 100, [100], [(0, 100)]⟩
    let t3 : Timed Int b.B := ⟨on b (slowedTurns.take 3), 100, [5100], [(100, 5000), (0, 100)]⟩
    let t4 : Timed Int b.B := ⟨on b (slowedTurns.take 4), 100, [5100], [(100, 5000), (0, 100)]⟩
    let t5 : Timed Int b.B := ⟨on b slowedTurns, 100, [5100], [(100, 5000), (0, 100)]⟩
    step E c!"print" b.B clk t0 (.turn (.config { processTickDuration := 5000 }) : TimedOp Int Unit) = t1 ∧
    step E c!"print" b.B clk t1 (.pass 100 : TimedOp Int Unit) = t2 ∧
    step E c!"print" b.B clk t2 (.fire 0 : TimedOp Int Unit) = t3 ∧
    step E c!"print" b.B clk t3 (.turn (.config { processTickDuration := 10 }) : TimedOp Int Unit) = t4 ∧
    step E c!"print" b.B clk t4 (.turn (.enqueue (job c!"a") .newReRun) : TimedOp Int Unit) = t5 := by
  refine ⟨turn_on b [.tick] _ (by intro h; cases h) (by decide +kernel), rfl, ?_,
    turn_on b (slowedTurns.take 3) _ (by intro h; cases h) (by decide +kernel),
    turn_on b (slowedTurns.take 4) _ (by intro h; cases h) (by decide +kernel)⟩
  have := fire_on b (slowedTurns.take 2) (now := 100) (x := 100) (sc := [(0, 100)]) (by decide +kernel) (Nat.le_refl _)
  have e : (see (slowedTurns.take 2 ++ [.tick])).cfg.processTickDuration = 5000 := by decide +kernel
  rw [e] at this
  exact this

private theorem slowed_end (b : Impl) :
    run E c!"print" b.B clk (start E c!"print" b.B clk (Sys.init b.B b.empty) 0) slowed =
      ⟨on b slowedTurns, 100, [5100], [(100, 5000), (0, 100)]⟩ := by
  obtain ⟨h1, h2, h3, h4, h5⟩ := slowed_steps b
  rw [start_on]
  simp only [run, slowed, List.foldl_cons, List.foldl_nil, h1, h2, h3, h4, h5]

private theorem slowed_prompt (b : Impl) :
    Prompt E c!"print" b.B clk 0 (start E c!"print" b.B clk (Sys.init b.B b.empty) 0) slowed := by
  obtain ⟨h1, h2, h3, h4, h5⟩ := slowed_steps b
  rw [start_on]
  simp only [Prompt, slowed, h1, h2, h3, h4]
  refine ⟨fun d h => (by cases h), ?_, fun d h => (by cases h), fun d h => (by cases h), fun d h => (by cases h), trivial⟩
  intro d h x hx
  cases h
  rw [List.mem_singleton.mp hx]

private theorem slowed_obeys (b : Impl) :
    Timed.Obeys b E c!"print" clk (Orderly c!"a") (start E c!"print" b.B clk (Sys.init b.B b.empty) 0) slowed := by
  obtain ⟨h1, h2, h3, h4, h5⟩ := slowed_steps b
  rw [start_on]
  simp only [Timed.Obeys, slowed, h1, h2, h3, h4]
  have hv : (b.snap E c!"print" (on b (slowedTurns.take 4))).lists .queued = [] ∧
      (b.snap E c!"print" (on b (slowedTurns.take 4))).job c!"a" = none := by rw [see_on]; decide +kernel
  refine ⟨?_, ?_, ?_, ?_, ?_, ?_, ?_, ?_, ?_, ?_, trivial⟩
  all_goals first
    | (intro o h; cases h; done)
    | (intro o h; cases h; intro job cfg e; cases e; done)
    | skip
  intro o h; cases h
  intro job' cfg e hid
  cases e
  refine ⟨fun _ => (by rw [hv.1]; simp), fun ex hex => ?_⟩
  rw [hv.2] at hex; cases hex

/-- C72 is false: the tick duration is 10, the job is Queued and due, there is room for it, timers are never late,
and yet 4000 go by in which nothing starts it. -/
theorem C72_refuted (b : Impl) :
    let t0 := start E c!"print" b.B clk (Sys.init b.B b.empty) 0
    let t := run E c!"print" b.B clk t0 slowed
    let ops' : List (TimedOp Int Unit) := [.pass 4000]
    Prompt E c!"print" b.B clk 0 t0 slowed ∧ Timed.Obeys b E c!"print" clk (Orderly c!"a") t0 slowed ∧
    Prompt E c!"print" b.B clk 0 t ops' ∧ t.sys.alive = true ∧ t.sys.cfg.processTickDuration = 10 ∧
    (∃ j, (b.snap E c!"print" t.sys).job c!"a" = some j ∧ j.context.jobStatus = .queued ∧ ∀ i, j.Due (clk i)) ∧
    ((b.snap E c!"print" t.sys).lists .queued).length ≤ (b.snap E c!"print" t.sys).free ∧
    (run E c!"print" b.B clk t ops').now = t.now + 4000 ∧
    ∀ n, (run E c!"print" b.B clk t (ops'.take n)).sys.alive = true ∧
      c!"a" ∉ (b.snap E c!"print" (run E c!"print" b.B clk t (ops'.take n)).sys).inFlight := by
  intro t0 t ops'
  have e : t = ⟨on b slowedTurns, 100, [5100], [(100, 5000), (0, 100)]⟩ := slowed_end b
  have ha : (b.snap E c!"print" (on b slowedTurns)).alive = true := by rw [see_on]; decide +kernel
  have hi : c!"a" ∉ (b.snap E c!"print" (on b slowedTurns)).inFlight := by rw [see_on]; decide +kernel
  have hc : (b.snap E c!"print" (on b slowedTurns)).cfg.processTickDuration = 10 := by rw [see_on]; decide +kernel
  refine ⟨slowed_prompt b, slowed_obeys b, ?_, ?_, ?_, ?_, ?_, rfl, ?_⟩
  · rw [e]
    refine ⟨fun d h x hx => ?_, trivial⟩
    cases h
    rw [List.mem_singleton.mp hx]
    show 100 + 4000 ≤ 5100 + 0
    omega
  · rw [e]; exact ha
  · rw [e]; exact hc
  · rw [e, see_on]
    have h1 : ((see slowedTurns).job c!"a").map (fun j => (j.context.jobStatus, j.context.jobType)) = some (.queued, .normal) := by
      decide +kernel
    obtain ⟨j, hj, h2⟩ := Option.map_eq_some_iff.mp h1
    simp only [Prod.mk.injEq] at h2
    refine ⟨j, hj, h2.1, fun i => ?_⟩
    unfold Job.Due
    rw [h2.2]
    trivial
  · rw [e, see_on]; decide +kernel
  · intro n
    have : (run E c!"print" b.B clk t (ops'.take n)).sys = on b slowedTurns := by
      rw [e]
      cases n with
      | zero => rfl
      | succ n => rw [show ops'.take (n + 1) = ops' by simp [ops']]; rfl
    rw [this]
    exact ⟨ha, hi⟩

/-- The hypotheses of `C72_latency_partial` and of `C72_spacing`: the scan comes at last, and starts the job. -/
example (b : Impl) :
    let t := run E c!"print" b.B clk (start E c!"print" b.B clk (Sys.init b.B b.empty) 0) slowed
    let ops' : List (TimedOp Int Unit) := [.pass 5000, .fire 0, .pass 1]
    t.scans = [(100, 5000), (0, 100)] ∧ Prompt E c!"print" b.B clk 0 t ops' ∧
    Timed.Obeys b E c!"print" clk (fun v op => NotAbout c!"a" op ∧
      (op = .tick → (v.lists .queued).length ≤ v.free ∧ (v.lists .queued).length < 2 ^ 31)) t ops' ∧
    100 + 5000 + 0 < (run E c!"print" b.B clk t ops').now ∧
    (run E c!"print" b.B clk t ops').scans = [(5100, 10), (100, 5000), (0, 100)] ∧
    c!"a" ∈ (b.snap E c!"print" (run E c!"print" b.B clk t ops').sys).inFlight := by
  intro t ops'
  have e : t = ⟨on b slowedTurns, 100, [5100], [(100, 5000), (0, 100)]⟩ := slowed_end b
  have hf := fire_on b slowedTurns (now := 5100) (x := 5100) (sc := [(100, 5000), (0, 100)]) (by decide +kernel) (Nat.le_refl _)
  have ec : (see (slowedTurns ++ [.tick])).cfg.processTickDuration = 10 := by decide +kernel
  have hv : ((b.snap E c!"print" (on b slowedTurns)).lists .queued).length ≤ (b.snap E c!"print" (on b slowedTurns)).free ∧
      ((b.snap E c!"print" (on b slowedTurns)).lists .queued).length < 2 ^ 31 := by rw [see_on]; decide +kernel
  rw [ec] at hf
  have h1 : step E c!"print" b.B clk ⟨on b slowedTurns, 100, [5100], [(100, 5000), (0, 100)]⟩ (.pass 5000 : TimedOp Int Unit) =
      ⟨on b slowedTurns, 5100, [5100], [(100, 5000), (0, 100)]⟩ := rfl
  have er : run E c!"print" b.B clk t ops' =
      ⟨on b (slowedTurns ++ [.tick]), 5101, [5110], [(5100, 10), (100, 5000), (0, 100)]⟩ := by
    rw [e]
    simp only [run, ops', List.foldl_cons, List.foldl_nil, h1, hf]
    rfl
  refine ⟨by rw [e], ?_, ?_, by rw [er]; show 100 + 5000 + 0 < 5101; omega, by rw [er], by rw [er, see_on]; decide +kernel⟩
  · rw [e]
    simp only [Prompt, ops', h1, hf]
    refine ⟨fun d h x hx => ?_, fun d h => (by cases h), fun d h x hx => ?_, trivial⟩
    · cases h
      rw [List.mem_singleton.mp hx]
    · cases h
      rw [List.mem_singleton.mp hx]
      show 5100 + 1 ≤ 5110 + 0
      omega
  · rw [e]
    simp only [Timed.Obeys, ops', h1, hf]
    refine ⟨fun o h => (by cases h), fun o h => (by cases h), fun o h => (by cases h), ?_, fun o h => (by cases h), fun o h => (by cases h), trivial⟩
    intro i h
    cases h
    refine ⟨⟨fun _ _ h => (by cases h), (by intro h; cases h), (by intro h; cases h)⟩, fun _ => ?_⟩
    exact hv

/-- The case of `C72_unmoved` and of `C72_pending`: no scan before 5100, though the tick duration is 10. -/
example (b : Impl) :
    let t := run E c!"print" b.B clk (start E c!"print" b.B clk (Sys.init b.B b.empty) 0) slowed
    t.timers = [5100] ∧ t.sys.cfg.processTickDuration = 10 ∧
    (run E c!"print" b.B clk t [.pass 4000, (.fire 0 : TimedOp Int Unit)]).now < 100 + 5000 ∧
    (run E c!"print" b.B clk t [.pass 4000, (.fire 0 : TimedOp Int Unit)]).scans = t.scans := by
  intro t
  have e : t = ⟨on b slowedTurns, 100, [5100], [(100, 5000), (0, 100)]⟩ := slowed_end b
  have hc : (b.snap E c!"print" (on b slowedTurns)).cfg.processTickDuration = 10 := by rw [see_on]; decide +kernel
  have h1 : step E c!"print" b.B clk t (.pass 4000 : TimedOp Int Unit) = ⟨on b slowedTurns, 4100, [5100], [(100, 5000), (0, 100)]⟩ := by
    rw [e]; rfl
  have h2 : step E c!"print" b.B clk ⟨on b slowedTurns, 4100, [5100], [(100, 5000), (0, 100)]⟩ (.fire 0 : TimedOp Int Unit) =
      ⟨on b slowedTurns, 4100, [5100], [(100, 5000), (0, 100)]⟩ := by
    exact fire_early _ (by omega)
  simp only [run, List.foldl_cons, List.foldl_nil, h1, h2]
  rw [e]
  exact ⟨rfl, hc, by omega, rfl⟩

/-- The case of `C72_rate`: three scans of a work queue as it is configured by default, in 250 ms. -/
example :
    let ops : List (TimedOp Int Unit) := [.pass 100, .fire 0, .turn (.enqueue (job c!"a") .newReRun), .pass 100, .fire 0, .pass 50]
    let t := run E c!"print" Impl.memory.B clk (start E c!"print" Impl.memory.B clk (Sys.init _ Impl.memory.empty) 0) ops
    (∀ op ∈ ops, op.KeepsConfig) ∧ t.sys.alive = true ∧ t.scans = [(200, 100), (100, 100), (0, 100)] ∧ t.now = 250 := by
  intro ops t
  refine ⟨?_, by decide +kernel, by decide +kernel, by decide +kernel⟩
  intro op h
  simp only [ops, List.mem_cons, List.not_mem_nil, or_false] at h
  rcases h with rfl | rfl | rfl | rfl | rfl | rfl <;> trivial

/-- The case of `C72_dead`: user code panics, and the pending scan goes with the actor. -/
example :
    let ops : List (TimedOp Int Unit) := [.turn (.enqueue (job c!"a") .newReRun), .pass 100, .fire 0, .turn (.start 0), .turn (.userPanic 0)]
    let t := run E c!"print" Impl.memory.B clk (start E c!"print" Impl.memory.B clk (Sys.init _ Impl.memory.empty) 0) ops
    t.sys.alive = false ∧ t.timers = [] ∧ t.scans = [(100, 100), (0, 100)] ∧
    (run E c!"print" Impl.memory.B clk t [.pass 1000, (.fire 0 : TimedOp Int Unit)]).scans = t.scans := by
  decide +kernel

end AJ.Props
