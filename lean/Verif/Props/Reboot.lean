import Verif.Proofs.Survive
import Verif.Props.WeaveRun

/-!
# Processes one after the other on the same backends (C82)
-/

namespace AJ.Props

section
open Boot
variable {D O : Type} {E : Nat → Env D} {kind : Str → Nat} {N : Nat → Str}

theorem last_rel (b : Impl) {s : Nat → b.B.S} {s' : Nat → SpecState} (h : ∀ β, b.sim.R (s β) (s' β)) (l : Boot D O) :
    Weave.Rel b (l.last E b.B s) (l.last E SpecB s') :=
  (⟨⟨rfl, rfl, h, rfl, rfl⟩, rfl, fun _ _ h => (by cases h)⟩ : Weave.Rel b (Weave.init b.B s : Weave D O b.B) (Weave.init SpecB s')).run l.ops

theorem left_rel (b : Impl) (ls : List (Boot D O)) : ∀ β, b.sim.R (leave E b.B (fun _ => b.empty) ls β) (leave E SpecB (fun _ => Spec.empty) ls β) :=
  (leave_rel b (fun _ => b.empty_rel) ls).1

theorem found_left (b : Impl) (ls : List (Boot D O)) (β ty : Nat) (n : Str) :
    found E b (leave E b.B (fun _ => b.empty) ls β) ty n = found E .spec (leave E SpecB (fun _ => Spec.empty) ls β) ty n :=
  found_rel b (left_rel (E := E) b ls β) ty n

theorem site_snap {b : Impl} {t : Site D O b.B} {n : Site D O SpecB} (h : Site.Rel b t n) (q : Nat) (a : QueueActor) :
    t.snap b E q a = n.snap .spec E q a :=
  Impl.snap_eq ⟨⟨h.stores _, congrArg (fun f => (f q).reads) h.boxes, congrArg (fun f => (f q).log) h.boxes⟩, congrArg (fun f => (f q).proc.cfg) h.boxes,
    congrArg (fun f => (f q).proc.tasks) h.boxes, congrArg (fun f => (f q).proc.alive) h.boxes⟩

/-- C82, every work queue as if alone through the processes: after processes one after the other, each of which may have died
anywhere with turns of several work queues in progress, what any work queue finds in its backend is what one work queue alone,
after turns, crashes in the midst of turns, and restarts (`Lives`), finds in its own.

Missing: processes in which several engines were started at once, job types that share ids or names, and a type under
different names. -/
theorem C82_lives_partial (b : Impl) (L : ∀ ty, (E ty).Lawful) (hN : ∀ i j, N i = N j → i = j) (ls : List (Boot D O))
    (hfit : ∀ l ∈ ls, l.Fit kind N) (h1 : Lone E b.B (fun _ => b.empty) ls) (a : QueueActor) (ha : a.name = N a.ty) :
    let v := found E b (leave E b.B (fun _ => b.empty) ls a.backend) a.ty a.name
    ∃ clk s, Lives (O := O) .spec (E a.ty) a.name clk (fun _ _ => True) (Sys.init Impl.spec.B Impl.spec.empty) s ∧
      (∀ st, v.lists st = (Impl.spec.snap (E a.ty) a.name s).lists st) ∧ ∀ k, kind k = a.ty → v.job k = (Impl.spec.snap (E a.ty) a.name s).job k := by
  intro v
  obtain ⟨x, hx⟩ := first L hN ls hfit ((leave_rel b (fun _ => b.empty_rel) ls).2.1 h1) a ha
  obtain ⟨c, n, l, -, h⟩ := hx.trail fun _ => 0
  refine ⟨c, _, h, fun st => ?_, fun k hk => ?_⟩
  · exact (congrArg (fun u => Snap.lists u st) (found_left b ls a.backend a.ty a.name)).trans (congrFun (found_part (E := E) hx.part).1 st)
  · exact (congrArg (fun u => Snap.job u k) (found_left b ls a.backend a.ty a.name)).trans (found_eq (E := E) hx.part hk).2

section
variable (b : Impl) (L : ∀ ty, (E ty).Lawful) (hN : ∀ i j, N i = N j → i = j) {k : Str} (before later : List (Boot D O))
  (hfit : ∀ l ∈ before ++ later, l.Fit kind N) (a : QueueActor) (ha : a.name = N a.ty)
include L hN hfit ha

/-- C82, waiting jobs survive: a job that is stored and has entries in the queued list when a process has died, however many
processes came before and however it died, is still stored, as it was or marked Running by a pick that was cut short, and has
the same number of entries in the queued list, after any number of later processes in which no request concerns it, each of
which may have died anywhere; unless it was in the running list at some moment of them.

Missing: as in `C82_lives_partial`; that one of them executes it, which is false (`C82_refuted`, see also `C82_picked_partial`). -/
theorem C82_survives_partial (hk : kind k = a.ty) (h1 : Lone E b.B (fun _ => b.empty) (before ++ later))
    (hno : ∀ l ∈ later, ∀ c req, .site (.begin c req) ∈ l.ops → ¬ req.Concerns k) {j : Job D} :
    let v := fun ls => found E b (leave E b.B (fun _ => b.empty) ls a.backend) a.ty a.name
    (v before).job k = some j →
    (∃ m, Moment m later ∧ k ∈ (v (before ++ m)).lists .running) ∨
    (((v (before ++ later)).lists .queued).count k = ((v before).lists .queued).count k ∧
      ((v (before ++ later)).job k = some j ∨ ∃ ms, (v (before ++ later)).job k = some { j with context := { j.context with
        jobStatus := .running, runAt := some ms } })) := by
  intro v hj
  refine or_iff_not_imp_left.2 fun hr => ?_
  have e : ∀ ls, v ls = found E .spec (leave E SpecB (fun _ => Spec.empty) ls a.backend) a.ty a.name := fun ls => found_left b ls _ _ _
  simp only [e] at hr hj ⊢
  have h := survives L hN (fun l hl => hfit l (List.mem_append_left _ hl)) (fun l hl => hfit l (List.mem_append_right _ hl))
    ((leave_rel b (fun _ => b.empty_rel) _).2.1 h1) hno ha hk (fun m hm hx => hr ⟨m, hm, hx⟩) hj
  exact ⟨h.count, h.job⟩

/-- C82, executing jobs are lost: a job that is stored as Running and has no entry in the queued list when a process has died, as
is the case for all jobs that it was executing (`C49_refuted`), is stored unchanged and has the same entries in all lists after any number of
later processes, whatever requests they serve; and it is not in flight in any of them. -/
theorem C82_lost (hk : kind k = a.ty) (h1 : Lone E b.B (fun _ => b.empty) (before ++ later)) {j : Job D} :
    let v := fun ls => found E b (leave E b.B (fun _ => b.empty) ls a.backend) a.ty a.name
    (v before).job k = some j → j.context.jobStatus = .running → k ∉ (v before).lists .queued →
    ((v (before ++ later)).job k = some j ∧ ∀ st, ((v (before ++ later)).lists st).count k = ((v before).lists st).count k) ∧
    ∀ l : Boot D O, l.Fit kind N → let f := l.last E b.B (leave E b.B (fun _ => b.empty) (before ++ later))
      f.site.hub.engines.length ≤ 1 → ∀ q : Nat, f.site.hub.queues[q]? = some a → k ∉ (f.site.snap b E q a).inFlight := by
  intro v hj hst hq
  have e : ∀ ls, v ls = found E .spec (leave E SpecB (fun _ => Spec.empty) ls a.backend) a.ty a.name := fun ls => found_left b ls _ _ _
  simp only [e] at hj hq ⊢
  have hb := fun l hl => hfit l (List.mem_append_left _ hl)
  have hl := fun l hl => hfit l (List.mem_append_right _ hl)
  have h1' := (leave_rel b (fun _ => b.empty_rel) _).2.1 h1
  refine ⟨lost L hN hb hl h1' ha hk hj hst hq, fun l hfl h2 q hqa hm => ?_⟩
  have hrel := last_rel (E := E) b (left_rel (E := E) b (before ++ later)) l
  rw [hrel.site.hub] at hqa
  have h3 := lost_idle L hN hb hl hfl (lone_join h1' ⟨by rw [← hrel.site.hub]; exact h2, trivial⟩) ha hk hj hst hq hqa
  rw [site_snap hrel.site] at hm
  obtain ⟨t, ht, e⟩ := List.mem_map.1 hm
  have hmem := List.mem_filter (p := fun t : Task D => decide (t.orig.id = k)).2 ⟨ht, by simpa using e⟩
  unfold Snap.own at h3
  rw [h3] at hmem
  cases hmem

/-- C82, what it takes for a waiting job to be executed by a later process: there is a work queue of its type, that is, the
process has submitted a job of the type; it is between turns, alive, and has capacity for all queued jobs; and then it ticks. If
the job is due at that time, then after the tick it is in flight and in the running list.

Missing: as in `C82_lives_partial`; that there is such a work queue, which is false (`C82_refuted`). -/
theorem C82_picked_partial (hk : kind k = a.ty) (l : Boot D O) (hfl : l.Fit kind N) (p r : List (WeaveOp D O)) (he : l.ops = p ++ r)
    (h1 : Lone E b.B (fun _ => b.empty) (before ++ later ++ [l]))
    (hno : ∀ l' ∈ later ++ [{ l with ops := p }], ∀ c req, .site (.begin c req) ∈ l'.ops → ¬ req.Concerns k) {j : Job D} {q : Nat} {resp : Resp D} :
    let v := fun ls => found E b (leave E b.B (fun _ => b.empty) ls a.backend) a.ty a.name
    let f := Boot.last E b.B { l with ops := p } (leave E b.B (fun _ => b.empty) (before ++ later))
    let f' := l.last E b.B (leave E b.B (fun _ => b.empty) (before ++ later))
    let u := f.site.snap b E q a
    let u' := f'.site.snap b E q a
    (v before).job k = some j → k ∈ (v before).lists .queued →
    (∀ m, Moment m (later ++ [{ l with ops := p }]) → k ∉ (v (before ++ m)).lists .running) →
    f.site.hub.queues[q]? = some a → f.inside q = none → f'.inside q = none → turnsOf q f'.site.trace = turnsOf q f.site.trace ++ [(.tick, resp)] →
    u.alive = true → (u.lists .queued).length < 2 ^ 31 → (u.lists .queued).length ≤ u.free → (∀ i, u.reads ≤ i → i < u'.reads → j.Due (l.clk q i)) →
    k ∈ u'.inFlight ∧ k ∈ u'.lists .running ∧ u'.status k = some .running := by
  intro v f f' u u' hj hc hr hq hi hi' htr halive hlen hcap hdue
  have e : ∀ ls, v ls = found E .spec (leave E SpecB (fun _ => Spec.empty) ls a.backend) a.ty a.name := fun ls => found_left b ls _ _ _
  simp only [e] at hj hc hr
  have hf := last_rel (E := E) b (left_rel (E := E) b (before ++ later)) { l with ops := p }
  have hf' := last_rel (E := E) b (left_rel (E := E) b (before ++ later)) l
  have eu : u = _ := site_snap hf.site q a
  have eu' : u' = _ := site_snap hf'.site q a
  rw [show f.site.hub = _ from hf.site.hub] at hq
  rw [show f.inside = _ from hf.inside] at hi
  rw [show f'.inside = _ from hf'.inside] at hi'
  rw [show f'.site.trace = _ from hf'.site.trace, show f.site.trace = _ from hf.site.trace] at htr
  rw [eu'] at hdue ⊢
  rw [eu] at halive hlen hcap hdue
  exact picked L hN (fun l hl => hfit l (List.mem_append_left _ hl)) (fun l hl => hfit l (List.mem_append_right _ hl)) hfl he
    ((leave_rel b (fun _ => b.empty_rel) _).2.1 h1) hno ha hk hr hj hc hq hi hi' htr halive hlen hcap hdue

end

/-- C82, processes that do not submit a job of the type: none of them has a work queue of the type, and after them everything about the
jobs of the type is in the backends as it was. -/
theorem C82_unregistered (b : Impl) (L : ∀ ty, (E ty).Lawful) (hN : ∀ i j, N i = N j → i = j) (before later : List (Boot D O))
    (hfit : ∀ l ∈ before ++ later, l.Fit kind N) (h1 : Lone E b.B (fun _ => b.empty) (before ++ later)) (ty : Nat)
    (hns : ∀ l ∈ later, ∀ c req, .site (.begin c req) ∈ l.ops → ¬ req.Submits ty) :
    let v := fun ls β => found E b (leave E b.B (fun _ => b.empty) ls β) ty (N ty)
    (∀ β, (v (before ++ later) β).lists = (v before β).lists ∧ ∀ k, kind k = ty → (v (before ++ later) β).job k = (v before β).job k) ∧
      ∀ done l rest, later = done ++ l :: rest →
        ∀ a ∈ (l.last E b.B (leave E b.B (fun _ => b.empty) (before ++ done))).site.hub.queues, a.ty ≠ ty := by
  intro v
  induction later generalizing before with
  | nil =>
    refine ⟨fun β => by rw [List.append_nil]; exact ⟨rfl, fun _ _ => rfl⟩, fun done l rest e => ?_⟩
    cases done <;> cases e
  | cons l ls ih =>
    have e : before ++ l :: ls = before ++ [l] ++ ls := by rw [List.append_assoc]; rfl
    have h1' := h1
    rw [e] at hfit h1'
    have hrel := last_rel (E := E) b (left_rel (E := E) b before) l
    have h2 := (leave_rel (E := E) b (fun _ => b.empty_rel) _).2.1 h1'
    obtain ⟨h3, h4⟩ := lone_append (lone_append h2).1
    obtain ⟨h5, h6⟩ := unused L hN (fun l' hl' => hfit l' (List.mem_append_left _ (List.mem_append_left _ hl'))) h3
      (hfit l (List.mem_append_left _ (List.mem_append_right _ (List.mem_singleton.2 rfl)))) h4.1 (hns l (List.mem_cons_self ..))
    obtain ⟨i1, i2⟩ := ih (before ++ [l]) hfit h1' (fun l' hl' => hns l' (List.mem_cons_of_mem _ hl'))
    refine ⟨fun β => ?_, fun done l' rest ed => ?_⟩
    · obtain ⟨j1, j2⟩ := i1 β
      have hv : (v (before ++ [l]) β).lists = (v before β).lists ∧ ∀ k, kind k = ty → (v (before ++ [l]) β).job k = (v before β).job k := by
        show (found E b _ ty (N ty)).lists = (found E b _ ty (N ty)).lists ∧ ∀ k, kind k = ty → (found E b _ ty (N ty)).job k = (found E b _ ty (N ty)).job k
        rw [found_left, found_left, leave_append]
        exact found_part (h6 β)
      rw [e]
      exact ⟨j1.trans hv.1, fun k hk => (j2 k hk).trans (hv.2 k hk)⟩
    · cases done with
      | nil =>
        cases ed
        rw [List.append_nil, hrel.site.hub]
        exact h5
      | cons d done =>
        cases ed
        have := i2 done l' rest rfl
        rwa [List.append_assoc] at this

end

/-! ## Examples -/

open Demo

/-- Ids of the two types. -/
def sort (id : Str) : Nat := if id = c!"b" ∨ id = c!"c" then 5 else 4

/-- A process with its clock. -/
def boot (ops : List (WeaveOp Int Unit)) : Boot Int Unit := ⟨fun _ => clk, ops⟩

/-- A client starts AJ on backend 7. -/
def opening : List (WeaveOp Int Unit) := (Site.starting 0 7).map .site

/-- Client `2` submits a job of a type that has no work queue yet, and the message is handled. -/
def firstOf (ty : Nat) (j : Job Int) : List (WeaveOp Int Unit) :=
  [.site (.begin 2 (.submit ty (letters ty) j .newReRun)), .site (.client 2 false), .site (.client 2 false), .site (.engine 0), .site (.engine 0),
   .site (.engine 0), .site (.engine 0), .site (.post 2), .site (.handle 0 0)] ++ List.replicate 12 (.go 0) ++ [.site (.take 2)]

/-- A tick of the first work queue. -/
def ticking : List (WeaveOp Int Unit) := .site (.turn 0 .tick) :: List.replicate 24 (.go 0)

/-- The first work queue ticks and starts an execution. -/
def shift : List (WeaveOp Int Unit) := ticking ++ .site (.turn 0 (.start 0)) :: List.replicate 4 (.go 0)

/-- A process submits a job of one type, and dies after `n` more steps. -/
def life (ty : Nat) (j : Job Int) (n : Nat) : Boot Int Unit := boot (opening ++ firstOf ty j ++ shift.take n)

/-- A process accepts job `b` and dies. -/
def accepting : Boot Int Unit := life 5 (job c!"b" 2) 0

/-- Or it dies in the midst of the tick that picks the job: the job is marked Running, but is still in the queued list. -/
def picking : Boot Int Unit := life 5 (job c!"b" 2) 9

/-- Or it dies while it executes the job. -/
def executing : Boot Int Unit := life 5 (job c!"b" 2) 30

/-- Another process executes a job of another type. -/
def unrelated : Boot Int Unit := life 4 (job c!"a") 30

/-- And one more submits another job of the type of `b`, and ticks. -/
def reviving : Boot Int Unit := life 5 (job c!"c" 3) 25

/-- The last one up to the tick. -/
def paused : Boot Int Unit := { reviving with ops := opening ++ firstOf 5 (job c!"c" 3) }

/-- The backends after these processes. -/
def left (b : Impl) (ls : List (Boot Int Unit)) : Nat → b.B.S := Boot.leave (fun _ => E) b.B (fun _ => b.empty) ls

/-- The jobs of type `ty` there. -/
def there (b : Impl) (ls : List (Boot Int Unit)) (ty : Nat) : Snap Int := Boot.found (fun _ => E) b (left b ls 7) ty (letters ty)

/-- One more process. -/
def afterwards (b : Impl) (ls : List (Boot Int Unit)) (l : Boot Int Unit) : Weave Int Unit b.B := l.last (fun _ => E) b.B (left b ls)

/-- The same on any backend. -/
theorem there_on (b : Impl) (ls : List (Boot Int Unit)) (ty : Nat) : there b ls ty = there .memory ls ty :=
  (found_left b ls 7 ty (letters ty)).trans (found_left .memory ls 7 ty (letters ty)).symm

theorem afterwards_on (b : Impl) (ls : List (Boot Int Unit)) (l : Boot Int Unit) :
    (afterwards b ls l).site.trace = (afterwards .memory ls l).site.trace ∧ (afterwards b ls l).site.hub = (afterwards .memory ls l).site.hub ∧
      (afterwards b ls l).inside = (afterwards .memory ls l).inside ∧
      ∀ q a, (afterwards b ls l).site.snap b (fun _ => E) q a = (afterwards .memory ls l).site.snap .memory (fun _ => E) q a := by
  have h := last_rel (E := fun _ => E) b (left_rel (E := fun _ => E) b ls) l
  have h' := last_rel (E := fun _ => E) .memory (left_rel (E := fun _ => E) .memory ls) l
  exact ⟨h.site.trace.trans h'.site.trace.symm, h.site.hub.trans h'.site.hub.symm, h.inside.trans h'.inside.symm,
    fun q a => (site_snap h.site q a).trans (site_snap h'.site q a).symm⟩

theorem opening_begin {c : Nat} {req : Req Int} (h : .site (.begin c req) ∈ opening) : req = .start 7 := by
  simp [opening, Site.starting] at h
  exact h.2

theorem firstOf_begin {ty : Nat} {j : Job Int} {c : Nat} {req : Req Int} (h : .site (.begin c req) ∈ firstOf ty j) :
    req = .submit ty (letters ty) j .newReRun := by
  simp [firstOf] at h
  exact h.2

theorem shift_begin {c : Nat} {req : Req Int} {n : Nat} (h : .site (.begin c req) ∈ shift.take n) : False := by
  have := List.mem_of_mem_take h
  simp [shift, ticking] at this

/-- The requests of these processes. -/
theorem asks {ty : Nat} {j : Job Int} {n c : Nat} {req : Req Int} (h : .site (.begin c req) ∈ (life ty j n).ops) :
    req = .start 7 ∨ req = .submit ty (letters ty) j .newReRun := by
  rcases List.mem_append.1 (show _ ∈ opening ++ firstOf ty j ++ shift.take n from h) with h | h
  · rcases List.mem_append.1 h with h | h
    · exact .inl (opening_begin h)
    · exact .inr (firstOf_begin h)
  · exact (shift_begin h).elim

theorem fits {ty : Nat} {j : Job Int} (h : sort j.id = ty) (n : Nat) : (life ty j n).Fit sort letters := by
  intro c req hm
  rcases asks hm with rfl | rfl
  · exact ⟨trivial, trivial⟩
  · exact ⟨h, rfl⟩

/-- Whether all moments have a property can be computed. -/
theorem moments_of {D O : Type} {P : List (Boot D O) → Prop} (ls : List (Boot D O)) (h0 : P [])
    (h : ∀ i ∈ List.range ls.length, ∀ l, ls[i]? = some l → ∀ n ∈ List.range (l.ops.length + 1), P (ls.take i ++ [{ l with ops := l.ops.take n }])) :
    ∀ m, Boot.Moment m ls → P m := by
  rintro m (rfl | ⟨done, l, rest, p, rfl, hp, rfl⟩)
  · exact h0
  · have := h done.length (List.mem_range.2 (by simp)) l (by simp) p.length (List.mem_range.2 (Nat.lt_succ_of_le hp.length_le))
    rw [List.take_left, ← List.prefix_iff_eq_take.1 hp] at this
    exact this

/-- The processes start one engine each. -/
theorem lone_on (b : Impl) (ls : List (Boot Int Unit)) (h : Boot.Lone (fun _ => E) Impl.memory.B (fun _ => Impl.memory.empty) ls) :
    Boot.Lone (fun _ => E) b.B (fun _ => b.empty) ls :=
  (Boot.leave_rel b (fun _ => b.empty_rel) ls).2.2 ((Boot.leave_rel .memory (fun _ => Impl.memory.empty_rel) ls).2.1 h)

/-- `b` is accepted. -/
def accepted (tr : List (SiteEvent Int Unit)) : Bool := tr.any fun
  | .ret _ (.submit 5 _ j _) (.answer (.unit (.ok ()))) => j.id == c!"b"
  | _ => false

/-- C82 is false: a process accepts job `b`, which then waits in the backend. No later process executes it, however many there are and whatever
they do, unless it submits a job of that type: none of them has a work queue of the type, and the job waits as before. -/
theorem C82_refuted (b : Impl) :
    accepted (afterwards b [] accepting).site.trace = true ∧ (there b [accepting] 5).lists .queued = [c!"b"] ∧ (there b [accepting] 5).status c!"b" = some .queued ∧
    ∀ later : List (Boot Int Unit), (∀ l ∈ later, l.Fit sort letters) → Boot.Lone (fun _ => E) b.B (fun _ => b.empty) (accepting :: later) →
      (∀ l ∈ later, ∀ c req, .site (.begin c req) ∈ l.ops → ¬ req.Submits 5) →
      ((there b (accepting :: later) 5).lists .queued = [c!"b"] ∧ (there b (accepting :: later) 5).status c!"b" = some .queued) ∧
      ∀ done l rest, later = done ++ l :: rest → ∀ a ∈ (afterwards b (accepting :: done) l).site.hub.queues, a.ty ≠ 5 := by
  have h1 : (there b [accepting] 5).lists .queued = [c!"b"] := by rw [there_on]; decide +kernel
  have h2 : (there b [accepting] 5).status c!"b" = some .queued := by rw [there_on]; decide +kernel
  refine ⟨by rw [(afterwards_on b _ _).1]; decide +kernel, h1, h2, fun later hf hl hn => ?_⟩
  obtain ⟨h3, h4⟩ := C82_unregistered (E := fun _ => E) (kind := sort) b (fun _ => lawful) letters_inj [accepting] later
    (fun l hm => (List.mem_append.1 hm).elim (fun hm => by rw [List.mem_singleton.1 hm]; exact fits (by decide) 0) (hf l)) hl 5 hn
  obtain ⟨h5, h6⟩ := h3 7
  refine ⟨⟨(congrFun h5 .queued).trans h1, ?_⟩, h4⟩
  exact (congrArg (Option.map _) (h6 c!"b" (by decide))).trans h2

/-- Such later processes exist, and execute jobs: `unrelated` is one. -/
example (b : Impl) : (there b [accepting, unrelated] 5).lists .queued = [c!"b"] ∧ (there b [accepting, unrelated] 4).lists .running = [c!"a"] := by
  refine ⟨((C82_refuted b).2.2.2 [unrelated] (fun l hl => by rw [List.mem_singleton.1 hl]; exact fits (by decide) 30) (lone_on b _ ?_) fun l hl c req hm => ?_).1.1, ?_⟩
  · exact ⟨by decide +kernel, by decide +kernel, trivial⟩
  · rw [List.mem_singleton.1 hl] at hm
    rcases asks hm with rfl | rfl
    · exact id
    · exact (by decide : ¬ (4 = 5))
  · rw [there_on]; decide +kernel

theorem three_lone (b : Impl) : Boot.Lone (fun _ => E) b.B (fun _ => b.empty) ([picking] ++ [unrelated] ++ [reviving]) :=
  lone_on b _ ⟨by decide +kernel, by decide +kernel, by decide +kernel, trivial⟩

theorem three_fit : ∀ l ∈ [picking] ++ [unrelated], l.Fit sort letters := by
  intro l hl
  simp only [List.singleton_append, List.mem_cons, List.not_mem_nil, or_false] at hl
  rcases hl with rfl | rfl
  · exact fits (by decide) 9
  · exact fits (by decide) 30

/-- No request of `unrelated` and `reviving` is about `b`. -/
theorem not_about_b : ∀ l ∈ [unrelated] ++ [paused], ∀ c req, .site (.begin c req) ∈ l.ops → ¬ req.Concerns c!"b" := by
  intro l hl c req hm
  simp only [List.singleton_append, List.mem_cons, List.not_mem_nil, or_false] at hl
  rcases hl with rfl | rfl
  · rcases asks hm with rfl | rfl
    · rintro (h | ⟨_, h⟩) <;> cases h
    · rintro (h | ⟨_, h⟩) <;> revert h
      · simp [Req.Touches]; decide
      · exact fun h => by cases h
  · rcases asks (ty := 5) (j := job c!"c" 3) (n := 0) (by rw [show (life 5 (job c!"c" 3) 0).ops = paused.ops ++ [] from rfl, List.append_nil]; exact hm) with rfl | rfl
    · rintro (h | ⟨_, h⟩) <;> cases h
    · rintro (h | ⟨_, h⟩) <;> revert h
      · simp [Req.Touches]; decide
      · exact fun h => by cases h

/-- `b` as `picking` leaves it. -/
def half : Job Int := ((there .memory [picking] 5).job c!"b").getD (job [])
theorem half_job (b : Impl) : (there b [picking] 5).job c!"b" = some half := by rw [there_on]; decide +kernel
theorem half_queued (b : Impl) : (there b [picking] 5).lists .queued = [c!"b"] := by rw [there_on]; decide +kernel

/-- It is marked Running, though nothing executes it. -/
example : half.context.jobStatus = .running ∧ (there .memory [picking] 5).lists .running = [] := by decide +kernel

theorem half_waits (b : Impl) : ∀ m, Boot.Moment m ([unrelated] ++ [paused]) →
    c!"b" ∉ (there b ([picking] ++ m) 5).lists .running := by
  simp only [there_on b]
  refine moments_of _ (by decide +kernel) ?_
  intro i hi l hl
  have hi := List.mem_range.1 hi
  match i, hi with
  | 0, _ => cases hl; decide +kernel
  | 1, _ => cases hl; decide +kernel

/-- `C82_lives_partial` and `C82_survives_partial` apply. -/
example (b : Impl) : ((there b ([picking] ++ [unrelated]) 5).lists .queued).count c!"b" = 1 := by
  rcases C82_survives_partial (E := fun _ => E) b (fun _ => lawful) letters_inj [picking] [unrelated] three_fit fifth rfl (k := c!"b") (by decide)
    (Boot.lone_append (three_lone b)).1 (fun l hl => not_about_b l (List.mem_append_left _ hl)) (half_job b) with ⟨m, hm, h⟩ | ⟨h, -⟩
  · refine absurd h (half_waits b m ?_)
    rcases hm with rfl | ⟨done, l, rest, p, e, hp, rfl⟩
    · exact .inl rfl
    · exact .inr ⟨done, l, rest ++ [paused], p, by rw [e]; simp, hp, rfl⟩
  · refine Eq.trans h ?_
    show ((there b [picking] 5).lists .queued).count c!"b" = 1
    rw [half_queued]
    decide

example (b : Impl) : ∃ clk s, Lives (O := Unit) .spec E (letters 5) clk (fun _ _ => True) (Sys.init Impl.spec.B Impl.spec.empty) s ∧
    (Impl.spec.snap E (letters 5) s).lists .queued = [c!"b"] := by
  obtain ⟨clk, s, h, h1, -⟩ := C82_lives_partial (E := fun _ => E) b (fun _ => lawful) letters_inj [picking]
    (fun l hl => three_fit l (List.mem_append_left _ hl)) (Boot.lone_append (Boot.lone_append (three_lone b)).1).1 fifth rfl
  exact ⟨clk, s, h, (h1 _).symm.trans (half_queued b)⟩

section
attribute [local irreducible] Boot.last Boot.leave Boot.found

theorem reviving_queue (b : Impl) : (afterwards b ([picking] ++ [unrelated]) paused).site.hub.queues[0]? = some fifth := by
  rw [(afterwards_on b _ _).2.1]; decide +kernel
theorem paused_idle (b : Impl) : (afterwards b ([picking] ++ [unrelated]) paused).inside 0 = none := by
  rw [(afterwards_on b _ _).2.2.1]; exact Option.isNone_iff_eq_none.1 (by decide +kernel)
theorem reviving_idle (b : Impl) : (afterwards b ([picking] ++ [unrelated]) reviving).inside 0 = none := by
  rw [(afterwards_on b _ _).2.2.1]; exact Option.isNone_iff_eq_none.1 (by decide +kernel)

/-- A last turn, and whether it is a tick. -/
def isTick : Option (Op Int Unit × Resp Int) → Bool
  | some (.tick, _) => true
  | _ => false

theorem tick_end {xs ys : List (Op Int Unit × Resp Int)} (h1 : (xs ++ ys).length = xs.length + 1) (h2 : isTick (xs ++ ys).getLast? = true) :
    ∃ r, xs ++ ys = xs ++ [(.tick, r)] := by
  rw [List.length_append] at h1
  match ys, h1 with
  | [], h1 => simp at h1
  | [(op, r)], _ =>
    simp only [List.getLast?_append, List.getLast?_singleton, Option.some_or] at h2
    refine ⟨r, ?_⟩
    cases op <;> first | rfl | cases h2
  | _ :: _ :: _, h1 => simp at h1

/-- Between them is one tick. -/
theorem reviving_tick (b : Impl) : ∃ resp, turnsOf 0 (afterwards b ([picking] ++ [unrelated]) reviving).site.trace =
    turnsOf 0 (afterwards b ([picking] ++ [unrelated]) paused).site.trace ++ [(.tick, resp)] := by
  have e : afterwards b ([picking] ++ [unrelated]) reviving = (afterwards b ([picking] ++ [unrelated]) paused).run (fun _ => E) b.B (fun _ => clk) ticking := by
    unfold afterwards Boot.last
    exact List.foldl_append ..
  obtain ⟨l, hl⟩ := Weave.run_trace (E := fun _ => E) (clk := fun _ => clk)
    (f := afterwards b ([picking] ++ [unrelated]) paused) (by unfold afterwards Boot.last; exact Weave.tidy_run (Weave.tidy_init _) _) ticking
  rw [← e] at hl
  have h1 : (turnsOf 0 (afterwards b ([picking] ++ [unrelated]) reviving).site.trace).length =
      (turnsOf 0 (afterwards b ([picking] ++ [unrelated]) paused).site.trace).length + 1 := by
    rw [(afterwards_on b _ _).1, (afterwards_on b _ paused).1]; decide +kernel
  have h2 : isTick (turnsOf 0 (afterwards b ([picking] ++ [unrelated]) reviving).site.trace).getLast? = true := by
    rw [(afterwards_on b _ _).1]; decide +kernel
  rw [hl, turnsOf_append] at h1 h2 ⊢
  exact tick_end h1 h2

/-- `C82_picked_partial` applies: the third process executes `b`, with `c`. -/
example (b : Impl) : c!"b" ∈ ((afterwards b ([picking] ++ [unrelated]) reviving).site.snap b (fun _ => E) 0 fifth).inFlight := by
  obtain ⟨resp, htick⟩ := reviving_tick b
  have hfit : reviving.Fit sort letters := fits (by decide) 25
  have h := C82_picked_partial (E := fun _ => E) b (fun _ => lawful) letters_inj [picking] [unrelated] three_fit fifth rfl (k := c!"b") (by decide)
    reviving hfit paused.ops ticking rfl (three_lone b) not_about_b (j := half) (q := 0) (resp := resp)
  have e := (afterwards_on b ([picking] ++ [unrelated]) paused).2.2.2 0 fifth
  refine (h (half_job b) ?_ (half_waits b) (reviving_queue b) (paused_idle b) (reviving_idle b) htick ?_ ?_ ?_ ?_).1
  · show c!"b" ∈ (there b [picking] 5).lists .queued
    rw [half_queued]; exact List.mem_singleton.2 rfl
  · show ((afterwards b ([picking] ++ [unrelated]) paused).site.snap b (fun _ => E) 0 fifth).alive = true
    rw [e]; decide +kernel
  · show (((afterwards b ([picking] ++ [unrelated]) paused).site.snap b (fun _ => E) 0 fifth).lists .queued).length < 2 ^ 31
    rw [e]; decide +kernel
  · show (((afterwards b ([picking] ++ [unrelated]) paused).site.snap b (fun _ => E) 0 fifth).lists .queued).length ≤
      ((afterwards b ([picking] ++ [unrelated]) paused).site.snap b (fun _ => E) 0 fifth).free
    rw [e]; decide +kernel
  · intro i _ _
    have : half.context.jobType = .normal := by decide +kernel
    unfold Job.Due
    rw [this]
    trivial

/-- `b` as `executing` leaves it. -/
def dying : Job Int := ((there .memory [executing] 5).job c!"b").getD (job [])
theorem executing_job (b : Impl) : (there b [executing] 5).job c!"b" = some dying := by rw [there_on]; decide +kernel

/-- `C82_lost` applies: `executing` dies while it executes `b`, and no later process executes it. -/
example (b : Impl) : c!"b" ∉ ((afterwards b ([executing] ++ [unrelated]) reviving).site.snap b (fun _ => E) 0 fifth).inFlight := by
  have hfit : ∀ l ∈ [executing] ++ [unrelated], l.Fit sort letters := by
    intro l hl
    simp only [List.singleton_append, List.mem_cons, List.not_mem_nil, or_false] at hl
    rcases hl with rfl | rfl
    · exact fits (by decide) 30
    · exact fits (by decide) 30
  have h := C82_lost (E := fun _ => E) b (fun _ => lawful) letters_inj [executing] [unrelated] hfit fifth rfl (k := c!"b") (by decide)
    (lone_on b _ ⟨by decide +kernel, by decide +kernel, trivial⟩) (executing_job b) (by decide +kernel)
  refine (h ?_).2 reviving (fits (by decide) 25) ?_ 0 ?_
  · show c!"b" ∉ (there b [executing] 5).lists .queued
    rw [there_on]; decide +kernel
  · show (afterwards b ([executing] ++ [unrelated]) reviving).site.hub.engines.length ≤ 1
    rw [(afterwards_on b _ _).2.1]; decide +kernel
  · show (afterwards b ([executing] ++ [unrelated]) reviving).site.hub.queues[0]? = some fifth
    rw [(afterwards_on b _ _).2.1]; decide +kernel

end
end AJ.Props
