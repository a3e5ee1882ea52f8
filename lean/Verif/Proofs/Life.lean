import Verif.Proofs.Inv

/-! # The life of one job, whatever happens to the others -/

namespace AJ
open W

section
variable {D O : Type} {E : Env D} {name : Str} {clk : Nat → Time}

/-- Only job `k` is touched between two states of the backend. -/
structure W.Touch (E : Env D) (name : Str) (k : Str) (w w' : W) : Prop where
  view : ∀ id, id ≠ k → W.view E w' id = W.view E w id
  count : ∀ id, id ≠ k → ∀ st, (lst name w' st).count id = (lst name w st).count id
  log : ∃ l : List Event, w'.log = w.log ++ l ∧ ∀ e ∈ l, e.id = k
  time : w.t ≤ w'.t
  /-- Entries of other jobs keep their order; new entries of `k` go to the front. -/
  order : ∀ st, ∃ n l, lst name w' st = List.replicate n k ++ l ∧ l.Sublist (lst name w st)

theorem W.Touch.refl (k : Str) (w : W) : Touch E name k w w :=
  ⟨fun _ _ => rfl, fun _ _ _ => rfl, ⟨[], by simp, by simp⟩, Nat.le_refl _, fun _ => ⟨0, _, rfl, .refl _⟩⟩

theorem W.Touch.trans {k : Str} {w w1 w2 : W} (h : Touch E name k w w1) (h' : Touch E name k w1 w2) :
    Touch E name k w w2 := by
  obtain ⟨l, h1, h2⟩ := h.log
  obtain ⟨l', h1', h2'⟩ := h'.log
  refine ⟨fun id hi => (h'.view id hi).trans (h.view id hi), fun id hi st => (h'.count id hi st).trans (h.count id hi st),
    ⟨l ++ l', by rw [h1', h1, List.append_assoc], ?_⟩, Nat.le_trans h.time h'.time, fun st => ?_⟩
  · intro e he
    rcases List.mem_append.mp he with he | he
    · exact h2 e he
    · exact h2' e he
  · obtain ⟨n, l1, e1, s1⟩ := h.order st
    obtain ⟨m, l2, e2, s2⟩ := h'.order st
    rw [e1] at s2
    obtain ⟨a, b, rfl, sa, sb⟩ := List.sublist_append_iff.mp s2
    obtain ⟨i, _, rfl⟩ := List.sublist_replicate_iff.mp sa
    exact ⟨m + i, b, by rw [e2, ← List.append_assoc, List.replicate_append_replicate], sb.trans s1⟩

theorem count_filter_ne (l : List Str) (k : Str) : (l.filter (· ≠ k)).count k = 0 := by
  rw [List.count_eq_zero]; simp

theorem count_filter_other (l : List Str) {k id : Str} (h : id ≠ k) : (l.filter (· ≠ k)).count id = l.count id := by
  rw [List.count_filter]; simpa using h

theorem W.Touch.tick (k : Str) (w : W) : Touch E name k w (tick w) :=
  ⟨fun _ _ => rfl, fun _ _ _ => rfl, ⟨[], by simp, by simp⟩, by simp, fun _ => ⟨0, _, rfl, .refl _⟩⟩
theorem W.Touch.upsert (j : Job D) (w : W) : Touch E name j.id w (upsert E j.id j w) :=
  ⟨fun id h => by simp [upd_ne _ _ h], fun _ _ _ => rfl, ⟨[], by simp, by simp⟩, Nat.le_refl _,
    fun _ => ⟨0, _, rfl, .refl _⟩⟩
theorem W.Touch.say {k : Str} (e : Event) (h : e.id = k) (w : W) : Touch E name k w (say e w) :=
  ⟨fun _ _ => rfl, fun _ _ _ => rfl, ⟨[e], by simp, by simp [h]⟩, Nat.le_refl _, fun _ => ⟨0, _, rfl, .refl _⟩⟩
theorem W.Touch.put (j : Job D) (w : W) : Touch E name j.id w (put E j w) :=
  (Touch.upsert j w).trans (Touch.say (.statusMsg j.id j.context.jobStatus) rfl (W.upsert E j.id j w))
theorem W.Touch.push (k : Str) (st : JobStatus) (w : W) :
    Touch E name k w (setL name st (k :: lst name w st) w) := by
  refine ⟨fun _ _ => rfl, fun id h st' => ?_, ⟨[], by simp, by simp⟩, Nat.le_refl _, fun st' => ?_⟩ <;> rw [lst_setL]
  · split
    · next e => subst e; rw [List.count_cons_of_ne (Ne.symm h)]
    · rfl
  · split
    · next e => subst e; exact ⟨1, _, rfl, .refl _⟩
    · exact ⟨0, _, rfl, .refl _⟩
theorem W.Touch.drop (k : Str) (st : JobStatus) (w : W) :
    Touch E name k w (setL name st ((lst name w st).filter (· ≠ k)) w) := by
  refine ⟨fun _ _ => rfl, fun id h st' => ?_, ⟨[], by simp, by simp⟩, Nat.le_refl _, fun st' => ?_⟩ <;> rw [lst_setL]
  · split
    · next e => subst e; exact count_filter_other _ h
    · rfl
  · split
    · next e => subst e; exact ⟨0, _, rfl, List.filter_sublist⟩
    · exact ⟨0, _, rfl, .refl _⟩

theorem W.Touch.enq (j : Job D) (w : W) : Touch E name j.id w (enq E name clk j w) :=
  (Touch.push j.id .queued w).trans ((Touch.tick _ _).trans (Touch.put (j.asQueued (clk w.t / nsPerMs)) _))
theorem W.Touch.reEnq (j : Job D) (w : W) : Touch E name j.id w (reEnq E name clk j w) :=
  (Touch.drop j.id j.context.jobStatus w).trans ((Touch.tick _ _).trans
    ((Touch.put (j.asQueued (clk w.t / nsPerMs)) _).trans (Touch.push j.id .queued _)))
theorem W.Touch.fin (j : Job D) (w : W) : Touch E name j.id w (fin E name clk j w) :=
  (Touch.drop j.id .running w).trans ((Touch.tick _ _).trans
    ((Touch.put (j.asFinished (clk w.t / nsPerMs)) _).trans (Touch.push j.id .finished _)))
theorem W.Touch.flunk (j : Job D) (w : W) : Touch E name j.id w (flunk E name clk j w) :=
  (Touch.tick _ _).trans ((Touch.put (j.asFailed (clk w.t / nsPerMs)) _).trans
    ((Touch.drop j.id .running _).trans (Touch.push j.id .failed _)))
theorem W.Touch.canc (j : Job D) (w : W) : Touch E name j.id w (canc E name clk j.id j w) :=
  (Touch.tick _ _).trans ((Touch.put (j.asCanceled (clk w.t / nsPerMs)) _).trans (Touch.drop j.id .queued _))

theorem W.Touch.submit (j : Job D) (c : EnqueueConfig) (w : W) : Touch E name j.id w (submit E name clk j c w) := by
  unfold W.submit
  simp only
  split
  · next ex _ =>
    have hw : Touch E name j.id w (if c.overrideData && !ex.isRunning then W.upsert E j.id j w else w) := by
      split
      · exact Touch.upsert j w
      · exact Touch.refl _ w
    split
    · exact hw.trans (Touch.enq j _)
    · exact hw
  · exact Touch.enq j w

theorem W.Touch.cancel {w : W} (hk : Keyed E w) (k : Str) : Touch E name k w (cancel E name clk k w) := by
  unfold W.cancel
  split
  · next j hv =>
    split
    · have := hk k j hv; subst this; exact Touch.canc j w
    · exact Touch.refl _ w
  · exact Touch.refl _ w

theorem W.Touch.retry {w : W} (hk : Keyed E w) (k : Str) : Touch E name k w (W.retry E name clk k w) := by
  unfold W.retry
  split
  · next j hv =>
    split
    · have := hk k j hv; subst this; exact Touch.reEnq j w
    · exact Touch.refl _ w
  · exact Touch.refl _ w

theorem W.Touch.of_same {k : Str} {w w' : W} (h1 : lst name w' = lst name w) (h2 : W.view E w' = W.view E w)
    (h3 : w'.log = w.log) (h4 : w.t ≤ w'.t) : Touch E name k w w' :=
  ⟨fun _ _ => by rw [h2], fun _ _ _ => by rw [h1], ⟨[], by simp [h3], by simp⟩, h4,
    fun _ => ⟨0, _, by rw [h1]; rfl, .refl _⟩⟩

theorem W.Ask.touch {x : Executable D O} {j j2 : Job D} {o : O} {w w2 : W} {t : Option Time}
    (h : Ask E clk x j o w j2 t w2) (k : Str) : Touch E name k w w2 ∧ j2.id = j.id := by
  obtain ⟨h1, _, h3, h4, h5, h6⟩ := h.facts (name := name)
  exact ⟨.of_same h3 h4 h5 h6, by unfold Job.id; rw [h1]⟩

theorem W.Next.touch {j : Job D} {w : W} {p : Out (Option (Job D)) × W} (h : Next E clk j w p) (k : Str) :
    Touch E name k w p.2 := by
  obtain ⟨_, h3, h4, h5, h6⟩ := h.facts (name := name)
  exact .of_same h3 h4 h5 h6

/-- The end of an execution touches its own job only. -/
theorem W.Fin.touch {x : Executable D O} {job : Job D} {w w' : W} {r : Out Unit}
    (h : Fin E name clk x job w (r, w')) : Touch E name job.id w w' := by
  have h0 : Touch E name job.id w (W.say (.hookMsg job.id true) w) := Touch.say (.hookMsg job.id true) rfl w
  have hid : (WorkQueue.runUserCode x job).1.id = job.id := rfl
  cases h with
  | retryPanic => exact h0.trans (Touch.tick _ _)
  | @again j2 t w2 ha =>
    obtain ⟨h1, e⟩ := ha.touch (name := name) job.id
    have := Touch.reEnq (E := E) (name := name) (clk := clk) (j2.withType (.scheduledAt t)) w2
    have e' : (j2.withType (.scheduledAt t)).id = job.id := e.trans hid
    rw [e'] at this
    exact h0.trans (h1.trans this)
  | nextPanic ha hn => exact h0.trans ((ha.touch _).1.trans (hn.touch _))
  | @next j2 j3 w2 w3 ha hn =>
    obtain ⟨h1, e⟩ := ha.touch (name := name) job.id
    obtain ⟨ty, rfl⟩ := (hn.facts (name := name)).1 j3 rfl
    have := Touch.reEnq (E := E) (name := name) (clk := clk) (j2.withType ty) w3
    have e' : (j2.withType ty).id = job.id := e.trans hid
    rw [e'] at this
    exact h0.trans (h1.trans ((hn.touch _).trans this))
  | @failed j2 w2 w3 ha hn hf =>
    obtain ⟨h1, e⟩ := ha.touch (name := name) job.id
    have := Touch.flunk (E := E) (name := name) (clk := clk) j2 w3
    rw [e.trans hid] at this
    exact h0.trans (h1.trans ((hn.touch _).trans this))
  | @finished j2 w2 w3 ha hn hf =>
    obtain ⟨h1, e⟩ := ha.touch (name := name) job.id
    have := Touch.fin (E := E) (name := name) (clk := clk) j2 w3
    rw [e.trans hid] at this
    exact h0.trans (h1.trans ((hn.touch _).trans this))

/-! ## Facts that hold in every history -/

/-- Jobs are stored under their ids, the job inside user code is the picked one with the run counted, and a
dead actor has no tasks. -/
structure Tidy (E : Env D) (s : Sys D SpecB) : Prop where
  keyed : Keyed E s.w
  exec : ∀ t ∈ s.tasks, ∀ j, t.executing = some j → j = t.orig.counted
  dead : s.alive = false → s.tasks = []

theorem Tidy.init : Tidy E (Sys.init SpecB Spec.empty : Sys D SpecB) where
  keyed id j h := by cases h
  exec t h := by cases h
  dead h := by cases h

theorem Tidy.step (L : E.Lawful) {s : Sys D SpecB} (h : Tidy E s) (op : Op D O) :
    Tidy E (Sys.step E name SpecB clk s op).1 := by
  refine ⟨h.keyed.step L op, ?_, ?_⟩ <;>
  · by_cases ha : s.alive = true
    · have hs := Sys.step_cases (E := E) (name := name) (clk := clk) s ha op
      have h2 := h.exec
      have h3 := h.dead
      generalize Sys.step E name SpecB clk s op = p at hs
      cases hs with
      | tick k hk hk20 =>
        first
        | intro hd; simp only at hd; rw [ha] at hd; cases hd
        | intro t ht j hj
          simp only [List.mem_append, List.mem_map] at ht
          rcases ht with ht | ⟨_, _, rfl⟩
          · exact h2 t ht j hj
          · cases hj
      | started i orig hi hc =>
        first
        | intro hd; simp only at hd; rw [ha] at hd; cases hd
        | intro t ht j hj
          rcases List.mem_or_eq_of_mem_set ht with ht | rfl
          · exact h2 t ht j hj
          · cases hj; rfl
      | startCancelled i orig hi hc =>
        first
        | intro hd; simp only at hd; rw [ha] at hd; cases hd
        | intro t ht j hj; exact h2 t (List.mem_of_mem_eraseIdx ht) j hj
      | finished i x orig job w hi hf =>
        first
        | intro hd; simp only at hd; rw [ha] at hd; cases hd
        | intro t ht j hj; exact h2 t (List.mem_of_mem_eraseIdx ht) j hj
      | tickPanic => first | exact fun _ => rfl | (intro t ht; cases ht)
      | userPanic => first | exact fun _ => rfl | (intro t ht; cases ht)
      | finishPanic => first | exact fun _ => rfl | (intro t ht; cases ht)
      | _ => first | exact h2 | exact h3
    · rw [Sys.step_dead s (by simpa using ha)]
      first | exact h.exec | exact h.dead

/-- The observation over the specification. -/
def Sys.obs (E : Env D) (name : Str) (s : Sys D SpecB) : Snap D where
  lists := lst name s.w
  job := view E s.w
  tasks := s.tasks
  cfg := s.cfg
  alive := s.alive
  reads := s.w.t
  log := s.w.log

theorem Sys.obs_eq (E : Env D) (name : Str) (s : Sys D SpecB) : Impl.spec.snap E name s = Sys.obs E name s := rfl

@[simp] theorem Sys.obs_lists (s : Sys D SpecB) : (s.obs E name).lists = lst name s.w := rfl
@[simp] theorem Sys.obs_job (s : Sys D SpecB) : (s.obs E name).job = view E s.w := rfl
@[simp] theorem Sys.obs_tasks (s : Sys D SpecB) : (s.obs E name).tasks = s.tasks := rfl
@[simp] theorem Sys.obs_cfg (s : Sys D SpecB) : (s.obs E name).cfg = s.cfg := rfl
@[simp] theorem Sys.obs_alive (s : Sys D SpecB) : (s.obs E name).alive = s.alive := rfl
@[simp] theorem Sys.obs_reads (s : Sys D SpecB) : (s.obs E name).reads = s.w.t := rfl
@[simp] theorem Sys.obs_log (s : Sys D SpecB) : (s.obs E name).log = s.w.log := rfl

/-! ## One job -/

/-- Careful with `k` (`CarefulFor`) in this turn; what the user code would do at other times does not matter. -/
def CarefulAt (E : Env D) (clk : Nat → Time) (k : Str) (v : Snap D) : Op D O → Prop
  | .enqueue job cfg => job.id = k → E.Encodable job ∧
      ∀ ex, v.job job.id = some ex → cfg.overrideData = true → ex.isRunning = false →
        (cfg.reRun && ex.isDone) = false → job.context.jobStatus = ex.context.jobStatus
  | .finish i x => ∀ orig job, v.tasks[i]? = some ⟨orig, some job⟩ → orig.id = k → E.Encodable (x.leaves job (clk v.reads))
  | _ => True

theorem CarefulFor.at {k : Str} {v : Snap D} {op : Op D O} (h : CarefulFor E k v op) : CarefulAt E clk k v op := by
  cases op with
  | enqueue j c => exact h
  | finish i x => exact fun orig job ht hid => (h orig job ht hid).leaves _
  | _ => trivial

/-- What a turn may do to job `k`. -/
inductive Life (E : Env D) (L : E.Lawful) (name : Str) (clk : Nat → Time) (k : Str) (v v' : Snap D) : Op D O → Prop where
  /-- Nothing. -/
  | same (op) (hj : v'.job k = v.job k) (ho : v'.own k = v.own k) (hm : v'.mine k = v.mine k)
      (ha : v'.alive = v.alive) : Life E L name clk k v v' op
  /-- It is submitted, for the first time or again after it was done. -/
  | submit (j c) (hid : j.id = k) (he : E.Encodable j)
      (hold : v.job k = none ∨ ∃ ex, v.job k = some ex ∧ ex.isDone = true ∧ c.reRun = true)
      (hj : v'.job k = some ((j.asQueued (clk v.reads / nsPerMs)).norm L.normD))
      (ho : v.own k = []) (ho' : v'.own k = []) (hm : v'.mine k = v.mine k ++ [.statusMsg k .queued])
      (ha : v.alive = true) (ha' : v'.alive = true) (htime : v.reads < v'.reads) : Life E L name clk k v v' (.enqueue j c)
  /-- Its stored state is replaced. -/
  | replace (j c ex) (hid : j.id = k) (he : E.Encodable j) (hold : v.job k = some ex) (hr : ex.isRunning = false)
      (hd : (c.reRun && ex.isDone) = false) (hov : c.overrideData = true)
      (hst : j.context.jobStatus = ex.context.jobStatus) (hj : v'.job k = some (j.norm L.normD))
      (ho : v.own k = []) (ho' : v'.own k = []) (hm : v'.mine k = v.mine k)
      (ha : v.alive = true) (ha' : v'.alive = true) : Life E L name clk k v v' (.enqueue j c)
  /-- It is cancelled. -/
  | cancel (j) (hold : v.job k = some j) (hq : j.context.jobStatus = .queued)
      (hj : v'.job k = some (j.asCanceled (clk v.reads / nsPerMs)))
      (ho : v.own k = []) (ho' : v'.own k = []) (hm : v'.mine k = v.mine k ++ [.statusMsg k .canceled])
      (ha : v.alive = true) (ha' : v'.alive = true) (htime : v.reads < v'.reads) : Life E L name clk k v v' (.cancel k)
  /-- It is retried by hand. -/
  | retry (j) (hold : v.job k = some j) (hd : j.isDone = true)
      (hj : v'.job k = some (j.asQueued (clk v.reads / nsPerMs)))
      (ho : v.own k = []) (ho' : v'.own k = []) (hm : v'.mine k = v.mine k ++ [.statusMsg k .queued])
      (ha : v.alive = true) (ha' : v'.alive = true) (htime : v.reads < v'.reads) : Life E L name clk k v v' (.retry k)
  /-- A tick starts it. -/
  | pick (j i) (hold : v.job k = some j) (hq : j.context.jobStatus = .queued) (hi : v.reads ≤ i)
      (hi' : i + 1 < v'.reads) (hdue : j.Due (clk i))
      (hj : v'.job k = some (j.asRunning (clk (i + 1) / nsPerMs)))
      (ho : v.own k = []) (ho' : v'.own k = [⟨j.asRunning (clk (i + 1) / nsPerMs), none⟩])
      (hm : v'.mine k = v.mine k ++ [.statusMsg k .running])
      (ha : v.alive = true) (ha' : v'.alive = true) : Life E L name clk k v v' .tick
  /-- Its code begins to run. -/
  | run (j i) (hold : v.job k = some j) (hq : j.context.jobStatus = .running)
      (ht : v.tasks[i]? = some ⟨j, none⟩) (ho : v.own k = [⟨j, none⟩])
      (hj : v'.job k = some j) (ho' : v'.own k = [⟨j, some j.counted⟩])
      (hm : v'.mine k = v.mine k ++ [.hookMsg k true, .ran j.counted.context])
      (ha : v.alive = true) (ha' : v'.alive = true) : Life E L name clk k v v' (.start i)
  /-- Its code has run. -/
  | finish (j j' i x) (w w' : W) (hold : v.job k = some j) (hq : j.context.jobStatus = .running)
      (ht : v.tasks[i]? = some ⟨j, some j.counted⟩) (ho : v.own k = [⟨j, some j.counted⟩])
      (hw : w.t = v.reads) (hw' : w'.t = v'.reads) (hf : Fin E name clk x j.counted w (.ok (), w'))
      (he : Inv.Ends E name clk L j.counted w w' j') (hs : E.Encodable (x.leaves j.counted (clk w.t)))
      (hj : v'.job k = some j') (ho' : v'.own k = [])
      (hm : v'.mine k = v.mine k ++ [.hookMsg k true, .statusMsg k j'.context.jobStatus])
      (ha : v.alive = true) (ha' : v'.alive = true) : Life E L name clk k v v' (.finish i x)
  /-- The actor panics. -/
  | died (op) (hj : v'.job k = v.job k) (ho' : v'.own k = [])
      (hm : ∃ l, v'.mine k = v.mine k ++ l ∧ ∀ e ∈ l, e = .hookMsg k true)
      (ha : v.alive = true) (ha' : v'.alive = false) : Life E L name clk k v v' op

/-- Status, lists and executions of job `k` agree, and the execution in flight is of the stored job. -/
structure Solo (k : Str) (v : Snap D) : Prop where
  queued : (v.lists .queued).count k = if v.status k = some .queued then 1 else 0
  running : (v.lists .running).count k = if v.status k = some .running then 1 else 0
  idle : v.status k ≠ some .running → v.own k = []
  busy : v.alive = true → ∀ j, v.job k = some j → j.context.jobStatus = .running →
    v.own k = [⟨j, none⟩] ∨ v.own k = [⟨j, some j.counted⟩]

theorem Solo.sound {k : Str} {v : Snap D} (h : Solo k v) : v.Sound k := by
  refine ⟨h.queued, h.running, fun ha => ?_⟩
  split
  · next hr =>
    unfold Snap.status at hr
    obtain ⟨j, hj, hs⟩ := Option.map_eq_some_iff.mp hr
    rcases h.busy ha j hj hs with e | e <;> rw [e] <;> rfl
  · next hr => rw [h.idle hr]; rfl

theorem split_at {α : Type} {l : List α} {i : Nat} {t : α} (h : l[i]? = some t) :
    ∃ a b, l = a ++ t :: b ∧ (∀ t', l.set i t' = a ++ t' :: b) ∧ l.eraseIdx i = a ++ b := by
  have hlt : i < l.length := by
    by_contra hc; rw [List.getElem?_eq_none (by omega)] at h; cases h
  have hget : l[i] = t := by rw [List.getElem?_eq_getElem hlt] at h; exact Option.some.inj h
  refine ⟨l.take i, l.drop (i + 1), ?_, fun t' => ?_, ?_⟩
  · rw [← hget, ← List.drop_eq_getElem_cons hlt, List.take_append_drop]
  · rw [List.set_eq_take_append_cons_drop, if_pos hlt]
  · rw [List.eraseIdx_eq_take_drop_succ]

/-- A turn that touches only another job. -/
theorem Solo.other {k k' : Str} (hk : k ≠ k') {s : Sys D SpecB} {s' : Sys D SpecB}
    (h : Solo k (Sys.obs E name s)) (ht : Touch E name k' s.w s'.w)
    (ho : (Sys.obs E name s').own k = (Sys.obs E name s).own k) (ha : s'.alive = s.alive) :
    Solo k (Sys.obs E name s') ∧
    (Sys.obs E name s').job k = (Sys.obs E name s).job k ∧
    (Sys.obs E name s').mine k = (Sys.obs E name s).mine k := by
  have hv : (Sys.obs E name s').job k = (Sys.obs E name s).job k := ht.view k hk
  have hs : (Sys.obs E name s').status k = (Sys.obs E name s).status k := by
    unfold Snap.status; rw [hv]
  refine ⟨⟨?_, ?_, ?_, ?_⟩, hv, ?_⟩
  · rw [hs, ← h.queued]; exact ht.count k hk .queued
  · rw [hs, ← h.running]; exact ht.count k hk .running
  · rw [hs, ho]; exact h.idle
  · intro ha'
    rw [hv, ho]
    exact h.busy (by rw [← ha']; exact ha.symm)
  · obtain ⟨l, h1, h2⟩ := ht.log
    show (s'.w.log.filter _) = (s.w.log.filter _)
    rw [h1, List.filter_append]
    have : l.filter (fun e => decide (e.id = k)) = [] := by
      rw [List.filter_eq_nil_iff]
      intro e he
      rw [h2 e he]
      simpa using fun e => hk e.symm
    rw [this, List.append_nil]

/-- A turn that leaves everything about `k` alone. -/
theorem Solo.died {k : Str} {s : Sys D SpecB} {w' : W} (h : Solo k (Sys.obs E name s))
    (hv : view E w' = view E s.w) (hl : lst name w' = lst name s.w) :
    Solo k (Sys.obs E name ({ s with w := w', tasks := [], alive := false } : Sys D SpecB)) := by
  have hv' : (Sys.obs E name ({ s with w := w', tasks := [], alive := false } : Sys D SpecB)).status k
      = (Sys.obs E name s).status k := by
    show Option.map _ (view E w' k) = Option.map _ (view E s.w k); rw [hv]
  refine ⟨?_, ?_, fun _ => rfl, fun ha => by cases ha⟩
  · rw [hv', ← h.queued]; show List.count k (lst name w' .queued) = _; rw [hl]; rfl
  · rw [hv', ← h.running]; show List.count k (lst name w' .running) = _; rw [hl]; rfl


theorem Solo.settle {k : Str} {v : Snap D} (j : Job D) (hv : v.job k = some j)
    (hnr : j.context.jobStatus ≠ .running) (hq : (v.lists .queued).count k = if j.context.jobStatus = .queued then 1 else 0)
    (hr : (v.lists .running).count k = 0) (ho : v.own k = []) : Solo k v := by
  have hs : v.status k = some j.context.jobStatus := by simp [Snap.status, hv]
  refine ⟨by rw [hq, hs]; simp, by rw [hr, hs]; simp [hnr], fun _ => ho, fun _ j' e hst => ?_⟩
  rw [hv] at e; cases e
  exact absurd hst hnr

theorem mine_append {w : W} {k : Str} {l l' : List Event} (h : w.log = l ++ l') (hl : ∀ e ∈ l', e.id = k) :
    w.log.filter (fun e => decide (e.id = k)) = l.filter (fun e => decide (e.id = k)) ++ l' := by
  rw [h, List.filter_append]
  congr 1
  rw [List.filter_eq_self]
  intro e he; simp [hl e he]

section
variable {k : Str} {s : Sys D SpecB}

theorem Solo.enq_life (L : E.Lawful) (h : Solo k (Sys.obs E name s)) (ha : s.alive = true) (j : Job D) (c : EnqueueConfig)
    (hid : j.id = k) (he : E.Encodable j)
    (hold : view E s.w k = none ∨ ∃ ex, view E s.w k = some ex ∧ ex.isDone = true ∧ c.reRun = true) :
    Solo k (Sys.obs E name { s with w := enq E name clk j s.w }) ∧
    Life E L name clk k (Sys.obs E name s) (Sys.obs E name { s with w := enq E name clk j s.w })
      (.enqueue j c : Op D O) := by
  have hst : (Sys.obs E name s).status k ≠ some .queued ∧ (Sys.obs E name s).status k ≠ some .running := by
    show Option.map _ (view E s.w k) ≠ _ ∧ Option.map _ (view E s.w k) ≠ _
    rcases hold with e | ⟨ex, e, hd, _⟩
    · rw [e]; simp
    · rw [e]; simp only [Option.map_some, ne_eq, Option.some.injEq]
      constructor <;> (intro e'; simp [Job.isDone, e'] at hd)
  have hq : (lst name s.w .queued).count k = 0 := by have := h.queued; rw [if_neg hst.1] at this; exact this
  have hr : (lst name s.w .running).count k = 0 := by have := h.running; rw [if_neg hst.2] at this; exact this
  have ho := h.idle hst.2
  have hv : view E (enq E name clk j s.w) k = some ((j.asQueued (clk s.w.t / nsPerMs)).norm L.normD) := by
    have he' : E.encdec (j.asQueued (clk s.w.t / nsPerMs)) = some ((j.asQueued (clk s.w.t / nsPerMs)).norm L.normD) :=
      Env.Lawful.encdec_enc (Env.Lawful.congr' (j := j) L rfl rfl he)
    simp [enq, he', hid]
  refine ⟨.settle _ hv (by simp [Job.norm, JobContext.norm]) ?_ ?_ ho, .submit j c hid he hold hv ho ho ?_ ha ha
    (Nat.lt_succ_self _ : s.w.t < s.w.t + 1)⟩
  · show (lst name (enq E name clk j s.w) .queued).count k = _
    simp [enq, hid, hq, Job.norm, JobContext.norm]
  · show (lst name (enq E name clk j s.w) .running).count k = _
    simp [enq, lst_setL, hr]
  · exact mine_append (by simp [enq, hid]) (by simp [Event.id])

theorem Solo.submit_life (L : E.Lawful) (h : Solo k (Sys.obs E name s)) (ha : s.alive = true) (j : Job D) (c : EnqueueConfig)
    (hid : j.id = k) (hc : CarefulAt E clk k (Sys.obs E name s) (.enqueue j c : Op D O)) :
    Solo k (Sys.obs E name { s with w := submit E name clk j c s.w }) ∧
    Life E L name clk k (Sys.obs E name s) (Sys.obs E name { s with w := submit E name clk j c s.w })
      (.enqueue j c : Op D O) := by
  obtain ⟨he, hd⟩ := hc hid
  unfold submit
  rw [hid]
  cases hv : view E s.w k with
  | none => exact h.enq_life L ha j c hid he (.inl hv)
  | some ex =>
    have hd' := hd ex (by rw [hid]; exact hv)
    simp only
    by_cases hdone : (c.reRun && ex.isDone) = true
    · rw [if_pos hdone]
      simp only [Bool.and_eq_true] at hdone
      have hone := h.enq_life (clk := clk) (O := O) L ha j c hid he (.inr ⟨ex, hv, hdone.2, hdone.1⟩)
      split
      · have hw : enq E name clk j (upsert E k j s.w) = enq E name clk j s.w := by
          subst hid; simp [enq, put, upsert, tick, setL, say, lst, upd_upd]
        rw [hw]; exact hone
      · exact hone
    · rw [if_neg hdone]
      split
      · next hov =>
        simp only [Bool.and_eq_true, Bool.not_eq_true'] at hov
        have hst := hd' hov.1 hov.2 (by simpa using hdone)
        have hnr : j.context.jobStatus ≠ .running := by rw [hst]; simpa [Job.isRunning] using hov.2
        have hstat : (Sys.obs E name s).status k = some ex.context.jobStatus := by
          show Option.map _ (view E s.w k) = _; rw [hv]; rfl
        have ho := h.idle (by rw [hstat, ← hst]; simpa using hnr)
        have hv' : view E (upsert E k j s.w) k = some (j.norm L.normD) := by
          simp [Env.Lawful.encdec_enc (L := L) he]
        refine ⟨.settle _ hv' hnr ?_ ?_ ho,
          .replace j c ex hid he hv hov.2 (by simpa using hdone) hov.1 hst hv' ho ho rfl ha ha⟩
        · show (lst name s.w .queued).count k = _
          have := h.queued
          rw [hstat, ← hst] at this
          rw [Sys.obs_lists] at this
          rw [this]
          by_cases hx : j.context.jobStatus = .queued <;> simp [hx, Job.norm, JobContext.norm]
        · show (lst name s.w .running).count k = _
          have := h.running; rw [hstat, ← hst] at this
          simpa [hnr] using this
      · exact ⟨h, .same _ rfl rfl rfl rfl⟩

theorem Solo.cancel_life (L : E.Lawful) (hkey : Keyed E s.w) (h : Solo k (Sys.obs E name s)) (ha : s.alive = true) :
    Solo k (Sys.obs E name { s with w := cancel E name clk k s.w }) ∧
    Life E L name clk k (Sys.obs E name s) (Sys.obs E name { s with w := cancel E name clk k s.w })
      (.cancel k : Op D O) := by
  unfold cancel
  cases hv : view E s.w k with
  | none => exact ⟨h, .same _ rfl rfl rfl rfl⟩
  | some j =>
    simp only
    split
    · next hq =>
      have hs := (Env.Lawful.stored_view (L := L) hv).asCanceled (clk s.w.t / nsPerMs)
      have hid : j.id = k := hkey k j hv
      have hq' : j.context.jobStatus = .queued := by simpa [Job.isQueued] using hq
      have hstat : (Sys.obs E name s).status k = some .queued := by
        show Option.map _ (view E s.w k) = _; rw [hv]; simp [hq']
      have ho := h.idle (by rw [hstat]; simp)
      have hv' : view E (canc E name clk k j s.w) k = some (j.asCanceled (clk s.w.t / nsPerMs)) := by
        simp [canc, hs.encdec, hid]
      refine ⟨.settle _ hv' (by simp) ?_ ?_ ho, .cancel j hv hq' hv' ho ho ?_ ha ha
        (Nat.lt_succ_self _ : s.w.t < s.w.t + 1)⟩
      · show (lst name (canc E name clk k j s.w) .queued).count k = _
        simp only [canc, lst_setL_same]
        rw [count_filter_ne]; simp
      · show (lst name (canc E name clk k j s.w) .running).count k = _
        have := h.running; rw [hstat] at this
        have h2 : lst name (canc E name clk k j s.w) .running = lst name s.w .running := by simp [canc, lst_setL]
        rw [h2]; simpa using this
      · exact mine_append (by simp [canc, hid]) (by simp [Event.id])
    · exact ⟨h, .same _ rfl rfl rfl rfl⟩

theorem Solo.retry_life (L : E.Lawful) (hkey : Keyed E s.w) (h : Solo k (Sys.obs E name s)) (ha : s.alive = true) :
    Solo k (Sys.obs E name { s with w := W.retry E name clk k s.w }) ∧
    Life E L name clk k (Sys.obs E name s) (Sys.obs E name { s with w := W.retry E name clk k s.w })
      (.retry k : Op D O) := by
  unfold W.retry
  cases hv : view E s.w k with
  | none => exact ⟨h, .same _ rfl rfl rfl rfl⟩
  | some j =>
    simp only
    split
    · next hd =>
      have hs := (Env.Lawful.stored_view (L := L) hv).asQueued (clk s.w.t / nsPerMs)
      have hid : j.id = k := hkey k j hv
      have hnq : j.context.jobStatus ≠ .queued := by rintro e; simp [Job.isDone, e] at hd
      have hnr : j.context.jobStatus ≠ .running := by rintro e; simp [Job.isDone, e] at hd
      have hstat : (Sys.obs E name s).status k = some j.context.jobStatus := by
        show Option.map _ (view E s.w k) = _; rw [hv]; rfl
      have ho := h.idle (by rw [hstat]; simpa using hnr)
      have hq : (lst name s.w .queued).count k = 0 := by
        have := h.queued; rw [hstat] at this; simp only [Option.some.injEq, hnq, if_false] at this; exact this
      have hr : (lst name s.w .running).count k = 0 := by
        have := h.running; rw [hstat] at this; simp only [Option.some.injEq, hnr, if_false] at this; exact this
      have hv' : view E (reEnq E name clk j s.w) k = some (j.asQueued (clk s.w.t / nsPerMs)) := by
        simp [reEnq, hs.encdec, hid]
      refine ⟨.settle _ hv' (by simp) ?_ ?_ ho, .retry j hv hd hv' ho ho ?_ ha ha
        (Nat.lt_succ_self _ : s.w.t < s.w.t + 1)⟩
      · show (lst name (reEnq E name clk j s.w) .queued).count k = _
        simp [reEnq, lst_setL, hnq.symm, hid, hq]
      · show (lst name (reEnq E name clk j s.w) .running).count k = _
        simp [reEnq, lst_setL, hnr.symm, hr]
      · exact mine_append (by simp [reEnq, hid]) (by simp [Event.id])
    · exact ⟨h, .same _ rfl rfl rfl rfl⟩

theorem Solo.scan_life (L : E.Lawful) (h : Solo k (Sys.obs E name s)) (ha : s.alive = true) {total : Nat}
    {p : W × List (Job D)} (hp : Scan E name clk total s.w p) :
    Solo k (Sys.obs E name { s with w := p.1, tasks := s.tasks ++ p.2.map fun j => ⟨j, none⟩ }) ∧
    Life E L name clk k (Sys.obs E name s)
      (Sys.obs E name { s with w := p.1, tasks := s.tasks ++ p.2.map fun j => ⟨j, none⟩ }) (.tick : Op D O) := by
  rcases p with ⟨w, rd⟩
  have hcount : (lst name w .queued).count k + (rd.map Job.id).count k = (lst name s.w .queued).count k := by
    have := hp.queued.count_eq k; rwa [List.count_append] at this
  have hrun : (lst name w .running).count k = (rd.map Job.id).count k + (lst name s.w .running).count k := by
    have := hp.running; simp only at this; rw [this, List.count_append, List.count_reverse]
  have hlog : w.log.filter (fun e => decide (e.id = k)) = s.w.log.filter (fun e => decide (e.id = k)) ++
      (rd.filter fun j => decide (j.id = k)).map fun j => Event.statusMsg j.id .running := by
    have := hp.log; simp only at this
    rw [this, List.filter_append, List.filter_map]
    rfl
  have hown : ((s.tasks ++ rd.map fun j => (⟨j, none⟩ : Task D)).filter fun t => decide (t.orig.id = k)) =
      (s.tasks.filter fun t => decide (t.orig.id = k)) ++
        (rd.filter fun j => decide (j.id = k)).map fun j => (⟨j, none⟩ : Task D) := by
    rw [List.filter_append, List.filter_map]; rfl
  by_cases hm : k ∈ rd.map Job.id
  · obtain ⟨j, hj, e⟩ := List.mem_map.mp hm
    obtain ⟨i, job, hi, hi', hv, hready, ej, hv'⟩ := hp.started j hj
    rw [e] at hv hv'
    have hfil : (rd.filter fun j => decide (j.id = k)) = [j] := by
      have hnd := hp.nodup
      simp only at hnd
      obtain ⟨a, b, rfl⟩ := List.append_of_mem hj
      have h1 : a.filter (fun j => decide (j.id = k)) = [] := by
        rw [List.filter_eq_nil_iff]
        intro x hx
        simp only [decide_eq_true_eq]
        intro ex
        simp only [List.map_append, List.map_cons] at hnd
        exact (List.nodup_append.mp hnd).2.2 x.id (List.mem_map_of_mem hx) j.id (by simp) (ex.trans e.symm)
      have h2 : b.filter (fun j => decide (j.id = k)) = [] := by
        rw [List.filter_eq_nil_iff]
        intro x hx
        simp only [decide_eq_true_eq]
        intro ex
        simp only [List.map_append, List.map_cons] at hnd
        have := (List.nodup_cons.mp (List.nodup_append.mp hnd).2.1).1
        exact this (by rw [e, ← ex]; exact List.mem_map_of_mem hx)
      rw [List.filter_append, List.filter_cons, h1, h2]
      simp [e]
    have hone : (rd.map Job.id).count k = 1 := by
      rw [List.count_eq_length_filter, List.filter_map, List.length_map]
      have : (List.filter ((fun x => x == k) ∘ Job.id) rd) = (rd.filter fun j => decide (j.id = k)) :=
        List.filter_congr (fun x _ => by by_cases e : x.id = k <;> simp [e])
      rw [this, hfil]; rfl
    have hstat : (Sys.obs E name s).status k = some .queued := by
      by_contra hc
      have := h.queued
      rw [if_neg hc] at this
      have : (lst name s.w .queued).count k = 0 := this
      omega
    have hjq : job.context.jobStatus = .queued := by
      have h1 : Option.map (fun j : Job D => j.context.jobStatus) (view E s.w k) = some .queued := hstat
      rw [hv] at h1
      simpa using h1
    have ho := h.idle (by rw [hstat]; simp)
    have hst := (Env.Lawful.stored_view (L := L) hv).asRunning (clk (i + 1) / nsPerMs)
    rw [← ej] at hst
    rw [hst.encdec] at hv'
    simp only at hv' hi'
    have hjs : j.context.jobStatus = .running := by rw [ej]; rfl
    have hs' : (Sys.obs E name { s with w := w, tasks := s.tasks ++ rd.map fun j => ⟨j, none⟩ } : Snap D).status k
        = some .running := by
      show Option.map _ (view E w k) = _; rw [hv']; simp [hjs]
    have ho' : (Sys.obs E name { s with w := w, tasks := s.tasks ++ rd.map fun j => ⟨j, none⟩ } : Snap D).own k
        = [⟨j, none⟩] := by
      show List.filter _ (s.tasks ++ _) = _
      rw [hown, hfil]
      have : (s.tasks.filter fun t => decide (t.orig.id = k)) = [] := ho
      rw [this]; rfl
    have hq0 : (lst name s.w .queued).count k = 1 := by have := h.queued; rw [if_pos hstat] at this; exact this
    have hr0 : (lst name s.w .running).count k = 0 := by have := h.running; rw [hstat] at this; simpa using this
    refine ⟨⟨?_, ?_, fun hc => absurd hs' hc, fun _ j' e' _ => ?_⟩, ?_⟩
    · rw [hs']
      show (lst name w .queued).count k = 0
      omega
    · rw [hs']
      show (lst name w .running).count k = 1
      omega
    · have e'' : view E w k = some j' := e'
      rw [hv'] at e''; cases e''
      exact .inl ho'
    · refine .pick job i hv hjq hi hi' ((readyAt_iff _ _).mp hready) ?_ ho ?_ ?_ ha ha
      · rw [← ej]; exact hv'
      · rw [← ej]; exact ho'
      · show List.filter _ w.log = List.filter _ s.w.log ++ _
        rw [hlog, hfil]
        simp [e]
  · have h0 : (rd.map Job.id).count k = 0 := List.count_eq_zero.mpr hm
    have hfil : (rd.filter fun j => decide (j.id = k)) = [] := by
      rw [List.filter_eq_nil_iff]
      intro x hx
      simp only [decide_eq_true_eq]
      intro ex
      exact hm (by rw [← ex]; exact List.mem_map_of_mem hx)
    have hv : (Sys.obs E name { s with w := w, tasks := s.tasks ++ rd.map fun j => ⟨j, none⟩ } : Snap D).job k
        = (Sys.obs E name s).job k := hp.same k hm
    have hs' : (Sys.obs E name { s with w := w, tasks := s.tasks ++ rd.map fun j => ⟨j, none⟩ } : Snap D).status k
        = (Sys.obs E name s).status k := by unfold Snap.status; rw [hv]
    have ho' : (Sys.obs E name { s with w := w, tasks := s.tasks ++ rd.map fun j => ⟨j, none⟩ } : Snap D).own k
        = (Sys.obs E name s).own k := by
      show List.filter _ (s.tasks ++ _) = List.filter _ s.tasks
      rw [hown, hfil]; simp
    refine ⟨⟨?_, ?_, ?_, ?_⟩, .same _ hv ho' ?_ rfl⟩
    · rw [hs', ← h.queued]
      show (lst name w .queued).count k = (lst name s.w .queued).count k
      omega
    · rw [hs', ← h.running]
      show (lst name w .running).count k = (lst name s.w .running).count k
      omega
    · rw [hs', ho']; exact h.idle
    · intro ha'; rw [hv, ho']; exact h.busy ha'
    · show List.filter _ w.log = List.filter _ s.w.log
      rw [hlog, hfil]; simp


/-- The task at place `i` belongs to `k` exactly if it is `k`'s execution. -/
theorem own_set_other {ts : List (Task D)} {i : Nat} {t t' : Task D} (hi : ts[i]? = some t) (ht : t.orig.id ≠ k)
    (ht' : t'.orig.id ≠ k) : (ts.set i t').filter (fun t => decide (t.orig.id = k)) =
      ts.filter (fun t => decide (t.orig.id = k)) := by
  obtain ⟨a, b, e, h1, _⟩ := split_at hi
  rw [h1 t', e]
  simp [List.filter_append, ht, ht']

theorem own_erase_other {ts : List (Task D)} {i : Nat} {t : Task D} (hi : ts[i]? = some t) (ht : t.orig.id ≠ k) :
    (ts.eraseIdx i).filter (fun t => decide (t.orig.id = k)) = ts.filter (fun t => decide (t.orig.id = k)) := by
  obtain ⟨a, b, e, _, h2⟩ := split_at hi
  rw [h2, e]
  simp [List.filter_append, ht]

theorem own_single {ts : List (Task D)} {i : Nat} {t u : Task D} (hi : ts[i]? = some t) (ht : t.orig.id = k)
    (h : ts.filter (fun t => decide (t.orig.id = k)) = [u]) :
    t = u ∧ (ts.eraseIdx i).filter (fun t => decide (t.orig.id = k)) = [] ∧
    ∀ t', t'.orig.id = k → (ts.set i t').filter (fun t => decide (t.orig.id = k)) = [t'] := by
  obtain ⟨a, b, e, h1, h2⟩ := split_at hi
  rw [e, List.filter_append, List.filter_cons] at h
  simp only [ht, decide_true, if_true] at h
  have hl := congrArg List.length h
  simp only [List.length_append, List.length_cons, List.length_nil] at hl
  have ha : a.filter (fun t => decide (t.orig.id = k)) = [] := List.length_eq_zero_iff.mp (by omega)
  have hb : b.filter (fun t => decide (t.orig.id = k)) = [] := List.length_eq_zero_iff.mp (by omega)
  rw [ha, hb] at h
  refine ⟨by simpa using h, ?_, fun t' ht' => ?_⟩
  · rw [h2, List.filter_append, ha, hb]; rfl
  · rw [h1, List.filter_append, List.filter_cons, ha, hb]; simp [ht']

/-- A task of `k` in flight is of the stored job, which is Running. -/
theorem Solo.task (h : Solo k (Sys.obs E name s)) (ha : s.alive = true) {i : Nat} {t : Task D}
    (hi : s.tasks[i]? = some t) (ht : t.orig.id = k) : view E s.w k = some t.orig ∧ t.orig.context.jobStatus = .running ∧
      (Sys.obs E name s).own k = [t] := by
  have hmem : t ∈ (Sys.obs E name s).own k := by
    show t ∈ List.filter _ s.tasks
    rw [List.mem_filter]
    exact ⟨List.mem_of_getElem? hi, by simp [ht]⟩
  have hr : (Sys.obs E name s).status k = some .running := by
    by_contra hc
    rw [h.idle hc] at hmem; cases hmem
  obtain ⟨j, hj, hs⟩ := Option.map_eq_some_iff.mp hr
  rcases h.busy ha j hj hs with e | e
  · rw [e] at hmem ⊢
    simp only [List.mem_singleton] at hmem
    subst hmem
    exact ⟨hj, hs, rfl⟩
  · rw [e] at hmem ⊢
    simp only [List.mem_singleton] at hmem
    subst hmem
    exact ⟨hj, hs, rfl⟩

/-- Whatever happens to other jobs, a careful turn keeps job `k` in order and does one of a few things to it. -/
theorem Solo.step (L : E.Lawful) (hT : Tidy E s) (h : Solo k (Sys.obs E name s)) (op : Op D O)
    (hc : CarefulAt E clk k (Sys.obs E name s) op) :
    Solo k (Sys.obs E name (Sys.step E name SpecB clk s op).1) ∧
    Life E L name clk k (Sys.obs E name s) (Sys.obs E name (Sys.step E name SpecB clk s op).1) op := by
  by_cases ha : s.alive = true
  swap
  · rw [Sys.step_dead s (by simpa using ha)]; exact ⟨h, .same _ rfl rfl rfl rfl⟩
  have hs := Sys.step_cases (E := E) (name := name) (clk := clk) s ha op
  have hother : ∀ (s' : Sys D SpecB) (k' : Str), k ≠ k' → Touch E name k' s.w s'.w →
      (Sys.obs E name s').own k = (Sys.obs E name s).own k → s'.alive = s.alive →
      Solo k (Sys.obs E name s') ∧ Life E L name clk k (Sys.obs E name s) (Sys.obs E name s') op := by
    intro s' k' hk ht ho ha'
    obtain ⟨h1, h2, h3⟩ := h.other (s' := s') hk ht ho ha'
    exact ⟨h1, .same _ h2 ho h3 ha'⟩
  generalize Sys.step E name SpecB clk s op = p at hs
  cases hs with
  | enqueue j c =>
    by_cases e : j.id = k
    · exact h.submit_life L ha j c e hc
    · exact hother _ j.id (fun e' => e e'.symm) (Touch.submit j c s.w) rfl rfl
  | cancel k' =>
    by_cases e : k' = k
    · subst e; exact h.cancel_life L hT.keyed ha
    · exact hother _ k' (fun e' => e e'.symm) (Touch.cancel hT.keyed k') rfl rfl
  | get k' => exact ⟨h, .same _ rfl rfl rfl rfl⟩
  | retry k' =>
    by_cases e : k' = k
    · subst e; exact h.retry_life L hT.keyed ha
    · exact hother _ k' (fun e' => e e'.symm) (Touch.retry hT.keyed k') rfl rfl
  | config c => exact ⟨⟨h.queued, h.running, h.idle, h.busy⟩, .same _ rfl rfl rfl rfl⟩
  | tick n hk hk20 => exact h.scan_life L ha ((Scan.init _ _).turns L hT.keyed n)
  | tickPanic => exact ⟨h.died rfl rfl, .died _ rfl rfl ⟨[], (List.append_nil _).symm, by simp⟩ ha rfl⟩
  | userPanic => exact ⟨h.died rfl rfl, .died _ rfl rfl ⟨[], (List.append_nil _).symm, by simp⟩ ha rfl⟩
  | noStart => exact ⟨h, .same _ rfl rfl rfl rfl⟩
  | noFinish => exact ⟨h, .same _ rfl rfl rfl rfl⟩
  | noUserPanic => exact ⟨h, .same _ rfl rfl rfl rfl⟩
  | started i orig hi hcan =>
    by_cases e : orig.id = k
    · obtain ⟨h1, h2, h3⟩ := h.task ha hi e
      have h3' : s.tasks.filter (fun t => decide (t.orig.id = k)) = [⟨orig, none⟩] := h3
      obtain ⟨_, _, h4⟩ := own_single hi e h3'
      have h5 := h4 ⟨orig, some orig.counted⟩ e
      refine ⟨⟨h.queued, h.running, fun hn => ?_, fun _ j e' _ => ?_⟩, ?_⟩
      · exact absurd (show Option.map _ (view E s.w k) = _ by rw [h1]; simpa using h2) hn
      · have e'' : view E s.w k = some j := e'
        rw [h1] at e''; cases e''
        exact .inr h5
      · refine .run orig i h1 h2 hi h3 h1 h5 ?_ ha ha
        exact mine_append (by subst e; simp) (by subst e; simp [Event.id]; rfl)
    · refine hother _ orig.id (fun e' => e e'.symm) ?_ (own_set_other hi e e) rfl
      exact (Touch.say (.hookMsg orig.id true) rfl _).trans (Touch.say (.ran orig.counted.context) rfl _)
  | startCancelled i orig hi hcan =>
    by_cases e : orig.id = k
    · obtain ⟨h1, h2, h3⟩ := h.task ha hi e
      simp only at h2
      simp [Job.isCancelled, h2] at hcan
    · exact hother _ orig.id (fun e' => e e'.symm) (Touch.push orig.id .canceled s.w) (own_erase_other hi e) rfl
  | finished i x orig job w hi hf =>
    have hjob : job = orig.counted := hT.exec _ (List.mem_of_getElem? hi) job rfl
    subst hjob
    by_cases e : orig.id = k
    · obtain ⟨h1, h2, h3⟩ := h.task ha hi e
      have h3' : s.tasks.filter (fun t => decide (t.orig.id = k)) = [⟨orig, some orig.counted⟩] := h3
      obtain ⟨_, h4, _⟩ := own_single hi e h3'
      have hser := hc orig orig.counted hi e
      obtain ⟨j, hj⟩ := hf.ends L hser h2
      have hid : orig.counted.id = k := e
      have hnr : j.context.jobStatus ≠ .running := by rcases hj.status with e | e | e <;> simp [e]
      have hv : view E w k = some j := by rw [hj.view, hid]; simp
      have hstat : (Sys.obs E name s).status k = some .running := by
        show Option.map _ (view E s.w k) = _; rw [h1]; simpa using h2
      have hq0 : (lst name s.w .queued).count k = 0 := by have := h.queued; rw [hstat] at this; simpa using this
      refine ⟨.settle j hv hnr ?_ ?_ h4, .finish orig j i x s.w w h1 h2 hi h3 rfl rfl hf hj hser hv h4 ?_ ha ha⟩
      · show (lst name w .queued).count k = _
        split
        · next e' => have := hj.target; rw [e', hid] at this; rw [this]; simp [hq0]
        · next e' => rw [hj.others .queued (by simp) (fun e'' => e' e''.symm)]; exact hq0
      · show (lst name w .running).count k = 0
        rw [hj.running, hid]; exact count_filter_ne _ _
      · exact mine_append (by rw [hj.log, hid]; rfl) (by simp [Event.id])
    · exact hother _ orig.id (fun e' => e e'.symm) hf.touch (own_erase_other hi e) rfl
  | finishPanic i x orig job w hi hf =>
    have hjob : job = orig.counted := hT.exec _ (List.mem_of_getElem? hi) job rfl
    subst hjob
    refine ⟨h.died hf.panic_same.2 hf.panic_same.1, .died _ ?_ rfl ?_ ha rfl⟩
    · show view E w k = view E s.w k; rw [hf.panic_same.2]
    · have hlog : w.log = s.w.log ++ [.hookMsg orig.id true] := by
        cases hf with
        | retryPanic => rfl
        | nextPanic ha hn =>
          obtain ⟨_, _, _, _, h5, _⟩ := ha.facts (name := name)
          obtain ⟨_, _, _, k4, _⟩ := hn.facts (name := name)
          exact k4.trans h5
      by_cases e : orig.id = k
      · subst e
        exact ⟨[.hookMsg orig.id true], mine_append hlog (by simp [Event.id]), by simp⟩
      · refine ⟨[], ?_, by simp⟩
        show w.log.filter _ = s.w.log.filter _ ++ []
        rw [hlog, List.filter_append]
        simp [Event.id, e]

/-- The stored job of `k` cannot be read (or there is none), and no execution of it is in flight. -/
structure Lost (k : Str) (v : Snap D) : Prop where
  job : v.job k = none
  own : v.own k = []
  running : (v.lists .running).count k = 0

theorem Lost.solo {v : Snap D} (h : Lost k v) (hq : k ∉ v.lists .queued) : Solo k v := by
  have hs : v.status k = none := by unfold Snap.status; rw [h.job]; rfl
  refine ⟨?_, ?_, fun _ => h.own, fun _ j hj => by rw [h.job] at hj; cases hj⟩
  · rw [hs, if_neg (by simp)]; exact List.count_eq_zero.mpr hq
  · rw [hs, if_neg (by simp)]; exact h.running

theorem filterMap_run_append {w w' : W} {l : List Event} (h : w'.log = w.log ++ l)
    (hl : ∀ e ∈ l, e.id = k → e.run? = none) :
    (w'.log.filter fun e => decide (e.id = k)).filterMap Event.run? =
      (w.log.filter fun e => decide (e.id = k)).filterMap Event.run? := by
  have hn : (l.filter fun e => decide (e.id = k)).filterMap Event.run? = [] := by
    rw [List.filterMap_eq_nil_iff]
    intro e he
    rw [List.mem_filter] at he
    exact hl e he.1 (by simpa using he.2)
  rw [h, List.filter_append, List.filterMap_append, hn, List.append_nil]

/-- Without a submission, a lost job stays lost and does not run. -/
theorem Lost.step (L : E.Lawful) (hT : Tidy E s) (h : Lost k (Sys.obs E name s)) (op : Op D O) (hn : NoSubmit k op) :
    Lost k (Sys.obs E name (Sys.step E name SpecB clk s op).1) ∧
    (Sys.obs E name (Sys.step E name SpecB clk s op).1).runs k = (Sys.obs E name s).runs k := by
  by_cases ha : s.alive = true
  swap
  · rw [Sys.step_dead s (by simpa using ha)]; exact ⟨h, rfl⟩
  have hs := Sys.step_cases (E := E) (name := name) (clk := clk) s ha op
  have hother : ∀ (s' : Sys D SpecB) (k' : Str), k ≠ k' → Touch E name k' s.w s'.w →
      (Sys.obs E name s').own k = (Sys.obs E name s).own k →
      Lost k (Sys.obs E name s') ∧ (Sys.obs E name s').runs k = (Sys.obs E name s).runs k := by
    intro s' k' hk ht ho
    refine ⟨⟨(ht.view k hk).trans h.job, ho.trans h.own, (ht.count k hk .running).trans h.running⟩, ?_⟩
    obtain ⟨l, h1, h2⟩ := ht.log
    exact filterMap_run_append h1 (fun e he e' => absurd ((h2 e he).symm.trans e') (fun e => hk e.symm))
  have hmem : ∀ (i : Nat) (t : Task D), s.tasks[i]? = some t → t.orig.id ≠ k := by
    intro i t hi e
    have : t ∈ (Sys.obs E name s).own k := List.mem_filter.mpr ⟨List.mem_of_getElem? hi, by simp [e]⟩
    rw [h.own] at this; cases this
  have hview : view E s.w k = none := h.job
  have hdied : ∀ w : W, view E w = view E s.w → lst name w = lst name s.w → ∀ l, w.log = s.w.log ++ l →
      (∀ e ∈ l, e.id = k → e.run? = none) →
      Lost k (Sys.obs E name { s with w := w, tasks := [], alive := false }) ∧
      (Sys.obs E name { s with w := w, tasks := [], alive := false } : Snap D).runs k = (Sys.obs E name s).runs k := by
    intro w h1 h2 l h3 h4
    refine ⟨⟨by show view E w k = none; rw [h1]; exact hview, rfl, ?_⟩, filterMap_run_append h3 h4⟩
    show (lst name w .running).count k = 0
    rw [h2]; exact h.running
  generalize Sys.step E name SpecB clk s op = p at hs
  cases hs with
  | enqueue j c => exact hother _ j.id (fun e => hn j c rfl e.symm) (Touch.submit j c s.w) rfl
  | cancel k' =>
    by_cases e : k' = k
    · subst e; unfold W.cancel; rw [hview]; exact ⟨h, rfl⟩
    · exact hother _ k' (fun e' => e e'.symm) (Touch.cancel hT.keyed k') rfl
  | get k' => exact ⟨h, rfl⟩
  | retry k' =>
    by_cases e : k' = k
    · subst e; unfold W.retry; rw [hview]; exact ⟨h, rfl⟩
    · exact hother _ k' (fun e' => e e'.symm) (Touch.retry hT.keyed k') rfl
  | config c => exact ⟨⟨h.job, h.own, h.running⟩, rfl⟩
  | tick n hk hk20 =>
    have hp := (Scan.init (clk := clk) (E := E) (name := name) (free name s.cfg s.w) s.w).turns L hT.keyed n
    generalize turns E name clk (free name s.cfg s.w) n (s.w, []) = p at hp
    rcases p with ⟨w, rd⟩
    have hm : k ∉ rd.map Job.id := by
      intro hm
      obtain ⟨j, hj, e⟩ := List.mem_map.mp hm
      obtain ⟨i, job, _, _, hv, _⟩ := hp.started j hj
      rw [e, hview] at hv; cases hv
    have hfil : (rd.filter fun j => decide (j.id = k)) = [] := by
      rw [List.filter_eq_nil_iff]
      intro x hx
      simp only [decide_eq_true_eq]
      exact fun ex => hm (by rw [← ex]; exact List.mem_map_of_mem hx)
    refine ⟨⟨(hp.same k hm).trans hview, ?_, ?_⟩, ?_⟩
    · show List.filter _ (s.tasks ++ _) = []
      rw [List.filter_append, List.filter_map]
      have h1 : (s.tasks.filter fun t => decide (t.orig.id = k)) = [] := h.own
      rw [h1]
      show [] ++ List.map _ (rd.filter fun j => decide (j.id = k)) = []
      rw [hfil]; rfl
    · show (lst name w .running).count k = 0
      have h1 := hp.running; simp only at h1
      rw [h1, List.count_append, List.count_reverse, List.count_eq_zero.mpr hm]
      have h2 : (lst name s.w .running).count k = 0 := h.running
      rw [h2]
    · have h1 := hp.log; simp only at h1
      refine filterMap_run_append h1 (fun e he _ => ?_)
      obtain ⟨j, _, rfl⟩ := List.mem_map.mp he
      rfl
  | tickPanic => exact hdied s.w rfl rfl [] (List.append_nil _).symm (by simp)
  | userPanic => exact hdied s.w rfl rfl [] (List.append_nil _).symm (by simp)
  | noStart => exact ⟨h, rfl⟩
  | noFinish => exact ⟨h, rfl⟩
  | noUserPanic => exact ⟨h, rfl⟩
  | started i orig hi hcan =>
    have e := hmem i _ hi
    refine hother _ orig.id (fun e' => e e'.symm) ?_ (own_set_other hi e e)
    exact (Touch.say (.hookMsg orig.id true) rfl _).trans (Touch.say (.ran orig.counted.context) rfl _)
  | startCancelled i orig hi hcan =>
    have e := hmem i _ hi
    exact hother _ orig.id (fun e' => e e'.symm) (Touch.push orig.id .canceled s.w) (own_erase_other hi e)
  | finished i x orig job w hi hf =>
    have e := hmem i _ hi
    have hjob : job = orig.counted := hT.exec _ (List.mem_of_getElem? hi) job rfl
    subst hjob
    exact hother _ orig.id (fun e' => e e'.symm) hf.touch (own_erase_other hi e)
  | finishPanic i x orig job w hi hf =>
    have hlog : w.log = s.w.log ++ [.hookMsg job.id true] := by
      cases hf with
      | retryPanic => rfl
      | nextPanic ha hn =>
        obtain ⟨_, _, _, _, h5, _⟩ := ha.facts (name := name)
        obtain ⟨_, _, _, k4, _⟩ := hn.facts (name := name)
        exact k4.trans h5
    exact hdied w hf.panic_same.2 hf.panic_same.1 _ hlog (by rintro e he _; rw [List.mem_singleton.mp he]; rfl)

/-- The code of the stored job `k` is running. -/
def Ending (k : Str) (v : Snap D) : Prop :=
  ∃ j, v.job k = some j ∧ j.context.jobStatus = .running ∧ v.own k = [⟨j, some j.counted⟩]

/-- What a turn with orderly submissions of `k` does to a job that is in order: one of the things listed in `Life`,
or it makes its stored job unreadable. -/
theorem Solo.step_orderly (L : E.Lawful) (hT : Tidy E s) (h : Solo k (Sys.obs E name s)) (op : Op D O)
    (ho : Orderly k (Sys.obs E name s) op) :
    (Solo k (Sys.obs E name (Sys.step E name SpecB clk s op).1) ∧
      Life E L name clk k (Sys.obs E name s) (Sys.obs E name (Sys.step E name SpecB clk s op).1) op) ∨
    (Lost k (Sys.obs E name (Sys.step E name SpecB clk s op).1) ∧
      (Sys.obs E name (Sys.step E name SpecB clk s op).1).runs k = (Sys.obs E name s).runs k ∧
      (NoSubmit k op → Ending k (Sys.obs E name s))) := by
  by_cases ha : s.alive = true
  swap
  · rw [Sys.step_dead s (by simpa using ha)]; exact .inl ⟨h, .same _ rfl rfl rfl rfl⟩
  by_cases hc : CarefulAt E clk k (Sys.obs E name s) op
  · exact .inl (h.step L hT op hc)
  cases op with
  | enqueue j c =>
    by_cases hid : j.id = k
    swap
    · exact absurd (fun e => absurd e hid) hc
    have hne : ¬ E.Encodable j := by
      intro he
      exact hc (fun _ => ⟨he, fun ex hex => (ho j c rfl hid).2 ex (by rw [← hid]; exact hex)⟩)
    have hnone : ∀ ms, E.encdec (j.asQueued ms) = none := fun ms =>
      Inv.encdec_none L (fun h => hne (Env.Lawful.congr' (j := j.asQueued ms) L rfl rfl h))
    have hs := Sys.step_cases (E := E) (name := name) (clk := clk) s ha (.enqueue j c : Op D O)
    generalize Sys.step E name SpecB clk s (.enqueue j c : Op D O) = p at hs
    cases hs with
    | enqueue =>
    -- whatever is written now is unreadable
    have henq : ∀ w : W, lst name w = lst name s.w → w.log = s.w.log → (Sys.obs E name s).status k ≠ some .running →
        Lost k (Sys.obs E name { s with w := enq E name clk j w }) ∧
        (Sys.obs E name { s with w := enq E name clk j w } : Snap D).runs k = (Sys.obs E name s).runs k ∧
        (NoSubmit k (.enqueue j c : Op D O) → Ending k (Sys.obs E name s)) := by
      intro w h1 h2 hst
      refine ⟨⟨?_, h.idle hst, ?_⟩, ?_, fun hn => absurd hid (hn j c rfl)⟩
      · show view E (enq E name clk j w) k = none
        simp [enq, hnone, hid]
      · show (lst name (enq E name clk j w) .running).count k = 0
        have := h.running; rw [if_neg hst] at this
        simp [enq, lst_setL, h1]
        exact this
      · have hl : (enq E name clk j w).log = s.w.log ++ [.statusMsg k .queued] := by simp [enq, hid, h2]
        exact filterMap_run_append hl (by rintro e he _; rw [List.mem_singleton.mp he]; rfl)
    unfold submit
    rw [hid]
    cases hv : view E s.w k with
    | none =>
      refine .inr (henq s.w rfl rfl ?_)
      show Option.map _ (view E s.w k) ≠ _
      rw [hv]; simp
    | some ex =>
      have hstat : (Sys.obs E name s).status k = some ex.context.jobStatus := by
        show Option.map _ (view E s.w k) = _; rw [hv]; rfl
      simp only
      by_cases hdone : (c.reRun && ex.isDone) = true
      · rw [if_pos hdone]
        have hst : (Sys.obs E name s).status k ≠ some .running := by
          rw [hstat]
          intro e
          have e := Option.some.inj e
          simp [Job.isDone, e] at hdone
        split
        · exact .inr (henq _ rfl rfl hst)
        · exact .inr (henq _ rfl rfl hst)
      · rw [if_neg hdone]
        split
        · next hov =>
          simp only [Bool.and_eq_true, Bool.not_eq_true'] at hov
          have hst : (Sys.obs E name s).status k ≠ some .running := by
            rw [hstat]
            intro e
            have e := Option.some.inj e
            have := hov.2
            simp [Job.isRunning, e] at this
          refine .inr ⟨⟨?_, h.idle hst, ?_⟩, rfl, fun hn => absurd hid (hn j c rfl)⟩
          · show view E (upsert E k j s.w) k = none
            simp [Inv.encdec_none L hne]
          · have := h.running; rw [if_neg hst] at this; exact this
        · exact .inl ⟨h, .same _ rfl rfl rfl rfl⟩
  | finish i x =>
    have hs := Sys.step_cases (E := E) (name := name) (clk := clk) s ha (.finish i x : Op D O)
    generalize hp : Sys.step E name SpecB clk s (.finish i x : Op D O) = p at hs
    cases hs with
    | noFinish => exact .inl ⟨h, .same _ rfl rfl rfl rfl⟩
    | finishPanic _ _ orig job w hi hf =>
      have hjob : job = orig.counted := hT.exec _ (List.mem_of_getElem? hi) job rfl
      subst hjob
      have hlog : w.log = s.w.log ++ [.hookMsg orig.id true] := by
        cases hf with
        | retryPanic => rfl
        | nextPanic ha hn =>
          obtain ⟨_, _, _, _, h5, _⟩ := ha.facts (name := name)
          obtain ⟨_, _, _, k4, _⟩ := hn.facts (name := name)
          exact k4.trans h5
      refine .inl ⟨h.died hf.panic_same.2 hf.panic_same.1, .died _ ?_ rfl ?_ ha rfl⟩
      · show view E w k = view E s.w k; rw [hf.panic_same.2]
      · by_cases e : orig.id = k
        · subst e
          exact ⟨[.hookMsg orig.id true], mine_append hlog (by simp [Event.id]), by simp⟩
        · refine ⟨[], ?_, by simp⟩
          show w.log.filter _ = s.w.log.filter _ ++ []
          rw [hlog, List.filter_append]
          simp [Event.id, e]
    | finished _ _ orig job w hi hf =>
      have hjob : job = orig.counted := hT.exec _ (List.mem_of_getElem? hi) job rfl
      subst hjob
      by_cases e : orig.id = k
      swap
      · obtain ⟨h1, h2, h3⟩ := h.other (s' := { s with w := w, tasks := s.tasks.eraseIdx i }) (fun e' => e e'.symm)
          (show Touch E name orig.id s.w w from hf.touch) (own_erase_other hi e) rfl
        exact .inl ⟨h1, .same _ h2 (own_erase_other hi e) h3 rfl⟩
      have hne : ¬ E.Encodable (x.leaves orig.counted (clk s.w.t)) := by
        intro he
        refine hc (fun o j ht _ => ?_)
        have ht : s.tasks[i]? = _ := ht
        rw [hi] at ht; cases ht; exact he
      obtain ⟨h1, h2, h3⟩ := h.task ha hi e
      have h3' : s.tasks.filter (fun t => decide (t.orig.id = k)) = [⟨orig, some orig.counted⟩] := h3
      obtain ⟨_, h4, _⟩ := own_single hi e h3'
      obtain ⟨st, hd⟩ := hf.drops L hne h2
      have hid : orig.counted.id = k := e
      refine .inr ⟨⟨?_, h4, ?_⟩, ?_, fun _ => ⟨orig, h1, h2, h3⟩⟩
      · show view E w k = none
        rw [hd.view, hid]; simp
      · show (lst name w .running).count k = 0
        rw [hd.running, hid]; exact count_filter_ne _ _
      · refine filterMap_run_append hd.log ?_
        rintro e he _
        simp only [List.mem_cons, List.not_mem_nil, or_false] at he
        rcases he with rfl | rfl <;> rfl
  | _ => exact absurd trivial hc

/-- A turn with orderly submissions of `k`, whether `k` is in order or lost. -/
theorem Lost.or_step (L : E.Lawful) (hT : Tidy E s) (h : Solo k (Sys.obs E name s) ∨ Lost k (Sys.obs E name s)) (op : Op D O)
    (ho : Orderly k (Sys.obs E name s) op) :
    Solo k (Sys.obs E name (Sys.step E name SpecB clk s op).1) ∨ Lost k (Sys.obs E name (Sys.step E name SpecB clk s op).1) := by
  have key : ∀ h : Solo k (Sys.obs E name s),
      Solo k (Sys.obs E name (Sys.step E name SpecB clk s op).1) ∨ Lost k (Sys.obs E name (Sys.step E name SpecB clk s op).1) := by
    intro h
    rcases h.step_orderly (clk := clk) L hT op ho with h | h
    · exact .inl h.1
    · exact .inr h.1
  rcases h with h | h
  · exact key h
  · by_cases hn : NoSubmit k op
    · exact .inr (h.step L hT op hn).1
    · unfold NoSubmit at hn
      push Not at hn
      obtain ⟨j, c, e, hid⟩ := hn
      exact key (h.solo ((ho j c e hid).1 h.job))

end

/-! ## Histories on any backend -/

theorem reach_tidy (L : E.Lawful) {P : Snap D → Op D O → Prop} {s : Sys D SpecB}
    (hs : Reach Impl.spec E name clk P s) : Tidy E s :=
  Reach.induct (b := Impl.spec) (Q := fun s : Sys D SpecB => Tidy E s) Tidy.init (fun _ op _ _ ih => ih.step L op) hs

theorem Solo.init (k : Str) : Solo k (Sys.obs E name (Sys.init SpecB Spec.empty : Sys D SpecB)) where
  queued := rfl
  running := rfl
  idle _ := rfl
  busy _ j h := by cases h

variable {b : Impl} {k : Str} {P : Snap D → Op D O → Prop}

/-- Job `k` is in order in every history that is careful with `k`. -/
theorem reach_solo (L : E.Lawful) (hP : ∀ v op, P v op → CarefulFor E k v op) {s : Sys D b.B}
    (hs : Reach b E name clk P s) : Solo k (b.snap E name s) := by
  refine Reach.lift (fun t ht => ?_) hs
  exact Reach.induct (b := Impl.spec) (Q := fun s : Sys D SpecB => Solo k (Sys.obs E name s)) (Solo.init k)
    (fun t op hr hp ih => (ih.step L (reach_tidy L hr) op (hP _ _ hp).at).1) ht

/-- What a turn of such a history does to `k`. -/
theorem reach_life (L : E.Lawful) (hP : ∀ v op, P v op → CarefulFor E k v op) {s : Sys D b.B}
    (hs : Reach b E name clk P s) (op : Op D O) (hp : CarefulFor E k (b.snap E name s) op) :
    Life E L name clk k (b.snap E name s) (b.snap E name (Sys.step E name b.B clk s op).1) op := by
  exact Reach.lift_step (Q := fun v op _ v' => CarefulFor E k v op → Life E L name clk k v v' op)
    (fun t op ht hp => (Solo.step L (reach_tidy L ht) (reach_solo (b := Impl.spec) L hP ht) op hp.at).2) hs op hp

/-- In a history with orderly submissions of `k`, job `k` is in order or lost. -/
theorem reach_orderly (L : E.Lawful) (hP : ∀ v op, P v op → Orderly k v op) {s : Sys D b.B}
    (hs : Reach b E name clk P s) : Solo k (b.snap E name s) ∨ Lost k (b.snap E name s) := by
  refine Reach.lift (Q := fun v => Solo k v ∨ Lost k v) (fun t ht => ?_) hs
  exact Reach.induct (b := Impl.spec) (Q := fun s : Sys D SpecB => Solo k (Sys.obs E name s) ∨ Lost k (Sys.obs E name s))
    (.inl (Solo.init k)) (fun t op hr hp ih => Lost.or_step L (reach_tidy L hr) ih op (hP _ _ hp)) ht

/-- A job that can be read is in order. -/
theorem solo_of (L : E.Lawful) {s : Sys D b.B} (hs : Reach (O := O) b E name clk (Orderly k) s) {j : Job D}
    (hj : (b.snap E name s).job k = some j) : Solo k (b.snap E name s) := by
  rcases reach_orderly L (fun _ _ h => h) hs with h | h
  · exact h
  · rw [h.job] at hj; cases hj

/-- What a turn of such a history does to `k`. -/
theorem orderly_life (L : E.Lawful) {s : Sys D b.B} (hs : Reach b E name clk P s) (h : Solo k (b.snap E name s))
    (op : Op D O) (hp : Orderly k (b.snap E name s) op) :
    (Solo k (b.snap E name (Sys.step E name b.B clk s op).1) ∧
      Life E L name clk k (b.snap E name s) (b.snap E name (Sys.step E name b.B clk s op).1) op) ∨
    (Lost k (b.snap E name (Sys.step E name b.B clk s op).1) ∧
      (b.snap E name (Sys.step E name b.B clk s op).1).runs k = (b.snap E name s).runs k ∧
      (NoSubmit k op → Ending k (b.snap E name s))) :=
  Reach.lift_step (Q := fun v op _ v' => Solo k v → Orderly k v op → (Solo k v' ∧ Life E L name clk k v v' op) ∨
      (Lost k v' ∧ v'.runs k = v.runs k ∧ (NoSubmit k op → Ending k v)))
    (fun _ op ht h hp => h.step_orderly L (reach_tidy L ht) op hp) hs op h hp

/-- A lost job stays lost and does not run, until it is submitted again. -/
theorem lost_step (L : E.Lawful) {s : Sys D b.B} (hs : Reach b E name clk P s) (h : Lost k (b.snap E name s))
    (op : Op D O) (hn : NoSubmit k op) :
    Lost k (b.snap E name (Sys.step E name b.B clk s op).1) ∧
    (b.snap E name (Sys.step E name b.B clk s op).1).runs k = (b.snap E name s).runs k :=
  Reach.lift_step (Q := fun v op _ v' => Lost k v → NoSubmit k op → Lost k v' ∧ v'.runs k = v.runs k)
    (fun _ op ht h hn => h.step L (reach_tidy L ht) op hn) hs op h hn

theorem NoSubmit.orderly {v : Snap D} {op : Op D O} (h : NoSubmit k op) : Orderly k v op :=
  fun j c e hid => absurd hid (h j c e)

/-- Histories careful with `k` have orderly submissions. -/
theorem Reach.orderly (L : E.Lawful) {s : Sys D b.B} (hs : Reach (O := O) b E name clk (CarefulFor E k) s) :
    Reach (O := O) b E name clk (Orderly k) s := by
  induction hs with
  | start => exact .start
  | step op hr hp ih =>
    refine .step op ih (fun j c e hid => ?_)
    subst e
    have hp := hp hid
    refine ⟨fun hn hq => ?_, fun ex hex => hp.2 ex (by rw [hid]; exact hex)⟩
    have h := (reach_solo L (fun _ _ h => h) hr).queued
    have hs : ∀ v : Snap D, v.job k = none → v.status k = none := by intro v e; unfold Snap.status; rw [e]; rfl
    rw [hs _ hn, if_neg (by simp)] at h
    exact absurd hq (List.count_eq_zero.mp h)

end
end AJ
