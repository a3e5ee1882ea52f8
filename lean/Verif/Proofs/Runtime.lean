import Verif.Spec.Runtime

/-!
# Plugins and systems: invariants
-/

namespace AJ.Runtime

theorem run_append (r : Runtime) (l l' : List RunOp) : r.run (l ++ l') = (r.run l).run l' := by unfold run; rw [List.foldl_append]

theorem run_cons (r : Runtime) (op : RunOp) (l : List RunOp) : r.run (op :: l) = (r.step op).run l := rfl

/-! ## Systems -/

/-- Systems are numbered from 0; there is at most one engine; work queues live where it lives, and no longer. -/
structure Settled (r : Runtime) : Prop where
  current : ∀ th s, r.current th = some s → s < r.running.length
  engine : ∀ a ∈ r.engines, a.system < r.running.length
  one : (r.addr = none ∧ r.engines = []) ∨ ∃ a, r.addr = some 0 ∧ r.engines = [a]
  queue : ∀ q ∈ r.queues, ∃ a ∈ r.engines, q.2.system = a.system ∧ (q.2.alive = true → a.alive = true)
  byType : ∀ ty q, r.byType ty = some q → q < r.queues.length

theorem settled_init : Settled {} where
  current := fun _ _ h => by cases h
  engine := fun _ h => by cases h
  one := .inl ⟨rfl, rfl⟩
  queue := fun _ h => by cases h
  byType := fun _ _ h => by cases h

/-- Steps that change neither systems nor actors. -/
structure SamePlace (r r' : Runtime) : Prop where
  running : r'.running = r.running
  current : r'.current = r.current
  addr : r'.addr = r.addr
  engines : r'.engines = r.engines
  queues : r'.queues = r.queues
  byType : r'.byType = r.byType

theorem SamePlace.settled {r r' : Runtime} (h : SamePlace r r') (hs : Settled r) : Settled r' where
  current := by rw [h.current, h.running]; exact hs.current
  engine := by rw [h.engines, h.running]; exact hs.engine
  one := by rw [h.addr, h.engines]; exact hs.one
  queue := by rw [h.queues, h.engines]; exact hs.queue
  byType := by rw [h.byType, h.queues]; exact hs.byType

theorem same_refl (r : Runtime) : SamePlace r r := ⟨rfl, rfl, rfl, rfl, rfl, rfl⟩

theorem same_say (r : Runtime) (v : Verdict) : SamePlace r (r.say v) := ⟨rfl, rfl, rfl, rfl, rfl, rfl⟩

theorem same_post (r : Runtime) (s : Nat) (m : PluginMsg) : SamePlace r (r.post s m) := by
  unfold post
  dsimp only
  split <;> exact ⟨rfl, rfl, rfl, rfl, rfl, rfl⟩

theorem same_serve (r : Runtime) (s : Nat) (op : CentreOp) : SamePlace r (r.serve s op) := by
  unfold serve
  split <;> exact ⟨rfl, rfl, rfl, rfl, rfl, rfl⟩

theorem same_deliver (r : Runtime) (s n : Nat) : SamePlace r (r.deliver s n) := by
  unfold deliver
  split
  · split
    · exact same_refl r
    · have h := same_serve r s (.deliver (by assumption) n)
      exact ⟨h.running, h.current, h.addr, h.engines, h.queues, h.byType⟩
  · exact same_refl r

theorem same_plugin (r : Runtime) (th : Nat) : SamePlace r (r.plugin th) := by
  unfold plugin
  split
  · exact same_say _ _
  · rename_i s _
    have h := same_post r s (.register .ofUser)
    exact ⟨h.running, h.current, h.addr, h.engines, h.queues, h.byType⟩

theorem same_event (r : Runtime) (q : Nat) (ev : Event) : SamePlace r (r.event q ev) := by
  unfold event
  split
  · split
    · split
      · exact same_post _ _ _
      · exact same_refl r
    · exact same_refl r
  · exact same_refl r

theorem leave_system (s : Nat) (a : Resident) : (a.leave s).system = a.system := by
  unfold Resident.leave
  split <;> rfl

theorem settled_unhouse {r : Runtime} (h : Settled r) (s : Nat) : Settled (r.unhouse s) where
  current := fun th s' hc => by
    show s' < (r.running.set s false).length
    rw [List.length_set]; exact h.current th s' hc
  engine := fun a ha => by
    show a.system < (r.running.set s false).length
    rw [List.length_set]; exact h.engine a ha
  one := h.one
  queue := h.queue
  byType := h.byType

theorem settled_stop {r : Runtime} (h : Settled r) (s : Nat) : Settled (r.stop s) := by
  unfold stop
  split
  · refine ⟨(settled_unhouse h s).current, fun a ha => ?_, ?_, fun q hq => ?_, fun ty q hq => ?_⟩
    · obtain ⟨a', h1, rfl⟩ := List.mem_map.1 ha
      rw [leave_system]
      exact (settled_unhouse h s).engine a' h1
    · rcases h.one with ⟨h1, h2⟩ | ⟨a, h1, h2⟩
      · exact .inl ⟨h1, by show r.engines.map _ = []; rw [h2]; rfl⟩
      · exact .inr ⟨a.leave s, h1, by show r.engines.map _ = _; rw [h2]; rfl⟩
    · obtain ⟨q', h1, rfl⟩ := List.mem_map.1 hq
      obtain ⟨a, h2, h3, h4⟩ := h.queue q' h1
      refine ⟨a.leave s, List.mem_map_of_mem h2, ?_, ?_⟩
      · dsimp only
        rw [leave_system, leave_system]; exact h3
      · dsimp only
        unfold Resident.leave
        rw [h3]
        split
        · intro h; cases h
        · exact h4
    · show q < (r.queues.map _).length
      rw [List.length_map]; exact h.byType ty q hq
  · exact h

theorem settled_registerAddr {r : Runtime} (h : Settled r) (ha : r.addr = none) {s : Nat} (hs : s < r.running.length) : Settled (r.registerAddr s) := by
  have he : r.engines = [] := by
    rcases h.one with ⟨_, h2⟩ | ⟨a, h1, _⟩
    · exact h2
    · rw [h1] at ha; cases ha
  refine ⟨h.current, fun a hm => ?_, .inr ⟨{ system := s }, ?_, ?_⟩, fun q hq => ?_, h.byType⟩
  · have hm : a ∈ r.engines ++ [{ system := s }] := hm
    rw [he] at hm
    rw [List.mem_singleton.1 hm]
    exact hs
  · show some r.engines.length = _
    rw [he]; rfl
  · show r.engines ++ _ = _
    rw [he]; rfl
  · obtain ⟨a, h1, _⟩ := h.queue q hq
    rw [he] at h1; cases h1

theorem settled_grow {r : Runtime} (h : Settled r) (x : Bool) : Settled { r with running := r.running ++ [x] } where
  current := fun th s hc => by
    have := h.current th s hc
    simp only [List.length_append, List.length_singleton]; omega
  engine := fun a ha => by
    have := h.engine a ha
    simp only [List.length_append, List.length_singleton]; omega
  one := h.one
  queue := h.queue
  byType := h.byType

theorem settled_start {r : Runtime} (h : Settled r) (th : Nat) : Settled (r.start th) := by
  unfold start
  split
  · exact (same_say r _).settled h
  · rename_i ha
    split
    · rename_i s hc
      exact (same_say _ _).settled (settled_registerAddr h ha (h.current th s hc))
    · exact (same_say _ _).settled (settled_registerAddr (settled_grow h false) ha (by simp))

theorem settled_submit {r : Runtime} (h : Settled r) (ty : Nat) : Settled (r.submit ty) := by
  unfold submit
  split
  · split <;> exact (same_say r _).settled h
  · split
    · exact (same_say r _).settled h
    · split
      · rename_i e he a ha
        split
        · rename_i hal
          refine (same_say _ _).settled ⟨h.current, h.engine, h.one, fun q hq => ?_, fun ty' q hq => ?_⟩
          · rcases List.mem_append.1 hq with hq | hq
            · exact h.queue q hq
            · rw [List.mem_singleton.1 hq]
              exact ⟨a, List.mem_of_getElem? ha, rfl, fun _ => hal⟩
          · simp only [upd] at hq
            rw [List.length_append, List.length_singleton]
            split at hq
            · rw [← Option.some.inj hq]; exact Nat.lt_succ_self _
            · exact Nat.lt_succ_of_lt (h.byType ty' q hq)
        · exact (same_say r _).settled h
      · exact (same_say r _).settled h

theorem settled_step {r : Runtime} (h : Settled r) (op : RunOp) : Settled (r.step op) := by
  cases op with
  | system th =>
    refine ⟨fun th' s hc => ?_, (settled_grow h true).engine, h.one, h.queue, h.byType⟩
    have hc : upd r.current th (some r.running.length) th' = some s := hc
    show s < (r.running ++ [true]).length
    unfold upd at hc
    split at hc
    · rw [← Option.some.inj hc]; simp
    · exact (settled_grow h true).current th' s hc
  | drop s => exact settled_unhouse h s
  | stop s => exact settled_stop h s
  | start th => exact settled_start h th
  | plugin th => exact (same_plugin r th).settled h
  | submit ty => exact settled_submit h ty
  | event q ev => exact (same_event r q ev).settled h
  | deliver s n => exact (same_deliver r s n).settled h
  | poll s i n => exact (same_serve r s _).settled h
  | panic s i => exact (same_serve r s _).settled h

theorem settled_run {r : Runtime} (h : Settled r) (ops : List RunOp) : Settled (r.run ops) := by
  induction ops generalizing r with
  | nil => exact h
  | cons op ops ih => exact ih (settled_step h op)

/-! ## Messages -/

/-- The messages, boxes and centres of system `s` are as before. -/
structure SameAt (s : Nat) (r r' : Runtime) : Prop where
  meant : r'.meantFor s = r.meantFor s
  box : r'.boxes s = r.boxes s
  centre : r'.centres s = r.centres s

theorem sameAt_refl (s : Nat) (r : Runtime) : SameAt s r r := ⟨rfl, rfl, rfl⟩

/-- What the plugin centre of system `s` has done are steps of a `Centre`, and its messages are those meant for it. -/
def Kept (np : Prop) (r : Runtime) (s : Nat) : Prop :=
  ∃ cops, r.centres s = Centre.run {} cops ∧ mail cops ++ r.boxes s = r.meantFor s ∧ (np → NoPanic cops)

theorem SameAt.kept {np : Prop} {s : Nat} {r r' : Runtime} (h : SameAt s r r') (hk : Kept np r s) : Kept np r' s := by
  obtain ⟨cops, h1, h2, h3⟩ := hk
  exact ⟨cops, by rw [h.centre, h1], by rw [h.box, h.meant, h2], h3⟩

theorem kept_mono {np np' : Prop} (h : np' → np) {r : Runtime} {s : Nat} (hk : Kept np r s) : Kept np' r s := by
  obtain ⟨cops, h1, h2, h3⟩ := hk
  exact ⟨cops, h1, h2, fun x => h3 (h x)⟩

/-- Nothing has happened in system `s`. -/
structure Blank (r : Runtime) (s : Nat) : Prop where
  meant : r.meantFor s = []
  box : r.boxes s = []
  centre : r.centres s = {}

theorem SameAt.blank {s : Nat} {r r' : Runtime} (h : SameAt s r r') (hb : Blank r s) : Blank r' s :=
  ⟨h.meant.trans hb.meant, h.box.trans hb.box, h.centre.trans hb.centre⟩

theorem Blank.kept {np : Prop} {r : Runtime} {s : Nat} (h : Blank r s) : Kept np r s :=
  ⟨[], h.centre, by rw [h.box, h.meant]; rfl, fun _ i hi => by cases hi⟩

/-- A centre that runs is kept, and systems to come are blank. -/
structure Booked (np : Nat → Prop) (r : Runtime) : Prop where
  kept : ∀ s, r.runs s = true → Kept (np s) r s
  blank : ∀ s, r.running.length ≤ s → Blank r s

theorem booked_init (np : Nat → Prop) : Booked np {} where
  kept := fun s h => by cases h
  blank := fun s _ => ⟨rfl, rfl, rfl⟩

theorem meant_post (r : Runtime) (s s' : Nat) (m : PluginMsg) :
    (r.post s m).meantFor s' = r.meantFor s' ++ (if s = s' then [m] else []) := by
  have : (r.post s m).sent = r.sent ++ [(s, m)] := by unfold post; dsimp only; split <;> rfl
  unfold meantFor
  rw [this, List.filter_append, List.map_append]
  by_cases h : s = s'
  · subst h; simp
  · simp [h]

theorem post_other {s s' : Nat} (h : s ≠ s') (r : Runtime) (m : PluginMsg) : SameAt s' r (r.post s m) := by
  refine ⟨by rw [meant_post, if_neg h, List.append_nil], ?_, ?_⟩
  · unfold post; dsimp only; split
    · show upd _ _ _ _ = _; unfold upd; exact if_neg (fun e => h e.symm)
    · rfl
  · unfold post; dsimp only; split <;> rfl

theorem booked_post {np : Nat → Prop} {r : Runtime} (h : Booked np r) {s : Nat} (hs : s < r.running.length) (m : PluginMsg) : Booked np (r.post s m) := by
  have hsame := same_post r s m
  refine ⟨fun s' hr => ?_, fun s' hl => ?_⟩
  · have hr : r.runs s' = true := by unfold runs at hr ⊢; rwa [hsame.running] at hr
    by_cases e : s = s'
    · subst e
      obtain ⟨cops, h1, h2, h3⟩ := h.kept s hr
      refine ⟨cops, ?_, ?_, h3⟩
      · rw [← h1]; unfold post; dsimp only; split <;> rfl
      · rw [meant_post, if_pos rfl, ← h2, List.append_assoc]
        congr 1
        unfold post
        dsimp only
        rw [if_pos (show runs { r with sent := r.sent ++ [(s, m)] } s = true from hr)]
        show upd _ _ _ _ = _
        unfold upd; exact if_pos rfl
    · exact (post_other e r m).kept (h.kept s' hr)
  · rw [hsame.running] at hl
    exact (post_other (by omega) r m).blank (h.blank s' hl)

theorem mail_append (l l' : List CentreOp) : mail (l ++ l') = mail l ++ mail l' := by unfold mail; rw [List.filterMap_append]

theorem centre_run_append (c : Centre) (l : List CentreOp) (op : CentreOp) : c.run (l ++ [op]) = (c.run l).step op := by
  unfold Centre.run; rw [List.foldl_append]; rfl

theorem serve_other {s s' : Nat} (h : s ≠ s') (r : Runtime) (op : CentreOp) : SameAt s' r (r.serve s op) := by
  unfold serve
  split
  · exact ⟨rfl, rfl, by show upd _ _ _ _ = _; unfold upd; exact if_neg (fun e => h e.symm)⟩
  · exact sameAt_refl _ _

theorem serve_centre {r : Runtime} {s : Nat} (h : r.runs s = true) (op : CentreOp) : (r.serve s op).centres s = (r.centres s).step op := by
  unfold serve
  rw [if_pos h]
  show upd _ _ _ _ = _
  unfold upd; exact if_pos rfl

theorem booked_serve {np np' : Nat → Prop} {r : Runtime} (h : Booked np r) (s : Nat) (op : CentreOp) (hm : mail [op] = []) (hnp : ∀ s, np' s → np s)
    (hp : np' s → ∀ i, op ≠ .panic i) : Booked np' (r.serve s op) := by
  have hsame := same_serve r s op
  refine ⟨fun s' hr => ?_, fun s' hl => ?_⟩
  · have hr : r.runs s' = true := by unfold runs at hr ⊢; rwa [hsame.running] at hr
    by_cases e : s = s'
    · subst e
      obtain ⟨cops, h1, h2, h3⟩ := h.kept s hr
      refine ⟨cops ++ [op], ?_, ?_, fun hx i hi => ?_⟩
      · rw [serve_centre hr, h1, centre_run_append]
      · rw [mail_append, hm, List.append_nil]
        unfold serve
        rw [if_pos hr]; exact h2
      · rcases List.mem_append.1 hi with hi | hi
        · exact h3 (hnp s hx) i hi
        · exact hp hx i (List.mem_singleton.1 hi).symm
    · exact (serve_other e r op).kept (kept_mono (hnp s') (h.kept s' hr))
  · rw [hsame.running] at hl
    by_cases e : s = s'
    · subst e
      have : r.runs s = false := by
        unfold runs; rw [List.getElem?_eq_none hl]; rfl
      unfold serve
      rw [if_neg (by rw [this]; decide)]
      exact h.blank s hl
    · exact (serve_other e r op).blank (h.blank s' hl)

theorem booked_deliver {np : Nat → Prop} {r : Runtime} (h : Booked np r) (s n : Nat) : Booked np (r.deliver s n) := by
  unfold deliver
  by_cases hr : r.runs s = true
  · rw [if_pos hr]
    split
    · exact h
    · rename_i m ms hb
      refine ⟨fun s' hr' => ?_, fun s' hl => ?_⟩
      · have hr' : r.runs s' = true := by unfold runs at hr' ⊢; rwa [(same_serve r s (.deliver m n)).running] at hr'
        by_cases e : s = s'
        · subst e
          obtain ⟨cops, h1, h2, h3⟩ := h.kept s hr
          refine ⟨cops ++ [.deliver m n], ?_, ?_, fun hx i hi => ?_⟩
          · show (r.serve s _).centres s = _
            rw [serve_centre hr, h1, centre_run_append]
          · show mail _ ++ upd _ _ _ _ = (r.serve s _).meantFor s
            have : (r.serve s (.deliver m n)).meantFor s = r.meantFor s := by unfold serve; rw [if_pos hr]; rfl
            rw [this, ← h2, hb, mail_append]
            unfold upd
            rw [if_pos rfl, List.append_assoc]
            rfl
          · rcases List.mem_append.1 hi with hi | hi
            · exact h3 hx i hi
            · cases List.mem_singleton.1 hi
        · have hk := (serve_other e r (.deliver m n)).kept (h.kept s' hr')
          obtain ⟨cops, h1, h2, h3⟩ := hk
          refine ⟨cops, h1, ?_, h3⟩
          show mail cops ++ upd _ _ _ _ = _
          unfold upd
          rw [if_neg (fun x => e x.symm)]
          have hbx : (r.serve s (.deliver m n)).boxes s' = r.boxes s' := (serve_other e r _).box
          rw [← hbx]; exact h2
      · have hl : r.running.length ≤ s' := by rw [← (same_serve r s (.deliver m n)).running]; exact hl
        have hlt : s < r.running.length := by
          rcases Nat.lt_or_ge s r.running.length with h | h
          · exact h
          · unfold runs at hr; rw [List.getElem?_eq_none h] at hr; cases hr
        have e : s ≠ s' := by omega
        have hb' := (serve_other e r (.deliver m n)).blank (h.blank s' hl)
        refine ⟨hb'.meant, ?_, hb'.centre⟩
        show upd _ _ _ _ = _
        unfold upd
        rw [if_neg (fun x => e x.symm)]
        exact (h.blank s' hl).box
  · rw [if_neg hr]; exact h

theorem unhouse_other {s s' : Nat} (h : s ≠ s') (r : Runtime) : SameAt s' r (r.unhouse s) :=
  ⟨rfl, by show upd _ _ _ _ = _; unfold upd; exact if_neg (fun e => h e.symm), by show upd _ _ _ _ = _; unfold upd; exact if_neg (fun e => h e.symm)⟩

theorem runs_unhouse (r : Runtime) (s s' : Nat) : (r.unhouse s).runs s' = (r.runs s' && decide (s' ≠ s)) := by
  unfold runs
  show ((r.running.set s false)[s']?).getD false = _
  rw [List.getElem?_set]
  by_cases e : s = s'
  · subst e
    rw [if_pos rfl]
    split <;> simp
  · rw [if_neg e]
    rw [show decide (s' ≠ s) = true from decide_eq_true (fun x => e x.symm), Bool.and_true]

theorem booked_unhouse {np : Nat → Prop} {r : Runtime} (h : Booked np r) (s : Nat) : Booked np (r.unhouse s) := by
  refine ⟨fun s' hr => ?_, fun s' hl => ?_⟩
  · rw [runs_unhouse, Bool.and_eq_true, decide_eq_true_eq] at hr
    exact (unhouse_other hr.2.symm r).kept (h.kept s' hr.1)
  · have hl : r.running.length ≤ s' := by
      have : (r.unhouse s).running.length = r.running.length := List.length_set
      omega
    have hb := h.blank s' hl
    by_cases e : s = s'
    · subst e
      refine ⟨hb.meant, ?_, ?_⟩
      · show upd _ _ _ _ = _
        unfold upd; exact if_pos rfl
      · show upd _ _ _ _ = _
        unfold upd
        rw [if_pos rfl, hb.centre]
    · exact (unhouse_other e r).blank hb

/-- Steps that leave messages and centres alone. -/
theorem Booked.of_eq {np np' : Nat → Prop} {r r' : Runtime} (h : Booked np r) (hnp : ∀ s, np' s → np s) (h1 : r'.running = r.running) (h2 : r'.sent = r.sent)
    (h3 : r'.boxes = r.boxes) (h4 : r'.centres = r.centres) : Booked np' r' := by
  have hs : ∀ s, SameAt s r r' := fun s => ⟨by unfold meantFor; rw [h2], by rw [h3], by rw [h4]⟩
  refine ⟨fun s hr => (hs s).kept (kept_mono (hnp s) (h.kept s ?_)), fun s hl => (hs s).blank (h.blank s ?_)⟩
  · unfold runs at hr ⊢; rwa [h1] at hr
  · rw [h1] at hl; exact hl

theorem booked_mono {np np' : Nat → Prop} (hnp : ∀ s, np' s → np s) {r : Runtime} (h : Booked np r) : Booked np' r := h.of_eq hnp rfl rfl rfl rfl

theorem booked_grow {np : Nat → Prop} {r : Runtime} (h : Booked np r) (x : Bool) : Booked np { r with running := r.running ++ [x] } := by
  refine ⟨fun s hr => ?_, fun s hl => ?_⟩
  · rcases Nat.lt_or_ge s r.running.length with hlt | hge
    · have : r.runs s = true := by
        unfold runs at hr ⊢
        rwa [List.getElem?_append_left hlt] at hr
      exact (show SameAt s r _ from ⟨rfl, rfl, rfl⟩).kept (h.kept s this)
    · exact (show SameAt s r { r with running := r.running ++ [x] } from ⟨rfl, rfl, rfl⟩).blank (h.blank s hge) |>.kept
  · rw [List.length_append] at hl
    exact (show SameAt s r { r with running := r.running ++ [x] } from ⟨rfl, rfl, rfl⟩).blank (h.blank s (by omega))

theorem booked_start {np : Nat → Prop} {r : Runtime} (h : Booked np r) (th : Nat) : Booked np (r.start th) := by
  unfold start
  split
  · exact h.of_eq (fun _ x => x) rfl rfl rfl rfl
  · split
    · exact h.of_eq (fun _ x => x) rfl rfl rfl rfl
    · exact (booked_grow h false).of_eq (fun _ x => x) rfl rfl rfl rfl

theorem booked_submit {np : Nat → Prop} {r : Runtime} (h : Booked np r) (ty : Nat) : Booked np (r.submit ty) := by
  unfold submit
  split
  · split <;> exact h.of_eq (fun _ x => x) rfl rfl rfl rfl
  · split
    · exact h.of_eq (fun _ x => x) rfl rfl rfl rfl
    · split
      · split <;> exact h.of_eq (fun _ x => x) rfl rfl rfl rfl
      · exact h.of_eq (fun _ x => x) rfl rfl rfl rfl

theorem booked_step {np np' : Nat → Prop} {r : Runtime} (hs : Settled r) (h : Booked np r) (op : RunOp) (hnp : ∀ s, np' s → np s)
    (hp : ∀ s i, np' s → op ≠ .panic s i) : Booked np' (r.step op) := by
  cases op with
  | system th => exact (booked_grow (booked_mono hnp h) true).of_eq (fun _ x => x) rfl rfl rfl rfl
  | drop s => exact booked_unhouse (booked_mono hnp h) s
  | stop s =>
    show Booked np' (r.stop s)
    unfold stop
    split
    · exact (booked_unhouse (booked_mono hnp h) s).of_eq (fun _ x => x) rfl rfl rfl rfl
    · exact booked_mono hnp h
  | start th => exact booked_start (booked_mono hnp h) th
  | plugin th =>
    show Booked np' (r.plugin th)
    unfold plugin
    split
    · exact h.of_eq hnp rfl rfl rfl rfl
    · rename_i s hc
      exact (booked_post (booked_mono hnp h) (hs.current th s hc) _).of_eq (fun _ x => x) rfl rfl rfl rfl
  | submit ty => exact booked_submit (booked_mono hnp h) ty
  | event q ev =>
    show Booked np' (r.event q ev)
    unfold event
    split
    · rename_i ty a hq
      obtain ⟨a', h1, h2, -⟩ := hs.queue _ (List.mem_of_getElem? hq)
      split
      · split
        · exact booked_post (booked_mono hnp h) (by have := hs.engine a' h1; rw [← h2] at this; exact this) _
        · exact booked_mono hnp h
      · exact booked_mono hnp h
    · exact booked_mono hnp h
  | deliver s n => exact booked_deliver (booked_mono hnp h) s n
  | poll s i n => exact booked_serve h s _ rfl hnp (fun _ _ e => by cases e)
  | panic s i => exact booked_serve h s _ rfl hnp (fun hx j e => hp s i hx rfl)

theorem booked_run {np : Nat → Prop} {r : Runtime} (hs : Settled r) (h : Booked np r) (ops : List RunOp) :
    Booked (fun s => np s ∧ ∀ i, .panic s i ∉ ops) (r.run ops) := by
  induction ops generalizing r np with
  | nil => exact booked_mono (fun s h => h.1) h
  | cons op ops ih =>
    have h1 := booked_step (np' := fun s => np s ∧ ∀ i, op ≠ .panic s i) hs h op (fun s h => h.1) (fun s i h => h.2 i)
    refine booked_mono (fun s h => ⟨⟨h.1, fun i e => h.2 i (e ▸ List.mem_cons_self ..)⟩, fun i hm => h.2 i (List.mem_cons_of_mem _ hm)⟩) (ih (settled_step hs op) h1)

/-! ## Silence -/

/-- No hook has been called in system `s`, and none will be but for a message of a work queue. -/
structure Mute (r : Runtime) (s : Nat) : Prop where
  box : ∀ m ∈ r.boxes s, ∃ p, m = .register p
  calls : (r.centres s).calls = []
  tasks : (r.centres s).tasks = []

theorem SameAt.mute {s : Nat} {r r' : Runtime} (h : SameAt s r r') (hm : Mute r s) : Mute r' s :=
  ⟨by rw [h.box]; exact hm.box, by rw [h.centre]; exact hm.calls, by rw [h.centre]; exact hm.tasks⟩

theorem mute_serve {r : Runtime} {s : Nat} (h : Mute r s) (op : CentreOp) (ho : ∀ m n, op = .deliver m n → ∃ p, m = .register p) :
    (∀ m ∈ (r.serve s op).boxes s, ∃ p, m = .register p) ∧ ((r.serve s op).centres s).calls = [] ∧ ((r.serve s op).centres s).tasks = [] := by
  by_cases hr : r.runs s = true
  · rw [serve_centre hr]
    have hb : (r.serve s op).boxes = r.boxes := by unfold serve; split <;> rfl
    rw [hb]
    refine ⟨h.box, ?_⟩
    cases op with
    | deliver m n => obtain ⟨p, rfl⟩ := ho m n rfl; exact ⟨h.calls, h.tasks⟩
    | poll i n => simp only [Centre.step, h.tasks, List.getElem?_nil]; exact ⟨h.calls, trivial⟩
    | panic i => simp only [Centre.step, h.tasks, List.eraseIdx_nil]; exact ⟨h.calls, trivial⟩
  · unfold serve; rw [if_neg hr]; exact ⟨h.box, h.calls, h.tasks⟩

theorem mute_step {r : Runtime} {s : Nat} (hq : ∀ q ∈ r.queues, q.2.system ≠ s) (h : Mute r s) (op : RunOp) : Mute (r.step op) s := by
  have hsame : ∀ {r' : Runtime}, r'.sent = r.sent → r'.boxes = r.boxes → r'.centres = r.centres → Mute r' s := fun h1 h2 h3 =>
    (show SameAt s r _ from ⟨by unfold meantFor; rw [h1], by rw [h2], by rw [h3]⟩).mute h
  have hun : ∀ s', Mute (r.unhouse s') s := by
    intro s'
    by_cases e : s' = s
    · subst e
      refine ⟨fun m hm => ?_, ?_, ?_⟩
      · have hm : m ∈ upd r.boxes s' [] s' := hm
        unfold upd at hm; rw [if_pos rfl] at hm; cases hm
      · show Centre.calls (upd _ _ _ _) = _
        unfold upd; rw [if_pos rfl]; exact h.calls
      · show Centre.tasks (upd _ _ _ _) = _
        unfold upd; rw [if_pos rfl]
    · exact (unhouse_other e r).mute h
  cases op with
  | system th => exact hsame rfl rfl rfl
  | drop s' => exact hun s'
  | stop s' =>
    show Mute (r.stop s') s
    unfold stop
    split
    · exact ⟨(hun s').box, (hun s').calls, (hun s').tasks⟩
    · exact h
  | start th =>
    show Mute (r.start th) s
    unfold start
    split
    · exact hsame rfl rfl rfl
    · split <;> exact hsame rfl rfl rfl
  | plugin th =>
    show Mute (r.plugin th) s
    unfold plugin
    split
    · exact hsame rfl rfl rfl
    · rename_i s' hc
      suffices Mute (r.post s' (.register .ofUser)) s from ⟨this.box, this.calls, this.tasks⟩
      by_cases e : s' = s
      · subst e
        unfold post
        dsimp only
        split
        · refine ⟨fun m hm => ?_, h.calls, h.tasks⟩
          have hm : m ∈ upd r.boxes s' (r.boxes s' ++ [.register .ofUser]) s' := hm
          unfold upd at hm
          rw [if_pos rfl] at hm
          rcases List.mem_append.1 hm with hm | hm
          · exact h.box m hm
          · exact ⟨_, List.mem_singleton.1 hm⟩
        · exact ⟨h.box, h.calls, h.tasks⟩
      · exact (post_other e r _).mute h
  | submit ty =>
    show Mute (r.submit ty) s
    unfold submit
    split
    · split <;> exact hsame rfl rfl rfl
    · split
      · exact hsame rfl rfl rfl
      · split
        · split <;> exact hsame rfl rfl rfl
        · exact hsame rfl rfl rfl
  | event q ev =>
    show Mute (r.event q ev) s
    unfold event
    split
    · rename_i ty a ha
      split
      · split
        · exact (post_other (hq _ (List.mem_of_getElem? ha)) r _).mute h
        · exact h
      · exact h
    · exact h
  | deliver s' n =>
    show Mute (r.deliver s' n) s
    unfold deliver
    split
    · split
      · exact h
      · rename_i m ms hb
        by_cases e : s' = s
        · subst e
          obtain ⟨h1, h2, h3⟩ := mute_serve h (.deliver m n) (fun m' n' e => by cases e; exact h.box m (by rw [hb]; exact List.mem_cons_self ..))
          refine ⟨fun m' hm => ?_, h2, h3⟩
          have hm : m' ∈ upd r.boxes s' ms s' := hm
          unfold upd at hm
          rw [if_pos rfl] at hm
          exact h.box m' (by rw [hb]; exact List.mem_cons_of_mem _ hm)
        · have hm := (serve_other e r (.deliver m n)).mute h
          refine ⟨fun m' hm' => ?_, hm.calls, hm.tasks⟩
          have hm' : m' ∈ upd r.boxes s' ms s := hm'
          unfold upd at hm'
          rw [if_neg (fun x => e x.symm)] at hm'
          exact h.box m' hm'
    · exact h
  | poll s' i n =>
    show Mute (r.serve s' _) s
    by_cases e : s' = s
    · subst e
      obtain ⟨h1, h2, h3⟩ := mute_serve h (.poll i n) (fun _ _ e => by cases e)
      exact ⟨h1, h2, h3⟩
    · exact (serve_other e r _).mute h
  | panic s' i =>
    show Mute (r.serve s' _) s
    by_cases e : s' = s
    · subst e
      obtain ⟨h1, h2, h3⟩ := mute_serve h (.panic i) (fun _ _ e => by cases e)
      exact ⟨h1, h2, h3⟩
    · exact (serve_other e r _).mute h

/-- A system whose runner is gone. -/
structure Gone (r : Runtime) (s : Nat) : Prop where
  known : s < r.running.length
  runs : r.runs s = false

theorem runs_grow (r : Runtime) (x : Bool) {s : Nat} (h : s < r.running.length) : runs { r with running := r.running ++ [x] } s = r.runs s := by
  unfold runs
  rw [List.getElem?_append_left h]

theorem gone_step {r : Runtime} {s : Nat} (h : Gone r s) (op : RunOp) : Gone (r.step op) s := by
  have hsame : ∀ {r' : Runtime}, r'.running = r.running → Gone r' s := fun e => ⟨by rw [e]; exact h.known, by unfold Runtime.runs; rw [e]; exact h.runs⟩
  have hgrow : ∀ x, Gone { r with running := r.running ++ [x] } s := fun x =>
    ⟨by have := h.known; simp only [List.length_append, List.length_singleton]; omega, by rw [runs_grow r x h.known]; exact h.runs⟩
  have hun : ∀ s', Gone (r.unhouse s') s := fun s' =>
    ⟨by rw [show (r.unhouse s').running.length = r.running.length from List.length_set]; exact h.known, by rw [runs_unhouse, h.runs]; rfl⟩
  cases op with
  | system th => exact ⟨(hgrow true).known, (hgrow true).runs⟩
  | drop s' => exact hun s'
  | stop s' =>
    show Gone (r.stop s') s
    unfold stop
    split
    · exact ⟨(hun s').known, (hun s').runs⟩
    · exact h
  | start th =>
    show Gone (r.start th) s
    unfold start
    split
    · exact hsame rfl
    · split
      · exact hsame rfl
      · exact ⟨(hgrow false).known, (hgrow false).runs⟩
  | plugin th => exact hsame (same_plugin r th).running
  | submit ty =>
    refine hsame ?_
    show (r.submit ty).running = _
    unfold submit
    split
    · split <;> rfl
    · split
      · rfl
      · split
        · split <;> rfl
        · rfl
  | event q ev => exact hsame (same_event r q ev).running
  | deliver s' n => exact hsame (same_deliver r s' n).running
  | poll s' i n => exact hsame (same_serve r s' _).running
  | panic s' i => exact hsame (same_serve r s' _).running

/-- Nothing is called in a system that is gone. -/
theorem gone_calls {r : Runtime} {s : Nat} (h : r.runs s = false) (op : RunOp) : ((r.step op).centres s).calls = (r.centres s).calls := by
  have hun : ∀ s', ((r.unhouse s').centres s).calls = (r.centres s).calls := by
    intro s'
    by_cases e : s' = s
    · subst e
      show Centre.calls (upd _ _ _ _) = _
      unfold upd; rw [if_pos rfl]
    · rw [(unhouse_other e r).centre]
  have hserve : ∀ s' op, ((r.serve s' op).centres s).calls = (r.centres s).calls := by
    intro s' op
    by_cases e : s' = s
    · subst e
      unfold serve; rw [if_neg (by rw [h]; decide)]
    · rw [(serve_other e r op).centre]
  cases op with
  | system th => rfl
  | drop s' => exact hun s'
  | stop s' =>
    show ((r.stop s').centres s).calls = _
    unfold stop
    split
    · exact hun s'
    · rfl
  | start th =>
    show ((r.start th).centres s).calls = _
    unfold start
    split
    · rfl
    · split <;> rfl
  | plugin th =>
    show ((r.plugin th).centres s).calls = _
    unfold plugin
    split
    · rfl
    · unfold post
      dsimp only
      split <;> rfl
  | submit ty =>
    show ((r.submit ty).centres s).calls = _
    unfold submit
    split
    · split <;> rfl
    · split
      · rfl
      · split
        · split <;> rfl
        · rfl
  | event q ev =>
    show ((r.event q ev).centres s).calls = _
    unfold event
    split
    · split
      · split
        · unfold post
          dsimp only
          split <;> rfl
        · rfl
      · rfl
    · rfl
  | deliver s' n =>
    show ((r.deliver s' n).centres s).calls = _
    unfold deliver
    split
    · split
      · rfl
      · exact hserve s' _
    · rfl
  | poll s' i n => exact hserve s' _
  | panic s' i => exact hserve s' _

/-- The engine, once there, stays in its system. -/
theorem home_step {r : Runtime} {a : Resident} (hs : r.addr = some 0) (he : r.engines = [a]) (op : RunOp) :
    (r.step op).addr = some 0 ∧ ∃ a', (r.step op).engines = [a'] ∧ a'.system = a.system := by
  have hsame : ∀ {r' : Runtime}, SamePlace r r' → r'.addr = some 0 ∧ ∃ a', r'.engines = [a'] ∧ a'.system = a.system :=
    fun h => ⟨h.addr.trans hs, a, h.engines.trans he, rfl⟩
  cases op with
  | system th => exact ⟨hs, a, he, rfl⟩
  | drop s => exact ⟨hs, a, he, rfl⟩
  | stop s =>
    show (r.stop s).addr = _ ∧ ∃ a', (r.stop s).engines = [a'] ∧ _
    unfold stop
    split
    · exact ⟨hs, a.leave s, by show r.engines.map _ = _; rw [he]; rfl, leave_system _ _⟩
    · exact ⟨hs, a, he, rfl⟩
  | start th =>
    show (r.start th).addr = _ ∧ ∃ a', (r.start th).engines = [a'] ∧ _
    unfold start
    rw [hs]
    exact ⟨hs, a, he, rfl⟩
  | plugin th => exact hsame (same_plugin r th)
  | submit ty =>
    show (r.submit ty).addr = _ ∧ ∃ a', (r.submit ty).engines = [a'] ∧ _
    unfold submit
    split
    · split <;> exact ⟨hs, a, he, rfl⟩
    · split
      · exact ⟨hs, a, he, rfl⟩
      · split
        · split <;> exact ⟨hs, a, he, rfl⟩
        · exact ⟨hs, a, he, rfl⟩
  | event q ev => exact hsame (same_event r q ev)
  | deliver s n => exact hsame (same_deliver r s n)
  | poll s i n => exact hsame (same_serve r s _)
  | panic s i => exact hsame (same_serve r s _)

/-- No step brings an actor to life in the place of another, and without an engine there are no work queues. -/
theorem homes_step {r : Runtime} (hs : Settled r) (op : RunOp) {s : Nat} (h : ∀ a ∈ (r.step op).engines, a.system ≠ s) : ∀ a ∈ r.engines, a.system ≠ s := by
  rcases hs.one with ⟨-, h2⟩ | ⟨a, h1, h2⟩
  · rw [h2]; exact fun _ hx => by cases hx
  · obtain ⟨-, a', h3, h4⟩ := home_step h1 h2 op
    rw [h2]
    intro b hb
    rw [List.mem_singleton.1 hb, ← h4]
    exact h a' (by rw [h3]; exact List.mem_singleton.2 rfl)

theorem mute_run {r : Runtime} (hs : Settled r) {s : Nat} (ops : List RunOp) (hm : (∀ a ∈ r.engines, a.system ≠ s) → Mute r s) :
    (∀ a ∈ (r.run ops).engines, a.system ≠ s) → Mute (r.run ops) s := by
  induction ops generalizing r with
  | nil => exact hm
  | cons op ops ih =>
    refine ih (settled_step hs op) fun h => ?_
    have h := homes_step hs op h
    refine mute_step (fun q hq => ?_) (hm h) op
    obtain ⟨a, ha, h1, -⟩ := hs.queue q hq
    rw [h1]; exact h a ha

theorem mute_init (s : Nat) : Mute {} s := ⟨(fun _ h => absurd h List.not_mem_nil), rfl, rfl⟩

/-- The engine lives in a system that is gone, and no hook was called anywhere. -/
structure Silent (r : Runtime) : Prop where
  addr : r.addr = some 0
  engine : ∃ a, r.engines = [a] ∧ Gone r a.system ∧ (r.centres a.system).calls = []

theorem silent_step {r : Runtime} (h : Silent r) (op : RunOp) : Silent (r.step op) := by
  obtain ⟨a, h2, h3, h4⟩ := h.engine
  obtain ⟨h5, a', h6, h7⟩ := home_step h.addr h2 op
  exact ⟨h5, a', h6, by rw [h7]; exact gone_step h3 op, by rw [h7, gone_calls h3.runs op]; exact h4⟩

theorem silent_run {r : Runtime} (h : Silent r) (ops : List RunOp) : Silent (r.run ops) := by
  induction ops generalizing r with
  | nil => exact h
  | cons op ops ih => exact ih (silent_step h op)

/-! ## Life and death -/

/-- The engine and all work queues have ended. -/
structure Dead (r : Runtime) : Prop where
  addr : r.addr = some 0
  engine : ∃ a, r.engines = [a] ∧ a.alive = false
  queue : ∀ q ∈ r.queues, q.2.alive = false

theorem leave_dead {s : Nat} {a : Resident} (h : a.alive = false) : (a.leave s).alive = false := by
  unfold Resident.leave; split
  · rfl
  · exact h

theorem dead_submit {r : Runtime} (h : Dead r) (ty : Nat) : r.submit ty = r.say .mailboxError := by
  obtain ⟨a, h2, h3⟩ := h.engine
  unfold submit
  split
  · rename_i q hq
    split
    · rename_i b hb
      rw [show b.alive = false from h.queue _ (List.mem_of_getElem? hb)]; rfl
    · rfl
  · rw [h.addr]
    simp only [h2, List.getElem?_cons_zero, h3]
    rfl

theorem dead_event {r : Runtime} (h : Dead r) (q : Nat) (ev : Event) : r.event q ev = r := by
  unfold event
  split
  · rename_i ty b hb
    rw [show b.alive = false from h.queue _ (List.mem_of_getElem? hb)]; rfl
  · rfl

theorem dead_start {r : Runtime} (h : Dead r) (th : Nat) : r.start th = r.say (.engine 0) := by
  unfold start; rw [h.addr]

theorem dead_step {r : Runtime} (h : Dead r) (op : RunOp) : Dead (r.step op) := by
  have hsame : ∀ {r' : Runtime}, SamePlace r r' → Dead r' := fun e =>
    ⟨e.addr.trans h.addr, by rw [e.engines]; exact h.engine, by rw [e.queues]; exact h.queue⟩
  cases op with
  | system th => exact ⟨h.addr, h.engine, h.queue⟩
  | drop s => exact ⟨h.addr, h.engine, h.queue⟩
  | stop s =>
    show Dead (r.stop s)
    unfold stop
    split
    · obtain ⟨a, h2, h3⟩ := h.engine
      refine ⟨h.addr, ⟨a.leave s, by show r.engines.map _ = _; rw [h2]; rfl, leave_dead h3⟩, fun q hq => ?_⟩
      obtain ⟨q', hq', rfl⟩ := List.mem_map.1 hq
      exact leave_dead (h.queue q' hq')
    · exact h
  | start th => show Dead (r.start th); rw [dead_start h]; exact ⟨h.addr, h.engine, h.queue⟩
  | plugin th => exact hsame (same_plugin r th)
  | submit ty => show Dead (r.submit ty); rw [dead_submit h]; exact ⟨h.addr, h.engine, h.queue⟩
  | event q ev => exact hsame (same_event r q ev)
  | deliver s n => exact hsame (same_deliver r s n)
  | poll s i n => exact hsame (same_serve r s _)
  | panic s i => exact hsame (same_serve r s _)

theorem dead_run {r : Runtime} (h : Dead r) (ops : List RunOp) : Dead (r.run ops) := by
  induction ops generalizing r with
  | nil => exact h
  | cons op ops ih => exact ih (dead_step h op)

theorem dead_stop {r : Runtime} (hs : Settled r) {a : Resident} (ha : r.engines = [a]) (hr : r.runs a.system = true) : Dead (r.stop a.system) := by
  have h1 : r.addr = some 0 := by
    rcases hs.one with ⟨-, h⟩ | ⟨_, h, -⟩
    · rw [ha] at h; cases h
    · exact h
  unfold stop
  rw [if_pos hr]
  refine ⟨h1, ⟨a.leave a.system, by show r.engines.map _ = _; rw [ha]; rfl, by unfold Resident.leave; rw [if_pos rfl]⟩, fun q hq => ?_⟩
  obtain ⟨q', hq', rfl⟩ := List.mem_map.1 hq
  obtain ⟨b, hb, h3, -⟩ := hs.queue q' hq'
  rw [ha] at hb
  rw [List.mem_singleton.1 hb] at h3
  show (Resident.leave a.system q'.2).alive = false
  unfold Resident.leave; rw [if_pos h3]

/-- The engine and all work queues go on. -/
structure Live (r : Runtime) (s : Nat) : Prop where
  addr : r.addr = some 0
  engine : r.engines = [{ system := s }]
  queue : ∀ q ∈ r.queues, q.2 = { system := s }

theorem live_submit {r : Runtime} {s : Nat} (hs : Settled r) (h : Live r s) (ty : Nat) : ∃ r', r.submit ty = r'.say .ok ∧ r'.verdicts = r.verdicts ∧ Live r' s := by
  unfold submit
  split
  · rename_i q hq
    have hlt := hs.byType ty q hq
    rw [List.getElem?_eq_getElem hlt]
    refine ⟨r, ?_, rfl, h⟩
    have := h.queue _ (List.getElem_mem hlt)
    simp only [this, if_true]
  · simp only [h.addr, h.engine, List.getElem?_cons_zero, if_true]
    refine ⟨_, rfl, rfl, ?_⟩
    refine ⟨rfl, rfl, fun q hq => ?_⟩
    rcases List.mem_append.1 hq with hq | hq
    · exact h.queue q hq
    · rw [List.mem_singleton.1 hq]

theorem live_step {r : Runtime} {s : Nat} (hs : Settled r) (h : Live r s) (op : RunOp) (ho : op ≠ .stop s) : Live (r.step op) s := by
  have hsame : ∀ {r' : Runtime}, SamePlace r r' → Live r' s := fun e =>
    ⟨e.addr.trans h.addr, e.engines.trans h.engine, by rw [e.queues]; exact h.queue⟩
  cases op with
  | system th => exact ⟨h.addr, h.engine, h.queue⟩
  | drop s => exact ⟨h.addr, h.engine, h.queue⟩
  | stop s' =>
    have hne : s ≠ s' := fun e => ho (by rw [e])
    have hl : Resident.leave s' { system := s } = { system := s } := by unfold Resident.leave; exact if_neg hne
    show Live (r.stop s') s
    unfold stop
    split
    · refine ⟨h.addr, by show r.engines.map _ = _; rw [h.engine, List.map_singleton, hl], fun q hq => ?_⟩
      obtain ⟨q', hq', rfl⟩ := List.mem_map.1 hq
      show Resident.leave s' q'.2 = _
      rw [h.queue q' hq', hl]
    · exact h
  | start th =>
    show Live (r.start th) s
    unfold start; rw [h.addr]
    exact ⟨h.addr, h.engine, h.queue⟩
  | plugin th => exact hsame (same_plugin r th)
  | submit ty =>
    show Live (r.submit ty) s
    obtain ⟨r', h1, -, h2⟩ := live_submit hs h ty
    rw [h1]; exact ⟨h2.addr, h2.engine, h2.queue⟩
  | event q ev => exact hsame (same_event r q ev)
  | deliver s n => exact hsame (same_deliver r s n)
  | poll s i n => exact hsame (same_serve r s _)
  | panic s i => exact hsame (same_serve r s _)

theorem live_run {r : Runtime} {s : Nat} (hs : Settled r) (h : Live r s) (ops : List RunOp) (ho : .stop s ∉ ops) : Live (r.run ops) s := by
  induction ops generalizing r with
  | nil => exact h
  | cons op ops ih =>
    exact ih (settled_step hs op) (live_step hs h op (fun e => ho (e ▸ List.mem_cons_self ..))) (fun hm => ho (List.mem_cons_of_mem _ hm))

/-! ## No call but for a message -/

/-- A message more leaves the calls the messages before should lead to. -/
theorem expected_append (ms ms' : List PluginMsg) (m : Nat) : expected ms m <+: expected (ms ++ ms') m := by
  rcases Nat.lt_or_ge m ms.length with h | h
  · have h1 : (ms ++ ms')[m]? = ms[m]? := List.getElem?_append_left h
    have h2 : (ms ++ ms').take m = ms.take m := List.take_append_of_le_length (by omega)
    have : expected (ms ++ ms') m = expected ms m := by unfold expected; rw [h1, h2]
    rw [this]; exact List.prefix_rfl
  · have : expected ms m = [] := by
      unfold expected; rw [List.getElem?_eq_none h]; rfl
    rw [this]; exact List.nil_prefix

/-- Messages for a centre are never taken back. -/
theorem meant_step (r : Runtime) (op : RunOp) (s : Nat) : ∃ l, (r.step op).meantFor s = r.meantFor s ++ l := by
  have hsame : ∀ {r' : Runtime}, r'.sent = r.sent → ∃ l, r'.meantFor s = r.meantFor s ++ l := fun h => ⟨[], by unfold meantFor; rw [h, List.append_nil]⟩
  have hserve : ∀ s' op, (r.serve s' op).sent = r.sent := fun s' op => by unfold serve; split <;> rfl
  cases op with
  | system th => exact hsame rfl
  | drop s' => exact hsame rfl
  | stop s' =>
    refine hsame ?_
    show (r.stop s').sent = _
    unfold stop; split <;> rfl
  | start th =>
    refine hsame ?_
    show (r.start th).sent = _
    unfold start
    split
    · rfl
    · split <;> rfl
  | plugin th =>
    show ∃ l, (r.plugin th).meantFor s = _
    unfold plugin
    split
    · exact hsame rfl
    · exact ⟨_, meant_post ..⟩
  | submit ty =>
    refine hsame ?_
    show (r.submit ty).sent = _
    unfold submit
    split
    · split <;> rfl
    · split
      · rfl
      · split
        · split <;> rfl
        · rfl
  | event q ev =>
    show ∃ l, (r.event q ev).meantFor s = _
    unfold event
    split
    · split
      · split
        · exact ⟨_, meant_post ..⟩
        · exact hsame rfl
      · exact hsame rfl
    · exact hsame rfl
  | deliver s' n =>
    refine hsame ?_
    show (r.deliver s' n).sent = _
    unfold deliver
    split
    · split
      · rfl
      · exact hserve s' _
    · rfl
  | poll s' i n => exact hsame (hserve s' _)
  | panic s' i => exact hsame (hserve s' _)

/-- A system ends without a call. -/
theorem ends_calls {r : Runtime} {s : Nat} (h : r.runs s = true) (op : RunOp) (h' : (r.step op).runs s = false) :
    ((r.step op).centres s).calls = (r.centres s).calls := by
  have hno : ∀ {r' : Runtime}, r'.running = r.running → r'.runs s = true := fun e => by unfold runs at h ⊢; rw [e]; exact h
  have hun : ∀ s', ((r.unhouse s').centres s).calls = (r.centres s).calls := by
    intro s'
    by_cases e : s' = s
    · subst e
      show Centre.calls (upd _ _ _ _) = _
      unfold upd; rw [if_pos rfl]
    · rw [(unhouse_other e r).centre]
  cases op with
  | drop s' => exact hun s'
  | stop s' =>
    show ((r.stop s').centres s).calls = _
    unfold stop
    split
    · exact hun s'
    · rfl
  | system th => rfl
  | start th =>
    show ((r.start th).centres s).calls = _
    unfold start
    split
    · rfl
    · split <;> rfl
  | plugin th => exact absurd ((hno (same_plugin r th).running).symm.trans h') (by decide)
  | submit ty =>
    show ((r.submit ty).centres s).calls = _
    unfold submit
    split
    · split <;> rfl
    · split
      · rfl
      · split
        · split <;> rfl
        · rfl
  | event q ev => exact absurd ((hno (same_event r q ev).running).symm.trans h') (by decide)
  | deliver s' n => exact absurd ((hno (same_deliver r s' n).running).symm.trans h') (by decide)
  | poll s' i n => exact absurd ((hno (same_serve r s' _).running).symm.trans h') (by decide)
  | panic s' i => exact absurd ((hno (same_serve r s' _).running).symm.trans h') (by decide)

theorem Kept.prefix {np : Prop} {r : Runtime} {s : Nat} (h : Kept np r s) (hc : ∀ ops m, (Centre.run {} ops).callsOf m <+: expected (mail ops) m) (m : Nat) :
    (r.centres s).callsOf m <+: expected (r.meantFor s) m := by
  obtain ⟨cops, h1, h2, -⟩ := h
  rw [h1, ← h2]
  exact (hc cops m).trans (expected_append _ _ m)

theorem prefix_run {r : Runtime} (hs : Settled r) (hb : Booked (fun _ => False) r) (hc : ∀ ops m, (Centre.run {} ops).callsOf m <+: expected (mail ops) m)
    (h : ∀ s m, (r.centres s).callsOf m <+: expected (r.meantFor s) m) (ops : List RunOp) :
    ∀ s m, ((r.run ops).centres s).callsOf m <+: expected ((r.run ops).meantFor s) m := by
  induction ops generalizing r with
  | nil => exact h
  | cons op ops ih =>
    have hb' := booked_step (np' := fun _ => False) hs hb op (fun _ x => x) (fun _ _ x => x.elim)
    refine ih (settled_step hs op) hb' fun s m => ?_
    cases hr' : (r.step op).runs s with
    | true => exact (hb'.kept s hr').prefix hc m
    | false =>
      have hcalls : ((r.step op).centres s).calls = (r.centres s).calls := by
        cases hr : r.runs s with
        | true => exact ends_calls hr op hr'
        | false => exact gone_calls hr op
      obtain ⟨l, hl⟩ := meant_step r op s
      have : ((r.step op).centres s).callsOf m = (r.centres s).callsOf m := by unfold Centre.callsOf; rw [hcalls]
      rw [this, hl]
      exact (h s m).trans (expected_append _ _ m)

/-! ## Letters -/

/-- AJ was started in system `s`, which runs; `member` are the threads of `s` and `types` the types of the work queues. -/
structure Tuned (r : Runtime) (s : Nat) (member : Nat → Bool) (types : List Nat) : Prop where
  live : Live r s
  runs : r.runs s = true
  current : ∀ th, r.current th = some s ↔ member th = true
  queues : r.queues.map Prod.fst = types
  byType : ∀ ty, r.byType ty = none ↔ ty ∉ types

theorem tuned_of_eq {r r' : Runtime} {s : Nat} {member : Nat → Bool} {types : List Nat} (h : Tuned r s member types) (e : SamePlace r r') :
    Tuned r' s member types where
  live := ⟨e.addr.trans h.live.addr, e.engines.trans h.live.engine, by rw [e.queues]; exact h.live.queue⟩
  runs := by unfold Runtime.runs; rw [e.running]; exact h.runs
  current := by rw [e.current]; exact h.current
  queues := by rw [e.queues]; exact h.queues
  byType := by rw [e.byType]; exact h.byType

theorem lt_of_runs {r : Runtime} {s : Nat} (h : r.runs s = true) : s < r.running.length := by
  rcases Nat.lt_or_ge s r.running.length with h1 | h1
  · exact h1
  · unfold runs at h; rw [List.getElem?_eq_none h1] at h; cases h

theorem meant_of_sent {r r' : Runtime} (h : r'.sent = r.sent) (s : Nat) : r'.meantFor s = r.meantFor s := by unfold meantFor; rw [h]

theorem letters_run {r : Runtime} {s : Nat} {member : Nat → Bool} {types : List Nat} (hs : Settled r) (h : Tuned r s member types) (ops : List RunOp)
    (h1 : .stop s ∉ ops) (h2 : .drop s ∉ ops) : (r.run ops).meantFor s = r.meantFor s ++ letters member types ops ∧ (r.run ops).runs s = true := by
  induction ops generalizing r member types with
  | nil => exact ⟨(List.append_nil _).symm, h.runs⟩
  | cons op ops ih =>
    have h1' : .stop s ∉ ops := fun hm => h1 (List.mem_cons_of_mem _ hm)
    have h2' : .drop s ∉ ops := fun hm => h2 (List.mem_cons_of_mem _ hm)
    have hs' := settled_step hs op
    have hlive := live_step hs h.live op (fun e => h1 (e ▸ List.mem_cons_self ..))
    show ((r.step op).run ops).meantFor s = _ ∧ _
    have huse : ∀ {member' types' l}, Tuned (r.step op) s member' types' → (r.step op).meantFor s = r.meantFor s ++ l →
        letters member types (op :: ops) = l ++ letters member' types' ops →
        ((r.step op).run ops).meantFor s = r.meantFor s ++ letters member types (op :: ops) ∧ ((r.step op).run ops).runs s = true := by
      intro member' types' l ht hl he
      obtain ⟨h3, h4⟩ := ih hs' ht h1' h2'
      exact ⟨by rw [h3, hl, he, List.append_assoc], h4⟩
    cases op with
    | system th =>
      have hlt := lt_of_runs h.runs
      refine huse (member' := fun x => member x && x != th) (types' := types) (l := []) ⟨hlive, ?_, fun th' => ?_, h.queues, h.byType⟩ (List.append_nil _).symm rfl
      · exact (runs_grow r true hlt).trans h.runs
      · show upd r.current th (some r.running.length) th' = some s ↔ _
        unfold upd
        by_cases e : th' = th
        · rw [if_pos e]
          have : r.running.length ≠ s := by omega
          simp [this, e]
        · rw [if_neg e, h.current th']
          simp [e]
    | drop s' =>
      have hne : s' ≠ s := fun e => h2 (e ▸ List.mem_cons_self ..)
      refine huse (member' := member) (types' := types) (l := []) ⟨hlive, ?_, h.current, h.queues, h.byType⟩ (List.append_nil _).symm rfl
      exact (runs_unhouse r s' s).trans (by rw [h.runs, decide_eq_true hne.symm]; rfl)
    | stop s' =>
      have hne : s' ≠ s := fun e => h1 (e ▸ List.mem_cons_self ..)
      have hst : (r.step (.stop s')).current = r.current ∧ (r.step (.stop s')).byType = r.byType ∧ (r.step (.stop s')).sent = r.sent ∧
          (r.step (.stop s')).queues.map Prod.fst = r.queues.map Prod.fst ∧ (r.step (.stop s')).runs s = r.runs s := by
        show (r.stop s').current = _ ∧ (r.stop s').byType = _ ∧ (r.stop s').sent = _ ∧ (r.stop s').queues.map _ = _ ∧ (r.stop s').runs s = _
        unfold stop
        split
        · refine ⟨rfl, rfl, rfl, ?_, ?_⟩
          · show List.map Prod.fst (r.queues.map _) = _
            rw [List.map_map]; rfl
          · exact (runs_unhouse r s' s).trans (by rw [decide_eq_true hne.symm, Bool.and_true])
        · exact ⟨rfl, rfl, rfl, rfl, rfl⟩
      refine huse (member' := member) (types' := types) (l := []) ⟨hlive, by rw [hst.2.2.2.2]; exact h.runs, by rw [hst.1]; exact h.current, by rw [hst.2.2.2.1]; exact h.queues, by rw [hst.2.1]; exact h.byType⟩
        (by rw [meant_of_sent hst.2.2.1, List.append_nil]) rfl
    | start th =>
      have : r.step (.start th) = r.say (.engine 0) := by show r.start th = _; unfold start; rw [h.live.addr]
      refine huse (member' := member) (types' := types) (l := []) ?_ ?_ rfl
      · rw [this]; exact tuned_of_eq h ⟨rfl, rfl, rfl, rfl, rfl, rfl⟩
      · rw [this, List.append_nil]; rfl
    | plugin th =>
      refine huse (member' := member) (types' := types) (l := if member th then [.register .ofUser] else []) (tuned_of_eq h (same_plugin r th)) ?_ rfl
      show (r.plugin th).meantFor s = _
      unfold plugin
      split
      · rename_i hc
        have : member th = false := by
          cases hm : member th with
          | false => rfl
          | true => rw [(h.current th).2 hm] at hc; cases hc
        rw [this]; exact (List.append_nil _).symm
      · rename_i s' hc
        show (r.post s' _).meantFor s = _
        rw [meant_post]
        by_cases e : s' = s
        · rw [if_pos e, (h.current th).1 (e ▸ hc)]; rfl
        · have : member th = false := by
            cases hm : member th with
            | false => rfl
            | true => rw [(h.current th).2 hm] at hc; cases hc; exact absurd rfl e
          rw [if_neg e, this]; rfl
    | submit ty =>
      show ((r.submit ty).run ops).meantFor s = _ ∧ _
      by_cases hm : ty ∈ types
      · have he : ∃ v, r.submit ty = r.say v := by
          unfold submit
          split
          · split <;> exact ⟨_, rfl⟩
          · rename_i hb
            exact absurd hm ((h.byType ty).1 hb)
        obtain ⟨v, he⟩ := he
        refine huse (member' := member) (types' := types) (l := []) ?_ ?_ ?_
        · show Tuned (r.submit ty) _ _ _
          rw [he]; exact tuned_of_eq h ⟨rfl, rfl, rfl, rfl, rfl, rfl⟩
        · show (r.submit ty).meantFor s = _
          rw [he, List.append_nil]; rfl
        · show letters member (if ty ∈ types then types else types ++ [ty]) ops = _
          rw [if_pos hm]; rfl
      · have hb := (h.byType ty).2 hm
        have he : r.submit ty = ({ r with queues := r.queues ++ [(ty, { system := s })], byType := upd r.byType ty (some r.queues.length) } : Runtime).say .ok := by
          unfold submit
          rw [hb, h.live.addr]
          simp only [h.live.engine, List.getElem?_cons_zero, if_true]
        refine huse (member' := member) (types' := types ++ [ty]) (l := []) ?_ ?_ ?_
        · refine ⟨hlive, ?_, ?_, ?_, ?_⟩ <;> show _root_.id _ <;> dsimp only [_root_.id, step] <;> rw [he]
          · exact h.runs
          · exact h.current
          · show List.map Prod.fst (r.queues ++ [_]) = _
            rw [List.map_append, h.queues]; rfl
          · intro ty'
            show upd r.byType ty (some r.queues.length) ty' = none ↔ _
            unfold upd
            by_cases e : ty' = ty
            · simp [e]
            · rw [if_neg e, h.byType]
              simp [e]
        · show (r.submit ty).meantFor s = _
          rw [he, List.append_nil]; rfl
        · show letters member (if ty ∈ types then types else types ++ [ty]) ops = _
          rw [if_neg hm]; rfl
    | event q ev =>
      refine huse (member' := member) (types' := types) (l := ((types[q]?).bind fun ty => ev.msg ty).toList) (tuned_of_eq h (same_event r q ev)) ?_ rfl
      show (r.event q ev).meantFor s = _
      have ht : types[q]? = (r.queues[q]?).map Prod.fst := by rw [← h.queues, List.getElem?_map]
      unfold event
      rw [ht]
      cases hq : r.queues[q]? with
      | none => exact (List.append_nil _).symm
      | some x =>
        obtain ⟨ty, a⟩ := x
        have ha : a = { system := s } := h.live.queue _ (List.mem_of_getElem? hq)
        subst ha
        simp only [Option.map_some, Option.bind_some, if_true]
        cases ev.msg ty with
        | none => exact (List.append_nil _).symm
        | some m => dsimp only; rw [meant_post, if_pos rfl]; rfl
    | deliver s' n =>
      refine huse (member' := member) (types' := types) (l := []) (tuned_of_eq h (same_deliver r s' n)) ?_ rfl
      rw [List.append_nil]
      refine meant_of_sent ?_ s
      show (r.deliver s' n).sent = _
      unfold deliver
      split
      · split
        · rfl
        · show (r.serve s' _).sent = _
          unfold serve; split <;> rfl
      · rfl
    | poll s' i n =>
      refine huse (member' := member) (types' := types) (l := []) (tuned_of_eq h (same_serve r s' _)) ?_ rfl
      rw [List.append_nil]
      refine meant_of_sent ?_ s
      show (r.serve s' _).sent = _
      unfold serve; split <;> rfl
    | panic s' i =>
      refine huse (member' := member) (types' := types) (l := []) (tuned_of_eq h (same_serve r s' _)) ?_ rfl
      rw [List.append_nil]
      refine meant_of_sent ?_ s
      show (r.serve s' _).sent = _
      unfold serve; split <;> rfl

end AJ.Runtime
