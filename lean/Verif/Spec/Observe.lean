import Verif.Proofs.Footprint

/-!
# What can be observed of a work queue, on any backend

Property theorems quantify over `Impl`: any backend that answers the calls AJ makes like the
specification does. Both shipped backends are instances (`Impl.memory`, `Impl.redis`).
-/

namespace AJ

/-- A backend that behaves like the specification on the calls a work queue makes, with a way to look
at its lists and stored strings. -/
structure Impl where
  B : Backend
  ok : BOp → Prop
  sim : Sim B ok
  okAj : ∀ name op, AjOp name op → ok op
  empty : B.S
  empty_rel : sim.R empty Spec.empty
  list : B.S → Str → List Str
  list_eq : ∀ s t name st, sim.R s t → list s (formatQueueName name st) = t.q (formatQueueName name st)
  stored : B.S → Str → Option Str
  stored_eq : ∀ s t k, sim.R s t → stored s k = t.st STORAGE_HASH k

namespace Impl

/-- The specification itself. -/
def spec : Impl where
  B := SpecB
  ok _ := True
  sim := ⟨fun s t => s = t, fun op s t _ h => by subst h; exact ⟨rfl, rfl⟩⟩
  okAj _ _ _ := trivial
  empty := Spec.empty
  empty_rel := rfl
  list s q := s.q q
  list_eq s t _ _ h := by have h : s = t := h; rw [h]
  stored s k := s.st STORAGE_HASH k
  stored_eq s t k h := by have h : s = t := h; rw [h]

/-- The in-memory backend (`backend/mem.rs`). -/
def memory : Impl where
  B := InMem
  ok _ := True
  sim := InMem.sim
  okAj _ _ _ := trivial
  empty := InMem.empty
  empty_rel := rfl
  list s q := (s.queues q).getD []
  list_eq s t name st h := by have h : InMem.abs s = t := h; subst h; rfl
  stored s k := (s.storages STORAGE_HASH).bind (· k)
  stored_eq s t k h := by
    have h : InMem.abs s = t := h
    subst h
    rfl

/-- The Redis backend (`backend/redis.rs`) on a server that answers every command. -/
def redis : Impl where
  B := RedisB
  ok := Redis.OkOp (· = STORAGE_HASH)
  sim := Redis.sim (· = STORAGE_HASH)
  okAj _ _ h := h.okRedis
  empty := fun _ => none
  empty_rel := Redis.rep_empty _
  list s q := match s q with
    | some (.list l) => l
    | _ => []
  list_eq s t name st h := by
    have h : Redis.Rep (· = STORAGE_HASH) s t := h
    show (match s _ with | some (.list l) => l | _ => []) = _
    rw [h.lists _ (formatQueueName_ne_storage name st)]
    cases t.q (formatQueueName name st) <;> rfl
  stored s k := match s STORAGE_HASH with
    | some (.hash m) => m k
    | _ => none
  stored_eq s t k h := by
    have h : Redis.Rep (· = STORAGE_HASH) s t := h
    show (match s _ with | some (.hash m) => m k | _ => none) = _
    rcases h.hashes STORAGE_HASH rfl with ⟨h1, h2⟩ | h1
    · rw [h1, h2]
    · rw [h1]

end Impl

/-- Everything observable about a work queue: its five lists (front first), the jobs `get_job` finds,
the executions in flight, the configuration, whether the actor lives, the number of clock reads and the
messages sent so far. -/
structure Snap (D : Type) where
  lists : JobStatus → List Str
  job : Str → Option (Job D)
  tasks : List (Task D)
  cfg : WorkQueueConfig
  alive : Bool
  reads : Nat
  log : List Event

/-- Observe a work queue. -/
def Impl.snap {D : Type} (b : Impl) (E : Env D) (name : Str) (s : Sys D b.B) : Snap D where
  lists st := b.list s.w.s (formatQueueName name st)
  job id := (b.stored s.w.s id).bind E.codec.dec
  tasks := s.tasks
  cfg := s.cfg
  alive := s.alive
  reads := s.w.t
  log := s.w.log

/-- The backend state is one the specification also has. Always true in memory; on Redis it says that
the keys AJ uses hold values of the right type. -/
def Impl.Good (b : Impl) (s : b.B.S) : Prop := ∃ t, b.sim.R s t

/-- The states a work queue can reach from an empty backend when every turn satisfies `P`. -/
inductive Reach {D O : Type} (b : Impl) (E : Env D) (name : Str) (clk : Nat → Time)
    (P : Snap D → Op D O → Prop) : Sys D b.B → Prop where
  | start : Reach b E name clk P (Sys.init b.B b.empty)
  | step {s : Sys D b.B} (op : Op D O) : Reach b E name clk P s → P (b.snap E name s) op →
      Reach b E name clk P (Sys.step E name b.B clk s op).1

/-- The states a work queue can reach from `s` when every turn satisfies `P`. -/
inductive Later {D O : Type} (b : Impl) (E : Env D) (name : Str) (clk : Nat → Time)
    (P : Snap D → Op D O → Prop) (s : Sys D b.B) : Sys D b.B → Prop where
  | refl : Later b E name clk P s s
  | step {s' : Sys D b.B} (op : Op D O) : Later b E name clk P s s' → P (b.snap E name s') op →
      Later b E name clk P s (Sys.step E name b.B clk s' op).1

/-- The state after the first `n` turns of an endless history. -/
def Sys.after {D O : Type} (E : Env D) (name : Str) (B : Backend) (clk : Nat → Time) (s : Sys D B)
    (ops : Nat → Op D O) : Nat → Sys D B
  | 0 => s
  | n + 1 => (Sys.step E name B clk (Sys.after E name B clk s ops n) (ops n)).1

/-! ## Carrying results from the specification to every backend -/

section
variable {D O : Type} {b : Impl} {E : Env D} {name : Str} {clk : Nat → Time}

theorem Impl.snap_eq {s : Sys D b.B} {t : Sys D SpecB} (h : b.sim.RS s t) :
    b.snap E name s = Impl.spec.snap E name t := by
  unfold Impl.snap
  congr 1
  · funext st; exact b.list_eq _ _ _ _ h.w.s
  · funext id; rw [b.stored_eq _ _ id h.w.s]; rfl
  · exact h.tasks
  · exact h.cfg
  · exact h.alive
  · exact h.w.t
  · exact h.w.log

theorem Impl.rs_step {s : Sys D b.B} {t : Sys D SpecB} (h : b.sim.RS s t) (op : Op D O) :
    (Sys.step E name b.B clk s op).2 = (Sys.step E name SpecB clk t op).2 ∧
    b.sim.RS (Sys.step E name b.B clk s op).1 (Sys.step E name SpecB clk t op).1 :=
  Sim.sysStep E name b.sim (b.okAj name) clk s t h op

theorem Impl.rs_init : b.sim.RS (Sys.init b.B b.empty : Sys D b.B) (Sys.init SpecB Spec.empty : Sys D SpecB) :=
  ⟨⟨b.empty_rel, rfl, rfl⟩, rfl, rfl, rfl⟩

theorem Impl.rs_of_good {s : Sys D b.B} (h : b.Good s.w.s) : ∃ t : Sys D SpecB, b.sim.RS s t := by
  obtain ⟨t, ht⟩ := h
  exact ⟨{ w := { s := t, t := s.w.t, log := s.w.log }, cfg := s.cfg, tasks := s.tasks, alive := s.alive },
    ⟨⟨ht, rfl, rfl⟩, rfl, rfl, rfl⟩⟩

theorem Reach.mirror {P : Snap D → Op D O → Prop} {s : Sys D b.B} (h : Reach b E name clk P s) :
    ∃ t : Sys D SpecB, Reach Impl.spec E name clk P t ∧ b.sim.RS s t := by
  induction h with
  | start => exact ⟨_, .start, Impl.rs_init⟩
  | step op _ hp ih =>
    obtain ⟨t, ht, hr⟩ := ih
    refine ⟨(Sys.step E name SpecB clk t op).1, .step (b := Impl.spec) op ht ?_, (Impl.rs_step hr op).2⟩
    rw [← Impl.snap_eq hr]; exact hp

theorem Reach.good {P : Snap D → Op D O → Prop} {s : Sys D b.B} (h : Reach b E name clk P s) :
    b.Good s.w.s := by
  obtain ⟨t, _, hr⟩ := h.mirror
  exact ⟨_, hr.w.s⟩

theorem Reach.mono {P P' : Snap D → Op D O → Prop} (hP : ∀ v op, P v op → P' v op) {s : Sys D b.B}
    (h : Reach b E name clk P s) : Reach b E name clk P' s := by
  induction h with
  | start => exact .start
  | step op _ hp ih => exact .step op ih (hP _ _ hp)

theorem Reach.induct {P : Snap D → Op D O → Prop} {Q : Sys D b.B → Prop} (h0 : Q (Sys.init b.B b.empty))
    (hstep : ∀ s op, Reach b E name clk P s → P (b.snap E name s) op → Q s → Q (Sys.step E name b.B clk s op).1)
    {s : Sys D b.B} (h : Reach b E name clk P s) : Q s := by
  induction h with
  | start => exact h0
  | step op hr hp ih => exact hstep _ op hr hp ih

/-- What holds of all states reachable over the specification holds over every backend. -/
theorem Reach.lift {P : Snap D → Op D O → Prop} {Q : Snap D → Prop}
    (h : ∀ t : Sys D SpecB, Reach Impl.spec E name clk P t → Q (Impl.spec.snap E name t))
    {s : Sys D b.B} (hs : Reach b E name clk P s) : Q (b.snap E name s) := by
  obtain ⟨t, ht, hr⟩ := hs.mirror
  rw [Impl.snap_eq hr]; exact h t ht

/-- What holds of all turns taken over the specification holds over every backend. -/
theorem Reach.lift_step {P : Snap D → Op D O → Prop} {Q : Snap D → Op D O → Resp D → Snap D → Prop}
    (h : ∀ (t : Sys D SpecB) op, Reach Impl.spec E name clk P t →
      Q (Impl.spec.snap E name t) op (Sys.step E name SpecB clk t op).2
        (Impl.spec.snap E name (Sys.step E name SpecB clk t op).1))
    {s : Sys D b.B} (hs : Reach b E name clk P s) (op : Op D O) :
    Q (b.snap E name s) op (Sys.step E name b.B clk s op).2
      (b.snap E name (Sys.step E name b.B clk s op).1) := by
  obtain ⟨t, ht, hr⟩ := hs.mirror
  obtain ⟨h1, h2⟩ := Impl.rs_step (E := E) (name := name) (clk := clk) hr op
  rw [Impl.snap_eq hr, Impl.snap_eq h2, h1]; exact h t op ht

/-- The same for turns taken in any state of the backend. -/
theorem Impl.lift_any {Q : Snap D → Op D O → Resp D → Snap D → Prop}
    (h : ∀ (t : Sys D SpecB) op, Q (Impl.spec.snap E name t) op (Sys.step E name SpecB clk t op).2
        (Impl.spec.snap E name (Sys.step E name SpecB clk t op).1))
    {s : Sys D b.B} (hs : b.Good s.w.s) (op : Op D O) :
    Q (b.snap E name s) op (Sys.step E name b.B clk s op).2
      (b.snap E name (Sys.step E name b.B clk s op).1) := by
  obtain ⟨t, hr⟩ := Impl.rs_of_good hs
  obtain ⟨h1, h2⟩ := Impl.rs_step (E := E) (name := name) (clk := clk) hr op
  rw [Impl.snap_eq hr, Impl.snap_eq h2, h1]; exact h t op

end
end AJ
