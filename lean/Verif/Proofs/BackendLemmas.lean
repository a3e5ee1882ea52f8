import Verif.Proofs.Redis
import Verif.Model.Queue

/-! # Helper lemmas on backends and queue names -/

namespace AJ

/-- The list a backend shows when all of queue `q` is read from the front. -/
def Backend.contents (B : Backend) (s : B.S) (q : Str) : List Str :=
  match (B.exec (.queueCount q) s).1 with
  | .ok n => match (B.exec (.queueGet q n .front) s).1 with
    | .ok l => l
    | .error _ => []
  | .error _ => []

/-- The value a backend shows for `(hash, key)`. -/
def Backend.stored (B : Backend) (s : B.S) (h k : Str) : Option Str :=
  match (B.exec (.storageGet h k) s).1 with
  | .ok v => v
  | .error _ => none

theorem InMem.contents_eq (s : InMemState) (q : Str) :
    Backend.contents InMem s q = (InMem.abs s).q q := by
  unfold Backend.contents
  have h1 := (InMem.exec_refines (.queueCount q) s).1
  have h2 := fun n => (InMem.exec_refines (.queueGet q n .front) s).1
  show (match (InMem.exec (.queueCount q) s).1 with
    | .ok n => match (InMem.exec (.queueGet q n .front) s).1 with
      | .ok l => l
      | .error _ => []
    | .error _ => []) = _
  rw [h1]
  simp only [h2]
  simp [Spec.exec, Spec.view]

theorem InMem.stored_eq (s : InMemState) (h k : Str) :
    Backend.stored InMem s h k = (InMem.abs s).st h k := by
  unfold Backend.stored
  show (match (InMem.exec (.storageGet h k) s).1 with | .ok v => v | .error _ => none) = _
  rw [(InMem.exec_refines (.storageGet h k) s).1]
  rfl

theorem Redis.contents_eq {hk : Str → Prop} {s : RedisState} {t : SpecState} (h : Redis.Rep hk s t)
    (q : Str) (hq : ¬ hk q) (hl : (t.q q).length < 2 ^ 63) :
    Backend.contents RedisB s q = t.q q := by
  unfold Backend.contents
  show (match (Redis.exec (.queueCount q) s).1 with
    | .ok n => match (Redis.exec (.queueGet q n .front) s).1 with
      | .ok l => l
      | .error _ => []
    | .error _ => []) = _
  rw [(Redis.exec_rep hk (.queueCount q) s t hq h).1]
  simp only [Spec.exec]
  rcases hn : t.q q with _ | ⟨x, l⟩
  · have := h.lists q hq
    rw [hn] at this
    simp [Redis.exec, Redis.lrange, Redis.LRANGE_list this]
  · rw [← hn, (Redis.exec_rep hk (.queueGet q _ .front) s t ⟨hq, by rw [hn]; simp, hl⟩ h).1]
    simp [Spec.exec, Spec.view]

theorem Redis.stored_eq {hk : Str → Prop} {s : RedisState} {t : SpecState} (h : Redis.Rep hk s t)
    (hh k : Str) (hq : hk hh) : Backend.stored RedisB s hh k = t.st hh k := by
  unfold Backend.stored
  show (match (Redis.exec (.storageGet hh k) s).1 with | .ok v => v | .error _ => none) = _
  rw [(Redis.exec_rep hk (.storageGet hh k) s t hq h).1]
  rfl

theorem Sim.runAll {B : Backend} {ok : BOp → Prop} (S : Sim B ok) (ops : List BOp)
    (hok : ∀ op ∈ ops, ok op) (s : B.S) (t : SpecState) (h : S.R s t) :
    (B.runAll ops s).1 = (Spec.runAll ops t).1.map (fun r => ⟨r.1, .ok r.2⟩) ∧
    S.R (B.runAll ops s).2 (Spec.runAll ops t).2 := by
  induction ops generalizing s t with
  | nil => exact ⟨rfl, h⟩
  | cons op ops ih =>
    obtain ⟨h1, h2⟩ := S.step op s t (hok op (by simp)) h
    obtain ⟨h3, h4⟩ := ih (fun o ho => hok o (by simp [ho])) _ _ h2
    simp only [Backend.runAll, Spec.runAll, List.map_cons]
    exact ⟨by rw [h1, h3], h4⟩

/-! ## Queue names -/

theorem JobStatus.debug_injective {a b : JobStatus} (h : a.debug = b.debug) : a = b := by
  cases a <;> cases b <;> first | rfl | (exact absurd h (by decide))

theorem debug_no_colon (s : JobStatus) : ':' ∉ s.debug := by cases s <;> decide

theorem formatQueueName_injective {n m : Str} {a b : JobStatus}
    (h : formatQueueName n a = formatQueueName m b) : n = m ∧ a = b := by
  have key : ∀ (x y u v : Str), ':' ∉ x → ':' ∉ y → u ++ ':' :: x = v ++ ':' :: y → x = y ∧ u = v := by
    intro x y u v hx hy e
    have e' := congrArg List.reverse e
    simp only [List.reverse_append, List.reverse_cons, List.append_assoc, List.singleton_append] at e'
    have aux : ∀ (p q r t : Str), ':' ∉ p → ':' ∉ q → p ++ ':' :: r = q ++ ':' :: t → p = q ∧ r = t := by
      intro p
      induction p with
      | nil =>
        intro q r t _ hq h
        cases q with
        | nil => simpa using h
        | cons c q => simp at h; exact absurd h.1 (by simpa using (not_or.mp (by simpa using hq)).1)
      | cons c p ih =>
        intro q r t hp hq h
        cases q with
        | nil => simp at h; exact absurd h.1.symm (by simpa using (not_or.mp (by simpa using hp)).1)
        | cons d q =>
          simp only [List.cons_append, List.cons.injEq] at h
          obtain ⟨h1, h2⟩ := ih q r t (by simp_all) (by simp_all) h.2
          exact ⟨by rw [h.1, h1], h2⟩
    obtain ⟨h1, h2⟩ := aux x.reverse y.reverse u.reverse v.reverse (by simpa) (by simpa) e'
    exact ⟨List.reverse_inj.mp h1, List.reverse_inj.mp h2⟩
  have h' : (n ++ c!":queue") ++ ':' :: a.debug = (m ++ c!":queue") ++ ':' :: b.debug := by
    simpa [formatQueueName] using h
  obtain ⟨h1, h2⟩ := key _ _ _ _ (debug_no_colon a) (debug_no_colon b) h'
  exact ⟨List.append_cancel_right h2, JobStatus.debug_injective h1⟩

theorem formatQueueName_ne_storage (n : Str) (a : JobStatus) : formatQueueName n a ≠ STORAGE_HASH := by
  intro h
  have : ':' ∈ STORAGE_HASH := by rw [← h]; simp [formatQueueName]
  revert this; decide

end AJ
