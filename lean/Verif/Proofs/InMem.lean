import Verif.Spec.Backend

/-! # The in-memory backend refines the specification -/

namespace AJ

@[simp] theorem upd_same {α β : Type} [DecidableEq α] (f : α → β) (a : α) (b : β) : upd f a b a = b := by
  simp [upd]

theorem upd_ne {α β : Type} [DecidableEq α] (f : α → β) {a x : α} (b : β) (h : x ≠ a) :
    upd f a b x = f x := by simp [upd, h]

theorem upd_apply {α β : Type} [DecidableEq α] (f : α → β) (a x : α) (b : β) :
    upd f a b x = if x = a then b else f x := rfl

@[simp] theorem upd_upd {α β : Type} [DecidableEq α] (f : α → β) (a : α) (b c : β) :
    upd (upd f a b) a c = upd f a c := by
  funext x; simp only [upd]; split <;> rfl

@[simp] theorem upd_self {α β : Type} [DecidableEq α] (f : α → β) (a : α) : upd f a (f a) = f := by
  funext x; simp only [upd]; split <;> simp_all

/-- Abstract contents of the in-memory backend. -/
def InMem.abs (s : InMemState) : SpecState where
  q n := (s.queues n).getD []
  st h k := (s.storages h).bind (· k)

namespace InMem

theorem pop_front (q : List Str) : pop q .front = match q with | [] => none | x :: xs => some (x, xs) := by
  cases q <;> rfl

theorem popLoop_front (n : Nat) (q : List Str) : popLoop .front n q = (q.take n, q.drop n) := by
  induction n generalizing q with
  | zero => simp [popLoop]
  | succ n ih => cases q <;> simp [popLoop, pop, ih]

theorem pop_back_reverse (q : List Str) :
    pop q .back = match q.reverse with | [] => none | x :: xs => some (x, xs.reverse) := by
  simp only [pop]
  rcases List.eq_nil_or_concat q with rfl | ⟨l, a, rfl⟩
  · simp
  · simp

theorem popLoop_back (n : Nat) (q : List Str) :
    popLoop .back n q = (q.reverse.take n, (q.reverse.drop n).reverse) := by
  induction n generalizing q with
  | zero => simp [popLoop]
  | succ n ih =>
    simp only [popLoop, pop_back_reverse]
    rcases h : q.reverse with _ | ⟨a, l⟩
    · simp [ih, h]
    · simp [ih]

theorem popLoop_eq (d : Dir) (n : Nat) (q : List Str) :
    popLoop d n q = ((Spec.view d q).take n, Spec.view d ((Spec.view d q).drop n)) := by
  cases d
  · simp [popLoop_front, Spec.view]
  · simp [popLoop_back, Spec.view]

theorem abs_insertTo (dst : Str) (d : Dir) (s : InMemState) (x : Str) :
    abs (insertTo dst d s x) =
      { abs s with q := upd (abs s).q dst (Spec.put d [x] ((abs s).q dst)) } := by
  unfold insertTo
  cases h : s.queues dst <;> cases d <;> simp [abs, Spec.put, insertItem, h] <;> funext n <;>
    by_cases hn : n = dst <;> simp [hn, upd]

theorem put_put (d : Dir) (xs ys l : List Str) :
    Spec.put d ys (Spec.put d xs l) = Spec.put d (xs ++ ys) l := by
  cases d <;> simp [Spec.put]

theorem abs_foldl_insertTo (dst : Str) (d : Dir) (xs : List Str) (s : InMemState) :
    abs (xs.foldl (insertTo dst d) s) =
      { abs s with q := upd (abs s).q dst (Spec.put d xs ((abs s).q dst)) } := by
  induction xs generalizing s with
  | nil =>
    have : Spec.put d [] ((abs s).q dst) = (abs s).q dst := by cases d <;> simp [Spec.put]
    simp [this]
  | cons x xs ih => simp [ih, abs_insertTo, put_put]

theorem filterMap_range_get (q : List Str) (n : Nat) :
    (List.range n).filterMap (fun i => q[i]?) = q.take n := by
  induction n with
  | zero => simp
  | succ n ih =>
    rw [List.range_succ, List.filterMap_append, ih, List.take_add_one]
    simp [List.filterMap]
    cases q[n]? <;> rfl

theorem filterMap_range'_get (q : List Str) (a : Nat) (h : a ≤ q.length) :
    (List.range' a (q.length - a)).filterMap (fun i => q[i]?) = q.drop a := by
  obtain ⟨k, hk⟩ : ∃ k, q.length - a = k := ⟨_, rfl⟩
  rw [hk]
  induction k generalizing a with
  | zero => simp; omega
  | succ k ih =>
    have ha : a < q.length := by omega
    rw [List.range'_succ, List.filterMap_cons]
    rw [List.getElem?_eq_getElem ha]
    simp only
    rw [ih (a + 1) (by omega) (by omega)]
    exact List.getElem_cons_drop ha

theorem queueGet_eq (name : Str) (n : Nat) (d : Dir) (s : InMemState) :
    queueGet name n d s = (Spec.view d ((abs s).q name)).take n := by
  unfold queueGet abs
  cases h : s.queues name with
  | none => cases d <;> simp [Spec.view, h]
  | some q =>
    cases d
    · simp [Spec.view, filterMap_range_get, h]
    · simp only [Spec.view, h, Option.getD_some]
      rw [List.filterMap_reverse, filterMap_range'_get _ _ (by split <;> omega), List.take_reverse]
      split
      · rfl
      · rw [show q.length - n = 0 by omega]

/-- Every call on the in-memory backend answers what the specification answers, and commutes with
the abstraction. -/
theorem exec_refines (op : BOp) (s : InMemState) :
    (exec op s).1 = .ok (Spec.exec op (abs s)).1 ∧ abs (exec op s).2 = (Spec.exec op (abs s)).2 := by
  cases op with
  | queuePush q x =>
    refine ⟨rfl, ?_⟩
    simp only [exec, queuePush, Spec.exec]
    cases h : s.queues q <;> simp [abs, h, insertItem] <;> funext n <;> by_cases hn : n = q <;>
      simp [hn, upd]
  | queueMove a b n fd td =>
    simp only [exec, queueMove, Spec.exec]
    cases h : s.queues a with
    | none =>
      have h' : (abs s).q a = [] := by simp [abs, h]
      have e1 : Spec.view fd ([] : List Str) = [] := by cases fd <;> rfl
      simp only [h', e1, List.take_nil, List.drop_nil]
      refine ⟨trivial, ?_⟩
      have : upd (abs s).q a [] = (abs s).q := by rw [← h']; simp
      rw [this]
      have h2 : Spec.put td [] ((abs s).q b) = (abs s).q b := by cases td <;> simp [Spec.put]
      rw [h2]; simp
    | some q =>
      have h' : (abs s).q a = q := by simp [abs, h]
      simp only [h', popLoop_eq, abs_foldl_insertTo]
      refine ⟨trivial, ?_⟩
      have : (abs { s with queues := upd s.queues a (some (Spec.view fd ((Spec.view fd q).drop n))) }).q
          = upd (abs s).q a (Spec.view fd ((Spec.view fd q).drop n)) := by
        funext m; simp only [abs, upd]; split <;> simp
      rw [this]
      simp [abs]
  | queueRemove q x =>
    refine ⟨rfl, ?_⟩
    simp only [exec, queueRemove, Spec.exec]
    cases h : s.queues q <;> simp [abs, h] <;> funext n <;> by_cases hn : n = q <;> simp [hn, h, upd]
  | queueGet q n d => exact ⟨by simp [exec, Spec.exec, queueGet_eq], rfl⟩
  | queueCount q =>
    refine ⟨?_, rfl⟩
    simp only [exec, queueCount, Spec.exec, abs]
    cases h : s.queues q <;> simp
  | storageUpsert h k v =>
    refine ⟨rfl, ?_⟩
    simp only [exec, storageUpsert, Spec.exec]
    cases hh : s.storages h <;> simp [abs, hh] <;> funext n m <;> by_cases hn : n = h <;>
      simp [hn, upd] <;> split <;> simp
  | storageGet h k =>
    refine ⟨?_, rfl⟩
    simp only [exec, storageGet, Spec.exec, abs]
    cases hh : s.storages h <;> simp

theorem abs_empty : abs empty = Spec.empty := rfl

end InMem
end AJ
