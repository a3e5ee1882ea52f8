import Verif.Proofs.Run

/-! # The Redis backend refines the specification on the calls AJ makes -/

namespace AJ.Redis

/-- Calls on which Redis is a faithful backend, when the keys in `hk` are used for hashes and the
others for lists: a move of several items needs two different lists, and a read asks for at least one
and fewer than `2 ^ 63` items. -/
def OkOp (hk : Str → Prop) : BOp → Prop
  | .queuePush q _ => ¬ hk q
  | .queueMove a b n _ _ => ¬ hk a ∧ ¬ hk b ∧ (n ≤ 1 ∨ a ≠ b)
  | .queueRemove q _ => ¬ hk q
  | .queueGet q n _ => ¬ hk q ∧ 1 ≤ n ∧ n < 2 ^ 63
  | .queueCount q => ¬ hk q
  | .storageUpsert h _ _ => hk h
  | .storageGet h _ => hk h

/-- The value Redis keeps for a list. -/
def listVal : List Str → Option RVal
  | [] => none
  | l => some (.list l)

/-- Key space `s` represents `t`. -/
structure Rep (hk : Str → Prop) (s : RedisState) (t : SpecState) : Prop where
  lists : ∀ k, ¬ hk k → s k = listVal (t.q k)
  hashes : ∀ k, hk k → (s k = none ∧ ∀ f, t.st k f = none) ∨ s k = some (.hash (t.st k))

theorem listVal_cons (x : Str) (l : List Str) : listVal (x :: l) = some (.list (x :: l)) := rfl
theorem listVal_nil : listVal [] = none := rfl

theorem putList_eq (k : Str) (l : List Str) (s : RedisState) : putList k l s = upd s k (listVal l) := by
  cases l <;> rfl

theorem rep_updList {hk : Str → Prop} {s : RedisState} {t : SpecState} (h : Rep hk s t) {k : Str}
    (hkk : ¬ hk k) (l : List Str) : Rep hk (upd s k (listVal l)) { t with q := upd t.q k l } where
  lists k' hk' := by
    by_cases e : k' = k
    · subst e; simp
    · simp [upd_ne _ _ e, h.lists k' hk']
  hashes k' hk' := by
    have e : k' ≠ k := fun e => hkk (e ▸ hk')
    simpa [upd_ne _ _ e] using h.hashes k' hk'

theorem rep_empty (hk : Str → Prop) : Rep hk (fun _ => none) Spec.empty where
  lists _ _ := rfl
  hashes _ _ := .inl ⟨rfl, fun _ => rfl⟩

theorem view_singleton_ops (d : Dir) (l : List Str) :
    InMem.pop l d = match Spec.view d l with
      | [] => none
      | x :: xs => some (x, Spec.view d xs) := by
  cases d
  · cases l <;> rfl
  · rw [InMem.pop_back_reverse]; rfl

theorem view_view (d : Dir) (l : List Str) : Spec.view d (Spec.view d l) = l := by
  cases d <;> simp [Spec.view]

theorem view_eq_nil (d : Dir) (l : List Str) : Spec.view d l = [] ↔ l = [] := by
  cases d <;> simp [Spec.view]

theorem insertItem_eq (d : Dir) (l : List Str) (x : Str) : InMem.insertItem l x d = Spec.put d [x] l := by
  cases d <;> simp [InMem.insertItem, Spec.put]

theorem LMOVE_rep {hk : Str → Prop} {s : RedisState} {t : SpecState} (h : Rep hk s t) (a b : Str)
    (ha : ¬ hk a) (hb : ¬ hk b) (fd td : Dir) :
    (LMOVE a b fd td s).1 = .ok ((Spec.view fd (t.q a)).head?) ∧
    Rep hk (LMOVE a b fd td s).2 (Spec.exec (.queueMove a b 1 fd td) t).2 := by
  unfold LMOVE
  have hsa := h.lists a ha
  have hsb := h.lists b hb
  rcases hq : t.q a with _ | ⟨x, l⟩
  · rw [hq] at hsa
    simp only [hsa, listVal_nil]
    have e1 : Spec.view fd ([] : List Str) = [] := by cases fd <;> rfl
    refine ⟨by simp [e1], ?_⟩
    simp only [Spec.exec, hq, e1, List.take_nil, List.drop_nil]
    have h2 : upd t.q a [] = t.q := by rw [← hq]; simp
    have h3 : ∀ l, Spec.put td [] l = l := fun l => by cases td <;> simp [Spec.put]
    rw [h2, h3]; simpa using h
  · rw [hq] at hsa
    simp only [hsa, listVal_cons]
    rw [hsb]
    have hb' : ∀ (P : Except Error (Option Str) × RedisState → Prop) (X Y),
        P Y → P (match listVal (t.q b) with | some (.hash _) => X | _ => Y) := by
      intro P X Y hY
      rcases hqb : t.q b with _ | ⟨y, m⟩
      · simpa [listVal_nil] using hY
      · simpa [listVal_cons] using hY
    apply hb' (fun r => r.1 = _ ∧ Rep hk r.2 _)
    rw [view_singleton_ops]
    rcases hv : Spec.view fd (x :: l) with _ | ⟨y, ys⟩
    · rw [view_eq_nil] at hv; simp at hv
    · simp only [List.head?_cons, true_and, Spec.exec, hq, hv, List.drop_succ_cons, List.drop_zero,
        List.take_succ_cons, List.take_zero, putList_eq, insertItem_eq]
      have r1 := rep_updList h ha (Spec.view fd ys)
      have hl := r1.lists b hb
      rw [hl]
      have key : ∀ l : List Str, l = upd t.q a (Spec.view fd ys) b →
          Rep hk (upd (upd s a (listVal (Spec.view fd ys))) b (listVal (Spec.put td [y] l)))
            ⟨upd (upd t.q a (Spec.view fd ys)) b
              (Spec.put td [y] (upd t.q a (Spec.view fd ys) b)), t.st⟩ := by
        rintro l rfl
        exact rep_updList r1 hb _
      apply key
      simp only
      generalize upd t.q a (Spec.view fd ys) b = m
      cases m <;> rfl

theorem move_zero (a b : Str) (fd td : Dir) (t : SpecState) :
    Spec.exec (.queueMove a b 0 fd td) t = ([], t) := by
  simp only [Spec.exec, List.take_zero, List.drop_zero, view_view]
  have h3 : ∀ l, Spec.put td [] l = l := fun l => by cases td <;> simp [Spec.put]
  simp [h3]

theorem move_succ (a b : Str) (fd td : Dir) (n : Nat) (t : SpecState) (h : n = 0 ∨ a ≠ b) :
    Spec.exec (.queueMove a b (n + 1) fd td) t =
      let (x, t1) := Spec.exec (.queueMove a b 1 fd td) t
      let (xs, t2) := Spec.exec (.queueMove a b n fd td) t1
      (x ++ xs, t2) := by
  rcases h with rfl | hab
  · simp [move_zero]
  · have hba : b ≠ a := fun e => hab e.symm
    simp only [Spec.exec, upd_ne _ _ hab, upd_ne _ _ hba, upd_same, view_view, InMem.put_put]
    rw [Nat.add_comm n 1, List.take_add, List.drop_drop]
    refine Prod.ext rfl ?_
    simp only
    congr 1
    funext k
    simp only [upd_apply]
    split
    · rfl
    · split
      · rfl
      · rfl

theorem lmove_rep {hk : Str → Prop} (a b : Str) (ha : ¬ hk a) (hb : ¬ hk b) (fd td : Dir) (n : Nat)
    (hn : n ≤ 1 ∨ a ≠ b) (s : RedisState) (t : SpecState) (h : Rep hk s t) :
    (lmove a b fd td n s).1 = .ok (Spec.exec (.queueMove a b n fd td) t).1 ∧
    Rep hk (lmove a b fd td n s).2 (Spec.exec (.queueMove a b n fd td) t).2 := by
  induction n generalizing s t with
  | zero => rw [move_zero]; exact ⟨rfl, h⟩
  | succ n ih =>
    obtain ⟨h1, h2⟩ := LMOVE_rep h a b ha hb fd td
    rw [move_succ _ _ _ _ _ _ (hn.imp (fun h => by omega) id)]
    unfold lmove
    rcases hL : LMOVE a b fd td s with ⟨r, s'⟩
    rw [hL] at h1 h2
    simp only at h1 h2
    subst h1
    simp only
    obtain ⟨h3, h4⟩ := ih (hn.imp (fun h => by omega) id) s' _ h2
    rcases hl : lmove a b fd td n s' with ⟨r, s''⟩
    rw [hl] at h3 h4
    simp only at h3 h4
    subst h3
    simp only
    refine ⟨?_, h4⟩
    congr 1
    have : (Spec.exec (.queueMove a b 1 fd td) t).1 = (Spec.view fd (t.q a)).take 1 := rfl
    rw [this]
    cases Spec.view fd (t.q a) <;> simp

theorem LRANGE_list {s : RedisState} {k : Str} {l : List Str} (h : s k = listVal l) (a b : Int) :
    LRANGE k a b s = .ok (
      let len : Int := l.length
      let start := if a < 0 then a + len else a
      let stop := if b < 0 then b + len else b
      let start := if start < 0 then 0 else start
      if start > stop ∨ start ≥ len then []
      else
        let stop := if stop ≥ len then len - 1 else stop
        (l.drop start.toNat).take (stop - start + 1).toNat) := by
  unfold LRANGE
  cases l with
  | nil =>
    simp only [h, listVal_nil, List.length_nil]
    congr 1
    simp
  | cons x l =>
    simp only [h, listVal_cons]
    rw [apply_ite (f := Except.ok (ε := Error))]

theorem asIsize_of_lt {n : Nat} (h : n < 2 ^ 63) : asIsize n = n := by
  unfold asIsize; rw [Int.bmod_def]; omega

theorem lrange_rep {hk : Str → Prop} {s : RedisState} {t : SpecState} (h : Rep hk s t) (k : Str)
    (hk' : ¬ hk k) (n : Nat) (d : Dir) (h1 : 1 ≤ n) (h2 : n < 2 ^ 63) :
    lrange k n d s = .ok ((Spec.view d (t.q k)).take n) := by
  have hl := h.lists k hk'
  generalize t.q k = l at hl
  unfold lrange
  cases d with
  | front =>
    simp only [asIsize_of_lt h2]
    have e : Int.bmod ((n : Int) - 1) (2 ^ 64) = n - 1 := by rw [Int.bmod_def]; omega
    rw [e, LRANGE_list hl]
    congr 1
    have e1 : ¬ ((n : Int) - 1 < 0) := by omega
    simp only [Spec.view, show ¬ ((0 : Int) < 0) by omega, if_false, e1]
    by_cases hc : (0 : Int) ≥ l.length
    · have : l.length = 0 := by omega
      simp [List.length_eq_zero_iff.mp this]
    · rw [if_neg (by
        rintro (h | h)
        · omega
        · exact hc h)]
      simp only [Int.toNat_zero, List.drop_zero]
      split
      · rw [List.take_of_length_le (by omega), List.take_of_length_le (by omega)]
      · congr 1; omega
  | back =>
    simp only [asIsize_of_lt h2]
    have e : Int.bmod (-(n : Int)) (2 ^ 64) = -n := by rw [Int.bmod_def]; omega
    rw [e, LRANGE_list hl]
    simp only [Except.map, Spec.view]
    congr 1
    rw [List.take_reverse]
    congr 1
    simp only [show (-(n : Int)) < 0 by omega, if_true, show (-1 : Int) < 0 by omega]
    by_cases hc : l.length = 0
    · simp [List.length_eq_zero_iff.mp hc]
    · by_cases hlt : -(n : Int) + l.length < 0
      · rw [if_pos hlt, if_neg (by omega), if_neg (by omega)]
        simp only [Int.toNat_zero, List.drop_zero]
        rw [List.take_of_length_le (by omega), show l.length - n = 0 by omega, List.drop_zero]
      · rw [if_neg hlt, if_neg (by omega), if_neg (by omega)]
        rw [List.take_of_length_le (by rw [List.length_drop]; omega)]
        congr 1; omega

theorem exec_rep (hk : Str → Prop) (op : BOp) (s : RedisState) (t : SpecState) (hok : OkOp hk op)
    (h : Rep hk s t) :
    (exec op s).1 = .ok (Spec.exec op t).1 ∧ Rep hk (exec op s).2 (Spec.exec op t).2 := by
  cases op with

  | queuePush q x =>
    have hl := h.lists q hok
    simp only [exec, LPUSH, Spec.exec]
    rcases hq : t.q q with _ | ⟨y, l⟩
    · rw [hq, listVal_nil] at hl
      simp only [hl]
      refine ⟨trivial, ?_⟩
      rw [putList_eq]
      exact rep_updList h hok _
    · rw [hq, listVal_cons] at hl
      simp only [hl]
      refine ⟨trivial, ?_⟩
      rw [putList_eq]
      exact rep_updList h hok _
  | queueMove a b n fd td => exact lmove_rep a b hok.1 hok.2.1 fd td n hok.2.2 s t h
  | queueRemove q x =>
    have hl := h.lists q hok
    simp only [exec, LREM0, Spec.exec]
    rcases hq : t.q q with _ | ⟨y, l⟩
    · rw [hq, listVal_nil] at hl
      simp only [hl, List.filter_nil]
      refine ⟨rfl, ?_⟩
      have h2 : upd t.q q [] = t.q := by rw [← hq]; simp
      rw [h2]; exact h
    · rw [hq, listVal_cons] at hl
      simp only [hl]
      refine ⟨rfl, ?_⟩
      rw [putList_eq]
      exact rep_updList h hok _
  | queueGet q n d => exact ⟨lrange_rep h q hok.1 n d hok.2.1 hok.2.2, h⟩
  | queueCount q =>
    refine ⟨?_, h⟩
    have hl := h.lists q hok
    simp only [exec, LLEN, Spec.exec]
    rcases hq : t.q q with _ | ⟨y, l⟩
    · rw [hq, listVal_nil] at hl; simp [hl]
    · rw [hq, listVal_cons] at hl; simp [hl]
  | storageUpsert hh k v =>
    simp only [exec, HSET, Spec.exec]
    have key : ∀ m, m = t.st hh → Rep hk (upd s hh (some (.hash (upd m k (some v)))))
        { t with st := upd t.st hh (upd (t.st hh) k (some v)) } := by
      rintro m rfl
      refine ⟨fun k' hk' => ?_, fun k' hk' => ?_⟩
      · have e : k' ≠ hh := fun e => hk' (e ▸ hok)
        simp [upd_ne _ _ e, h.lists k' hk']
      · by_cases e : k' = hh
        · subst e; right; simp
        · simpa [upd_ne _ _ e] using h.hashes k' hk'
    rcases h.hashes hh hok with ⟨h1, h2⟩ | h1
    · simp only [h1]
      exact ⟨trivial, key _ (funext fun f => (h2 f).symm)⟩
    · simp only [h1]
      exact ⟨trivial, key _ rfl⟩
  | storageGet hh k =>
    refine ⟨?_, h⟩
    simp only [exec, HGET, Spec.exec]
    rcases h.hashes hh hok with ⟨h1, h2⟩ | h1
    · simp [h1, h2]
    · simp [h1]

/-- On the calls of `OkOp`, Redis answers what the specification answers. -/
def sim (hk : Str → Prop) : Sim RedisB (OkOp hk) where
  R := Rep hk
  step op s t hok h := exec_rep hk op s t hok h

end AJ.Redis
