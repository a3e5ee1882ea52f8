import Verif.Proofs.BackendLemmas

/-! # Properties C01 – C05, C07, C08: backends and queue names -/

namespace AJ.Props

/-- **C01.** Any sequence of calls on the in-memory backend (from its initial state) gives, call by
call, `Ok` of what the specification answers. -/
theorem C01_inmem_refines (ops : List BOp) :
    (InMem.runAll ops InMem.empty).1 =
      (Spec.runAll ops Spec.empty).1.map (fun r => ⟨r.1, .ok r.2⟩) :=
  (InMem.sim.runAll ops (fun _ _ => trivial) InMem.empty Spec.empty InMem.abs_empty).1

/-- A run with a push, a move between ends and a read: the specification answers `["b"]`. -/
example : (Spec.runAll [.queuePush c!"q" c!"a", .queuePush c!"q" c!"b",
      .queueMove c!"q" c!"r" 1 .back .front, .queueGet c!"q" 5 .front, .queueCount c!"r"] Spec.empty).1
    = [⟨.queuePush c!"q" c!"a", ()⟩, ⟨.queuePush c!"q" c!"b", ()⟩,
       ⟨.queueMove c!"q" c!"r" 1 .back .front, [c!"a"]⟩, ⟨.queueGet c!"q" 5 .front, [c!"b"]⟩,
       ⟨.queueCount c!"r", (1 : Nat)⟩] := rfl

/-! ## C02 -/

/-- The value of the most recent `storage_upsert(h, k, _)` of a history. -/
def lastWrite (h k : Str) : List BOp → Option Str
  | [] => none
  | op :: ops => match lastWrite h k ops with
    | some v => some v
    | none => match op with
      | .storageUpsert h' k' v => if h' = h ∧ k' = k then some v else none
      | _ => none

theorem spec_lastWrite (h k : Str) (ops : List BOp) (t : SpecState) :
    (Spec.runAll ops t).2.st h k = (lastWrite h k ops).or (t.st h k) := by
  induction ops generalizing t with
  | nil => rfl
  | cons op ops ih =>
    simp only [Spec.runAll, lastWrite]
    rw [ih]
    cases lastWrite h k ops with
    | some v => rfl
    | none =>
      cases op <;> simp only [Spec.exec, Option.none_or]
      case storageUpsert h' k' v =>
        by_cases e1 : h' = h
        · subst e1
          by_cases e2 : k' = k
          · subst e2; simp
          · simp [upd_ne _ _ (Ne.symm e2), e2]
        · simp [upd_ne _ _ (Ne.symm e1), e1]

/-- **C02** (in memory). After any history, `storage_get` returns the last write. -/
theorem C02_inmem_last_write (ops : List BOp) (h k : Str) :
    (InMem.exec (.storageGet h k) (InMem.runAll ops InMem.empty).2).1 = .ok (lastWrite h k ops) := by
  have e := (InMem.sim.runAll ops (fun _ _ => trivial) InMem.empty Spec.empty InMem.abs_empty).2
  have e2 := (InMem.exec_refines (.storageGet h k) (InMem.runAll ops InMem.empty).2).1
  have e' : InMem.abs (InMem.runAll ops InMem.empty).2 = (Spec.runAll ops Spec.empty).2 := e
  refine e2.trans ?_
  rw [e']
  simp only [Spec.exec, spec_lastWrite]
  simp [Spec.empty]

/-- Redis commands never make an `HGET` forget or invent a field: what matters for the read is only
whether the key has been taken over by a list, which `OkKeys` excludes. -/
def OkKeys (hk : Str → Prop) : BOp → Prop
  | .queuePush q _ => ¬ hk q
  | .queueMove a b _ _ _ => ¬ hk a ∧ ¬ hk b
  | .queueRemove q _ => ¬ hk q
  | .queueGet q _ _ => ¬ hk q
  | .queueCount q => ¬ hk q
  | .storageUpsert h _ _ => hk h
  | .storageGet h _ => hk h

/-- Hash part of the key space. -/
def hashOf (s : RedisState) (h : Str) : Option (Str → Option Str) :=
  match s h with
  | none => some fun _ => none
  | some (.hash m) => some m
  | some (.list _) => none

theorem hashOf_putList (s : RedisState) (k h : Str) (l : List Str) (hne : h ≠ k) :
    hashOf (Redis.putList k l s) h = hashOf s h := by
  simp [hashOf, Redis.putList, upd_ne _ _ hne]

theorem hashOf_LMOVE (s : RedisState) (a b h : Str) (fd td : Dir) (ha : h ≠ a) (hb : h ≠ b) :
    hashOf (Redis.LMOVE a b fd td s).2 h = hashOf s h := by
  unfold Redis.LMOVE
  split
  · rfl
  · rfl
  · split
    · rfl
    · split
      · rfl
      · simp only
        rw [hashOf_putList _ _ _ _ hb, hashOf_putList _ _ _ _ ha]

theorem hashOf_lmove (a b h : Str) (fd td : Dir) (ha : h ≠ a) (hb : h ≠ b) (n : Nat) (s : RedisState) :
    hashOf (Redis.lmove a b fd td n s).2 h = hashOf s h := by
  induction n generalizing s with
  | zero => rfl
  | succ n ih =>
    have h1 := hashOf_LMOVE s a b h fd td ha hb
    unfold Redis.lmove
    rcases e : Redis.LMOVE a b fd td s with ⟨r, s'⟩
    rw [e] at h1
    cases r with
    | error e => exact h1
    | ok r =>
      have h2 := ih s'
      simp only
      rcases e2 : Redis.lmove a b fd td n s' with ⟨r2, s''⟩
      rw [e2] at h2
      cases r2 with
      | error e => exact h2.trans h1
      | ok r => exact h2.trans h1

theorem hashOf_exec (hk : Str → Prop) (op : BOp) (hop : OkKeys hk op) (s : RedisState) (h : Str)
    (hh : hk h) (m : Str → Option Str) (hs : hashOf s h = some m) :
    hashOf (Redis.exec op s).2 h = some (match op with
      | .storageUpsert h' k v => if h' = h then upd m k (some v) else m
      | _ => m) := by
  have ne : ∀ q, ¬ hk q → h ≠ q := fun q hq e => hq (e ▸ hh)
  cases op with
  | queuePush q x =>
    simp only [Redis.exec, Redis.LPUSH]
    split
    · rw [hashOf_putList _ _ _ _ (ne q hop), hs]
    · rw [hashOf_putList _ _ _ _ (ne q hop), hs]
    · exact hs
  | queueMove a b n fd td =>
    simp only [Redis.exec]
    rw [hashOf_lmove _ _ _ _ _ (ne a hop.1) (ne b hop.2), hs]
  | queueRemove q x =>
    simp only [Redis.exec, Redis.LREM0]
    split
    · exact hs
    · simp only; rw [hashOf_putList _ _ _ _ (ne q hop), hs]
    · exact hs
  | queueGet q n d => exact hs
  | queueCount q => exact hs
  | storageUpsert h' k v =>
    simp only [Redis.exec, Redis.HSET]
    by_cases e : h' = h
    · subst e
      unfold hashOf at hs
      split at hs
      · next h0 => simp only [h0]; simp [hashOf, ← Option.some.inj hs]
      · next m' h0 => simp only [h0]; simp [hashOf, ← Option.some.inj hs]
      · simp at hs
    · have e' : h ≠ h' := fun x => e x.symm
      rw [if_neg e]
      split
      · simpa [hashOf, upd_ne _ _ e'] using hs
      · simpa [hashOf, upd_ne _ _ e'] using hs
      · exact hs
  | storageGet h' k => exact hs

/-- **C02** (Redis). Provided no key is used both as a list and as a hash, after any history `HGET`
returns the last write. All arguments of the calls are arbitrary. -/
theorem C02_redis_last_write (hk : Str → Prop) (ops : List BOp) (hok : ∀ op ∈ ops, OkKeys hk op)
    (h k : Str) (hh : hk h) :
    (RedisB.exec (.storageGet h k) (RedisB.runAll ops (fun _ => none)).2).1
      = .ok (lastWrite h k ops) := by
  have main : ∀ (ops : List BOp), (∀ op ∈ ops, OkKeys hk op) → ∀ (s : RedisState) (m),
      hashOf s h = some m → ∃ m', hashOf (RedisB.runAll ops s).2 h = some m' ∧
        m' k = (lastWrite h k ops).or (m k) := by
    intro ops
    induction ops with
    | nil => intro _ s m hs; exact ⟨m, hs, rfl⟩
    | cons op ops ih =>
      intro hok s m hs
      have h1 := hashOf_exec hk op (hok op (by simp)) s h hh m hs
      obtain ⟨m', h2, h3⟩ := ih (fun o ho => hok o (by simp [ho])) _ _ h1
      refine ⟨m', h2, ?_⟩
      rw [h3]
      simp only [lastWrite]
      cases lastWrite h k ops with
      | some v => rfl
      | none =>
        simp only [Option.none_or]
        cases op <;> simp only [Option.none_or]
        case storageUpsert h' k' v =>
          by_cases e1 : h' = h
          · by_cases e2 : k' = k
            · simp [e1, e2]
            · simp [e1, e2, upd_ne _ _ (Ne.symm e2)]
          · simp [e1]
  obtain ⟨m', h1, h2⟩ := main ops hok (fun _ => none) (fun _ => none) rfl
  show Redis.HGET h k _ = _
  unfold Redis.HGET
  unfold hashOf at h1
  split at h1
  · next h0 =>
    have := congrFun (Option.some.inj h1) k
    simp only [h0, ← h2.trans (Option.or_none), ← this]
  · next m h0 => rw [h0]; cases h1; simp [h2]
  · simp at h1

/-- A history with an overwritten value, another key and a queue call. -/
example : lastWrite c!"h" c!"k" [.storageUpsert c!"h" c!"k" c!"1", .storageUpsert c!"h" c!"k" c!"2",
    .queuePush c!"q" c!"x", .storageUpsert c!"h" c!"j" c!"3"] = some c!"2" := by decide

/-! ## C03 -/

/-- **C03.** `queue_move` on the in-memory backend: the answer is the first `min n length` items seen
from the requested end; they are removed from `src` and pushed one by one onto `dst`; other queues and
the storage are untouched. -/
theorem C03_move (s : InMem.S) (src dst : Str) (n : Nat) (fd td : Dir) :
    let r := InMem.exec (.queueMove src dst n fd td) s
    let items := (Spec.view fd (InMem.contents s src)).take n
    r.1 = .ok items ∧ items.length = min n (InMem.contents s src).length ∧
    (src ≠ dst → InMem.contents r.2 src = Spec.view fd ((Spec.view fd (InMem.contents s src)).drop n) ∧
      InMem.contents r.2 dst = Spec.put td items (InMem.contents s dst)) ∧
    (∀ q, q ≠ src → q ≠ dst → InMem.contents r.2 q = InMem.contents s q) ∧
    (∀ h k, InMem.stored r.2 h k = InMem.stored s h k) := by
  obtain ⟨h1, h2⟩ := InMem.exec_refines (.queueMove src dst n fd td) s
  simp only [InMem.contents_eq, InMem.stored_eq]
  refine ⟨?_, ?_, ?_, ?_, ?_⟩
  · exact h1
  · simp only [List.length_take]
    cases fd <;> simp [Spec.view]
  · intro hne
    rw [h2]
    simp [Spec.exec, upd_ne _ _ hne, upd_ne _ _ hne.symm]
  · intro q hq1 hq2
    rw [h2]
    simp [Spec.exec, upd_ne _ _ hq1, upd_ne _ _ hq2]
  · intro h k
    rw [h2]
    simp [Spec.exec]

theorem view_perm (d : Dir) (l : List Str) : (Spec.view d l).Perm l := by
  cases d
  · exact .refl _
  · exact List.reverse_perm l

theorem put_perm (d : Dir) (xs l : List Str) : (Spec.put d xs l).Perm (xs ++ l) := by
  cases d
  · exact (List.reverse_perm xs).append_right l
  · exact List.perm_append_comm

/-- **C03.** No item is lost, invented or duplicated: the items of the two queues together (or of the
one queue, when `src = dst`) are the same multiset before and after. -/
theorem C03_move_conserves (s : InMem.S) (src dst : Str) (n : Nat) (fd td : Dir) :
    let s' := (InMem.exec (.queueMove src dst n fd td) s).2
    (src ≠ dst → (InMem.contents s' src ++ InMem.contents s' dst).Perm
      (InMem.contents s src ++ InMem.contents s dst)) ∧
    (src = dst → (InMem.contents s' src).Perm (InMem.contents s src)) := by
  obtain ⟨-, h2⟩ := InMem.exec_refines (.queueMove src dst n fd td) s
  simp only [InMem.contents_eq]
  rw [h2]
  have split : (((Spec.view fd ((InMem.abs s).q src)).take n) ++
      (Spec.view fd ((InMem.abs s).q src)).drop n).Perm ((InMem.abs s).q src) := by
    rw [List.take_append_drop]; exact view_perm _ _
  constructor
  · intro hne
    simp only [Spec.exec, upd_ne _ _ hne, upd_same, upd_ne _ _ hne.symm]
    refine ((view_perm _ _).append (put_perm _ _ _)).trans ?_
    rw [← List.append_assoc]
    exact (List.perm_append_comm.trans split).append_right _
  · rintro rfl
    simp only [Spec.exec, upd_same]
    exact ((put_perm _ _ _).trans ((view_perm _ _).append_left _)).trans split

/-- A move of two items between queues, and a rotation. -/
example : let s : InMem.S := (InMem.runAll [.queuePush c!"q" c!"a", .queuePush c!"q" c!"b",
      .queuePush c!"q" c!"c"] InMem.empty).2
    InMem.contents s c!"q" = [c!"c", c!"b", c!"a"] ∧
    InMem.contents (InMem.exec (.queueMove c!"q" c!"r" 2 .back .front) s).2 c!"r" = [c!"b", c!"a"] ∧
    InMem.contents (InMem.exec (.queueMove c!"q" c!"q" 1 .back .front) s).2 c!"q"
      = [c!"a", c!"c", c!"b"] := by
  refine ⟨by decide, by decide, by decide⟩

/-! ## C04 -/

/-- **C04.** `queue_remove` on the in-memory backend. -/
theorem C04_remove (s : InMem.S) (q x : Str) :
    let r := InMem.exec (.queueRemove q x) s
    r.1 = .ok () ∧ x ∉ InMem.contents r.2 q ∧
    (InMem.contents r.2 q).Sublist (InMem.contents s q) ∧
    (∀ y, y ≠ x → (InMem.contents r.2 q).count y = (InMem.contents s q).count y) ∧
    (∀ q', q' ≠ q → InMem.contents r.2 q' = InMem.contents s q') ∧
    (∀ h k, InMem.stored r.2 h k = InMem.stored s h k) := by
  obtain ⟨h1, h2⟩ := InMem.exec_refines (.queueRemove q x) s
  simp only [InMem.contents_eq, InMem.stored_eq]
  rw [h2]
  refine ⟨h1, ?_, ?_, ?_, ?_, ?_⟩
  · simp [Spec.exec]
  · simp only [Spec.exec, upd_same]; exact List.filter_sublist
  · intro y hy; simp only [Spec.exec, upd_same]; exact List.count_filter (by simpa using hy)
  · intro q' hq'; simp [Spec.exec, upd_ne _ _ hq']
  · intro h k; rfl

/-- Removing one of three entries, one of which is repeated. -/
example : let s : InMem.S := (InMem.runAll [.queuePush c!"q" c!"a", .queuePush c!"q" c!"b",
      .queuePush c!"q" c!"a", .queuePush c!"q" c!"c"] InMem.empty).2
    InMem.contents (InMem.exec (.queueRemove c!"q" c!"a") s).2 c!"q" = [c!"c", c!"b"] := by decide

/-! ## C05 -/

/-- What repeated single pops from one end of `q` return. -/
def pops (d : Dir) : Nat → InMem.S → Str → List Str
  | 0, _, _ => []
  | n + 1, s, q => match InMem.exec (.queueMove q (q ++ c!"#elsewhere") 1 d .front) s with
    | (.ok l, s') => l ++ pops d n s' q
    | (.error _, _) => []

/-- **C05.** `queue_get` and `queue_count` change nothing; the count is the number of items, and
`queue_get` returns what `n` pops from that end would return. -/
theorem C05_observe (s : InMem.S) (q : Str) (n : Nat) (d : Dir) :
    (InMem.exec (.queueGet q n d) s).2 = s ∧ (InMem.exec (.queueCount q) s).2 = s ∧
    (InMem.exec (.queueCount q) s).1 = .ok (InMem.contents s q).length ∧
    (InMem.exec (.queueGet q n d) s).1 = .ok (pops d n s q) := by
  refine ⟨rfl, rfl, ?_, ?_⟩
  · rw [InMem.contents_eq]; exact (InMem.exec_refines (.queueCount q) s).1
  · refine (InMem.exec_refines (.queueGet q n d) s).1.trans ?_
    simp only [Spec.exec]
    congr 1
    induction n generalizing s with
    | zero => simp [pops]
    | succ n ih =>
      have hne : q ≠ q ++ c!"#elsewhere" := by
        intro e; have := congrArg List.length e; simp at this
      obtain ⟨h1, h2⟩ := InMem.exec_refines (.queueMove q (q ++ c!"#elsewhere") 1 d .front) s
      unfold pops
      rcases he : InMem.exec (.queueMove q (q ++ c!"#elsewhere") 1 d .front) s with ⟨a, s'⟩
      rw [he] at h1 h2
      simp only at h1 h2
      subst h1
      simp only
      rw [← ih, h2]
      simp only [Spec.exec, upd_ne _ _ hne, upd_same, Redis.view_view]
      rw [Nat.add_comm n 1, List.take_add]

/-- Reading two of three items from the back. -/
example : let s : InMem.S := (InMem.runAll [.queuePush c!"q" c!"a", .queuePush c!"q" c!"b",
      .queuePush c!"q" c!"c"] InMem.empty).2
    pops .back 2 s c!"q" = [c!"a", c!"b"] := by decide

/-! ## C07 -/

/-- In-memory state and Redis key space hold the same contents; keys in `hk` are hashes. -/
def SameContents (hk : Str → Prop) (m : InMemState) (r : RedisState) : Prop :=
  Redis.Rep hk r (InMem.abs m)

/-- **C07, part.** On calls that do not use one key for two purposes, the backends give the same
answer and stay in agreement, if a multi-item move has two different queues and a read asks for at
least one and fewer than `2 ^ 63` items. Missing: the other argument values, where the claim is false
(see the refutations below). -/
theorem C07_backends_agree_partial (hk : Str → Prop) (op : BOp) (hok : Redis.OkOp hk op)
    (m : InMemState) (r : RedisState) (h : SameContents hk m r) :
    (RedisB.exec op r).1 = (InMem.exec op m).1 ∧
    SameContents hk (InMem.exec op m).2 (RedisB.exec op r).2 := by
  obtain ⟨h1, h2⟩ := Redis.exec_rep hk op r _ hok h
  obtain ⟨h3, h4⟩ := InMem.exec_refines op m
  refine ⟨h1.trans h3.symm, ?_⟩
  show Redis.Rep hk _ (InMem.abs _)
  rw [h4]; exact h2

/-- The empty backends are related, so is every pair reached by the allowed calls. -/
example : SameContents (· = STORAGE_HASH) InMem.empty (fun _ => none) := Redis.rep_empty _

/-- **C07, rotation.** One queue, moved from the back to its own front: the backends agree as long as
`count` does not exceed the length (every item is moved at most once). -/
theorem C07_rotation_agrees_partial (hk : Str → Prop) (q : Str) (hq : ¬ hk q) (n : Nat)
    (m : InMemState) (r : RedisState) (h : SameContents hk m r) (hn : n ≤ (InMem.contents m q).length) :
    (RedisB.exec (.queueMove q q n .back .front) r).1 = (InMem.exec (.queueMove q q n .back .front) m).1 ∧
    SameContents hk (InMem.exec (.queueMove q q n .back .front) m).2
      (RedisB.exec (.queueMove q q n .back .front) r).2 := by
  rw [InMem.contents_eq] at hn
  obtain ⟨h3, h4⟩ := InMem.exec_refines (.queueMove q q n .back .front) m
  have h : Redis.Rep hk r (InMem.abs m) := h
  generalize InMem.abs m = t at *
  have key : ∀ (n : Nat) (r : RedisState) (t : SpecState), Redis.Rep hk r t → n ≤ (t.q q).length →
      (Redis.lmove q q .back .front n r).1 = .ok ((t.q q).reverse.take n) ∧
      Redis.Rep hk (Redis.lmove q q .back .front n r).2
        ⟨upd t.q q (((t.q q).reverse.take n).reverse ++ ((t.q q).reverse.drop n).reverse), t.st⟩ := by
    intro n
    induction n with
    | zero =>
      intro r t h _
      refine ⟨rfl, ?_⟩
      simpa [Redis.lmove] using h
    | succ n ih =>
      intro r t h hn
      obtain ⟨h1, h2⟩ := Redis.LMOVE_rep h q q hq hq .back .front
      unfold Redis.lmove
      rcases hL : Redis.LMOVE q q .back .front r with ⟨a, r'⟩
      rw [hL] at h1 h2
      simp only at h1 h2
      subst h1
      rcases hv : (t.q q).reverse with _ | ⟨x, xs⟩
      · have : t.q q = [] := by simpa using hv
        simp [this] at hn
      · have e : t.q q = xs.reverse ++ [x] := by
          have := congrArg List.reverse hv; simpa using this
        simp only [Spec.exec, Spec.view, Spec.put, hv, List.take_succ_cons, List.take_zero,
          List.drop_succ_cons, List.drop_zero, upd_same, upd_upd, List.reverse_cons, List.reverse_nil,
          List.nil_append, List.singleton_append, List.head?_cons] at h2 ⊢
        obtain ⟨h5, h6⟩ := ih r' _ h2 (by simp [e] at hn; simp; omega)
        simp only [upd_same, List.reverse_cons, List.reverse_reverse, upd_upd] at h5 h6
        have hn' : n ≤ xs.length := by simp [e] at hn; omega
        rw [List.take_append_of_le_length hn'] at h5 h6
        rw [List.drop_append_of_le_length hn'] at h6
        rcases hl : Redis.lmove q q .back .front n r' with ⟨b, r''⟩
        rw [hl] at h5 h6
        simp only at h5 h6
        subst h5
        refine ⟨rfl, ?_⟩
        simpa using h6
  obtain ⟨h1, h2⟩ := key n r t h hn
  refine ⟨h1.trans ?_, ?_⟩
  · refine Eq.trans ?_ h3.symm; rfl
  · show Redis.Rep hk _ (InMem.abs _)
    rw [h4]
    simpa [Spec.exec, Spec.view, Spec.put, Redis.exec] using h2

/-- One push on both backends, used as witness below. -/
def witnessMem : InMemState := (InMem.exec (.queuePush c!"q" c!"a") InMem.empty).2
def witnessRedis : RedisState := (Redis.exec (.queuePush c!"q" c!"a") (fun _ => none)).2

theorem witness_same (hk : Str → Prop) (hq : ¬ hk c!"q") : SameContents hk witnessMem witnessRedis :=
  (C07_backends_agree_partial hk (.queuePush c!"q" c!"a") hq InMem.empty (fun _ => none)
    (Redis.rep_empty hk)).2

/-- **C07 is false** for reads of zero items: Redis returns the whole queue (`LRANGE q 0 -1`). -/
theorem C07_refuted_get_zero :
    ∃ m r, SameContents (· = STORAGE_HASH) m r ∧
      (InMem.exec (.queueGet c!"q" 0 .front) m).1 = .ok [] ∧
      (RedisB.exec (.queueGet c!"q" 0 .front) r).1 = .ok [c!"a"] :=
  ⟨witnessMem, witnessRedis, witness_same _ (by decide), rfl, rfl⟩

/-- **C07 is false** for a move within one queue that asks for more items than there are: in memory
each item moves once, in Redis the item is moved (and returned) twice. -/
theorem C07_refuted_self_move :
    ∃ m r, SameContents (· = STORAGE_HASH) m r ∧
      (InMem.exec (.queueMove c!"q" c!"q" 2 .back .front) m).1 = .ok [c!"a"] ∧
      (RedisB.exec (.queueMove c!"q" c!"q" 2 .back .front) r).1 = .ok [c!"a", c!"a"] :=
  ⟨witnessMem, witnessRedis, witness_same _ (by decide), rfl, rfl⟩

/-- **C07 is false** for a name that is used both as queue and as hash: in memory these are different maps, in Redis
they are one key, so that the store fails. -/
theorem C07_refuted_name :
    ∃ m r, SameContents (· = STORAGE_HASH) m r ∧
      (InMem.exec (.storageUpsert c!"q" c!"k" c!"v") m).1 = .ok () ∧
      (RedisB.exec (.storageUpsert c!"q" c!"k" c!"v") r).1 = .error .redis :=
  ⟨witnessMem, witnessRedis, witness_same _ (by decide), rfl, rfl⟩

/-- **C07 is false** for reads of more than `isize::MAX` items. -/
theorem C07_refuted_get_huge :
    ∃ m r, SameContents (· = STORAGE_HASH) m r ∧
      (InMem.exec (.queueGet c!"q" (2 ^ 63 + 5) .back) m).1 = .ok [c!"a"] ∧
      (RedisB.exec (.queueGet c!"q" (2 ^ 63 + 5) .back) r).1 = .ok [] := by
  refine ⟨witnessMem, witnessRedis, witness_same _ (by decide), ?_, ?_⟩
  · refine (InMem.exec_refines _ _).1.trans ?_
    have : (InMem.abs witnessMem).q c!"q" = [c!"a"] := by decide
    simp only [Spec.exec, this]
    rfl
  · have : Redis.asIsize (2 ^ 63 + 5) = -(2 ^ 63) + 5 := by decide
    simp only [Redis.exec, Redis.lrange]
    rw [this]
    rfl

/-! ## C08 -/

/-- **C08.** The list names of different queues or different statuses are different, and none is the
name of the job storage. -/
theorem C08_queue_names_distinct (n m : Str) (a b : JobStatus) :
    (formatQueueName n a = formatQueueName m b ↔ n = m ∧ a = b) ∧
    formatQueueName n a ≠ c!"aj_storage" :=
  ⟨⟨formatQueueName_injective, by rintro ⟨rfl, rfl⟩; rfl⟩, formatQueueName_ne_storage n a⟩

/-- Names chosen to look alike still get different lists. -/
example : formatQueueName c!"a:queue:Queued" .running ≠ formatQueueName c!"a" .queued ∧
    formatQueueName c!"a" .queued = c!"a:queue:Queued" := by decide

end AJ.Props
