import Verif.Model.Types

/-!
# Backends

Models `aj_core/src/backend/types.rs:10-42` (the `Backend` trait) as an operation type with an
interpreter, `backend/mem.rs` (`InMem`), `backend/redis.rs` (`Redis`), and a wrapper `Faulty` for
errors, crashes and interference by other processes.
-/

namespace AJ

/-- `types.rs:10-14`. -/
inductive Dir where
  | front | back
  deriving DecidableEq, Repr

/-- One call of a method of the trait `Backend` (`types.rs:16-42`). -/
inductive BOp where
  | queuePush (q item : Str)
  | queueMove (src dst : Str) (count : Nat) (fromDir toDir : Dir)
  | queueRemove (q item : Str)
  | queueGet (q : Str) (count : Nat) (dir : Dir)
  | queueCount (q : Str)
  | storageUpsert (hash key value : Str)
  | storageGet (hash key : Str)
  deriving DecidableEq, Repr

/-- The `Ok` type of the call (`types.rs:17-41`). -/
@[reducible] def BOp.Res : BOp → Type
  | .queuePush .. => Unit
  | .queueMove .. => List Str
  | .queueRemove .. => Unit
  | .queueGet .. => List Str
  | .queueCount .. => Nat
  | .storageUpsert .. => Unit
  | .storageGet .. => Option Str

/-- A backend: a state and the effect and result of each call. -/
structure Backend where
  S : Type
  exec : (op : BOp) → S → Except Error op.Res × S

/-- Point update of a map. -/
def upd {α β : Type} [DecidableEq α] (f : α → β) (a : α) (b : β) : α → β :=
  fun x => if x = a then b else f x

/-! ## In-memory backend -/

/-- `mem.rs:9-13`. A `HashMap<K, V>` is a function `K → Option V`. Both maps are behind a mutex, so a
call is atomic. A `VecDeque` is a list, its front is the head. -/
structure InMemState where
  queues : Str → Option (List Str) := fun _ => none
  storages : Str → Option (Str → Option Str) := fun _ => none

namespace InMem

/-- `InMemory::default()`, `mem.rs:9`. -/
def empty : InMemState := {}

/-- `mem.rs:15-20`. -/
def insertItem (q : List Str) (item : Str) : Dir → List Str
  | .front => item :: q
  | .back => q ++ [item]

/-- `mem.rs:23-32`. The item always goes to the front. -/
def queuePush (name item : Str) (s : InMemState) : InMemState :=
  match s.queues name with
  | some q => { s with queues := upd s.queues name (some (insertItem q item .front)) }
  | none => { s with queues := upd s.queues name (some [item]) }

/-- One pop of `mem.rs:46-49`: `pop_front` / `pop_back`. -/
def pop (q : List Str) : Dir → Option (Str × List Str)
  | .front => match q with
    | [] => none
    | x :: xs => some (x, xs)
  | .back => match q.getLast? with
    | none => none
    | some x => some (x, q.dropLast)

/-- The loop `mem.rs:45-53`: `count` pops; a pop from the empty queue is skipped. Returns the moved
items in order and the rest of the queue. -/
def popLoop (d : Dir) : Nat → List Str → List Str × List Str
  | 0, q => ([], q)
  | n + 1, q => match pop q d with
    | some (x, q') => let (xs, q'') := popLoop d n q'; (x :: xs, q'')
    | none => popLoop d n q

/-- The body of the loop `mem.rs:56-63`. -/
def insertTo (dst : Str) (d : Dir) (s : InMemState) (item : Str) : InMemState :=
  match s.queues dst with
  | some q => { s with queues := upd s.queues dst (some (insertItem q item d)) }
  | none => { s with queues := upd s.queues dst (some [item]) }

/-- `mem.rs:34-66`. All items are popped before the first is inserted. -/
def queueMove (src dst : Str) (count : Nat) (fd td : Dir) (s : InMemState) :
    List Str × InMemState :=
  match s.queues src with
  | none => ([], s)
  | some q =>
    let (items, rest) := popLoop fd count q
    (items, items.foldl (insertTo dst td) { s with queues := upd s.queues src (some rest) })

/-- `mem.rs:68-74`. -/
def queueRemove (name item : Str) (s : InMemState) : InMemState :=
  match s.queues name with
  | some q => { s with queues := upd s.queues name (some (q.filter (· ≠ item))) }
  | none => s

/-- `mem.rs:76-107`. The index loops over `0..count` and `(start..len).rev()` are `filterMap`s. -/
def queueGet (name : Str) (count : Nat) (d : Dir) (s : InMemState) : List Str :=
  match s.queues name with
  | none => []
  | some q => match d with
    | .front => (List.range count).filterMap (fun i => q[i]?)
    | .back =>
      let start := if q.length > count then q.length - count else 0
      ((List.range' start (q.length - start)).reverse).filterMap (fun i => q[i]?)

/-- `mem.rs:109-115`. -/
def queueCount (name : Str) (s : InMemState) : Nat :=
  match s.queues name with
  | some q => q.length
  | none => 0

/-- `mem.rs:117-127`. -/
def storageUpsert (hash key value : Str) (s : InMemState) : InMemState :=
  match s.storages hash with
  | some m => { s with storages := upd s.storages hash (some (upd m key (some value))) }
  | none => { s with storages := upd s.storages hash (some (upd (fun _ => none) key (some value))) }

/-- `mem.rs:129-136`. -/
def storageGet (hash key : Str) (s : InMemState) : Option Str :=
  match s.storages hash with
  | some m => m key
  | none => none

/-- `impl Backend for InMemory`, `mem.rs:22-137`. No method returns `Err`. Mutex poisoning
(`lock().unwrap()`) is not modelled: no code panics while holding the lock. -/
def exec : (op : BOp) → InMemState → Except Error op.Res × InMemState
  | .queuePush q x, s => (.ok (), queuePush q x s)
  | .queueMove a b n fd td, s => let (r, s') := queueMove a b n fd td s; (.ok r, s')
  | .queueRemove q x, s => (.ok (), queueRemove q x s)
  | .queueGet q n d, s => (.ok (queueGet q n d s), s)
  | .queueCount q, s => (.ok (queueCount q s), s)
  | .storageUpsert h k v, s => (.ok (), storageUpsert h k v s)
  | .storageGet h k, s => (.ok (storageGet h k s), s)

end InMem

/-- The in-memory backend. -/
abbrev InMem : Backend := ⟨InMemState, InMem.exec⟩

/-! ## Redis backend -/

/-- A value stored under a Redis key. -/
inductive RVal where
  | list (l : List Str)
  | hash (m : Str → Option Str)

/-- Key space of the Redis server. -/
abbrev RedisState := Str → Option RVal

namespace Redis

/-- Store a list under a key; Redis deletes a key whose list becomes empty. -/
def putList (k : Str) (l : List Str) (s : RedisState) : RedisState :=
  upd s k (match l with | [] => none | _ => some (.list l))

/-- Redis command `LPUSH key item`; `WRONGTYPE` on a key that holds a hash. -/
def LPUSH (k item : Str) (s : RedisState) : Except Error Unit × RedisState :=
  match s k with
  | none => (.ok (), putList k [item] s)
  | some (.list l) => (.ok (), putList k (item :: l) s)
  | some (.hash _) => (.error .redis, s)

/-- Redis command `LMOVE src dst LEFT|RIGHT LEFT|RIGHT` (atomic). Nil when `src` is missing;
`WRONGTYPE` when either key holds a hash (the destination is checked before the pop). -/
def LMOVE (src dst : Str) (fd td : Dir) (s : RedisState) : Except Error (Option Str) × RedisState :=
  match s src with
  | none => (.ok none, s)
  | some (.hash _) => (.error .redis, s)
  | some (.list l) =>
    match s dst with
    | some (.hash _) => (.error .redis, s)
    | _ =>
      match InMem.pop l fd with
      | none => (.ok none, s)
      | some (x, l') =>
        let s1 := putList src l' s
        let d := match s1 dst with
          | some (.list d) => d
          | _ => []
        (.ok (some x), putList dst (InMem.insertItem d x td) s1)

/-- Redis command `LREM key 0 item`. -/
def LREM0 (k item : Str) (s : RedisState) : Except Error Nat × RedisState :=
  match s k with
  | none => (.ok 0, s)
  | some (.list l) =>
    (.ok (l.length - (l.filter (· ≠ item)).length), putList k (l.filter (· ≠ item)) s)
  | some (.hash _) => (.error .redis, s)

/-- Redis command `LRANGE key start stop` with Redis's treatment of negative and out-of-range
indices. -/
def LRANGE (k : Str) (start stop : Int) (s : RedisState) : Except Error (List Str) :=
  match s k with
  | none => .ok []
  | some (.hash _) => .error .redis
  | some (.list l) =>
    let len : Int := l.length
    let start := if start < 0 then start + len else start
    let stop := if stop < 0 then stop + len else stop
    let start := if start < 0 then 0 else start
    if start > stop ∨ start ≥ len then .ok []
    else
      let stop := if stop ≥ len then len - 1 else stop
      .ok ((l.drop start.toNat).take (stop - start + 1).toNat)

/-- Redis command `LLEN key`. -/
def LLEN (k : Str) (s : RedisState) : Except Error Nat :=
  match s k with
  | none => .ok 0
  | some (.list l) => .ok l.length
  | some (.hash _) => .error .redis

/-- Redis command `HSET key field value`. -/
def HSET (k f v : Str) (s : RedisState) : Except Error Unit × RedisState :=
  match s k with
  | none => (.ok (), upd s k (some (.hash (upd (fun _ => none) f (some v)))))
  | some (.hash m) => (.ok (), upd s k (some (.hash (upd m f (some v)))))
  | some (.list _) => (.error .redis, s)

/-- Redis command `HGET key field`. -/
def HGET (k f : Str) (s : RedisState) : Except Error (Option Str) :=
  match s k with
  | none => .ok none
  | some (.hash m) => .ok (m f)
  | some (.list _) => .error .redis

/-- `usize as isize` on a 64-bit target. -/
def asIsize (n : Nat) : Int := Int.bmod n (2 ^ 64)

/-- `redis.rs:28-52` (`lmove`): `count` separate `LMOVE`s, stopping at the first error (`?`). -/
def lmove (src dst : Str) (fd td : Dir) : Nat → RedisState → Except Error (List Str) × RedisState
  | 0, s => (.ok [], s)
  | n + 1, s =>
    match LMOVE src dst fd td s with
    | (.error e, s') => (.error e, s')
    | (.ok r, s') =>
      match lmove src dst fd td n s' with
      | (.error e, s'') => (.error e, s'')
      | (.ok items, s'') => (.ok (match r with | some x => x :: items | none => items), s'')

/-- `redis.rs:54-70` (`lrange`): `LRANGE queue 0 (count as isize - 1)` or, from the back,
`LRANGE queue -(count as isize) -1` reversed. Arithmetic wraps (release build). -/
def lrange (q : Str) (count : Nat) (d : Dir) (s : RedisState) : Except Error (List Str) :=
  match d with
  | .front => LRANGE q 0 (Int.bmod (asIsize count - 1) (2 ^ 64)) s
  | .back => (LRANGE q (Int.bmod (-(asIsize count)) (2 ^ 64)) (-1) s).map List.reverse

/-- `impl Backend for Redis`, `redis.rs:83-134`, with `QueueDirection::Front -> Left`,
`Back -> Right` (`redis.rs:136-143`). Every command is assumed to be answered: connection errors are
added by `Faulty`. -/
def exec : (op : BOp) → RedisState → Except Error op.Res × RedisState
  | .queuePush q x, s => LPUSH q x s
  | .queueMove a b n fd td, s => lmove a b fd td n s
  | .queueRemove q x, s => let (r, s') := LREM0 q x s; (r.map (fun _ => ()), s')
  | .queueGet q n d, s => (lrange q n d s, s)
  | .queueCount q, s => (LLEN q s, s)
  | .storageUpsert h k v, s => HSET h k v s
  | .storageGet h k, s => (HGET h k s, s)

end Redis

/-- The Redis backend. -/
abbrev RedisB : Backend := ⟨RedisState, Redis.exec⟩

/-! ## Errors, crashes, interference -/

/-- What happens to one backend call: it works, it fails without effect, or it takes effect and the
answer is lost. -/
inductive Fault where
  | none | before | after
  deriving DecidableEq, Repr

/-- Fate of one call: first other processes perform `env`, then the call meets `fault`. -/
structure Fate where
  env : List BOp := []
  fault : Fault := .none

/-- Run calls for their effect only. -/
def Backend.execAll (B : Backend) : List BOp → B.S → B.S
  | [], s => s
  | op :: ops, s => B.execAll ops (B.exec op s).2

/-- `B` in a hostile world: call number `i` (counted in the second component) meets `script i`.

A crash of the process right after call number `n - 1` is the script that is quiet below `n` and
`Fault.before` from `n` on: no later call has an effect, so the backend is left as the crash leaves
it, whatever the code does with the errors. -/
def Faulty (B : Backend) (script : Nat → Fate) : Backend where
  S := B.S × Nat
  exec op := fun (s, i) =>
    let s1 := B.execAll (script i).env s
    match (script i).fault with
    | .none => let (r, s2) := B.exec op s1; (r, (s2, i + 1))
    | .before => (.error .redis, (s1, i + 1))
    | .after => (.error .redis, ((B.exec op s1).2, i + 1))

/-- The script of a crash after `n` calls. -/
def crashAfter (n : Nat) : Nat → Fate := fun i => { fault := if i < n then .none else .before }

end AJ
