import Verif.Model.Backend

/-!
# Programs

Code with effects is a `Prog`: a tree of backend calls, clock reads and emitted messages. The same
program text is run over any `Backend`.
-/

namespace AJ

/-- Observable messages of a work queue. `statusMsg` and `hookMsg` are the messages sent to the
plugin centre (`plugin/mod.rs:23-57`); `ran` is a ghost event: the user code `execute` was entered
with this context (`job/mod.rs:139`). -/
inductive Event where
  | statusMsg (id : Str) (st : JobStatus)
  | hookMsg (id : Str) (before : Bool)
  | ran (ctx : JobContext)
  deriving DecidableEq, Repr

/-- Effectful code returning `α`. `fail` is an early return with `Err` (the `?` operator), `panic` a
Rust panic, `diverge` a loop that never ends. -/
inductive Prog (α : Type) : Type where
  | ret (a : α)
  | fail (e : Error)
  | panic
  | diverge
  | call (op : BOp) (k : Except Error op.Res → Prog α)
  | now (k : Time → Prog α)
  | emit (e : Event) (k : Prog α)

namespace Prog

/-- Sequencing; `fail`, `panic` and `diverge` end the program. -/
def bind {α β : Type} : Prog α → (α → Prog β) → Prog β
  | ret a, f => f a
  | fail e, _ => fail e
  | panic, _ => panic
  | diverge, _ => diverge
  | call op k, f => call op (fun r => (k r).bind f)
  | now k, f => now (fun t => (k t).bind f)
  | emit e k, f => emit e (k.bind f)

instance : Monad Prog where
  pure := ret
  bind := bind

/-- Turn an early `Err` return into a value (`if let Err(e) = ...`). -/
def catchErr {α : Type} : Prog α → Prog (Except Error α)
  | ret a => ret (.ok a)
  | fail e => ret (.error e)
  | panic => panic
  | diverge => diverge
  | call op k => call op (fun r => (k r).catchErr)
  | now k => now (fun t => (k t).catchErr)
  | emit e k => emit e k.catchErr

/-- A backend call whose `Result` is a value. -/
def call' (op : BOp) : Prog (Except Error op.Res) := call op ret

/-- The calls of `types.rs:16-42`, with their `Result`s as values. -/
def queuePush (q item : Str) : Prog (Except Error Unit) := call' (.queuePush q item)
def queueMove (src dst : Str) (n : Nat) (fd td : Dir) : Prog (Except Error (List Str)) :=
  call' (.queueMove src dst n fd td)
def queueRemove (q item : Str) : Prog (Except Error Unit) := call' (.queueRemove q item)
def queueGet (q : Str) (n : Nat) (d : Dir) : Prog (Except Error (List Str)) := call' (.queueGet q n d)
def queueCount (q : Str) : Prog (Except Error Nat) := call' (.queueCount q)
def storageUpsert (h k v : Str) : Prog (Except Error Unit) := call' (.storageUpsert h k v)
def storageGet (h k : Str) : Prog (Except Error (Option Str)) := call' (.storageGet h k)

/-- The `?` operator. -/
def orFail {α : Type} (p : Prog (Except Error α)) : Prog α :=
  p.bind (fun r => match r with
    | .ok a => ret a
    | .error e => fail e)

/-- `get_now()`, `util/mod.rs:3-5`. -/
def getNow : Prog Time := now ret

/-- `get_now_as_ms()`, `util/mod.rs:11-13`: `timestamp_millis` rounds toward minus infinity. -/
def getNowMs : Prog Int := now (fun t => ret (t / nsPerMs))

/-- Send a message. -/
def send (e : Event) : Prog Unit := emit e (ret ())

/-- `Option::expect`-like: `none` is a panic. -/
def orPanic {α : Type} : Option α → Prog α
  | some a => ret a
  | none => panic

end Prog

/-- How a program ends. -/
inductive Out (α : Type) where
  | ok (a : α)
  | err (e : Error)
  | panicked
  | diverged
  deriving DecidableEq, Repr

/-- World of a running program: backend state, number of clock reads so far, messages so far. -/
structure World (B : Backend) where
  s : B.S
  t : Nat := 0
  log : List Event := []

/-- Run a program over backend `B`; clock read number `i` returns `clk i`. -/
def Prog.run {α : Type} (B : Backend) (clk : Nat → Time) : Prog α → World B → Out α × World B
  | .ret a, w => (.ok a, w)
  | .fail e, w => (.err e, w)
  | .panic, w => (.panicked, w)
  | .diverge, w => (.diverged, w)
  | .call op k, w => let (r, s') := B.exec op w.s; (k r).run B clk { w with s := s' }
  | .now k, w => (k (clk w.t)).run B clk { w with t := w.t + 1 }
  | .emit e k, w => k.run B clk { w with log := w.log ++ [e] }

end AJ
