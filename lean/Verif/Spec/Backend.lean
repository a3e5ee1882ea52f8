import Verif.Model.Backend

/-!
# Specification of a backend

What a backend is supposed to be, independently of any implementation: a double-ended queue per name
and a value per (hash, key).
-/

namespace AJ

/-- Abstract contents of a backend. The front of a queue is the head of the list. -/
structure SpecState where
  q : Str → List Str
  st : Str → Str → Option Str

namespace Spec

/-- The empty backend. -/
def empty : SpecState := ⟨fun _ => [], fun _ _ => none⟩

/-- The items met first when looking at a queue from one end. -/
def view (d : Dir) (l : List Str) : List Str :=
  match d with
  | .front => l
  | .back => l.reverse

/-- Push items one after the other onto one end. -/
def put (d : Dir) (items l : List Str) : List Str :=
  match d with
  | .front => items.reverse ++ l
  | .back => l ++ items

/-- The meaning of each call. -/
def exec : (op : BOp) → SpecState → op.Res × SpecState
  | .queuePush q x, s => ((), { s with q := upd s.q q (x :: s.q q) })
  | .queueMove src dst n fd td, s =>
    let v := view fd (s.q src)
    let q1 := upd s.q src (view fd (v.drop n))
    (v.take n, { s with q := upd q1 dst (put td (v.take n) (q1 dst)) })
  | .queueRemove q x, s => ((), { s with q := upd s.q q ((s.q q).filter (· ≠ x)) })
  | .queueGet q n d, s => ((view d (s.q q)).take n, s)
  | .queueCount q, s => ((s.q q).length, s)
  | .storageUpsert h k v, s => ((), { s with st := upd s.st h (upd (s.st h) k (some v)) })
  | .storageGet h k, s => (s.st h k, s)

/-- Run a sequence of calls and collect the answers. -/
def runAll : List BOp → SpecState → List (Σ op : BOp, op.Res) × SpecState
  | [], s => ([], s)
  | op :: ops, s =>
    let (r, s1) := exec op s
    let (rs, s2) := runAll ops s1
    (⟨op, r⟩ :: rs, s2)

end Spec

/-- The specification as a backend that never fails. -/
abbrev SpecB : Backend := ⟨SpecState, fun op s => let (r, s') := Spec.exec op s; (.ok r, s')⟩

/-- Run a sequence of calls on any backend and collect the answers. -/
def Backend.runAll (B : Backend) : List BOp → B.S → List (Σ op : BOp, Except Error op.Res) × B.S
  | [], s => ([], s)
  | op :: ops, s =>
    let (r, s1) := B.exec op s
    let (rs, s2) := B.runAll ops s1
    (⟨op, r⟩ :: rs, s2)

end AJ
