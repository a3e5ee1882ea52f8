/-!
# Strings, errors, machine integers, time

Shared vocabulary of the model.
-/

namespace AJ

/-- A Rust `String`: a sequence of Unicode scalar values. -/
abbrev Str := List Char

/-- `c!"abc"` is the character list `['a','b','c']`. -/
syntax:max (name := charsLit) "c!" str : term

open Lean in
macro_rules
  | `(c!$s:str) => do
    let cs : Array (TSyntax `term) :=
      (s.getString.toList.map fun c => (⟨Syntax.mkCharLit c⟩ : TSyntax `term)).toArray
    `(([$[$cs],*] : Str))

/-- Model of `error.rs:4-10` (`enum Error`); payloads are dropped. -/
inductive Error where
  | redis
  | cronError
  | mailboxError
  | noQueueRegister
  deriving DecidableEq, Repr

/-- `DateTime<Utc>`: nanoseconds since the Unix epoch. Leap seconds are not modelled. -/
abbrev Time := Int

/-- `chrono::Duration` (`TimeDelta`), in nanoseconds. -/
abbrev Dur := Int

/-- Nanoseconds per microsecond, millisecond and second. -/
def nsPerUs : Int := 1000
def nsPerMs : Int := 1000000
def nsPerSec : Int := 1000000000

/-- Two's complement wrap-around to `i32`. -/
def wrapI32 (x : Int) : Int := Int.bmod x (2 ^ 32)

/-- Does `x` fit an `i32`? -/
def fitsI32 (x : Int) : Bool := decide (-(2 ^ 31) ≤ x) && decide (x < 2 ^ 31)

/-- Does `x` fit an `i64`? -/
def fitsI64 (x : Int) : Bool := decide (-(2 ^ 63) ≤ x) && decide (x < 2 ^ 63)

/-- `a + b` on `i32`. `none` is the overflow panic of a build with overflow checks (`chk = true`,
the `dev` profile); without checks (`release`) the sum wraps. -/
def addI32 (chk : Bool) (a b : Int) : Option Int :=
  if fitsI32 (a + b) then some (a + b) else if chk then none else some (wrapI32 (a + b))

/-- `a * b` on `i64`, as `addI32`. -/
def mulI64 (chk : Bool) (a b : Int) : Option Int :=
  if fitsI64 (a * b) then some (a * b) else if chk then none else some (Int.bmod (a * b) (2 ^ 64))

/-- `2_i32.pow(e)` with `e : u32`. With overflow checks it panics when `2 ^ e` exceeds `i32::MAX`;
otherwise the result is `2 ^ e` modulo `2 ^ 32` read as `i32`: `i32::MIN` for `e = 31`, `0` above. -/
def powTwoI32 (chk : Bool) (e : Nat) : Option Int :=
  if e ≤ 30 then some (2 ^ e) else if chk then none else if e = 31 then some (-(2 ^ 31)) else some 0

/-- `x as u32` for an `i32` `x`. -/
def i32AsU32 (x : Int) : Nat := (x % 2 ^ 32).toNat

/-- Earliest and latest `DateTime<Utc>` of chrono 0.4.38 (`MIN_UTC`, `MAX_UTC`): years -262143 to
262142. Values of the library, not of /repo. -/
def timeMin : Time := -8334601228800 * nsPerSec
def timeMax : Time := 8210266876799 * nsPerSec + 999999999

/-- `TimeDelta * i32` of chrono 0.4.38: `None` (then a panic) when the seconds leave `i64`. -/
def durMul (d : Dur) (k : Int) : Option Dur :=
  let secs := (d * k) / nsPerSec
  if -(2 ^ 63) < secs ∧ secs < 2 ^ 63 - 1 then some (d * k) else none

/-- `DateTime<Utc> + TimeDelta` of chrono 0.4.38: panics outside `MIN_UTC ..= MAX_UTC`. -/
def timeAdd (t : Time) (d : Dur) : Option Time :=
  if timeMin ≤ t + d ∧ t + d ≤ timeMax then some (t + d) else none

end AJ
