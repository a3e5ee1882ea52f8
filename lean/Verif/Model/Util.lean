import Verif.Model.Prelude

/-!
# `util/mod.rs`
-/

namespace AJ.Util

/-- `DateTime<Utc>` as chrono stores it: whole seconds and nanoseconds within the second. -/
structure DateTime where
  secs : Int
  nanos : Nat
  deriving DecidableEq, Repr

/-- `DateTime::from_timestamp_nanos` of chrono 0.4.38 (`div_euclid`, `rem_euclid`). Every `i64` is in range. -/
def fromTimestampNanos (n : Int) : DateTime := ⟨n / nsPerSec, (n % nsPerSec).toNat⟩

/-- `DateTime::timestamp` of chrono 0.4.38. -/
def timestamp (d : DateTime) : Int := d.secs

/-- `DateTime::timestamp_millis` of chrono 0.4.38: the seconds times 1000, plus `timestamp_subsec_millis`. The product
does not overflow for the dates of chrono. -/
def timestampMillis (d : DateTime) : Int := timestamp d * 1000 + (d.nanos / 1000000 : Nat)

/-- `util/mod.rs:7-9` at a moment `now`. -/
def getNowAsSecs (now : DateTime) : Int := timestamp now

/-- `util/mod.rs:11-13` at a moment `now`. -/
def getNowAsMs (now : DateTime) : Int := timestampMillis now

/-- `util/mod.rs:15-17`. `none` is the overflow panic of a build with overflow checks. -/
def getMsAsDatetime (chk : Bool) (ms : Int) : Option DateTime := (mulI64 chk ms 1000000).map fromTimestampNanos

end AJ.Util
