import Verif.Model.Util
import Verif.Spec.Builder
import Verif.Props.Demo

/-!
# Time conversions and builders (C60, C63)
-/

namespace AJ.Props
open Demo

/-! ## C60 -/

/-- C60, the clock: the current instant truncated to milliseconds, and to seconds, before and after the epoch. -/
theorem C60_now (t : Int) :
    let d := Util.fromTimestampNanos t
    Util.getNowAsMs d * 1000000 ≤ t ∧ t < (Util.getNowAsMs d + 1) * 1000000 ∧
      Util.getNowAsSecs d * 1000000000 ≤ t ∧ t < (Util.getNowAsSecs d + 1) * 1000000000 := by
  simp only [Util.fromTimestampNanos, Util.getNowAsMs, Util.getNowAsSecs, Util.timestampMillis, Util.timestamp, nsPerSec]
  omega

example : Util.getNowAsMs (Util.fromTimestampNanos (-1)) = -1 ∧
    Util.getNowAsMs (Util.fromTimestampNanos 1600000000123456789) = 1600000000123 := by decide

/-- The timestamps of the model of the queue are those of `get_now_as_ms`. -/
theorem C60_model (t : Int) : Util.getNowAsMs (Util.fromTimestampNanos t) = t / nsPerMs := by
  have h := C60_now t
  simp only [nsPerMs]
  omega

/-- The milliseconds whose nanoseconds fit an `i64`: years 1677 to 2262. -/
def MsFits (ms : Int) : Prop := -9223372036854 ≤ ms ∧ ms ≤ 9223372036854

/-- C60, the conversion of milliseconds, in both build profiles: the result is the instant that many milliseconds
after the epoch, and converting back gives `ms`, for all `ms` from the year 1677 to the year 2262. Missing for C60 as
stated: the other instants chrono can represent (`C60_exact`, `C60_refuted`). -/
theorem C60_partial (chk : Bool) (ms : Int) (h : MsFits ms) :
    ∃ d, Util.getMsAsDatetime chk ms = some d ∧ Util.timestampMillis d = ms ∧
      d.secs * 1000000000 + d.nanos = ms * 1000000 := by
  obtain ⟨h1, h2⟩ := h
  refine ⟨Util.fromTimestampNanos (ms * 1000000), ?_, ?_, ?_⟩
  · have : fitsI64 (ms * 1000000) = true := by
      simp only [fitsI64, Bool.and_eq_true, decide_eq_true_eq]; omega
    simp [Util.getMsAsDatetime, mulI64, this]
  · simp only [Util.fromTimestampNanos, Util.timestampMillis, Util.timestamp, nsPerSec]; omega
  · simp only [Util.fromTimestampNanos, nsPerSec]; omega

example : MsFits 1600000000000 ∧ Util.getMsAsDatetime true 1600000000000 = some ⟨1600000000, 0⟩ :=
  ⟨by unfold MsFits; omega, by decide⟩

theorem bmod_range (x : Int) (m : Nat) (hm : 0 < m) :
    ∃ k, Int.bmod x m = x + (m : Int) * k ∧ -((m : Int) / 2) ≤ Int.bmod x m ∧ Int.bmod x m < ((m : Int) + 1) / 2 := by
  refine ⟨-(Int.bdiv x m), ?_, Int.le_bmod hm, Int.bmod_lt hm⟩
  have := Int.bmod_add_bdiv x m
  rw [Int.mul_neg]
  omega

theorem far (ms w k : Int) (h : ¬ MsFits ms) (h1 : w = ms * 1000000 + 18446744073709551616 * k)
    (h2 : -((18446744073709551616 : Int) / 2) ≤ w) (h3 : w < ((18446744073709551616 : Int) + 1) / 2) :
    Util.timestampMillis (Util.fromTimestampNanos w) ≠ ms := by
  intro e
  have hn := C60_now w
  simp only [Util.getNowAsMs, e] at hn
  obtain ⟨h4, h5, -⟩ := hn
  have hk : k = 0 := by omega
  subst hk
  apply h
  constructor <;> omega

/-- C60, exactly: a build with overflow checks panics on every other `i64`, and a build without them returns an
instant of other milliseconds. -/
theorem C60_exact (ms : Int) (h64 : fitsI64 ms = true) (h : ¬ MsFits ms) :
    Util.getMsAsDatetime true ms = none ∧
      ∃ d, Util.getMsAsDatetime false ms = some d ∧ Util.timestampMillis d ≠ ms := by
  simp only [fitsI64, Bool.and_eq_true, decide_eq_true_eq] at h64
  have hf : fitsI64 (ms * 1000000) = false := by
    rw [Bool.eq_false_iff]
    simp only [fitsI64, ne_eq, Bool.and_eq_true, decide_eq_true_eq]
    simp only [MsFits] at h
    omega
  refine ⟨by simp [Util.getMsAsDatetime, mulI64, hf], Util.fromTimestampNanos (Int.bmod (ms * 1000000) (2 ^ 64)), ?_, ?_⟩
  · simp [Util.getMsAsDatetime, mulI64, hf]
  · obtain ⟨k, h1, h2, h3⟩ := bmod_range (ms * 1000000) (2 ^ 64) (by decide)
    have e : ((2 ^ 64 : Nat) : Int) = 18446744073709551616 := by decide
    rw [e] at h1 h2 h3
    exact far ms _ k h h1 h2 h3

/-- C60 is false: the first millisecond that is lost is in the year 2262, a date chrono can represent. -/
theorem C60_refuted : ∃ ms : Int, timeMin ≤ ms * nsPerMs ∧ ms * nsPerMs ≤ timeMax ∧
    Util.getMsAsDatetime true ms = none ∧
    (Util.getMsAsDatetime false ms).map Util.timestampMillis = some (-9223372036855) :=
  ⟨9223372036855, by decide, by decide, by decide, by decide⟩

example : fitsI64 9223372036855 = true ∧ ¬ MsFits 9223372036855 := ⟨by decide, by unfold MsFits; omega⟩

/-! ## C63 -/

open Job (Builder final rest)
variable {D : Type} (E : Env D)

theorem final_nil {α : Type} (f : Builder → Option α) (a : α) : final f [] a = a := rfl

theorem final_cons {α : Type} (f : Builder → Option α) (b : Builder) (bs : List Builder) (a : α) :
    final f (b :: bs) a = final f bs ((f b).getD a) := by
  unfold final
  cases hb : f b with
  | none => simp [hb]
  | some x =>
    simp only [List.filterMap_cons, hb, List.getLast?_cons]
    cases (List.filterMap f bs).getLast? <;> rfl

/-- One call of a builder: it panics exactly when it should, and otherwise writes what it says and nothing else. -/
theorem C63_one (j : Job D) (b : Builder) :
    ((Job.built E j b).isSome = true ↔ b.Fine E) ∧ ∀ j', Job.built E j b = some j' →
      j'.data = j.data ∧
      j'.context.jobId = (b.id?).getD j.context.jobId ∧
      j'.context.jobType = (b.type? E).getD j.context.jobType ∧
      j'.context.retry = (b.retry?).getD j.context.retry ∧
      rest j'.context = rest ((b.context?).getD j.context) := by
  cases b with
  | delay now after =>
    simp only [Job.built, Job.delay, timeAdd, Builder.Fine]
    split
    next h =>
      refine ⟨by simp [h], fun j' hj => ?_⟩
      simp at hj
      subst hj
      exact ⟨rfl, rfl, rfl, rfl, rfl⟩
    next h => exact ⟨by simp [h], fun j' hj => by cases hj⟩
  | cron now expr =>
    simp only [Job.built, Job.cron, Job.cronType, Builder.Fine]
    cases hc : E.cron expr with
    | none => exact ⟨by simp, fun j' hj => by cases hj⟩
    | some f =>
      refine ⟨by simp, fun j' hj => ?_⟩
      simp at hj
      subst hj
      exact ⟨rfl, rfl, by simp [Builder.type?, hc, Job.setJobType], rfl, rfl⟩
  | _ =>
    refine ⟨by simp [Job.built, Builder.Fine], fun j' hj => ?_⟩
    simp only [Job.built, Option.some.injEq] at hj
    subst hj
    exact ⟨rfl, rfl, rfl, rfl, rfl⟩

/-- C63: for every job and every chain of builders. The chain panics exactly when one of its calls does. Otherwise the
data are those of the job; id, type and retry are what the last call that writes them says; everything else is what the
last call of `context` says, or unchanged. -/
theorem C63_builders (j : Job D) (bs : List Builder) :
    ((Job.buildAll E j bs).isSome = true ↔ ∀ b ∈ bs, b.Fine E) ∧ ∀ j', Job.buildAll E j bs = some j' →
      j'.data = j.data ∧
      j'.context.jobId = final (·.id?) bs j.context.jobId ∧
      j'.context.jobType = final (·.type? E) bs j.context.jobType ∧
      j'.context.retry = final (·.retry?) bs j.context.retry ∧
      rest j'.context = rest (final (·.context?) bs j.context) := by
  induction bs generalizing j with
  | nil =>
    refine ⟨by simp [Job.buildAll], fun j' hj => ?_⟩
    cases hj
    exact ⟨rfl, rfl, rfl, rfl, rfl⟩
  | cons b bs ih =>
    obtain ⟨h1, h2⟩ := C63_one E j b
    simp only [Job.buildAll, List.forall_mem_cons]
    cases hb : Job.built E j b with
    | none =>
      rw [hb] at h1
      refine ⟨?_, fun j' hj => by cases hj⟩
      simp only [Option.bind_none, Option.isSome_none, Bool.false_eq_true, false_iff]
      exact fun h => by simpa using h1.2 h.1
    | some j1 =>
      rw [hb] at h1
      obtain ⟨h3, h4⟩ := ih j1
      obtain ⟨e1, e2, e3, e4, e5⟩ := h2 j1 hb
      refine ⟨?_, fun j' hj => ?_⟩
      · rw [Option.bind_some, h3]
        exact ⟨fun h => ⟨h1.1 rfl, h⟩, fun h => h.2⟩
      · obtain ⟨f1, f2, f3, f4, f5⟩ := h4 j' hj
        refine ⟨f1.trans e1, ?_, ?_, ?_, ?_⟩
        · rw [f2, e2, final_cons]
        · rw [f3, e3, final_cons]
        · rw [f4, e4, final_cons]
        · rw [f5, final_cons]
          unfold final
          cases (List.filterMap (·.context?) bs).getLast? with
          | none => exact e5
          | some c => rfl

/-- The second id wins, the type of the cron wins over the delay, the retry stays. -/
def chain : List Builder :=
  [.id c!"x", .delay 5 7, .retry ⟨0, some 3, .interval nsPerSec⟩, .id c!"y", .cron 5 c!"* * * * * *"]

example : (∀ b ∈ chain, b.Fine Demo.E) ∧ ∃ j', Job.buildAll Demo.E (Demo.job c!"a" 4) chain = some j' ∧ j'.data = 4 ∧
    j'.context.jobId = c!"y" ∧ j'.context.jobType = .cron c!"* * * * * *" nsPerSec 1 {} ∧
    j'.context.retry = some ⟨0, some 3, .interval nsPerSec⟩ ∧
    j'.context.createdAt = (Demo.job c!"a" 4).context.createdAt := by
  refine ⟨(C63_builders Demo.E (Demo.job c!"a" 4) chain).1.1 (by decide +kernel), _, rfl, ?_⟩
  decide +kernel

end AJ.Props
