import Verif.Spec.Observe
import Verif.Props.Demo

/-! # C06: the same on Redis as in memory -/

namespace AJ.Props
variable {D O : Type}

/-- C06. Any history of turns of a work queue, started on empty backends, has the same answers on the
Redis backend as on the in-memory backend, and ends with the same observation: lists, stored jobs,
executions in flight, messages, number of clock reads. -/
theorem C06_redis_like_memory (E : Env D) (name : Str) (clk : Nat → Time) (ops : List (Op D O)) :
    let m := Sys.runOps E name InMem clk (Sys.init InMem Impl.memory.empty) ops
    let r := Sys.runOps E name RedisB clk (Sys.init RedisB Impl.redis.empty) ops
    m.2 = r.2 ∧ Impl.memory.snap E name m.1 = Impl.redis.snap E name r.1 := by
  intro m r
  obtain ⟨h1, h2⟩ := Sim.runOps E name Impl.memory.sim (Impl.memory.okAj name) clk ops
    (Sys.init Impl.memory.B Impl.memory.empty) (Sys.init SpecB Spec.empty) Impl.rs_init
  obtain ⟨h3, h4⟩ := Sim.runOps E name Impl.redis.sim (Impl.redis.okAj name) clk ops
    (Sys.init Impl.redis.B Impl.redis.empty) (Sys.init SpecB Spec.empty) Impl.rs_init
  exact ⟨h1.trans h3.symm, (Impl.snap_eq (b := Impl.memory) h2).trans (Impl.snap_eq (b := Impl.redis) h4).symm⟩

/-- The answers of a sample history on Redis: submit twice, cancel, run one, look at both. -/
example : ((Sys.runOps Demo.E c!"print" RedisB Demo.clk (Sys.init RedisB Impl.redis.empty)
    [.enqueue (Demo.job c!"a") .newReRun, .enqueue (Demo.job c!"b") .newReRun, .cancel c!"b", .tick,
      .start 0, .finish 0 Demo.good, .get c!"a", .get c!"b"]).2.filterMap fun r => match r with
        | .job j => some (j.map (·.context.jobStatus))
        | _ => none) = [some .finished, some .canceled] := by decide +kernel

end AJ.Props
