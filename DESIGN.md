# Formal model of cptrodgers/aj in Lean 4

`properties.jsonl` lists the claims, `MANIFEST.json` the theorems for each. This file says how the code is modelled, what is trusted, and what is left out.

## 1. Approach

The Rust code is modelled function by function as small total Lean definitions. Each cites the file and lines it
models and says what it simplifies.

* **Strings** are `List Char` (a Rust `String` is a sequence of Unicode scalar values).
* **Time** is `Int`, nanoseconds since the epoch. Durations are `Int` nanoseconds. Dates outside the range of chrono
  are a panic (`timeAdd`).
* **Effects.** Code that talks to the backend, reads the clock or notifies plugins is a program in a free monad `Prog`
  (backend call, clock read, message, early `Err` return, panic, divergence). One text of the code is interpreted over
  several backends:
  * `SpecB`: deques and a key-value map, the specification of a backend;
  * `InMem`: `backend/mem.rs`;
  * `RedisB`: `backend/redis.rs` over a model of the Redis commands it sends;
  * `Faulty B script`: any backend in which, before each call, other processes may make calls, and each call may
    fail before or after taking effect, as a script says;
  and under several disciplines: to the end (`Prog.run`), up to any crash point (`Prog.Crash`), step by step next to
  other programs (`Prog.step1`, `Duo`, `Many`).
* **Actor.** A work queue is an actix actor: handlers, ticks and polls of tasks run one at a time. `Sys.step` is one
  such turn (`Op`: enqueue, cancel, get, retry, config, tick, first poll of a task, end of its user code, panic of its
  user code). A history is a list of turns. User code is an arbitrary `Executable`, given anew with every end of an
  execution, so theorems hold for every behaviour of user code in every run.
* **Clock.** Every read returns an arbitrary value (`clk : Nat → Time`, numbered by the reads so far). A clock that
  never goes back is a hypothesis of C59 only.
* **Overflow.** `i32` and `i64` arithmetic wraps or panics as the flag `overflowChecks` of the build profile says; both
  are covered. The exception is the index arithmetic of `redis.rs:54-70`, which is modelled as wrapping.
* **Backends in statements.** Property theorems about the work queue quantify over `Impl`: every backend that answers
  the calls a work queue makes like `SpecB`. `Impl.memory` and `Impl.redis` are instances. What is observed of a work
  queue is a `Snap` (lists, readable stored jobs, tasks, configuration, clock reads, messages).

Statements use the model's step functions for the behaviour of the code and small separate vocabulary
(`Verif/Spec/*`) for what is claimed. Every file in `Verif/Props` has `example`s with concrete states and histories that
meet the hypotheses of its theorems; some examples serve several theorems, and `Props/Cases.lean` applies more theorems to the same histories. Claims that are false of the code are
refuted with a witness (`_refuted…`), and what does hold is
proved under the suffix `_partial`.

## 2. Layout

| Directory | Content |
|-----------|---------|
| `lean/Verif/Model` | the model |
| `lean/Verif/Spec` | vocabulary of the statements |
| `lean/Verif/Proofs` | lemmas |
| `lean/Verif/Props` | the property theorems with examples |

| Model file | Code |
|------------|------|
| `Prelude` | strings, errors (`error.rs`), machine integers, dates |
| `Types`, `Job`, `Retry`, `Builder` | `job/mod.rs`, `job/job_context.rs`, `job/retry.rs`, `job/executable.rs`, storage helpers of `backend/types.rs` |
| `Json`, `Codec` | `serde_json` text, derived `Serialize`/`Deserialize` of jobs |
| `Backend` | `backend/types.rs`, `backend/mem.rs`, `backend/redis.rs` |
| `Prog`, `Queue`, `System` | `queue.rs` |
| `Client` | `AJ::update_job` (`aj.rs:187-214`) |
| `Crash`, `Fault`, `Duo`, `Crew`, `Many`, `Overlap` | the same programs interrupted, on failing backends, in two processes, in any number of processes that come and go, next to other queues, next to processes of the same queue call by call |
| `Registry` | `aj.rs`: statics, `AJ` actor, registration, clients |
| `Fire` | `Job::just_run` (`lib.rs:51-58`), `Handler<JustRunJob>` (`aj.rs:297-311`) |
| `Plugin` | `plugin/mod.rs`, `plugin/job_plugin.rs` |
| `Async` | `queue.rs:314-358`, `job/mod.rs:126-146` with every suspension; a work queue together with the plugin centre |
| `Timer` | `WorkQueue::process_jobs`, `start_with_name` (`queue.rs:105-113, 226-240`) in real time |
| `Site` | a whole process: requests to `AJ` (`aj.rs:65-260`), registry, mailboxes, work queues and backends together |
| `Weave` | the same process, with work queues on threads of their own (`queue.rs:105-111`): turns interleave backend call by backend call; `Model/Grant.lean` has its ticks without the count that bounds their scans |
| `Runtime` | which actix systems the actors live in: `AJ::start` (`aj.rs:67-104`), `register_plugin`, `PluginCenter::from_registry` (`plugin/mod.rs`) |
| `Reboot` | processes one after the other on the same backends |
| `Util` | `util/mod.rs` |
| `Macro` | `aj_macro/src/lib.rs` |

## 3. How the properties are proved

| Id | What is modelled | How it is proved |
|----|------------------|------------------|
| C01–C05 | `InMem` | refinement to the specification for every call, lifted to all sequences; equations on lists |
| C06 | `RedisB` and `InMem` under `Sys` | simulation, proved once for all programs, then for all histories |
| C07 | `RedisB`, `InMem` | false: witnesses; theorem on the agreeing domain |
| C08 | `formatQueueName` | injectivity over all strings |
| C09, C10 | JSON printer and parser, codecs | round trip by induction; idempotence of normalisation |
| C11 | submissions | closed form of a submission; false for data that does not serialise |
| C12, C13, C17 | ends of executions | history invariant relating executions to `retried_times` |
| C14–C16 | `Retry.retryAt` | closed forms; the documented delays and freedom from overflow are false |
| C18, C20, C22 | readiness and picking | invariant over histories |
| C19, C27–C31 | the scan of a tick | induction over examined entries; FIFO and absence of starvation are false in general |
| C21, C23, C24 | cron | history invariants and one-step cases; false without further slot (C21), for jobs exhausted while waiting (C23), for retried runs (C24) |
| C25, C26, C32–C41 | `Sys` | inductive invariants over histories; counterexamples for the claims that resubmission breaks |
| C42–C44 | `Centre` | invariant on tasks and calls; false for hooks that suspend or panic and for `after_run` |
| C45 | `Many` | non-interference: each program touches only its own lists and ids |
| C46 | two queues on one backend | closed form of a submission; false because ids are shared |
| C47–C50 | `Prog.Crash` | all crash points of all turns |
| C51, C52, C64, C65 | `Faulty` | all scripts of failures |
| C53, C66 | `Duo`, `Faulty` with interference | rely-guarantee invariants; explicit interleavings |
| C76 | `Crew`, `CrewCrash` | simulation by one process that has the tasks of all and those that were lost; with deaths inside turns, an invariant of one process that counts the executions of the others |
| C77 | `Overlap` | invariant of the shared backend kept by every call that a program made of permitted calls can make, whatever answers it gets |
| C78 | `Record` | the same interleavings; for every program of a turn, accounts that relate the messages sent so far to the jobs the process holds, kept at each message |
| C79 | `Weave` | every turn moved to the moment it ends: a turn in progress keeps its own part of the backend, which nobody else writes; ticks and moments of the history counted in the serial one; false with two engines: explicit race |
| C80 | `Runtime`: systems, engine, work queues, a plugin centre per system | invariant relating each centre to a history of `Centre` on the messages meant for it; a system without engine is mute; false without a system: the engine stays in a system that is gone |
| C81 | `Runtime` | invariants of life and death of engine and queues |
| C82 | `Boot`: `Weave` again and again | each process moved to turns one after the other (C79), its end a crash of every work queue; the chain is a history with crashes (C47) of each work queue; a process without submissions of the type leaves its part of the backend alone |
| C83 | `Work`, endless histories (`Spec/Endless.lean`) | a waiting job comes due, and is picked within the 20 a tick looks at (C31); its execution ends; induction on the retries left; false for longer queues: the history of C31 |
| C84 | `Work`, endless histories | each round puts the cron job back with a later slot, picked as in C83; induction on the number of runs |
| C85 | `Site`, endless histories (`Spec/EndlessSite.lean`) | the submission reaches its work queue (C74), which seen alone takes an endless history of its own; there C83 and C84; backends by simulation |
| C86 | `Weave`, endless histories (`Spec/EndlessWeave.lean`) | an endless interleaved history comes to what the endless history of whole turns comes to (serialisation of C79), idle moments of a work queue being the same in both; there C85's argument; backends by simulation |
| C87 | `Boot` and `Weave`, endless histories (`Spec/EndlessBoot.lean`) | what earlier processes have left splits into a start of its own for every work queue (as C82); from there each work queue of the endless history, alone, is an endless history of a single one (as C86, from any start: `PairFrom`, `InHand`), where C83 and C84 were proved from any state in which the job is in order; the work queue comes up because the registry stays orderly (`Proofs/Comes.lean`) |
| C88 | `Weave` with rounds granted from outside (`Model/Grant.lean`), `Boot` likewise | simulation: the calls of a tick that counts its rounds first are those of one that does not, shifted by one (`Proofs/Grant.lean`); that the rounds suffice at every round of an interrupted scan uses that nobody else touches the queued list meanwhile (C79, C76); endless histories are stretched and shrunk (`Stretch`) |
| C89 | `Weave` as in C88, endless histories (`Spec/Fair.lean`) | each work queue alone takes an endless history in which executions end (`Sys.Roomy`), where free capacity recurs by C90; the ticks of that history are found again in the interleaved one (`RoomyOn.free`), stretched as in C88 |
| C90 | `Sys` from any storage; `Weave` as in C88 on what earlier processes have left (`Spec/Slots.lean`) | invariant (`Slots`): entries of a job in the running list are at most those of the beginning and the executions in flight; its task's job is Running, so that the end of a run removes the entry whatever the code does; a full running list and nothing in flight stay so (`stuck_step`) |
| C91 | `Sys`, endless histories (`Spec/Endless.lean`, `Spec/Drain.lean`) | a tick that leaves capacity free has scanned every entry (`slack_tick`), whatever the batches of 20; what can still happen to a job is measured by retries left and stage (`Ahead`), so each job settles; were one to settle waiting, executions would all settle too, every later tick would leave capacity free and start it (`Sys.Closes.rests`) |
| C92 | `Weave`, endless histories (`Spec/DrainWeave.lean`) | each request that may bring a job has a number of steps before it that only falls, and only finitely many are on their way (`Site.brings_end`); after that the turns of the work queue bring nothing, and its history alone (`RoomyOn.alone`) comes to rest as in C91, for jobs are tame throughout (`Life.tame`); a request that has returned has its turn in the trace, and the job of that turn is known from then on |
| C93 | `Sys` and `Weave`, endless histories on what others have left (`Spec/Estate.lean`) | jobs found astray and the entries of the running list are a part of the state that no turn touches (`Estate.step`); the rest behaves as in C91 with that much less capacity (`Sys.Heirs.rests`); in a process, requests on their way end as in C92, and what is left is the history of the work queue alone (`HeirsOn.rests`) |
| C94 | `Sys`, `Weave` | what a turn does to the three lists is read off the cases of a turn (`books`) and carried to both backends; with the life of one job (`Life`) that gives what happens to its entries and its status together (`books_life`); the growth is an induction over rounds that each end by C91; a work queue of a process is between turns as one alone with the turns that clients sent (`process_reach`) |
| C95 | `Weave` | what clients asked for is all that a work queue is sent (`History.turn`), so a work queue of a process is between turns as one alone whose turns are careful with every job (`process_reach`, `Neat.careful`), of which C25, C26, C38, C42 and C44 speak; that executed jobs were due is an invariant of all histories (`all_due`) |
| C96 | `Sys`, `Weave` | the events of a job are a word of an automaton (`Spec/Story.lean`) whose state agrees with status and executions: an invariant, read off what a turn may do to the job (`Life`); the rest is about words of the automaton |
| C97 | `Work`, `Weave`, endless histories | the outcome is a function of which runs fail (`Spec/Outcome.lean`); induction on the retries left, one round (pick, run, end) each time; a done job is in nobody's hands; the process follows as in C89 |
| C54–C57, C67 | `Hub` | invariants over all interleavings of clients and engines; explicit races |
| C58 | actor death | invariant after a panic |
| C59 | timestamps | history invariant |
| C60 | `Util` | arithmetic over all `i64` |
| C61 | configuration | one-step equations |
| C62 | the macro | correctness of the generated lists for all signatures of the good form; refutations for others |
| C63 | builders | equations, and last call wins for all chains |
| C68 | `Client.update` | closed form, one case per stored status |
| C69 | `Async` | simulation by `Sys` turn by turn, and back |
| C70 | `Hooked`: `Async` and `Centre` | invariant relating messages of executions to those the centre has handled; false when a hook panics |
| C71 | `Yard`: `Hub` with futures polled by engines | invariant over orderly histories, measure for termination; invariants over all histories for types, order and dead engines; refuted by an execution for every type and name |
| C72 | `Timed`: `Sys` with a clock and pending callbacks | invariants over all histories in time; false after a change of the configuration |
| C73 | `Site`: `Hub`, work queues with mailboxes, backends | invariant tying clients, mailboxes and events together; non-interference of the queues; false with two engines: explicit race |
| C74 | `Site` | invariant following one submission through registry, mailbox and queue; measures for each part of the way |
| C75 | `Site` | transfer of the claims about one work queue, by C73 and the origin of every turn |

## 4. Trusted base

1. **Lean's kernel** (4.33.0) and the definitions of Lean core and of the few Mathlib modules imported.
2. **Axioms.** No axiom is declared. The theorems use at most `propext`, `Classical.choice` and `Quot.sound`; section 6
   lists which theorem uses which. `decide +kernel` in examples and witnesses evaluates in the kernel; there is no
   `native_decide`, no `bv_decide`, no `sorry`.
3. **The reading of the Rust code** into `Verif/Model`, comments and citations included.
4. **Assumptions on libraries**, which are not part of the repository:
   * serde/serde_json 1.0.128, serde_with 3.11.0: text format and derived encodings as in `Json`, `Codec`. Modelled:
     escaping, numbers as their text, the nesting limit, missing fields. On reading, integers are not checked
     against the width of a field (written values fit), and structs in array form are not accepted.
   * the user's `Serialize`/`Deserialize` (`DataCodec.Lawful`): what is written is a JSON value of depth at most 126,
     reads back as some normal form of the value, and normal forms can be written again. Its failing is covered
     (`enc` may be `none`). Theorems about the work queue ask only for `Env.Lawful`, which `Props/Codec.lean` derives
     for the JSON codec.
   * chrono 0.4.38: `DateTime` arithmetic, `timestamp_millis`, panic outside its range of dates.
   * cron 0.12.1: an expression is rejected or gives an arbitrary partial function from a time to the next slot.
     Nothing is assumed about it, except in some partial theorems that there always is a next slot.
   * actix 0.13.5: one turn at a time per actor; messages of one sender in order; a task that was spawned is polled
     later, in the same thread; a panic on the thread of a work queue or engine ends the actor and drops its tasks and
     mailbox, and callers get `MailboxError`. C80 and C81 also use how systems, arbiters and the registry of services work
     in actix 0.13.5 and actix-rt 2.10.0, as listed at the head of `Model/Runtime.lean`.
   * Redis: keys hold lists or hashes only; the commands as documented (`LPUSH`, `LMOVE`, `LREM`, `LRANGE`,
     `LLEN`, `HSET`, `HGET`), each atomic;
     `redis` 0.25.4 sends them and reports errors.
   * `quote`, `syn`, `convert_case` and the parts of the Rust compiler described in `Model/Macro.lean`.
5. **Gaps between model and code**, besides the simplifications stated at the definitions:
   * In `System` an execution has two turns. In the code it also suspends while it waits for the plugin centre and inside
     `is_failed_output` and `retry_at`. `Async` has a turn for each of these parts; C69 shows that its histories are like
     those of `System` in everything but the position of the messages about runs among other messages.
   * The rounds of the scan of a tick are bounded in `Sys.step` by the number of queued entries plus one. C29 shows
     that the bound is never reached when nobody else uses the list. With a second process it may be reached: C66 is
     about any bound; the tick programs of C53 (`Duo.picks`) have the bound of `Sys.step`. In `Weave` a tick counts the
     queued entries in a call of its own; C88 shows that this makes no difference to a process with one engine.
   * `run_count` (a `usize`) does not overflow; list lengths are `Nat`, their conversion to `i32` in the scan is
     modelled.
   * A mutex of the in-memory backend is never poisoned; memory does not run out; logging has no effect.
   * Timers: in `System` a tick may come at any time, and that ticks do come is a hypothesis of the liveness claims.
     `Timer` has the callbacks of `run_later` and a clock; C72 says when ticks come. That a callback runs at all once its
     time has come is a hypothesis there (`Prompt`), about the runtime.
   * In `Site` (C73, C74, C75) a turn of a work queue is not interrupted by turns of others. `Weave` (C79) has the
     interruptions at every backend call; what C73, C74 and C75 say is carried over to it.
   * A process that ends, at any point, leaves its backends and nothing else (`Reboot`); a call of the backend that was made
     has taken effect.
   * Two-process and crash statements about the in-memory backend speak of its maps as if they were shared or
     persistent; they matter for Redis.
6. **Not modelled**: the examples of the repository; `aj/src/lib.rs` (re-exports); log output; the
   conversions between error types beyond their kind; connection handling of the Redis client; the content of plugin
   hooks.

## 5. Claims that are not proved as stated

For each, the note of `MANIFEST.json`. Where it says "false", a theorem `…_refuted…` (or one named in the manifest)
gives the witness. Where it says "assumed beyond the claim", the theorem has that hypothesis and nothing is claimed
without it.

| Id | |
|----|-|
| C07 | False as stated: queue_get with count 0 or a count above i64::MAX, moving within one queue more items than it has, and a name used both as queue and as hash differ between the backends (refutations with concrete witnesses). Proved for all other calls, and for rotations; these include all calls the work queue makes. |
| C11 | False as stated: a job that cannot be written, or is nested too deeply to be read, is acknowledged and then unreadable (refutations). Proved for serialisable jobs. |
| C13 | False when the retry time is no valid date (the actor dies) and when a failing run leaves data that cannot be stored (the job is lost). Proved otherwise, as a bound at every moment and (C13_ends_partial) as what every endless history that serves the job comes to, for the default retry_at and a job that is not cancelled, resubmitted or retried by hand meanwhile. |
| C14 | The stored due time is proved for every history; so is not starting before it, for a job whose submissions are orderly. False when the due time is no valid date, which kills the actor. Also for cron jobs with a retry policy. |
| C15 | False as stated: the k-th retry waits initial*2^k, twice the documented delay. The partial theorem states the actual delay for the first 30 retries. |
| C16 | False as stated from the 31st retry on: debug builds kill the actor, release builds schedule in the past. The partial theorem covers the first 30 retries. |
| C17 | Default retry_at. False when computing the retry time panics. Proved when the actor survives the turn and the result can be stored. |
| C20 | The first half holds in every history. The second half is false for schedules without further slot (the job runs at every tick); proved for schedules that always have one, for runs that are not retried. |
| C21 | False for schedules without further slot. Proved for schedules that always have one, jobs without retry policy, and max_repeat below i32::MAX, whatever user code does. |
| C22 | False for jobs with a retry policy. Proved without, whatever user code does. |
| C23 | False: an exhausted job that waits stays Queued for ever. Proved for jobs that are exhausted when a run ends. |
| C24 | False for every retried run. Runs that do not fail keep the cron type. |
| C25 | False as stated: submitting a job obtained from get_job while the job is queued again puts it into the queue twice (refutation). Proved for every history whose submissions of this job do not carry a status that contradicts the stored one, and do not come while the job waits with an unreadable stored job (hypothesis Orderly). |
| C26 | False as stated, for the same reason as C25 (refutation with 21 executions at capacity 20). Proved for all histories whose submissions are orderly (see C25), whatever user code does. |
| C27 | All states. False in one detail: an id that is in the queued list twice keeps an entry. For ids that were there once everything is proved. |
| C30 | False as stated: a tick looks at 20 entries at a time and moves those it cannot start behind the others, so with more than 20 queued jobs a younger job can overtake (refutation with 21 jobs). Proved for queues of at most 20 entries. |
| C31 | False as stated: with more than 20 queued jobs a ready job can be overtaken forever (refutation: an endless history on every backend). Proved for all endless histories in which ticks find at most 20 queued entries and the job is neither cancelled nor submitted again. For longer queues: C91. |
| C32 | False for a job that was submitted against the rules of C25 before, so that it has two entries: the cancelled job runs. Proved for jobs with orderly submissions before the cancellation. |
| C33 | False: Ok is also returned for running, done and unknown jobs. What cancel_job does in every state is proved. |
| C35 | Proved when the job is not changed between the two messages of update_job, or has been started meanwhile; false otherwise. |
| C36 | False in one case: re_run without override_data replaces the stored job of a done job. Everything else is proved. |
| C37 | False for every done job when the submitted job is freshly built; true when it carries a done status. |
| C39 | Any history. False when Retry::retry_at or next_tick overflows (the actor dies, nothing is stored) and when the run leaves data that cannot be stored (the job is lost). Proved otherwise. |
| C42 | The work queue sends the statuses in the right order, and a plugin not preceded by one that suspends is told the true status last. False for a plugin registered after one whose hook suspends: it may be told the statuses in another order. |
| C43 | True of every message whose hooks return, however they suspend. False when a hook panics: the plugins after it are left out. |
| C44 | There is one message before and one after the user code of every execution. False that the second calls after_run: before_run is called twice per execution and after_run never, in any history. |
| C46 | False: all types share one storage hash. A type that cannot read A's job overwrites it; a type with the same data format replaces A's waiting job and queues nothing. A's lists, its other jobs, and the job in the cases B must not touch stay intact. |
| C47 | The job always survives and is picked once there is room. False that there always is: executions lost in the crash keep their slots, and with 20 of them nothing is ever started again. |
| C48 | Proved for every crash point but one of a first submission; false at the point between the push and the store (two entries), and for re-submissions of done jobs (no entry). |
| C49 | False for every job: after a crash during its run it stays Running for ever and keeps its slot. True for crashes in the tick before the id is moved. |
| C50 | All crash points are characterised. False at two of them, whenever the run ends by putting the job back into the queue. |
| C51 | False for every queued job: when the read fails the job is taken for a new one and queued twice. True when the read works, whatever else fails. |
| C52 | True of submissions, cancellations and the scan of a tick, on any backend. False of manual retries and of the end of a run, whose swallowed errors lose the job or leak its slot. |
| C53 | False when ticks overlap: a due job can be started by both, and another one can be lost for ever. True when turns do not overlap; and in every interleaving entries are conserved, ids picked by one process are different, and only Running marks are written. |
| C55 | True in all interleavings as long as one engine was made. False with two engines, which overlapping calls of start can make. |
| C56 | False: of two clients submitting first jobs of a type at the same time the second can get an error, and the engine is dead: no other type ever gets a queue. True if first submissions of a type do not overlap and different types use different names. |
| C58 | False: after a panic of user code the work queue actor is gone; nothing is executed any more and every request fails. Stored jobs and lists are untouched by the panic. |
| C60 | Exact for all times within the supported range; outside it the conversion panics or wraps. |
| C62 | True for functions with at least one plainly named parameter. False for functions without parameters, with a trailing comma, with a parameter called context, with mut or other patterns, and for two functions of one name (same queue). |
| C65 | Ids are conserved, the tick ends and the actor survives. False that jobs moved before the error are executed: they stay Running for ever. |
| C66 | False: if another worker takes the last entries between the count and the fetch, the scan loops for ever. True as long as the others take no entries out of the queued list. |
| C67 | False: overlapping calls can make two engines, the second replacing the first, and start or a submission can panic because a lock was taken. True when the first call does not overlap with others. |
| C68 | False when the given context carries another id, such as a fresh one: the job is not changed and another job is queued (refutation). Proved for contexts with the id of the job, whatever happens between the two messages of update_job. |
| C70 | True as long as no hook panics. After a panic the execution goes on although later plugins were not called. |
| C71 | False: two jobs given to just_run before the queue of their type exists can kill the engine, and are lost with it; every later just_run is dropped silently, as is one that finds no engine. True if first submissions of a type do not overlap and types have different names: then the engine cannot go on for ever without sending every job to the queue of its type. |
| C72 | False after a change of the tick duration: the pending scan is not moved, so that with a duration of 10 a due job may wait for thousands. True with the tick duration configured when the last scan ran: one pending scan, spacing, rate and latency, on any backend. |
| C73 | Requests, their turns and answers: proved for any number of engines, threads, queues and backends. As if alone: false after two engines were started at once (a submitted job is not found), proved with one engine when types have ids of their own (C46 shows that otherwise it is false). |
| C74 | From the call to the mailbox, from there to the execution, and both together. For queues of at most 20 entries (C31_refuted shows why), in a process with one engine (C73_refuted) whose types have names and ids of their own and whose first submissions of a type do not overlap (C56_refuted). |
| C75 | In a process with one engine whose types have ids of their own; each with the conditions of the claim about a single work queue (C25, C40, C59, C18, C12, C21). |
| C76 | One execution, capacity of all together and work conservation: proved for turns that do not overlap, with deaths between turns (inside user code included). One execution and capacity also with deaths between any two backend calls of a turn, except in a cancellation and in a submission that re-runs a done job without replacing it: there it is false (witnesses on both backends). False for what a dead process was executing: nobody ever takes it over. Overlapping ticks are C53. |
| C79 | What clients see, that turns end and that answers come: proved for any number of engines, types, queues and backends. That interleaved turns are as good as turns one after the other, and what follows for jobs, up to that a submitted job is executed: proved with one engine when types have ids of their own. False with two engines: two work queues of one name can execute one job at the same time. |
| C80 | False: started by a thread without a system, AJ makes one that ends at once, and no hook is ever called; plugins registered in another system than that of the engine are never called, and registering from a thread without system panics. True of plugins registered in the system AJ was started in, while its runner exists. |
| C81 | False once the system AJ was started in is stopped: AJ::start returns the dead engine for ever and every submission fails. True until then, even if the runner of the system is dropped. |
| C82 | False: a new process has no work queue of a type before it submits a job of it, so that a job of a type that later processes do not submit is never executed; and jobs that were executing are lost for ever, whatever later processes do. True that waiting jobs survive any number of processes, and that a work queue of the type executes them as its own. With one engine per process and types that have names and ids of their own. |
| C85 | From the request of a client to the end of the job, in endless histories of whole turns of the work queues. Missing: engines started by several clients at once and overlapping first submissions (C56_refuted, C73_refuted), types that share ids (C46), ticks that find more than 20 entries and leave no capacity free (C31_refuted). |
| C86 | C85 with turns interrupted between any two calls. Missing: as C85. (Ticks count the queued entries first, to bound the rounds of their scans: a simplification of the model that C88 removes.) |
| C87 | From what dead processes have left to the end of the job, in endless interleaved histories of a later process. That a work queue of the type comes up is C87_resumes; without a submission of the type it is false (C82_unregistered, C82_refuted). Missing: as C86; that ticks find capacity, which executions lost with earlier processes hold for ever (C82_lost); jobs that were picked or executing when their process died (C82_picked_partial, C82_lost). |
| C88 | That the rounds make no difference is proved in full for processes that start at most one engine (C88_scans, C88_rounds, C88_leave; C88_enough: there is always a large enough number). C86 and C87 then hold of the calls of the code alone; missing there: as in C86 and C87. |
| C89 | That ticks find free capacity again and again when executions end is proved in full for processes started by one client (C89_serves), so C88 holds without that hypothesis. Missing: as C85. Later processes: C90. |
| C90 | Proved in full for a work queue alone (C90_places, C90_free, C90_starved, C90_ends), and for interleaved processes that start at most one engine, outside turns (C90_site_places, C90_resumes). For waiting jobs in later processes missing: as in C82; that a work queue of the type comes up (C82_unregistered). |
| C94 | False as stated. C94_canceled: the list of the Canceled jobs is empty in every history; C94_refuted: concrete jobs that are in a list they do not belong to, twice in one list, or in none; C94_refuted_grows: with a single job the lists get longer than any number. True: C94_turns (the three things a turn may do to the lists), C94_announced and C94_bound (entries against announcements, in every history), C94_listed (a Finished or Failed job is in its list), C94_once_partial (exactly once, if the job is never submitted to run again after it was done; missing from the full statement are such submissions and Canceled jobs, where it is false). C94_listed and C94_once_partial are for histories that are careful with the job. C94_process_lists and C94_process_listed: the same for every work queue of a whole process between its turns, in terms of the requests of its clients and with at most one engine; C94_process_listed asks that no job of the type is updated. |
| C97 | Proved in full for a work queue alone (C97_unique, C97_outcome, C97_stays, C97_retried; the hypotheses about the history are those of C83). C97_process_partial: in a process whose work queues interleave call by call and whose ticks make the calls of the code alone, from the request that submits the job; missing there: as in C85, that the job stays as it is after its end, and retries by hand. Not for cron jobs (C84) and code with a retry_at of its own. |

## 6. Axioms of the theorems in the manifest

Computed from the compiled theorems by walking through all constants they use.

* `Quot.sound, propext` (81): C01_inmem_refines, C02_inmem_last_write, C02_redis_last_write, C03_move, C03_move_conserves, C04_remove, C07_rotation_agrees_partial, C08_queue_names_distinct, C09_writable, C11_refuted_duration, C11_refuted_depth, C13_refuted, C13_refuted_lost, C14_refuted, C15_refuted, C16_refuted_release, C17_refuted, C20_refuted, C21_refuted, C22_refuted, C24_witness, C25_refuted, C26_refuted, C27_refuted, C30_refuted, C32_refuted, C35_refuted_race, C36_refuted, C37_refuted, C39_refuted, C39_refuted_lost, C42_refuted, C43_prefix_partial, C43_ended_partial, C43_all_partial, C43_refuted, C44_refuted, C45_moments, C45_results, C52_submit, C52_finish_partial, C53_conserved_partial, C53_refuted_twice, C54_first, C54_later, C55_partial, C55_types, C56_partial, C56_refuted, C56_refuted_dead, C57_histories, C62_refuted_context, C62_refuted_mut, C62_refuted_pattern, C62_refuted_queue, C63_one, C63_builders, C68_refuted_id, C69_history, C69_step, C69_answer, C69_transfer, C70_refuted, C72_refuted, C73_own, C73_refuted, C77_condition, C77_data, C77_submitted, C77_due, C77_readable, C79_refuted, C80_delivered_partial, C80_prefix_partial, C81_refuted, C94_refuted, C96_before, C96_after, C96_rests, C96_cancelled, C97_unique.
* `Classical.choice, Quot.sound, propext` (256): C05_observe, C06_redis_like_memory, C07_backends_agree_partial, C07_refuted_get_zero, C07_refuted_self_move, C07_refuted_get_huge, C07_refuted_name, C09_round_trip, C10_precision, C10_no_drift, C11_readable_partial, C12_bounded_retries, C12_submitted_once, C12_no_policy, C12_plain_once, C13_always_failing_partial, C13_ends_partial, C14_scheduled, C14_interval_partial, C15_backoff_partial, C16_unlimited_partial, C17_only_failed_retried_partial, C18_never_early, C18_waits, C19_work_conserving, C20_not_before_slot, C20_next_slot_partial, C20_waits_partial, C21_max_repeat_partial, C21_submitted_once_partial, C22_stored_partial, C22_end_at_partial, C22_submitted_once_partial, C23_exhausted_partial, C23_gone_partial, C23_refuted, C23_witness, C23_for_ever, C24_success_partial, C24_refuted, C25_one_execution_partial, C26_capacity_partial, C27_tick_partial, C28_tick_conserves, C29_tick_terminates, C30_fifo_partial, C31_no_starvation_partial, C31_refuted, C32_cancelled_rests_partial, C33_cancel_partial, C33_refuted, C34_retry_answer, C34_manual_retry, C35_update_partial, C35_late_partial, C35_next_run_partial, C36_resubmission_partial, C37_skip_partial, C37_stranded, C38_sound, C38_consistent, C39_one_outcome_partial, C39_plain_partial, C40_run_count, C40_grows, C41_life_cycle, C42_sent_partial, C42_sent_read_partial, C42_told_partial, C44_around_partial, C44_twice, C46_partial, C46_refuted_lost, C46_refuted_mixed, C47_survives_partial, C47_picked_partial, C47_blocked, C47_refuted, C48_resubmit_partial, C48_duplicate, C48_lost, C49_before_move_partial, C49_refuted, C50_torn_partial, C50_refuted, C51_read_partial, C51_refuted, C52_retry_lost, C52_finish_lost, C52_slot_leak, C53_apart_partial, C53_refuted_lost, C56_ends_partial, C59_timestamps, C60_now, C60_model, C60_partial, C60_exact, C61_config, C62_partial, C62_refuted_empty, C62_refuted_comma, C64_spared, C65_kept_partial, C65_ends, C65_refuted, C66_gentle_partial, C66_refuted, C68_context_partial, C68_late_partial, C69_includes, C69_consistent, C69_one_execution_partial, C69_around_partial, C70_before_partial, C70_after_partial, C70_own, C70_order, C70_free, C71_partial, C71_ends_partial, C71_delivers_partial, C71_types, C71_order, C71_dead, C71_refuted, C72_pending, C72_spacing, C72_rate, C72_unmoved, C72_dead, C72_latency_partial, C73_history, C73_answered, C73_alone_partial, C74_sent_partial, C74_executed_partial, C74_partial, C75_alone_partial, C75_one_execution_partial, C75_run_count_partial, C75_timestamps_partial, C75_never_early_partial, C75_once_partial, C75_retries_partial, C75_max_repeat_partial, C76_one_execution_partial, C76_lists_partial, C76_executed_partial, C76_capacity_partial, C76_any_takes_over, C76_crash_one_execution_partial, C76_crash_once_partial, C76_crash_capacity_partial, C76_refuted_orphan, C76_refuted_cancel, C76_refuted_rerun, C77_retries, C78_record, C78_order, C78_announced, C78_silent, C79_history, C79_own, C79_ends, C79_answered, C79_serial_partial, C79_alone_partial, C79_one_execution_partial, C79_run_count_partial, C79_timestamps_partial, C79_never_early_partial, C79_once_partial, C79_retries_partial, C79_max_repeat_partial, C79_sent_partial, C79_executed_partial, C79_partial, C80_told_partial, C80_home, C80_refuted, C81_survives_partial, C82_lives_partial, C82_survives_partial, C82_picked_partial, C82_lost, C82_unregistered, C82_refuted, C83_ends, C83_recovers, C83_fair, C83_long_queue, C84_forever, C84_max_repeat, C84_exactly, C85_ends_partial, C85_forever_partial, C85_max_repeat_partial, C86_ends_partial, C86_forever_partial, C86_max_repeat_partial, C87_ends_partial, C87_forever_partial, C87_max_repeat_partial, C87_resumes, C88_scans, C88_rounds, C88_leave, C88_ends_partial, C88_forever_partial, C88_max_repeat_partial, C88_resumed_ends_partial, C88_resumed_forever_partial, C88_resumed_max_repeat_partial, C89_serves, C89_chance, C89_ends_partial, C89_forever_partial, C89_max_repeat_partial, C90_places, C90_free, C90_starved, C90_ends, C90_site_places, C90_resumes, C90_resumed_ends_partial, C90_resumed_forever_partial, C90_resumed_max_repeat_partial, C91_started, C91_drains, C92_drains, C92_submitted, C93_alone, C93_takes_over, C93_submitted, C94_turns, C94_canceled, C94_announced, C94_bound, C94_listed, C94_once_partial, C94_process_lists, C94_process_listed, C94_refuted_grows, C95_consistent, C95_one_execution, C95_capacity, C95_told, C95_around, C95_due, C96_story, C96_process, C97_outcome, C97_stays, C97_retried, C97_process_partial.
* `propext` (18): C16_refuted_debug, C52_cancel, C52_pick, C52_retry_partial, C55_refuted, C57_unregistered, C58_kept_partial, C58_refuted, C62_refuted_import, C67_refuted_two, C67_refuted_panic, C67_refuted_reader, C69_orderly, C69_careful_for, C69_careful, C71_refuted_early, C80_refuted_register, C88_enough.
* none (1): C60_refuted.

## Wrong programs tried against the theorems

`seeded/LOG.jsonl` lists them. `theorems_failed` are the theorems that depend on a proof that no longer goes through.
Until the last of them the scratch tool counted only proofs replaced by `sorry`, and missed lemmas that the kernel
itself rejected (these became axioms in the scratch copy). So the lists may be too short; entry `h04` was corrected
with a check of all axioms, the other entries were not rerun. Some entries were built only as far as the modules
of the claim in question.
