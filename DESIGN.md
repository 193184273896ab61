# Design: a Lean 4 model of juju/worker

The code modelled is `/repo` (github.com/juju/worker/v4 at the pinned commit). The properties are in
`properties.jsonl` (C01, C02, ...). `MANIFEST.json` maps each property to theorems. `seeded/LOG.jsonl` records the wrong
programs the theorems were tried against.

Contents: layout, method, granularity, plan per property, coverage function by function, simplifications, what the proofs
found out about the code, trusted base.

## Layout

| file | contents |
|---|---|
| `lean/Verif/Base.lean` | names, finite maps, Go error values, `errors.Is`/`errors.As`/`Cause` |
| `lean/Verif/Tomb.lean` | `gopkg.in/tomb.v2` (external dependency; modelled from its documented behaviour) |
| `lean/Verif/Catacomb/Model.lean` | `catacomb/catacomb.go` as a transition system |
| `lean/Verif/Runner/Model.lean` | `runner.go` as a transition system |
| `lean/Verif/Runner/Held.lean` | the same, with workers' Report and Kill taking time while runner.mu is held |
| `lean/Verif/Engine/Model.lean` | `dependency/engine.go`, `snapshot.go`, `SelfManifold` as a transition system |
| `lean/Verif/Engine/Fine.lean` | the same engine, with the loop's arms cut into pieces |
| `lean/Verif/Engine/Clients.lean` | that engine with any number of goroutines calling Install, Report and Wait |
| `lean/Verif/System/Model.lean` | programs of runners, catacombs, engines and other workers that run each other |
| `lean/Verif/Worker/Model.lean` | `worker.go` and `workertest/check.go` as a transition system |
| `lean/Verif/Worker/Stubs.lean` | `workertest/workers.go` as a transition system |
| `lean/Verif/Watcher.lean` | `workertest/fake_watcher.go` as a transition system |
| `lean/Verif/Catacomb/Observe.lean` | `Err` and `Context` of a catacomb |
| `lean/Verif/Validate.lean` | `dependency/util.go` `Validate`, `validator` |
| `lean/Verif/Delay.lean`, `DelayFloat.lean` | the back-off arithmetic of `engine.requestStart`, exact and in floating point |
| `lean/Verif/Config.lean` | config validation, defaults, `SelfManifold`'s Output |
| `lean/Verif/Stub.lean` | `dependency/testing/stub.go` |
| `lean/Verif/Spec/*.lean` | small specifications, written over histories and API-visible data only |
| `lean/Verif/Props/*.lean` | the property theorems, with a non-vacuity `example` beside each; `*Demo.lean` are the concrete executions used there |
| every other file | invariants and their proofs |

In each of `Catacomb`, `Runner`, `Engine` the proof files are, in order of dependency: `Trans`/`Micro`/`Frame` (the
transition relation with one constructor per case), `Shape`/`Core` (invariant of the data structures), `HistInv`/`Emit`
(the state is a function of the history; every event happens when the specification allows it), `Live`/`Progress`
(measures and absence of stuck states), and special ones (`Runner/Mutex`: the lock; `Runner/Clients`, `Requests`,
`Tokens`: callers).

## Method

Each stateful component is a transition system given by an executable function
`step : State -> Op -> Option State`; `none` means the operation is not enabled. An `Op` carries every
nondeterministic choice: which goroutine moves, which ready `select` arm is chosen, map iteration order,
what user code (Start funcs, workers, filters) returns, clock readings, the random fuzz. `Reach s` is the
inductive closure of `step` from the initial state; a theorem over all `s` with `Reach s` therefore covers
every schedule, input and history. Every state carries the history of events so far (newest first), and
properties about "before", "after", "until" are stated over that history.

The events are what a user of the package can see or cause: calls and returns, calls of Start funcs and what they
return, Kill calls on workers and their ends, reports. The specifications in `Spec/` are predicates of histories only
and do not mention the state or any helper of the model; e.g. `Spec.Runner` computes from the history which ids are
registered, which attempt is open, which instance is known, and says for each kind of event when it may happen
(`EvOk`), what must follow at once (`After`), and what calls may return. The property theorems are stated with these
predicates, or directly with membership and order of events. For the catacomb the specification is also complete
(`Spec/CatacombExact.lean`, C94): a sequence of events is the history of an execution exactly if each event is allowed by it.
So it is for the runner (`Spec/RunnerExact.lean`, C95): it has besides the order in which the run goroutine does things, since it
holds its mutex or its caller up meanwhile, and at which moments a lookup can look. And for the engine (`Spec/EngineExact.lean`,
C96), with a loop that can be interrupted: there the account has three things that the history does not say, namely what the loop
still has to do, in which order it goes through the dependents of a manifold, and whether a worker has been refused (another
manifold's attempt may have produced the same worker, so that the Kill of it does not tell). With the calls of its clients
(`Spec/EngineCalls.lean`, C102) there is besides the call that the loop is going to answer.

User callbacks that only return a value (`IsFatal`, `WorstError`, `Filter`, `MoreImportant`,
`ShouldRestart`, `Output`) are arbitrary pure functions. Start funcs and workers are arbitrary: the
environment decides at each call what a Start func returns and when and how a worker finishes. The only
contract assumed of a worker is that `Wait` returns its one final result, once it has finished. In reports a worker that is
known counts as a Reporter (engine.go:312-316): a worker that is not one has no nested report, and nothing else changes.

Liveness ("X always completes") is proved as facts about single states: (a) in every reachable state of the phase
in question which is not final, some step of the component is enabled, or user code is still running (and
has been told to stop); (b) every step of the phase strictly decreases a natural-number measure; (c) from every such state
there is a run to the end. Together they give termination under any scheduler that does not starve a goroutine forever.
This is also proved about infinite executions (`*/Fair`, C78, C79, C80): a `Run` is an infinite sequence of states
and steps, and it is `Fair` if each step of the component (the environment's excepted) that is enabled infinitely often is
taken infinitely often. Steps that differ only in a free choice (a map order, a clock reading) count as one step.
C97 says the same as C80 of the engine whose loop can be interrupted anywhere, and C101 says where such an engine settles
when manifolds may fail finitely often, end cleanly, or want an input to be absent.
C82 puts such executions together: in a tree of workers a parent's hypothesis that its workers finish when killed is the
conclusion about its children (`Props/Tree.lean`). C103 says that these hypotheses can be met from every reachable state, so
no finite execution is excluded by them; C104 is about stopping an engine that has clients.
C105 and C106 are about whole programs (`System/Model`): the models of the components run under one scheduler, a call of a
worker's Kill method is a step of that worker, and Wait returns what the worker's Wait method returns. A component that has
nothing to do while others move pauses; `Stutter.lean` turns an execution with pauses into one without, so that the theorems
about single components apply. A panic anywhere ends a program; C107 says where its errors come from, and when nothing panics; C108 that every program can go
on fairly, and every worker be stopped, from every state;
C109 that failures go up through catacombs, runners and engines;
C110 that a runner of a program keeps its workers going;
C111 that an engine of a program comes to rest when its environment is calm;
C112 that calls of StartWorker, StopWorker, Invoke and Add return;
C113 that what an engine built on a worker that has ended ends;
C114 that an engine keeps its manifolds going; C115 that a worker of a runner
that is told to stop goes; C116 what becomes of calls of Worker and StopAndRemoveWorker; C117 that workers end
exactly if they have a reason to; C118 that a manifold whose worker fails is started again,
C119 that one whose worker asks for it is uninstalled, and C120 that one told to stop is started again.

Documented behaviour that the code does not have is stated as a property all the same; its claim is then the negation
with a concrete execution, plus theorems saying what is true instead (C11, C17, C25, C27, C48, C53, C98, parts of C55).

## Granularity of steps

* Engine: one arm of the `loop` select is one step. The loop goroutine is the only one that touches the
  engine's maps, so no other goroutine can see an arm half done. The one thing that can happen inside an
  arm and influence it is an asynchronous `Kill` landing between two `isDying` checks; every arm therefore
  takes a parameter saying before which of its `isDying` checks such a Kill lands (if any). That this is no loss is not
  left to the argument: in `Engine/Fine.lean` an arm is a sequence of pieces between which everybody else may move, and the
  safety theorems are proved for that engine as well (C81). Every step of either engine is a sequence of `Micro` steps
  (`Engine/Micro.lean`), and the invariants are proved for those, so each proof serves both.
* Runner: every critical section of `runner.mu` is one step, except killAll's, where each worker's Kill is one (and others go
  on meanwhile); the loop's broadcast is a separate step; the mutex hand-over of `workerInfo` to its helper goroutine is
  explicit.
* Catacomb, worker.go, workertest: each goroutine is modelled statement by statement.

## Plan per property

C01-C11, C60 Catacomb: transition system; C01 by an invariant tying the tomb's reason to the history of Kill
arguments; C02, C04, C05, C07 by an invariant counting goroutines against the WaitGroup; C03 by an
invariant over Add callers; C06 a decision theorem by induction over error trees; C08 on `Plan.Validate` and
`Invoke`; C09, C60 measure and progress; C10 reachable-state theorem and a witness for Goexit; C11
negation with a witness plus the true part.

C12-C29, C58, C59, C64 Runner: transition system; one core invariant (known ids correspond one-to-one to live attempt
goroutines; stopping entries have no start func; shutting down implies all entries stopping) from which
C12-C15, C18-C21, C28, C29 follow; C16/C17 by an invariant tying `finalError` to a fold over the history;
C22, C58 measure and progress; C23, C24, C26 by an invariant over callers, helpers and the condition variable;
C25, C27 negations by witness executions; C59 by the lock invariant; C64 by an invariant relating requests, calls and
attempts.

C30-C48, C51, C65, C66 Engine: transition system; core invariant (installed names = known names; non-stopped names
correspond one-to-one to attempt goroutines; dependents is the inverse of inputs; acyclic; no internal
error) plus the freshness invariant (latest snapshot = current inputs unless stopping or dying); C38, C46
by folds over the history; C40 by a history invariant; C43 measure and progress; C48 negation by witness; C65 by a measure
that weighs a manifold by the number of attempts its worker's end may cause downstream (the graph is acyclic), progress,
and the freshness invariant for what is running at the end.
An arm of the loop is split into micro steps (`Engine/Micro`: the chain of `requestStop`, `requestStart`, ... calls an arm
makes) so that the invariants are proved once per micro step and not once per arm.

C49 Validate: depth-first search model, soundness and completeness against `Relation.TransGen`; C50 on top.

C52-C54 Delay: rational arithmetic in place of float64.

C55, C57, C63: pure functions. C56, C61, C62: transition systems of a worker and its callers.

All properties are expressible in the model; none is not applicable.

## Coverage, function by function

Every non-test Go function of the repository. "M" modelled, with the definition; "-" not modelled, with the reason.

| function | |
|---|---|
| `worker.go` Stop, Dead | M `Worker/Model` |
| `reporter.go` (interface only) | - nothing to run |
| `runner.go` RunnerParams.Validate, NewRunner's defaults | M `Config`, `Runner.applyDefaults` |
| `runner.go` NewRunner | M the initial state; the goroutine is always started |
| `runner.go` StartWorker, StopWorker, StopAndRemoveWorker, Worker, workerInfo, WorkerNames, Report, Wait, Kill | M `Runner/Model` |
| `runner.go` run, startWorker, workerDone, removeWorker, setWorker, killAll, killWorker, killWorkerLocked, runWorker, workerInfo.status | M `Runner/Model` |
| `runner.go` noopLogger | - logging |
| `catacomb.go` Plan.Validate, Invoke, stopWorkers, Add, add, Dying, Dead, Wait, Kill, ErrDying, dyingError, runSafely | M `Catacomb/Model` |
| `catacomb.go` Err, Context | M `Catacomb/Observe` |
| `catacomb.go` scopedContext | - only carries profiler labels |
| `catacomb.go` errWithStackTrace | M only as "the panic became an error" (the stack text is not modelled) |
| `engine.go` EngineConfig.Validate | M `Config` |
| `engine.go` NewEngine | M the initial state |
| `engine.go` loop, Kill, Wait, Report, liveReport, manifoldsReport, Install, gotInstall, uninstall, checkAcyclic, requestStart, runWorker, gotStarted, gotStopped, requestStop, isDying, allOthersStopped, bounceDependents, workerInfo.stopped, state | M `Engine/Model`; Install, Report and Wait as calls: `Engine/Clients` |
| `engine.go` the delay in requestStart | M `Delay` |
| `engine.go` scopedContext, startAttempt bookkeeping | contexts: cancelled by requestStop or dying |
| `engine.go` snapshot; `snapshot.go` Get, expire, rawAccess | M `Engine/Model`; the access log is stored but never read by the engine and left out there; with it, one memory access at a time, M `Snapshot/Model` (C98) |
| `metrics.go` | - a no-op; RecordStart calls are the `started` counts |
| `dependency/interface.go`, `reporter.go` | - interfaces and constants |
| `util.go` Install, Validate, validator.run, validator.visit | M `Validate`, `Props/EngineInstall` |
| `util.go` SelfManifold | M `Config` (Output), `Engine/Model` (worker `self`) |
| `testing/stub.go` all | M `Stub` |
| `workertest/check.go` all | M `Worker/Model` |
| `workertest/workers.go` all | M `Worker/Stubs` |
| `workertest/fake_watcher.go` | M `Watcher` |

## Testing the theorems

Wrong programs are made by editing the model in a scratch copy. Two things are done with each.

* Rebuild everything and see which proofs fail. That a proof fails does not show that its theorem has become false; an
  internal lemma may fail over nothing.
* For the three large models: turn the statements of the theorems (predicates of histories, invariants, enabledness of steps,
  bounds) into checkers, run a few thousand random executions of the edited model, and see which statements are falsified. All
  the edits of the kinds "negate a condition, make it always or never true, drop an update, swap constants, disable a step" were
  tried, line by line. Those that falsify nothing were rebuilt as well and looked at one by one.

`seeded/LOG.jsonl` has one line per attempt. An edit that nothing notices and that changes nothing observable is marked
`equivalent program`, with the reason.

## Simplifications

* Logging, pprof labels, metrics other than counts, the text of error messages, the content of nested reports: left out.
* Real time: the clock is an oracle; an alarm may fire at any moment. (`Runner/Timed` and `Engine/Timed` add a clock and
  times to the events: C71, C72, C84.) Go's memory model is not
  modelled: steps are atomic and what a step writes the next one reads. That no variable is used by two goroutines without
  a mutex or channel between them is C85 for the runner and C86 for the engine; the access log of a snapshot is an exception (C98).
* Engine, Runner: Start funcs return a worker or an error, as documented; (nil, nil) and (w, err) are not modelled, nor
  Start funcs that panic (the process crashes). A Start func of an engine that calls runtime.Goexit, and a Wait that does,
  ends its goroutine silently: in the model it is one that never returns (C89). A runner's StartFunc that calls it is caught.
* What a worker's Kill or Report does is up to the environment. In killAll a Kill may take any time (C88). In Report and
  StopWorker these calls are part of one step in `Runner/Model`; `Runner/Held` gives them time (C90).
* Catacomb: a panic in one of the catacomb's own calls ends the execution. (In Go deferred calls run first; if the work
  func panics inside `Kill`, the deferred `wg.Wait` runs first and may block.)
* Delay: float64 is modelled by exact rationals in `Delay`, and with rounding errors and infinities in `DelayFloat` (C83); conversion
  out of range is a parameter.
* The Engine's arms are atomic up to `pend` (see Granularity); C81 does without this.

## What the proofs found out about the code

Behaviour that differs from the documentation, or that a reader may not expect. Each is a theorem, or (marked *) noticed
while modelling and outside the model.

Runner
* The default MoreImportant makes the last fatal error win, not the first (C17_documented_false).
* Worker() can return an instance that is already dead, during the restart delay (C25_false).
* StopAndRemoveWorker only stops the current instance itself; if that ends with an error after which workers are
  restarted and the runner has not yet handled the stop, it is restarted, and the caller keeps waiting (C27_restarted). `done`
  receives one token, so of two concurrent callers one waits forever (C27_second_waits, C27_forever).
* The status "stopping" is never reported (C28_never_stopping).
* StartWorker returns ErrDead when its context is done although the runner is alive (C29_only_if_cancelled), and nil
  without starting anything while the runner is shutting down (C13_startWorker).
* A call of Worker that is aborted leaves a helper goroutine asleep until the next broadcast (C59_left_behind); none
  is left when the runner has returned (C59_no_helper_left).
* The first attempt's context is a child of the context given to StartWorker, so cancelling that after StartWorker has
  returned cancels the context of the running worker; the contexts of restarts are not. A fatal error does not cancel contexts
  (C64_witness, C64_fatal).
* Report's "started", documented as the time the worker was last started (reporter.go:32), is the time of its
  registration; restarts do not change it (C72_not_updated).
* killAll calls the workers' Kill holding the mutex; a Kill that calls Worker, Report, StopWorker ... on its own runner
  deadlocks it (C88). So does a Report that calls Worker, WorkerNames or Report on its own runner (C90).
* A fatal error that is tomb.ErrStillAlive makes the tomb panic, as does tomb.ErrDying unless the runner has been killed (C16_still_alive).
* A worker whose Wait calls runtime.Goexit is never known to have ended; the runner then never ends (C89_runner).

Catacomb
* Kill after death changes the result of Wait from nil to an error (C11_negation).
* Kill(tomb.ErrStillAlive), and an error wrapping tomb.ErrDying, are not caught (C07_provisos, C06_wrapped).
* runtime.Goexit in the work func leaves the catacomb alive for good (C10_goexit_alive).
* Add before Invoke blocks on a nil channel unless the catacomb has been killed (C60_add_before_invoke).

Engine
* A call of Get that is in progress when the Start func returns may write the access log while the engine reads it, contrary to the
  comment in engine.go:513-519; calls that overlap may lose entries (C98_race, C98_lost).
* One failure at the bottom of a chain of manifolds may begin two attempts of each direct dependent, four of each of theirs, and
  so on (C99_bound, C99_reached).
* The goroutine that runs the self manifold may be left behind when the engine has ended (C48_self_manifold_leaks).
* Bouncing the self manifold kills the engine, so its inputs must not change (C92). Duplicate inputs make a dependent start and be stopped at once
  (C66_listed_twice).
* The loop calls the workers' Kill and Report itself; one that calls Report on its engine deadlocks it, one that calls Install
  does until somebody kills the engine (C91).
* The context of an attempt that ended by itself is not cancelled before the engine is killed, so that such contexts (which
  the tomb keeps in a map) pile up (C69_left, C69_pile_up).
* A delay can exceed MaxDelay by 10%, MaxDelay is ignored when BackoffFactor is 0, and without MaxDelay the delay overflows
  int64 (C53_*). An attempt with no recent errors gets delay / factor (C53_recent_zero_shortens).
* IsFatal is called with nil; a manifold's Filter is applied to errAborted too (visible in C38, C41).
* EngineConfig.Validate accepts a NaN BackoffFactor and a negative RestartDelay is accepted by the runner (C55_nan_accepted).

Others
* The stub Getter panics on a nil output before the first convertible one and on a nil typed pointer (C57_panics).
* Report's "started", documented as the time the worker was last started (dependency/reporter.go:65), is left out while
  the manifold has no registered worker (C47_reports, C87_report).
* SelfManifold's Output panics on a nil *Installer or *Reporter (C63_self_output).
* NewErrorWorker with tomb.ErrDying or tomb.ErrStillAlive panics when killed (C93_refused).

## Trusted base

* Lean 4.33.0's kernel. No axioms of our own, no `sorry`, no `native_decide`, no `bv_decide`; `decide +kernel` is used for
  concrete executions only (examples and witnesses) and adds no axiom.
* Lean's standard axioms. Of the 414 theorems named in `MANIFEST.json`:
  * 359 depend on `Classical.choice`, `Quot.sound`, `propext`.
  * 33 depend on `Quot.sound`, `propext`: C16_is_fatal, C16_most_important, C06_kill_arg, C06_wrapped, C06_own_dying_ignored, C08_validate, C60_add_before_invoke, C55_nan_accepted, C56_bounded, C62_wait, C62_ends, C62_forever, C66_listed_twice, C71_times, C72_not_updated, C81_contains, C85_reads, C85_private, C85_writer, C85_killing, C86_private, C86_writer, C90_enabled, C92_bounced, C93_stub, C93_refused, C98_answers, C98_in_time, C98_no_race, C98_log_exact, C98_start_only, C99_reached, C100_contains.
  * 22 depend on `propext`: C13_reply, C15_delay, C17_documented_false, C18_told, C25_false, C29_alive, C07_provisos, C11_negation, C55_runner, C55_runner_params, C55_more_important_default, C57_simple, C57_first, C57_none, C57_panics, C63_self_output, C64_witness, C64_fatal, C76_started_to_be_killed, C90_contains, C98_race, C98_lost.
  The theorems not listed one by one are all the others.
* The reading of the Go code into the model. No tool checks it; each definition cites the lines it models.
* `gopkg.in/tomb.v2` (Verif/Tomb.lean), `sync.WaitGroup`, `sync.Mutex`, `sync.Cond`, `context`, channels and `select`:
  modelled from their documented behaviour.
* `github.com/juju/errors` (`Cause`, `Annotate`, `Is`): modelled as wrapping (Verif/Base.lean).
* float64 is modelled by exact rationals.
