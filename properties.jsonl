{"id": "C01", "title": "Catacomb.Wait reports the first real error", "statement": "Catacomb.Wait returns nil if no error reached the catacomb, and otherwise exactly the first non-nil error (after Kill's translation of ErrDying values) in the order in which Kill calls, the work func's result and the tracked workers' Wait results reached it before it died; the catacomb's own ErrDying never counts as an error.", "quantifier": "every catacomb, every set of workers added at any time, every interleaving of Kill calls, worker exits and the work func's return, every error value", "why_tests_cant": "The order in which errors arrive is decided by the scheduler; tests fix one order per case.", "anchors": ["catacomb/catacomb.go:Kill", "catacomb/catacomb.go:Wait", "catacomb/catacomb.go:add", "catacomb/catacomb.go:Invoke"]}
{"id": "C02", "title": "No worker outlives its catacomb", "statement": "When Catacomb.Wait returns (Dead is closed), the work func has returned and every worker the catacomb accepted, through Plan.Init or through an Add that returned nil, has finished.", "quantifier": "every reachable state of a catacomb and every interleaving of Add with Kill and of the per-worker goroutines", "why_tests_cant": "The dangerous case is an Add racing with shutdown; a test only samples a few of those interleavings.", "anchors": ["catacomb/catacomb.go:Invoke", "catacomb/catacomb.go:add", "catacomb/catacomb.go:Add"]}
{"id": "C03", "title": "Add takes responsibility even when it fails", "statement": "If Add(w) returns an error, the catacomb was already dying, w has been Kill()ed and has finished before Add returned, and the error is either (a trace of) w's own non-nil error or the catacomb's ErrDying; if Add returns nil, w is tracked by the catacomb.", "quantifier": "every worker, every interleaving of Add with Kill", "why_tests_cant": "Both branches of Add's select may be ready at once and Go chooses between them at random.", "anchors": ["catacomb/catacomb.go:Add"]}
{"id": "C04", "title": "A dying catacomb kills every tracked worker", "statement": "Once the catacomb is dead, every accepted worker either was Kill()ed by the catacomb or had already finished by itself; and a live catacomb never Kill()s an accepted worker.", "quantifier": "every execution", "why_tests_cant": "It must hold for workers accepted before, during and after the moment of dying.", "anchors": ["catacomb/catacomb.go:add"]}
{"id": "C05", "title": "A worker error kills the catacomb, a clean exit does not", "statement": "The catacomb starts dying only because of a Kill call, the work func finishing, or a tracked worker finishing with a non-nil error: tracked workers that finish with nil leave it alive and unaffected.", "quantifier": "every execution", "why_tests_cant": "It is a claim about all causes of death in all histories.", "anchors": ["catacomb/catacomb.go:add", "catacomb/catacomb.go:Kill"]}
{"id": "C06", "title": "Kill's classification of ErrDying values", "statement": "Kill(err) passes nil and ordinary errors on unchanged, turns tomb.ErrDying itself into a 'bad catacomb Kill' error, turns any error whose chain contains another catacomb's ErrDying into a 'bad catacomb Kill' error, and treats any error whose chain contains this catacomb's own ErrDying as carrying no error.", "quantifier": "every error value, including arbitrarily deep wrapping", "why_tests_cant": "Wrapping depth is unbounded.", "anchors": ["catacomb/catacomb.go:Kill", "catacomb/catacomb.go:ErrDying"]}
{"id": "C07", "title": "Catacomb internals never panic", "statement": "No sequence of API calls and worker behaviours makes the catacomb panic by misusing its WaitGroup (negative counter, or Add from zero racing with Wait) or by killing its tomb with ErrDying while alive. (The claim needs the proviso that nobody passes tomb.ErrStillAlive: Kill(tomb.ErrStillAlive) does panic.)", "quantifier": "every execution in which ErrDying values are only obtained from ErrDying()/Add and nobody supplies tomb.ErrStillAlive", "why_tests_cant": "WaitGroup misuse only shows under rare interleavings.", "anchors": ["catacomb/catacomb.go:Invoke", "catacomb/catacomb.go:add", "catacomb/catacomb.go:Kill"]}
{"id": "C08", "title": "Invoke succeeds exactly once per catacomb, and otherwise stops the Init workers", "statement": "Invoke returns nil iff the plan has a name, a site, a work func and no nil Init worker, and the site was never successfully claimed before; whenever it returns an error every non-nil Init worker has been Kill()ed and waited for; of any number of Invokes on one catacomb at most one gets past the used check.", "quantifier": "every plan (any number of Init workers, nil or not), every sequence of Invokes on one site", "why_tests_cant": "Init lists and call sequences are unbounded.", "anchors": ["catacomb/catacomb.go:Invoke", "catacomb/catacomb.go:Plan.Validate", "catacomb/catacomb.go:stopWorkers"]}
{"id": "C09", "title": "Catacomb shutdown always completes", "statement": "After Kill, if the work func returns and Kill()ed workers finish, the catacomb becomes dead: no reachable dying state is stuck waiting only on the catacomb's own goroutines, and the number of remaining internal steps is bounded by a function of the state, as long as no new Add calls arrive.", "quantifier": "every reachable dying state and every continuation", "why_tests_cant": "Absence of deadlock and termination quantify over all schedules.", "anchors": ["catacomb/catacomb.go:Invoke", "catacomb/catacomb.go:add", "catacomb/catacomb.go:Add"]}
{"id": "C10", "title": "A panicking work func becomes an error", "statement": "If the work func panics, the catacomb still dies, stops its workers, and the panic value is reported as an error (subject to first-error-wins); a work func that calls runtime.Goexit instead leaves the catacomb alive and never able to die, even when Kill()ed.", "quantifier": "every panic value and every state at which the panic happens", "why_tests_cant": "The panic may happen with any set of workers outstanding.", "anchors": ["catacomb/catacomb.go:runSafely", "catacomb/catacomb.go:Invoke"]}
{"id": "C11", "title": "Errors passed to Kill after death are ignored", "statement": "The documentation of Kill says errors passed after the catacomb is dead are ignored. (With gopkg.in/tomb.v2 this is false when the recorded error is nil: the full statement is kept, its negation is proved with a witness, and the true part - a non-nil result never changes - is proved.)", "quantifier": "every dead catacomb and every later Kill call", "why_tests_cant": "Tests never look at Wait again after a post-mortem Kill.", "anchors": ["catacomb/catacomb.go:Kill", "catacomb/catacomb.go:Wait"]}
{"id": "C12", "title": "At most one instance per worker id", "statement": "Between a call of the StartFunc for an id and the moment the runner processes the end of that attempt, the runner makes no other StartFunc call for the same id.", "quantifier": "every execution of a Runner: any number of ids, StartWorker/StopWorker/Kill calls, restarts and interleavings", "why_tests_cant": "Overlap would need a particular interleaving of stop, restart and start.", "anchors": ["runner.go:runWorker", "runner.go:workerDone", "runner.go:startWorker"]}
{"id": "C13", "title": "StartWorker's outcome", "statement": "A StartWorker request handled by a runner that is not shutting down returns AlreadyExists and changes nothing if the id is known, and otherwise returns nil and the id is immediately known to WorkerNames/Worker/Report with exactly one start attempt scheduled without delay; handled while shutting down it returns nil and starts nothing.", "quantifier": "every reachable runner state and every request", "why_tests_cant": "State space is unbounded.", "anchors": ["runner.go:StartWorker", "runner.go:startWorker"]}
{"id": "C14", "title": "A clean exit removes the worker for good", "statement": "When a worker that nobody asked to stop finishes with a nil error it is removed from the runner and its StartFunc is not called again unless StartWorker is called again for that id.", "quantifier": "every execution", "why_tests_cant": "'Never again' ranges over all futures.", "anchors": ["runner.go:workerDone"]}
{"id": "C15", "title": "Non-fatal errors restart the worker after RestartDelay", "statement": "When a start attempt ends with an error that is neither fatal nor refused by ShouldRestart, and the worker was not stopped, exactly one new attempt is scheduled with the configured RestartDelay and the same StartFunc, and the id stays known.", "quantifier": "every reachable state and error", "why_tests_cant": "State space is unbounded.", "anchors": ["runner.go:workerDone", "runner.go:runWorker"]}
{"id": "C16", "title": "Runner.Wait returns the most important fatal error", "statement": "The error the runner ends with is the left-to-right combination by MoreImportant of exactly the fatal errors that workers ended with, in processing order, and nil if there was none. (tomb.ErrDying as final error is dropped when the runner was killed, and panics when it was not.)", "quantifier": "every execution, every IsFatal/MoreImportant, every order in which workers fail", "why_tests_cant": "The order in which failures are processed is decided by the scheduler.", "anchors": ["runner.go:workerDone", "runner.go:run", "runner.go:Wait"]}
{"id": "C17", "title": "Default MoreImportant keeps the first error", "statement": "The documentation says that with MoreImportant nil the first fatal error reported is returned. (False of the code: NewRunner's default makes the last one win. The negation is proved with a witness execution, and what the code does - the last fatal error wins - is proved in general.)", "quantifier": "every execution of a runner built with MoreImportant = nil", "why_tests_cant": "Needs two fatal errors in one run; no test does this without MoreImportant.", "anchors": ["runner.go:NewRunner", "runner.go:workerDone"]}
{"id": "C18", "title": "A stopped worker stays stopped", "statement": "After the runner has handled StopWorker(id), no new start attempt is scheduled for id until it has been removed and StartWorker is called again; at most the one attempt already in flight may still call the StartFunc, and any worker it produces is Kill()ed as soon as the runner learns of it.", "quantifier": "every execution", "why_tests_cant": "It quantifies over all later events.", "anchors": ["runner.go:killWorkerLocked", "runner.go:setWorker", "runner.go:workerDone"]}
{"id": "C19", "title": "Fatal error or Kill stops everything", "statement": "Once the runner is shutting down (Kill handled or a fatal error processed), no new start attempts are scheduled, every worker the runner knows about has been Kill()ed, and every worker it learns of later is Kill()ed on arrival.", "quantifier": "every reachable state and all continuations", "why_tests_cant": "Workers may be starting, delaying or running when shutdown begins.", "anchors": ["runner.go:killAll", "runner.go:setWorker", "runner.go:startWorker"]}
{"id": "C20", "title": "No worker outlives the runner", "statement": "When Runner.Wait returns, no start attempt is outstanding and every worker produced by a StartFunc has finished.", "quantifier": "every execution", "why_tests_cant": "Orphans would appear only under particular interleavings of start and shutdown.", "anchors": ["runner.go:run", "runner.go:runWorker"]}
{"id": "C21", "title": "The runner loop never crashes or blocks on its own bookkeeping", "statement": "Every started/done notification refers to an id the runner knows (no nil dereference) and the removal signal never blocks the loop.", "quantifier": "every reachable state", "why_tests_cant": "A violating interleaving need not be found by tests.", "anchors": ["runner.go:workerDone", "runner.go:setWorker", "runner.go:removeWorker"]}
{"id": "C22", "title": "Runner shutdown always completes", "statement": "Once shutting down, if StartFuncs return, delays elapse and Kill()ed workers finish, the runner becomes dead: no reachable shutting-down state is stuck, and the number of remaining internal steps is bounded by a function of the state.", "quantifier": "every reachable shutting-down state and every continuation", "why_tests_cant": "Deadlock freedom and termination quantify over all schedules.", "anchors": ["runner.go:run", "runner.go:runWorker"]}
{"id": "C23", "title": "Worker() answers truthfully", "statement": "Worker(id) returns NotFound only if the id was unknown to the runner at some moment during the call, returns ErrDead only if the runner was dying, returns ErrAborted only if aborted, and any worker it returns was registered for that id at some moment during the call.", "quantifier": "every call at every moment, any number of concurrent callers", "why_tests_cant": "The answer depends on races between the caller, the helper goroutine and the loop.", "anchors": ["runner.go:workerInfo", "runner.go:Worker"]}
{"id": "C24", "title": "Worker() never misses the wakeup", "statement": "While a Worker(id) call's helper sleeps on the condition variable with no broadcast pending, the id is still known and still without a worker; so a caller never stays blocked after the worker became available, was removed, or the runner died.", "quantifier": "every reachable state, any number of concurrent callers", "why_tests_cant": "Lost wakeups are the textbook schedule-dependent bug.", "anchors": ["runner.go:workerInfo", "runner.go:run"]}
{"id": "C25", "title": "Worker() only hands out live workers", "statement": "The documentation says that Worker waits while the worker is not currently available. (False of the code: during the restart delay the runner still hands out the previous, finished instance. Negation proved with a witness execution.)", "quantifier": "every execution", "why_tests_cant": "Needs a call inside the restart delay.", "anchors": ["runner.go:workerInfo", "runner.go:workerDone"]}
{"id": "C26", "title": "StopAndRemoveWorker returns only when the worker is gone", "statement": "If StopAndRemoveWorker returns with the worker's result, the worker had been Kill()ed and had finished, and the runner had removed that registration.", "quantifier": "every execution and any number of concurrent callers", "why_tests_cant": "Depends on the interleaving of several goroutines.", "anchors": ["runner.go:StopAndRemoveWorker", "runner.go:removeWorker"]}
{"id": "C27", "title": "StopAndRemoveWorker always removes the worker", "statement": "The documentation says the worker is stopped and the call waits until it is no longer known to the runner. (False of the code: a worker that ends with a restartable error when Kill()ed is restarted instead, and of two concurrent callers only one is released; negations proved with witness executions.)", "quantifier": "every execution", "why_tests_cant": "Needs a particular error class or two concurrent callers.", "anchors": ["runner.go:StopAndRemoveWorker", "runner.go:workerDone", "runner.go:removeWorker"]}
{"id": "C28", "title": "Runner.Report and WorkerNames agree with the runner", "statement": "Report and WorkerNames list exactly the ids known to the runner, each once; a worker is reported 'started' iff the runner holds an instance for it, otherwise 'stopped'; the status 'stopping' is never reported.", "quantifier": "every reachable state", "why_tests_cant": "The unreachable status is a claim about all states.", "anchors": ["runner.go:Report", "runner.go:WorkerNames", "runner.go:workerInfo.status"]}
{"id": "C29", "title": "Calls on a dead runner return ErrDead", "statement": "Once the runner is dead, StartWorker and StopWorker cannot be received by the loop and return ErrDead; before that, ErrDead from StartWorker implies its context was done.", "quantifier": "every reachable state", "why_tests_cant": "All histories.", "anchors": ["runner.go:StartWorker", "runner.go:StopWorker"]}
{"id": "C30", "title": "At most one worker per manifold", "statement": "For every manifold name the engine never has two start attempts or workers outstanding at once: attempts strictly alternate with their completions.", "quantifier": "every execution of an Engine: any manifolds, installs, failures, bounces, kills and interleavings", "why_tests_cant": "Overlap would need a particular interleaving of bounce and failure.", "anchors": ["dependency/engine.go:requestStart", "dependency/engine.go:gotStopped", "dependency/engine.go:runWorker"]}
{"id": "C31", "title": "The engine never reports an internal error", "statement": "The engine's own consistency checks ('unknown manifold', 'trying to start a second', 'unexpected start', 'unexpected stop') never fire, so Wait only ever reports errors from workers.", "quantifier": "every execution, including uninstall and reinstall of manifolds and duplicate inputs", "why_tests_cant": "The checks guard exactly the cases the authors could not rule out by testing.", "anchors": ["dependency/engine.go:requestStart", "dependency/engine.go:gotStarted", "dependency/engine.go:gotStopped", "dependency/engine.go:Wait"]}
{"id": "C32", "title": "Running workers have up-to-date inputs", "statement": "While the engine is not shutting down, for every manifold whose start attempt or worker is live and has not been told to stop, the workers it was given for its declared inputs are exactly the workers the engine currently has for those inputs. Once the loop has noticed that it is shutting down, every live attempt has been told to stop.", "quantifier": "every reachable state", "why_tests_cant": "This is the engine's main promise and spans every history of starts, stops, installs and uninstalls.", "anchors": ["dependency/engine.go:snapshot", "dependency/engine.go:bounceDependents", "dependency/engine.go:gotStarted", "dependency/engine.go:gotStopped"]}
{"id": "C33", "title": "Stopped manifolds are not stale", "statement": "While the engine is not shutting down, a manifold that is stopped had its latest start attempt made with exactly the present workers of its inputs; so nothing waits for a dependency change that has already happened.", "quantifier": "every reachable state", "why_tests_cant": "Missed restarts only show under specific orders of dependency changes.", "anchors": ["dependency/engine.go:bounceDependents", "dependency/engine.go:gotStopped"]}
{"id": "C34", "title": "A dependency change stops every affected worker", "statement": "When the engine registers or loses a manifold's worker while not shutting down, in that same step every manifold that declares it as an input is either started (if it was stopped) or told to stop, its context is cancelled and its worker, if registered, Kill()ed.", "quantifier": "every reachable state", "why_tests_cant": "Any number of dependents in any state.", "anchors": ["dependency/engine.go:bounceDependents", "dependency/engine.go:requestStop"]}
{"id": "C35", "title": "The installed graph is always acyclic", "statement": "The dependency graph of the installed manifolds never contains a cycle.", "quantifier": "every execution of installs and uninstalls", "why_tests_cant": "Graphs are unbounded.", "anchors": ["dependency/engine.go:gotInstall", "dependency/engine.go:checkAcyclic", "dependency/util.go:Validate"]}
{"id": "C36", "title": "Install's outcome", "statement": "An Install handled by the engine returns nil iff the name is not installed and adding the manifold keeps the graph acyclic; if it fails nothing changes; if it succeeds the manifold is reported from then on, and (unless the engine is dying) a start attempt is scheduled without delay.", "quantifier": "every reachable state, name and manifold", "why_tests_cant": "Graphs and states are unbounded.", "anchors": ["dependency/engine.go:Install", "dependency/engine.go:gotInstall"]}
{"id": "C37", "title": "No worker outlives the engine", "statement": "When Engine.Wait returns, every start attempt has ended and every worker produced by a Start func has finished, except the engine's own self-manifold entry.", "quantifier": "every execution", "why_tests_cant": "Orphans would appear only under particular interleavings.", "anchors": ["dependency/engine.go:loop", "dependency/engine.go:allOthersStopped", "dependency/engine.go:runWorker"]}
{"id": "C38", "title": "Engine.Wait returns the worst fatal error, filtered", "statement": "Engine.Wait returns Filter applied to the left-to-right combination by WorstError of exactly the (manifold-filtered) fatal errors the engine processed, nil to start with.", "quantifier": "every execution, every IsFatal/WorstError/Filter", "why_tests_cant": "Order of failures is decided by the scheduler.", "anchors": ["dependency/engine.go:gotStopped", "dependency/engine.go:Wait"]}
{"id": "C39", "title": "Nothing is started once the engine is dying", "statement": "After the engine starts dying (Kill or fatal error) no new start attempt is scheduled for any manifold.", "quantifier": "every execution", "why_tests_cant": "Kill may land at any point inside any loop iteration.", "anchors": ["dependency/engine.go:requestStart", "dependency/engine.go:isDying"]}
{"id": "C40", "title": "ErrMissing and clean exits wait for an input change", "statement": "A manifold whose attempt ended with nil or ErrMissing (after filtering), and which was not told to stop, is not started again until the worker of one of its declared inputs has been registered or lost. Conversely, in a live engine an installed manifold without an open attempt is one of these: nothing else is left stopped.", "quantifier": "every execution", "why_tests_cant": "'Not until' ranges over all futures.", "anchors": ["dependency/engine.go:gotStopped", "dependency/engine.go:bounceDependents"]}
{"id": "C41", "title": "Other errors are retried", "statement": "While the engine is not dying, an attempt that was told to stop is followed at once by a new attempt with BounceDelay; otherwise ErrBounce gives a new attempt with BounceDelay, and any error other than ErrMissing, ErrUninstall or an aborted start gives a new attempt with ErrorDelay.", "quantifier": "every reachable state and error value, including wrapped errors", "why_tests_cant": "Error trees and states are unbounded.", "anchors": ["dependency/engine.go:gotStopped"]}
{"id": "C42", "title": "ErrUninstall removes the manifold", "statement": "A manifold whose attempt ends with ErrUninstall without having been told to stop disappears from the engine in that step, is never started again unless installed again, its dependents are told about the change, and every other manifold stays installed with its dependents intact.", "quantifier": "every execution", "why_tests_cant": "Ranges over all futures, including reinstalling the name.", "anchors": ["dependency/engine.go:uninstall", "dependency/engine.go:gotStopped"]}
{"id": "C43", "title": "Engine shutdown always completes", "statement": "Once dying, if Start funcs return and Kill()ed workers finish, the engine loop exits: no reachable dying state is stuck, and the number of remaining internal steps is bounded by a function of the state, as long as clients make no new Install/Report calls.", "quantifier": "every reachable dying state and every continuation", "why_tests_cant": "Deadlock freedom and termination quantify over all schedules.", "anchors": ["dependency/engine.go:loop", "dependency/engine.go:runWorker", "dependency/engine.go:requestStop"]}
{"id": "C44", "title": "Every worker is Kill()ed before the engine ends", "statement": "When the engine loop has handled dying, every registered worker has been Kill()ed and every worker that arrives later is Kill()ed on arrival; when the loop has exited, every worker produced by a Start func was Kill()ed or had finished on its own.", "quantifier": "every execution", "why_tests_cant": "Workers may be in any phase when dying begins.", "anchors": ["dependency/engine.go:loop", "dependency/engine.go:requestStop", "dependency/engine.go:gotStarted", "dependency/engine.go:runWorker"]}
{"id": "C45", "title": "Get sees only declared inputs, as they were when the attempt was scheduled", "statement": "Inside a Start func, Get(name, out) returns ErrMissing if name is not a declared input or its worker was not running when the attempt was scheduled; otherwise nil if out is nil; ErrMissing if it has no Output func; otherwise whatever Output returns on that worker. Concurrent engine activity never changes the answer, and after Start returns Get always fails.", "quantifier": "every snapshot, every interleaving of Get with engine activity", "why_tests_cant": "Isolation is a claim about all interleavings.", "anchors": ["dependency/snapshot.go:Get", "dependency/snapshot.go:rawAccess", "dependency/engine.go:snapshot"]}
{"id": "C46", "title": "Start counts are exact", "statement": "The start count reported for a manifold equals the number of its workers registered (Metrics.RecordStart calls) since it was last installed.", "quantifier": "every execution", "why_tests_cant": "Histories are unbounded.", "anchors": ["dependency/engine.go:gotStarted", "dependency/engine.go:gotStopped", "dependency/engine.go:manifoldsReport"]}
{"id": "C47", "title": "Reports show exactly the installed manifolds", "statement": "Engine.Report lists exactly the installed manifolds with their declared inputs and the state ('starting', 'stopping', 'started', 'stopped') matching the attempt or worker the engine has for them, their last error and, while a worker is registered, the time at which it was registered, and never recurses into the engine itself.", "quantifier": "every reachable state", "why_tests_cant": "State space is unbounded.", "anchors": ["dependency/engine.go:liveReport", "dependency/engine.go:manifoldsReport", "dependency/engine.go:workerInfo.state"]}
{"id": "C48", "title": "A goroutine of the self manifold may be left behind", "statement": "No goroutine of the engine survives its death. (False of the code when SelfManifold is installed: the loop may exit without receiving the self manifold's stop ticket, whose sender then blocks forever. Negation proved with a witness; without a registered self manifold the statement is proved.)", "quantifier": "every execution", "why_tests_cant": "Tests do not count goroutines.", "anchors": ["dependency/engine.go:allOthersStopped", "dependency/engine.go:runWorker", "dependency/util.go:SelfManifold"]}
{"id": "C49", "title": "Validate detects exactly the cycles", "statement": "Validate(manifolds) terminates and returns an error iff the dependency graph has a cycle (including self-dependency), whatever the map iteration order and whether or not inputs name missing manifolds.", "quantifier": "every finite set of manifolds and every iteration order", "why_tests_cant": "Graphs are unbounded, iteration order is random.", "anchors": ["dependency/util.go:Validate", "dependency/util.go:validator.run", "dependency/util.go:validator.visit"]}
{"id": "C50", "title": "dependency.Install is order-independent", "statement": "Installing a set of manifolds through dependency.Install into an engine succeeds for one iteration order iff it succeeds for every order, namely iff no name is taken and the combined graph is acyclic; on failure exactly a prefix of the iteration order has been installed.", "quantifier": "every set of manifolds, every engine state, every iteration order", "why_tests_cant": "n! orders.", "anchors": ["dependency/util.go:Install", "dependency/engine.go:gotInstall"]}
{"id": "C51", "title": "Dependents are exactly the declared inputs", "statement": "At every moment a manifold is bounced by a change of another iff it is installed and declares it as an input, also after uninstalls and reinstalls.", "quantifier": "every reachable state", "why_tests_cant": "Histories are unbounded.", "anchors": ["dependency/engine.go:gotInstall", "dependency/engine.go:uninstall", "dependency/engine.go:bounceDependents"]}
{"id": "C52", "title": "Restart delays are bounded", "statement": "For a valid config the delay used for an attempt lies within 10% (plus rounding to a millisecond) of base*factor^(recentErrors-1) capped at MaxDelay; with MaxDelay > 0 it never exceeds 1.1*MaxDelay plus rounding.", "quantifier": "every valid config, every error count, every fuzz value", "why_tests_cant": "Error counts are unbounded and fuzz is random.", "anchors": ["dependency/engine.go:requestStart", "dependency/engine.go:EngineConfig.Validate"]}
{"id": "C53", "title": "MaxDelay is the maximum delay", "statement": "The documentation says MaxDelay is the maximum delay the engine will wait. (False of the code: fuzzing after the cap can exceed it by 10%, and without MaxDelay the backoff overflows int64. Negations proved with witnesses.)", "quantifier": "every valid config, error count and fuzz value", "why_tests_cant": "Needs specific random values.", "anchors": ["dependency/engine.go:requestStart"]}
{"id": "C54", "title": "Backoff grows with consecutive errors", "statement": "Before fuzzing, the delay never decreases as recentErrors grows; recentErrors counts consecutive failures since the last reset and is reset to 1 (a fresh failure) by ErrMissing, an aborted start, or a run longer than BackoffResetTime, and to 0 by a clean exit.", "quantifier": "every valid config and every history of attempts", "why_tests_cant": "Histories are unbounded.", "anchors": ["dependency/engine.go:requestStart", "dependency/engine.go:gotStopped"]}
{"id": "C55", "title": "Config validation accepts exactly the usable configs", "statement": "NewEngine/NewRunner/Plan validation returns nil iff every documented requirement holds, and NewRunner replaces exactly the fields left out, by the documented defaults. (False of the code in two points, for which the negation is proved: a NaN BackoffFactor is accepted, and the default MoreImportant is not the documented one.)", "quantifier": "every config", "why_tests_cant": "Combinations are many; the iff needs all of them.", "anchors": ["dependency/engine.go:EngineConfig.Validate", "runner.go:RunnerParams.Validate", "catacomb/catacomb.go:Plan.Validate"]}
{"id": "C56", "title": "worker.Stop and worker.Dead follow the Worker contract", "statement": "Stop(w) Kill()s w before waiting and returns w's result; the channel from Dead(w) is closed only after w has finished, unless w supplies its own non-nil Dead channel, which is then returned.", "quantifier": "every worker and interleaving", "why_tests_cant": "Timing dependent.", "anchors": ["worker.go:Stop", "worker.go:Dead"]}
{"id": "C57", "title": "Stub getter behaves like the specification of Getter", "statement": "The testing Getter returns an error for unknown names, the configured error if any, nil for nil out, an error for non-pointers, and otherwise assigns the first convertible output, or an error listing all outputs.", "quantifier": "every resource table and every out", "why_tests_cant": "Tables are unbounded.", "anchors": ["dependency/testing/stub.go:Getter.Get"]}
{"id": "C58", "title": "Between inputs the runner comes to rest, and a blocked call waits for something named", "statement": "Without new calls, StartFunc returns, worker finishes or cancellations, the runner and its callers take only a bounded number of steps; and in every state where none of them can go on, each call has returned, or waits in Worker/StopAndRemoveWorker for a known id that has no worker yet, or waits for a worker to finish, or waits for the removal of a registration.", "quantifier": "every reachable state and every continuation, any number of callers", "why_tests_cant": "Absence of livelock and of unexpected blocking quantifies over all schedules.", "anchors": ["runner.go:run", "runner.go:workerInfo", "runner.go:StopAndRemoveWorker", "runner.go:StartWorker", "runner.go:StopWorker"]}
{"id": "C59", "title": "Helper goroutines of Worker() end with the runner", "statement": "When the runner has ended and nothing can go on, every helper goroutine made by workerInfo has returned. (Before that one may be left behind: the abort path broadcasts without holding the mutex, so an aborted call's helper can go to sleep after the broadcast and stay until the next one. Witness execution proved.)", "quantifier": "every execution, any number of callers", "why_tests_cant": "Needs a race between Broadcast and Wait; tests do not count goroutines.", "anchors": ["runner.go:workerInfo", "runner.go:run"]}
{"id": "C60", "title": "Catacomb callers are left waiting only for user code", "statement": "When none of the catacomb's goroutines or callers can go on without user code, an Add call that has not returned has Kill()ed its worker, which has not finished, or was made before any Invoke call got past the used check with nothing having killed the catacomb since; an Invoke call that has not returned is refusing its plan and waits for an Init worker it has Kill()ed; Kill and ErrDying never block; Wait returns once the catacomb is dead.", "quantifier": "every reachable state, any number of concurrent callers", "why_tests_cant": "Absence of unexpected blocking quantifies over all schedules.", "anchors": ["catacomb/catacomb.go:Add", "catacomb/catacomb.go:Invoke", "catacomb/catacomb.go:Wait", "catacomb/catacomb.go:Kill"]}
{"id": "C61", "title": "workertest's checks report what happened", "statement": "CheckAlive, CheckKilled, CheckKill, CleanKill, DirtyKill and CheckNilOrKill (of a worker that is not nil) return the worker's result only after it has finished, fail the test exactly when documented, call Kill first when documented, do not hang once the worker has finished or the timeout has fired, and their goroutine ends when the worker does.", "quantifier": "every worker, any number of concurrent checks of it, every interleaving of timeout and result", "why_tests_cant": "The timeout and the result race.", "anchors": ["workertest/check.go:CheckAlive", "workertest/check.go:CheckKilled", "workertest/check.go:CheckKill", "workertest/check.go:CleanKill", "workertest/check.go:DirtyKill", "workertest/check.go:CheckNilOrKill"]}
{"id": "C62", "title": "workertest's stub workers", "statement": "Wait of a stub worker returns the error given to its constructor; NewErrorWorker's only after Kill, NewForeverWorker's only after ReallyKill (Kill has no effect), NewDeadWorker's at once; and after the respective call Wait can always be reached.", "quantifier": "every error (for the last point: but tomb's own two), every sequence of concurrent calls", "why_tests_cant": "Sequences are unbounded.", "anchors": ["workertest/workers.go:NewErrorWorker", "workertest/workers.go:NewDeadWorker", "workertest/workers.go:NewForeverWorker"]}
{"id": "C63", "title": "SelfManifold hands out exactly its engine", "statement": "The Output func of SelfManifold sets an *Installer or *Reporter exactly if it is given the engine it was made for, and otherwise returns the error for the argument that is wrong.", "quantifier": "every worker and out", "why_tests_cant": "Small, but all combinations.", "anchors": ["dependency/util.go:SelfManifold"]}
{"id": "C64", "title": "The context a StartFunc is given", "statement": "When the StartFunc of an attempt or the worker it returned looks at its context, it is done exactly if the runner was killed, or the attempt is the first for its StartWorker call and the context given to that call is done (even after StartWorker has returned). Restarts do not depend on the caller's context, a fatal error does not cancel contexts, and a context that is done stays done.", "quantifier": "every execution of the runner, every attempt, any time", "why_tests_cant": "Whether a context is done depends on the order of Kill, cancellation, restarts and the shutdown.", "anchors": ["runner.go:StartWorker", "runner.go:runWorker", "runner.go:workerDone", "runner.go:startWorker"]}
{"id": "C65", "title": "A live engine settles, and then runs what it should", "statement": "In a calm environment (no Kill, no Install; Start funcs, unless told to stop, fail only with errors that are not retried at once; workers finish only after being told to) an engine takes a bounded number of steps. A live engine that has not settled (some open attempt has been told to stop, or has no registered running worker) can take one, or waits for a Start func or a worker it has Kill()ed. When a live engine has settled and Start funcs need all their inputs, the manifolds that have a worker are exactly the installed ones whose direct and indirect inputs are all installed.", "quantifier": "every reachable state, every dependency graph, every schedule", "why_tests_cant": "Convergence is about all schedules, over unbounded time, for every graph.", "anchors": ["dependency/engine.go:gotStarted", "dependency/engine.go:gotStopped", "dependency/engine.go:requestStart", "dependency/engine.go:bounceDependents", "dependency/engine.go:loop"]}
{"id": "C66", "title": "The engine stops nothing without a reason", "statement": "Whenever the engine cancels an attempt's context, it has been killed, or the attempt is outstanding and for one of its declared inputs was given another worker (or none) than the engine has now. Whenever it calls a worker's Kill, it has been killed, or an outstanding attempt that the worker belongs to has been told to stop. Exception: an attempt whose manifold lists an input twice may be told to stop for no reason.", "quantifier": "every cancellation and Kill call in every execution", "why_tests_cant": "A spurious bounce is only a restart more; tests that wait for the right state do not notice.", "anchors": ["dependency/engine.go:bounceDependents", "dependency/engine.go:requestStop", "dependency/engine.go:gotStarted", "dependency/engine.go:gotStopped", "dependency/engine.go:gotInstall"]}
{"id": "C67", "title": "Err and Context of a catacomb tell what has happened to it", "statement": "Err returns ErrStillAlive exactly as long as the catacomb has not been killed and afterwards the first error, never changing once it is one; Wait returns exactly when the catacomb is dead, and then what Err says. A context got from Context is done if and only if its parent is done or the catacomb has been killed, whether it was made before or after.", "quantifier": "every reachable state, any number of contexts and parents", "why_tests_cant": "Needs every interleaving of Kill, cancelling of parents and Context calls.", "anchors": ["catacomb/catacomb.go:Err", "catacomb/catacomb.go:Context", "catacomb/catacomb.go:Wait"]}
{"id": "C68", "title": "The fake watcher behaves like the channel it is", "statement": "NewFakeWatcher panics exactly if the values do not fit the length. No value is made up or lost: those sent (preloaded or by Ping) and not yet received are between 0 and the length. Ping returns only before Close and panics only because of it, blocks only when the channel is full and nobody receives; a receive finds the channel closed only after Close and only when everything has been received; Close panics exactly the second time.", "quantifier": "every length and preload, every sequence of Ping, receive and Close calls", "why_tests_cant": "Lengths, counts of calls and their orders are unbounded.", "anchors": ["workertest/fake_watcher.go:NewFakeWatcher", "workertest/fake_watcher.go:Ping", "workertest/fake_watcher.go:Close", "workertest/fake_watcher.go:Changes"]}
{"id": "C69", "title": "The context a manifold's Start func is given", "statement": "The context of a start attempt is done if and only if the engine has been killed or the attempt has been told to stop. In particular nothing cancels the context of an attempt that ended by itself, before the engine is killed, and such contexts can pile up without bound.", "quantifier": "every reachable state of every engine; for the pile-up every number", "why_tests_cant": "That something never happens afterwards, and that something is unbounded, cannot be observed in finitely many runs.", "anchors": ["dependency/engine.go:requestStart", "dependency/engine.go:scopedContext", "dependency/engine.go:requestStop", "dependency/engine.go:gotStopped"]}
{"id": "C70", "title": "What Worker looks at does not change under its hands", "statement": "At most one helper goroutine of Worker/StopAndRemoveWorker calls holds the runner's mutex. From its look at the table until it is asleep on the condition variable, no step of anybody registers or removes an id, gives the runner a worker or takes it away, or makes a report.", "quantifier": "every reachable state, any number of concurrent calls, every next step", "why_tests_cant": "A lost wakeup needs one exact interleaving between the check and the wait.", "anchors": ["runner.go:workerInfo", "runner.go:Report", "runner.go:WorkerNames"]}
{"id": "C71", "title": "The restart delay is kept", "statement": "With a clock that goes up: after the runner has handled the end of an attempt, the StartFunc of the same registration is not called again before RestartDelay has passed since; the first attempt of a registration is not delayed; and once the delay is over the attempt can go on whatever else is happening.", "quantifier": "every execution against every clock, all RestartDelay values", "why_tests_cant": "Tests use one clock and one delay; that no execution calls a StartFunc early is a statement about all.", "anchors": ["runner.go:runWorker", "runner.go:workerDone", "runner.go:startWorker"]}
{"id": "C72", "title": "The time Report gives for a worker", "statement": "The 'started' time Runner.Report gives for a worker is the time at which the StartWorker request that registered it was accepted, and nothing is given if that is the zero time. (It is not the time of its last start: a restart does not change it; a witness is proved.)", "quantifier": "every report in every execution against every clock", "why_tests_cant": "Needs all executions with restarts between registration and report.", "anchors": ["runner.go:Report", "runner.go:startWorker"]}
{"id": "C73", "title": "A catacomb leaves no goroutine behind", "statement": "In any state in which nothing can happen without user code, the two goroutines a catacomb started for a tracked worker have both ended if that worker has finished, and are both there otherwise; and its WaitGroup counts exactly these and the listen goroutine, which ends when the catacomb is killed.", "quantifier": "every reachable state at rest, any number of workers", "why_tests_cant": "A leaked goroutine has no effect a test looks at, and at rest in all executions cannot be enumerated.", "anchors": ["catacomb/catacomb.go:add", "catacomb/catacomb.go:Invoke"]}
{"id": "C74", "title": "The delay before an engine's start attempt", "statement": "The base delay of a new attempt is 0 exactly directly after the manifold was installed; ErrorDelay exactly directly after an attempt of the manifold ended that was not told to stop, with an error that does not wrap ErrBounce; and BounceDelay otherwise.", "quantifier": "every attempt in every execution", "why_tests_cant": "Tests look at a few restarts with a fake clock; which delay is used depends on all of what happened in the same step.", "anchors": ["dependency/engine.go:gotInstall", "dependency/engine.go:gotStopped", "dependency/engine.go:bounceDependents", "dependency/engine.go:requestStart"]}
{"id": "C75", "title": "Stopping an engine's attempt does not wait for its delay", "statement": "In any state in which nothing can happen without user code or the end of a delay, no attempt that is still in its delay has been told to stop, and if there is such an attempt the engine has not been killed. A dying engine exits without waiting for any delay.", "quantifier": "every reachable state", "why_tests_cant": "Delays are real time; a test cannot tell in all executions that none of them was waited for.", "anchors": ["dependency/engine.go:runWorker", "dependency/engine.go:requestStop", "dependency/engine.go:loop"]}
{"id": "C76", "title": "What the shutdown of a runner waits for", "statement": "Kill interrupts every restart delay. A runner that is shutting down because of a fatal error, however, waits for the end of the delays of workers about to be restarted, and even calls their StartFuncs, only to kill the workers; and StopWorker does not interrupt a delay either. Apart from that, a shutdown waits for nothing but StartFuncs to return and killed workers to finish.", "quantifier": "every reachable state; witness executions for the two delays that are waited for", "why_tests_cant": "The tests kill runners or use no delays; the wait after a fatal error needs a second worker in its delay.", "anchors": ["runner.go:runWorker", "runner.go:run", "runner.go:killAll", "runner.go:workerDone"]}
{"id": "C77", "title": "Nothing a program may do is refused or delayed", "statement": "In every state Kill can be called on a runner, catacomb and engine and returns at once (a catacomb's may panic, see C07), and StartWorker, StopWorker, Worker, StopAndRemoveWorker, Invoke, Add and ErrDying can be called with every argument. Runner.Report and WorkerNames wait for no worker and no StartFunc; Engine.Install and Report are served whenever the engine's loop is there. A Start func or work func that has been called can return anything at any moment, and a worker can finish with any result at any moment.", "quantifier": "every reachable state, every argument, every result", "why_tests_cant": "Calls at every possible moment of every execution cannot be enumerated; it also says that the theorems about all executions leave none out.", "anchors": ["runner.go:Kill", "runner.go:Report", "runner.go:WorkerNames", "catacomb/catacomb.go:Kill", "catacomb/catacomb.go:Invoke", "dependency/engine.go:Kill", "dependency/engine.go:loop"]}
{"id": "C78", "title": "What happens sooner or later in a runner", "statement": "In every infinite execution in which no step of the runner, of its goroutines or of its clients' calls that could be taken again and again is passed over for ever: a runner that has been killed or has had a fatal error stops, if every StartFunc returns and every worker the runner kills finishes, no matter how many calls are made meanwhile; every call of StartWorker and StopWorker returns; every call of Worker and StopAndRemoveWorker returns unless it waits for a worker of an id that again and again has none, for the end of a worker it has killed, or for a removal that does not happen or of which another call has been told; and every attempt to run a worker ends unless its StartFunc never returns or its worker never finishes.", "quantifier": "every infinite fair execution", "why_tests_cant": "Infinite executions cannot be tested at all.", "anchors": ["runner.go:run", "runner.go:runWorker", "runner.go:StartWorker", "runner.go:StopWorker", "runner.go:StopAndRemoveWorker", "runner.go:Worker", "runner.go:workerInfo"]}
{"id": "C79", "title": "What happens sooner or later in a catacomb", "statement": "In every infinite execution in which no step of the catacomb's goroutines or of a call that could be taken again and again is passed over for ever: every Invoke call returns unless it has killed an Init worker that never finishes; every Add call returns unless it has killed its worker, which never finishes, or it was made before Invoke and the catacomb is never killed; the error of every worker of the catacomb reaches it; every worker of a dying catacomb is killed unless it finishes by itself; and once the work func has returned or panicked, the catacomb dies if every worker it kills finishes, no matter how many Add calls are made meanwhile.", "quantifier": "every infinite fair execution", "why_tests_cant": "Infinite executions cannot be tested at all; a stream of Add calls that keeps the listen goroutine busy for ever is beyond any test.", "anchors": ["catacomb/catacomb.go:Invoke", "catacomb/catacomb.go:Add", "catacomb/catacomb.go:add", "catacomb/catacomb.go:Kill", "catacomb/catacomb.go:Wait"]}
{"id": "C80", "title": "What happens sooner or later in an engine", "statement": "In every infinite execution in which no step of the engine's goroutines that could be taken again and again is passed over for ever: an engine that has been killed (by Kill, by a fatal error, or as its own worker) exits if every Start func whose context has been cancelled returns and every worker that has been killed finishes, no matter how often it is killed again, asked for reports or given manifolds meanwhile, and even if no delay ever ends. If moreover delays end, every attempt to start a manifold ends unless its Start func never returns, its worker never finishes or is the engine itself; every attempt that has been told to stop ends or the engine exits; and once nothing is installed any more and Start funcs and workers fail only when told to stop or for lack of an input, the engine settles for good, with a worker for exactly those manifolds all of whose inputs, direct and indirect, are installed.", "quantifier": "every infinite fair execution", "why_tests_cant": "Infinite executions cannot be tested at all; a client that keeps the loop busy for ever is beyond any test.", "anchors": ["dependency/engine.go:loop", "dependency/engine.go:runWorker", "dependency/engine.go:gotStarted", "dependency/engine.go:gotStopped", "dependency/engine.go:requestStart", "dependency/engine.go:requestStop"]}
{"id": "C81", "title": "An engine's guarantees do not depend on when its loop is interrupted", "statement": "Let the engine's loop goroutine be interrupted between any two pieces of its work: between the receive of a ticket and each start, each removal, each manifold told to stop, the building of a report and the final check, Start funcs may be called and return, Get may be called, workers may finish and Kill may land. Then still: one attempt at a time for each manifold, which ends with what its Start func or worker returned; no internal error; Wait, Report, Get, snapshots, delays, error counts, uninstalling and the exit are as stated for the engine; nothing is begun after Kill; nothing is stopped without a reason; once dying has been handled everything is told to stop. At any moment an attempt not told to stop was given exactly its inputs' current workers, or the loop has noted to deal with it in the arm it is in; so when the loop is at its select there is no exception. The loop always gets back to its select without waiting for anybody. Every execution in which the arms are atomic is one of these.", "quantifier": "every execution of the engine with an interrupted loop", "why_tests_cant": "The window between two statements of the loop is a few nanoseconds; tests practically never hit it.", "anchors": ["dependency/engine.go:loop", "dependency/engine.go:gotInstall", "dependency/engine.go:gotStarted", "dependency/engine.go:gotStopped", "dependency/engine.go:requestStart", "dependency/engine.go:requestStop", "dependency/engine.go:bounceDependents"]}
{"id": "C82", "title": "A tree of workers stops as a whole", "statement": "Let runners, catacombs and engines run each other and other workers, in a tree of any depth and width, each in an infinite execution in which nothing that could go on is passed over for ever, a worker being told to stop when its parent calls its Kill method and its Wait method returning when it has ended. If start funcs return, the work func of a dying catacomb returns or panics, and the workers of other kinds end when killed, then every worker that is told to stop ends, and by then all the workers below it, direct and indirect, that it or they ever took over have ended. An error of a worker of a catacomb has the same effect on the catacomb and everything below it.", "quantifier": "every tree of workers and every infinite fair execution of each of them", "why_tests_cant": "A test tries one tree and one schedule; the statement is about every composition.", "anchors": ["runner.go:run", "runner.go:Kill", "runner.go:Wait", "catacomb/catacomb.go:Invoke", "catacomb/catacomb.go:Kill", "catacomb/catacomb.go:Wait", "dependency/engine.go:loop", "dependency/engine.go:Kill", "dependency/engine.go:Wait"]}
{"id": "C83", "title": "Restart delays are right in floating point", "statement": "With every operation rounded to a float64, results too large for one infinite, and math.Pow off by some relative error η of at most 1%, the delay used for an attempt to start a manifold is within 10% of base delay times BackoffFactor^(errors-1), capped at MaxDelay, up to half a millisecond, 5 ns and a relative error of 3η + 2^-47, and is never negative, provided 1.2 times that fits an int64. With backoff and a MaxDelay it never exceeds 1.1 times MaxDelay by more than that, however many errors there have been, even when the power overflows to infinity.", "quantifier": "every floating point unit with these error bounds, every valid config, base delay, error count and random number", "why_tests_cant": "Rounding errors and overflow depend on the operands; a test tries a few.", "anchors": ["dependency/engine.go:requestStart"]}
{"id": "C84", "title": "Restarts of manifolds in real time", "statement": "Whatever else an engine is doing, the base delay of an attempt to start a manifold depends only on what happened to that manifold: none directly after its installation, ErrorDelay after an attempt that failed by itself, BounceDelay otherwise. Against a clock: after an attempt of a manifold has ended, its Start func is not called again before the delay computed from that base delay and the number of failures, counted by the clock, has passed; once it has, the call can be made, whatever the loop is doing. Unless the manifold is installed anew, two calls of its Start func are at least the smallest delay apart, so that in any stretch of time from a to b there are at most (b-a)/m + 1 of them, m being, with the engine's delay formula, 90% of the smaller of ErrorDelay and BounceDelay, each divided once by BackoffFactor and capped at MaxDelay, less half a millisecond.", "quantifier": "every config, every execution with the loop interruptible between any two pieces of its work, every clock that does not go backwards", "why_tests_cant": "Tests with a fake clock check single delays; a bound on the rate of restarts is about all executions.", "anchors": ["dependency/engine.go:requestStart", "dependency/engine.go:gotStarted", "dependency/engine.go:gotStopped", "dependency/engine.go:runWorker", "dependency/engine.go:bounceDependents"]}
{"id": "C85", "title": "The runner's table of workers is used only under its mutex", "statement": "Outside the runner's run goroutine, only Report, WorkerNames, Worker and StopAndRemoveWorker (with the helper goroutine of the last two) use the table of workers, and they do so in a step that takes the mutex when nobody holds it; they use neither the StartFunc nor the restart delay of an entry, nor isDying nor finalError. Only the run goroutine changes any of these. What the others read changes only in a step in which the run goroutine takes the mutex, and not while a helper holds it.", "quantifier": "every state and step of the runner", "why_tests_cant": "A data race shows only under one interleaving, and then only under the race detector.", "anchors": ["runner.go:workerInfo", "runner.go:startWorker", "runner.go:workerDone", "runner.go:removeWorker", "runner.go:setWorker", "runner.go:killAll", "runner.go:killWorkerLocked", "runner.go:Report", "runner.go:WorkerNames"]}
{"id": "C86", "title": "The engine's tables belong to its loop goroutine", "statement": "Whatever the loop goroutine of an engine is in the middle of, a step of any other goroutine does the same whatever the tables of manifolds, dependents and current workers, worstError and oneShotDying hold, and changes none of them. Once the engine is dead the loop goroutine does nothing more, so that Wait and Report may read them.", "quantifier": "every execution of the engine with an interrupted loop", "why_tests_cant": "A data race shows only under one interleaving, and then only under the race detector.", "anchors": ["dependency/engine.go:loop", "dependency/engine.go:Report", "dependency/engine.go:Wait", "dependency/engine.go:runWorker", "dependency/snapshot.go:Get"]}
{"id": "C87", "title": "The report of a stopped engine", "statement": "Once an engine has exited, and not before, Report answers without the loop. The report then has the error that Wait returns and exactly one line for each manifold installed when it stopped, with its inputs, start count and last error; every manifold is reported as stopped, without a start time, except one whose worker is the engine itself; no worker's own report is included; and everyone who calls Report later gets the same.", "quantifier": "every execution of the engine with an interrupted loop", "why_tests_cant": "Reports after the end are rarely looked at in tests, and only in a few states.", "anchors": ["dependency/engine.go:Report", "dependency/engine.go:manifoldsReport", "dependency/engine.go:Wait", "dependency/engine.go:allOthersStopped"]}
{"id": "C88", "title": "While a worker's Kill runs in killAll the runner stands still", "statement": "A runner that shuts down calls its workers' Kill one after the other, holding its mutex. Until the Kill at hand returns, whatever else happens: no StartWorker or StopWorker request is handled, no start attempt is scheduled, learned of or ended, no worker is told to stop, no id is removed, Report and WorkerNames do not return, and a call of StopWorker, Worker or StopAndRemoveWorker made meanwhile does not return. So a worker whose Kill calls one of these on its own runner (or waits for somebody who does) deadlocks it.", "quantifier": "for every reachable state in killAll and every execution from it in which the Kill does not return", "why_tests_cant": "A test would have to block a Kill for good and then show that something never happens.", "anchors": ["runner.go:killAll", "runner.go:killWorkerLocked", "runner.go:workerInfo", "runner.go:Report", "runner.go:WorkerNames", "runner.go:StopWorker"]}
{"id": "C89", "title": "User code that does not return keeps its manager from ending", "statement": "From the moment a Start func has been called and as long as it does not return, and from the moment a worker has been started and as long as it does not finish: the engine or runner that started it does not end and its Wait does not return, whatever else happens; the attempt stays open, no other attempt is made for that manifold or id, and the manifold is not uninstalled, the id not removed. (A Start func given to an engine, or a worker's Wait, that calls runtime.Goexit is among these.) There is no timeout.", "quantifier": "every execution of the engine with an interrupted loop and of the runner, every point of it, every continuation without the return or the end", "why_tests_cant": "A test cannot show that something never happens in any continuation.", "anchors": ["dependency/engine.go:runWorker", "dependency/engine.go:gotStopped", "dependency/engine.go:allOthersStopped", "runner.go:runWorker", "runner.go:workerDone"]}
{"id": "C90", "title": "While a worker's Report or Kill runs under the runner's mutex", "statement": "Report of a runner calls the workers' own Report, and StopWorker (as well as the start of a worker that was told to stop meanwhile) a worker's Kill, holding the runner's mutex. However long these take, everything proved of a runner in which they take no time holds. Until a nested Report returns, whatever else happens: no StartWorker request is accepted, no StopWorker request handled, the runner hears of no new worker, tells nobody to stop and removes no id, no other Report or WorkerNames returns, and a call of Worker or StopAndRemoveWorker made meanwhile does not return. What Report returns is how things were when it took the mutex. Until a Kill returns, moreover, the loop does nothing at all and no call of StopWorker returns. So a worker whose Report or Kill calls its own runner deadlocks it.", "quantifier": "every reachable state of the runner with such a call under way, every execution from it in which the call does not return", "why_tests_cant": "A test would have to block a Report or Kill for good and then show that something never happens.", "anchors": ["runner.go:Report", "runner.go:killWorker", "runner.go:killWorkerLocked", "runner.go:setWorker", "runner.go:workerInfo", "runner.go:WorkerNames"]}
{"id": "C91", "title": "While a worker's Kill or Report runs in the engine's loop", "statement": "The engine's loop goroutine itself calls the workers' Kill and, to answer a Report call, their own Report. While it is in the middle of that, whatever else happens and however long it takes: no manifold is installed and no Install call answered (it is refused once the engine has been killed), no start attempt is made, no worker registered, no attempt told to stop or known to have ended, no manifold uninstalled, no Report call is answered and the engine does not end. Other goroutines go on: Start funcs are called and return, workers finish. So a worker whose Kill or Report calls Report on the engine deadlocks it, and one that calls Install blocks it until somebody kills the engine.", "quantifier": "every execution of the engine with an interrupted loop, every point in the middle of an arm, every execution from there in which the loop goroutine does not go on", "why_tests_cant": "A test would have to block a Kill or Report for good and then show that something never happens.", "anchors": ["dependency/engine.go:loop", "dependency/engine.go:requestStop", "dependency/engine.go:gotStarted", "dependency/engine.go:manifoldsReport", "dependency/engine.go:liveReport", "dependency/engine.go:Install", "dependency/engine.go:Report"]}
{"id": "C92", "title": "Restarting a manifold whose worker is the engine itself ends the engine", "statement": "A manifold's Start func may return the engine that runs it (SelfManifold makes one that does, without inputs; the caller may add some). When the engine then calls Kill on that worker, it is itself killed then and there. So as long as the engine has not been killed, whenever its loop is at its select, such a manifold has not been told to stop and every one of its inputs still has the very worker, or lack of one, that it had when the manifold was started: any change of an input, an ordinary failure for instance, shuts the engine down, with the result nil if there was no fatal error. The Start func is not called a second time, and the attempt does not end before the engine has been killed.", "quantifier": "every execution of the engine with an interrupted loop", "why_tests_cant": "Tests of SelfManifold have no inputs, and none of them waits for what never happens.", "anchors": ["dependency/engine.go:requestStop", "dependency/engine.go:bounceDependents", "dependency/engine.go:gotStarted", "dependency/engine.go:runWorker", "dependency/util.go:SelfManifold"]}
{"id": "C93", "title": "Wait always gives the same answer", "statement": "Whatever Wait of a runner or of an engine returns once, it returns to every later caller, whatever is called in between (Kill, StartWorker, Install, ...). The stub workers' Wait returns the error they were made with, every time; made with tomb.ErrDying or tomb.ErrStillAlive, NewErrorWorker and NewForeverWorker never let Wait return, and the call that should end them panics. (A catacomb's answer may change once, from nil to an error: see the property on Kill after death.)", "quantifier": "every reachable state of runner, engine and stub workers, every execution from it", "why_tests_cant": "Tests call Wait once or twice.", "anchors": ["runner.go:Wait", "runner.go:Kill", "dependency/engine.go:Wait", "dependency/engine.go:Kill", "workertest/workers.go:NewErrorWorker", "workertest/workers.go:ReallyKill", "workertest/workers.go:NewDeadWorker"]}
{"id": "C94", "title": "Exactly which histories a catacomb can have", "statement": "A sequence of observable events (calls and returns of Invoke and Add, Kill calls by the catacomb on workers, workers finishing, the start and return of the work func, Kill calls and their panics, ErrDying, death, Wait results) is the history of some execution of a catacomb if and only if each event satisfies the stated condition on the events before it. The condition of each event is a few lines in terms of the API: so the specification is not only respected but complete, and whatever is true of every execution follows from it.", "quantifier": "every finite sequence of events (in both directions), every catacomb", "why_tests_cant": "Completeness of a specification speaks of all sequences of events, of arbitrary length and any number of workers and callers.", "anchors": ["catacomb/catacomb.go:Invoke", "catacomb/catacomb.go:Add", "catacomb/catacomb.go:add", "catacomb/catacomb.go:Kill", "catacomb/catacomb.go:ErrDying", "catacomb/catacomb.go:Wait", "catacomb/catacomb.go:Validate", "catacomb/catacomb.go:stopWorkers", "catacomb/catacomb.go:runSafely"]}
{"id": "C95", "title": "Exactly which histories a runner can have", "statement": "A sequence of observable events (calls and returns of StartWorker, StopWorker, Worker and StopAndRemoveWorker, decisions about requests, calls of start functions and what they return, workers finishing, Kill calls on workers, removals, shutdown, Report and WorkerNames answers, what contexts say, cancellations, Kill, exit) is the history of some execution of a runner if and only if each event satisfies the stated condition on the events before it and what the last ones bring about has happened. So the specification is not only respected but complete: whatever is true of every execution follows from it. For a lookup it says that the answer comes from one moment during the call at which the table was consistent, that dying is only checked if it did not have to wait, and that of several StopAndRemoveWorker calls for one registration only one is told that it is gone.", "quantifier": "every finite sequence of events (in both directions), all runner parameters", "why_tests_cant": "Completeness of a specification speaks of all sequences of events, of arbitrary length and any number of workers and callers.", "anchors": ["runner.go:run", "runner.go:StartWorker", "runner.go:StopWorker", "runner.go:startWorker", "runner.go:workerDone", "runner.go:setWorker", "runner.go:killWorkerLocked", "runner.go:runWorker", "runner.go:Report", "runner.go:WorkerNames", "runner.go:Worker", "runner.go:workerInfo", "runner.go:StopAndRemoveWorker"]}
{"id": "C96", "title": "Exactly which histories an engine can have", "statement": "A sequence of observable events (manifolds installed, refused or uninstalled, attempts made with their delays and the inputs they are given, calls of Start funcs, of Get and what they return, workers registered, told to stop, Kill()ed, finished, attempts ended, reports, Kill, exit) is the history of some execution of an engine, whose loop can be interrupted anywhere, if and only if each event satisfies the stated condition on the events before it and what has to follow the last one at once has happened. The condition refers to the history and to three things that it does not say: what the loop still has to do, in which order dependents are told, and whether a worker has been refused. So the specification is not only respected but complete: whatever is true of every execution follows from it. It says for instance that everything in one arm of the loop happens in order and before anything in the next, that a Kill landing in the middle stops starts but not stops, that an engine that dies while the only worker left is the engine itself does not exit before it has told that manifold to stop, and exactly which errors an attempt may end with.", "quantifier": "every finite sequence of events (in both directions), all engine configurations", "why_tests_cant": "Completeness of a specification speaks of all sequences of events, of arbitrary length and any number of manifolds.", "anchors": ["dependency/engine.go:loop", "dependency/engine.go:gotInstall", "dependency/engine.go:uninstall", "dependency/engine.go:requestStart", "dependency/engine.go:runWorker", "dependency/engine.go:gotStarted", "dependency/engine.go:gotStopped", "dependency/engine.go:requestStop", "dependency/engine.go:bounceDependents", "dependency/engine.go:allOthersStopped", "dependency/engine.go:liveReport", "dependency/engine.go:Install", "dependency/engine.go:Kill", "dependency/snapshot.go:Get"]}
{"id": "C97", "title": "What happens sooner or later in an engine whose loop can be interrupted anywhere", "statement": "The engine's loop does its work piece by piece, and between any two pieces any other goroutine may move: Kill may land, Start funcs may be called, ask for inputs and return, workers may finish. In every infinite execution in which no step of the engine's goroutines (the next piece of the loop's work included) that could be taken again and again is passed over for ever: an engine that has been killed exits if every Start func whose context has been cancelled returns and every worker that has been killed finishes, whatever its clients do meanwhile and even if no delay ever ends; under the same conditions every attempt that has been told to stop ends or the engine exits; if delays end, every attempt to start a manifold ends unless its Start func never returns, its worker never finishes or is the engine itself; and once nothing is installed any more and Start funcs and workers fail only when told to stop or for lack of an input, the engine settles for good, with a worker for exactly those manifolds all of whose inputs, direct and indirect, are installed.", "quantifier": "every infinite fair execution of the engine with a loop that can be interrupted anywhere, all configurations, any number of manifolds", "why_tests_cant": "Infinite executions cannot be tested at all, and the interleavings of the loop's pieces of work with everything else are unbounded in number.", "anchors": ["dependency/engine.go:loop", "dependency/engine.go:runWorker", "dependency/engine.go:gotStarted", "dependency/engine.go:gotStopped", "dependency/engine.go:requestStart", "dependency/engine.go:requestStop", "dependency/engine.go:bounceDependents", "dependency/engine.go:uninstall", "dependency/engine.go:allOthersStopped"]}
{"id": "C98", "title": "Get, the end of the Start func and the access log, access by access", "statement": "What Get returns is determined by the tables copied before the Start func was called: an input that is not declared or had no worker is ErrMissing, a nil out parameter then asks for no more, an input without Output func is ErrMissing, otherwise the Output func decides; a call made after the snapshot has expired is refused and does not touch the access log, and a call that is in progress when it expires may be answered either way. If the calls of Get made in the Start func do not overlap and have returned when the Start func returns (which is so if only the goroutine that runs the Start func calls Get), no two goroutines are ever about to use the log at once with one of them writing it, and the log passed to the engine with the started and stopped tickets lists exactly the calls, with their results, in order. Without that, both fail: the source comment that letting the started worker use its Getter for a moment 'won't cause data races anyway' is refuted by an execution in which a call of Get is about to write the log while runWorker is about to read it, and overlapping calls can lose entries.", "quantifier": "every execution of a snapshot's users, one access to shared memory at a time: any number of goroutines calling Get, all tables, all Output funcs", "why_tests_cant": "Data races are about every interleaving of single memory accesses; a test sees one, and the racy window after Start returns is a few instructions long.", "anchors": ["dependency/snapshot.go:Get", "dependency/snapshot.go:expire", "dependency/snapshot.go:rawAccess", "dependency/engine.go:runWorker"]}
{"id": "C99", "title": "How often a manifold or a worker is started", "statement": "An engine whose loop can be interrupted anywhere begins an attempt of a manifold at most once for each time that the manifold was installed, that it ended by itself with an error after which it is tried again, or that one of its declared inputs was registered or lost. Hence in an engine from which nothing was removed the number of attempts of a manifold is at most any b(n) such that b(n) is at least the manifold's own installs and failures plus twice the sum of b over its inputs; there always is a least such b (the graph has no cycles), and the bound is reached. A runner begins exactly one attempt for each StartWorker call it accepts and for each end with an error after which the worker is run again and it had not been told to stop.", "quantifier": "every execution of the engine with a loop that can be interrupted anywhere and of the runner, any number of manifolds and workers, any graph", "why_tests_cant": "Counting restarts against their causes is a statement about executions of every length; a superfluous restart shows only in rare interleavings, for instance when an input comes and goes while its dependent is being told.", "anchors": ["dependency/engine.go:requestStart", "dependency/engine.go:gotInstall", "dependency/engine.go:gotStarted", "dependency/engine.go:gotStopped", "dependency/engine.go:bounceDependents", "dependency/engine.go:requestStop", "runner.go:startWorker", "runner.go:workerDone"]}
{"id": "C100", "title": "Calls on an engine", "statement": "Any number of goroutines call Install, Report and Wait on an engine whose loop can be interrupted anywhere; the result of a call served by the loop is handed over on an unbuffered channel. Every execution with clients is one of the engine, and every execution of the engine is one with clients. A call returns at most once. Each answer of the loop (installed, already installed, a cycle, a report) is given to a call that is open and asks for it, is true of the history at that moment, which lies within the call, and is what that call returns; until then the loop does nothing but begin the first attempt of a manifold just installed. Install returns nil only when that attempt has begun or the engine is dying, and returns that the engine is shutting down only when it was killed; Report gives the final report, and Wait returns, only when the loop has returned, with the filtered worst error. As many manifolds have been installed as Installs have returned nil, but for one that is being handed over. While an Install or Report has not returned, something can be done about it without any user code, and in every fair infinite execution it returns, whatever Start funcs and workers do; a Wait returns if the engine exits.", "quantifier": "every finite and every fair infinite execution of an engine and its clients: any number of calls, overlapping in any way, all configurations", "why_tests_cant": "Whether an answer reaches the caller that asked for it, and whether every caller is answered, depends on every interleaving of any number of callers with the loop, Kill and the end of the engine, and on infinite executions.", "anchors": ["dependency/engine.go:Install", "dependency/engine.go:Report", "dependency/engine.go:Wait", "dependency/engine.go:loop", "dependency/engine.go:gotInstall", "dependency/engine.go:liveReport", "dependency/engine.go:manifoldsReport", "dependency/engine.go:checkAcyclic"]}
{"id": "C101", "title": "Where an engine settles depends only on what is installed", "statement": "In every infinite execution of an engine whose loop can be interrupted anywhere: if from some moment on nothing is installed and no manifold ends by itself with an error after which it is tried again, then from some moment on no attempt begins or ends, no worker is registered or lost and nothing is removed; this needs no fairness, and workers may end cleanly whenever they like. If moreover the engine is not killed, the scheduler is fair, delays end, Start funcs return and killed workers finish, the engine settles for good. Let a policy say of each manifold whether it keeps a worker, given which of its declared inputs have one (it need not be monotone: a manifold may want an input to be absent). For each set of installed manifolds exactly one set of manifolds fits the policy, and a live engine that has settled has workers for exactly those, if Start funcs and workers follow the policy. So two engines with the same manifolds settle in the same way, no matter in which order things were installed, started, failed and restarted, and every fair execution comes to it.", "quantifier": "every finite and every infinite execution of the engine with an interruptible loop, any number of manifolds, any graph, any policy, any two configurations", "why_tests_cant": "Independence of the order compares all pairs of executions, of any length, and settling is about infinite ones; a test compares a few runs.", "anchors": ["dependency/engine.go:loop", "dependency/engine.go:gotStarted", "dependency/engine.go:gotStopped", "dependency/engine.go:bounceDependents", "dependency/engine.go:requestStart", "dependency/engine.go:requestStop"]}
{"id": "C102", "title": "Exactly which logs an engine and its clients can have", "statement": "A log of everything that an engine whose loop can be interrupted anywhere does, and of all Install, Report and Wait calls on it with their returns, is the log of some execution if and only if each entry is possible after those before it: a client calls at any time; the loop, when ready, takes any open call and decides the answer that is right at that moment; it hands the answer over when it has done what follows from it, and neither becomes ready nor returns before; an Install that was not taken returns that the engine is shutting down at any time after the engine was killed; Report and Wait calls return with the final report and result at any time after the loop returned; all else happens exactly as if there were no calls. So no implementation behaving like this one can be told apart from it by its clients, whatever is true of all executions follows from this account, and calls restrict the engine's own histories in no way.", "quantifier": "every log, of any length, of any number of calls overlapping in any way, and every execution, in both directions; all configurations", "why_tests_cant": "That a specification is complete says that every log it allows happens in some schedule; a test finds one log at a time, and the schedules that produce rare ones have to be constructed.", "anchors": ["dependency/engine.go:Install", "dependency/engine.go:Report", "dependency/engine.go:Wait", "dependency/engine.go:loop", "dependency/engine.go:gotInstall", "dependency/engine.go:liveReport", "dependency/engine.go:gotStarted", "dependency/engine.go:gotStopped"]}
{"id": "C103", "title": "Every execution can be continued fairly", "statement": "Nothing that can happen in finite time is excluded by what the theorems about infinite executions assume. Every finite execution of an engine whose loop can be interrupted anywhere, of an engine with its clients, of a runner, and of a catacomb whose users supply no error that Kill forbids, is the beginning of an infinite one in which no step of the component that is possible again and again is passed over for ever, delays end, every Start func returns, every worker that is Kill()ed finishes and the work func of a dying catacomb returns. What Start funcs return and workers and the work func end with can be prescribed in advance, as any function of what has happened, and nobody need call anything meanwhile. So each of them can be brought to its end, or each call to its return, from wherever it is.", "quantifier": "every finite execution of the engine, the engine with clients, the runner and the catacomb; every choice of what user code returns", "why_tests_cant": "That assumptions about infinite executions can always be met is a statement about the existence of infinite schedules after every finite execution; a test runs for a finite time.", "anchors": ["dependency/engine.go:loop", "dependency/engine.go:runWorker", "runner.go:run", "runner.go:runWorker", "catacomb/catacomb.go:Invoke", "catacomb/catacomb.go:add"]}
{"id": "C104", "title": "Stopping an engine returns", "statement": "Kill an engine while any number of goroutines call Install, Report and Wait on it. If the scheduler is fair, every Start func returns whose context has been cancelled, and every worker that was Kill()ed finishes, then the loop returns, and every call that was or is made returns, those of Wait included: worker.Stop(engine) returns, and so does whoever waits for the engine. No delay need end, no client need do anything.", "quantifier": "every fair infinite execution of an engine whose loop can be interrupted anywhere together with its clients: any number of calls at any time, any graph, all configurations", "why_tests_cant": "Whether a stop always comes to an end is about infinite executions and every interleaving of the shutdown with calls and with attempts in any stage.", "anchors": ["dependency/engine.go:Kill", "dependency/engine.go:Wait", "dependency/engine.go:Install", "dependency/engine.go:Report", "dependency/engine.go:loop", "dependency/engine.go:requestStop", "dependency/engine.go:allOthersStopped"]}
{"id": "C105", "title": "Programs of runners, catacombs and engines", "statement": "Let any number of runners, catacombs, engines and other workers make up a program in which they run each other in any way. Whoever has had their Kill method called by the one that runs them has been told to stop. Whatever the one that runs a worker has seen Wait of it return, the worker has ended, and its Wait method keeps returning this (a catacomb's may turn from nil into an error, see C11). When a runner, a catacomb or an engine has ended, so has every worker it ever got from a start func, Plan.Init or a successful Add; and every worker of those; and so on: nothing is left running below it.", "quantifier": "every execution of every program of any size and shape, under one scheduler, with every interleaving of the goroutines of all components", "why_tests_cant": "Tests of one component use fakes for the others. That nothing stays behind below a component that has ended is a statement about all programs composed of them.", "anchors": ["runner.go:Kill", "runner.go:Wait", "runner.go:killAll", "catacomb/catacomb.go:Kill", "catacomb/catacomb.go:Wait", "catacomb/catacomb.go:add", "dependency/engine.go:Kill", "dependency/engine.go:Wait", "dependency/engine.go:requestStop", "dependency/engine.go:runWorker"]}
{"id": "C106", "title": "A program stops", "statement": "In such a program nobody panics, the scheduler is fair to every goroutine, and Wait of a worker that was Kill()ed returns once the worker has ended. Users keep to the rules: StartFuncs of runners return, Start funcs of engines return when their context has been cancelled, the work func of a catacomb returns once the catacomb is dying, and other workers end when they are killed; and nobody kills themselves, however indirectly. Then a worker that is told to stop, or decides to, ends, whatever is below it, and from then on everything below it has ended.", "quantifier": "every fair infinite execution of every program, of any size, even infinite, and any depth; no delay need end", "why_tests_cant": "Termination of a shutdown through several layers depends on each layer's termination in every interleaving with the others, in infinite executions.", "anchors": ["runner.go:Kill", "runner.go:run", "runner.go:killAll", "catacomb/catacomb.go:Kill", "catacomb/catacomb.go:Invoke", "catacomb/catacomb.go:add", "dependency/engine.go:Kill", "dependency/engine.go:loop", "dependency/engine.go:requestStop"]}
{"id": "C107", "title": "Where the errors of a program come from", "statement": "In such a program no error is invented: every error that Wait of any of its workers returns has been given to it by a user, as what a start func or a work func returned or panicked with, as argument of a catacomb's Kill, or as what another worker ended with; or it was made of such errors by a function an engine is configured with, or is one that a catacomb replaces by its own rules, or that an engine's attempt gave up with and IsFatal chose. So if users give no error that has a meaning of its own (tomb.ErrStillAlive, tomb.ErrDying, a catacomb's ErrDying), and those functions make none, then nothing ever panics, anywhere.", "quantifier": "every execution of every program of any size and shape; every set of errors that the engines' functions do not lead out of", "why_tests_cant": "Panics come about when a special error travels up through any number of layers. Tests would need every program and every way of an error through it.", "anchors": ["runner.go:run", "runner.go:runWorker", "catacomb/catacomb.go:Kill", "catacomb/catacomb.go:add", "catacomb/catacomb.go:Wait", "dependency/engine.go:gotStopped", "dependency/engine.go:runWorker", "dependency/engine.go:Wait"]}
{"id": "C108", "title": "Every worker of a program can be stopped, from every state", "statement": "In such a program, from whatever state it has got to, every worker can be stopped, together with everybody below it, if its users do no more than let start funcs that are being called fail, work funcs return nil and leaves end: there is a way for the program to go on in which one call of Kill makes that worker end, and everybody it has killed, however indirectly. Moreover from every state there is an execution in which every component is scheduled fairly, Wait returns whenever it can and users do what C106 asks of them, so that its conclusions hold. No component gets into a state from which it cannot end, whatever its users have done so far. Components kill only workers that have been handed to them: by a start func, as argument of Add, or in a Plan.", "quantifier": "every reachable state of every program of any size and shape with countably many workers, in which no error with a meaning of its own has been given, catacombs have been invoked before they are used, no work func has called runtime.Goexit, and nobody has, however indirectly, been handed to themselves", "why_tests_cant": "A deadlock that needs several layers to be in particular states can be in no test; that there is a way out of every state is a statement about all of them.", "anchors": ["runner.go:Kill", "runner.go:run", "runner.go:runWorker", "catacomb/catacomb.go:Kill", "catacomb/catacomb.go:Invoke", "catacomb/catacomb.go:add", "dependency/engine.go:Kill", "dependency/engine.go:loop", "dependency/engine.go:runWorker"]}
{"id": "C109", "title": "A failure goes up through any number of catacombs, runners and engines", "statement": "In an execution of a program as in C106, in which Wait of workers that have ended returns and no error has a meaning of its own: if a worker of a catacomb ends with an error, the catacomb ends with an error too, and its Wait method never returns nil, whatever else has happened to the catacomb, whether it was stopping already, and whether other workers failed as well. The same holds of a runner or an engine, if it takes the error of the worker for fatal, and, in case of an engine, its WorstError and Filter funcs do not make nil of an error. So the failure goes up through any number of them, and everybody below any of them ends. A worker other than a catacomb of which Wait has once returned an error never returns nil.", "quantifier": "every fair execution of every program of any size and shape, every chain of catacombs, runners and engines of any length in it, every moment at which a worker is added and fails", "why_tests_cant": "The error of a worker races with a Kill from above, with other errors, and with the end of the work func, at every level; a lost error shows in no test unless the right race is lost.", "anchors": ["catacomb/catacomb.go:add", "catacomb/catacomb.go:Kill", "catacomb/catacomb.go:Invoke", "catacomb/catacomb.go:Wait", "runner.go:run", "runner.go:workerDone", "dependency/engine.go:gotStopped", "dependency/engine.go:Wait"]}
{"id": "C110", "title": "A runner of a program keeps its workers going", "statement": "In an execution of a program as in C106, in which Wait of workers that have ended returns: if a runner has a worker that it has not told to stop, then either it tells the worker to stop at some later time, or an attempt to run the worker ends with nil or an error after which workers are not run again, or the runner makes one attempt after another for ever, or, from some time on, one and the same instance of the worker, which never ends, is being run. No worker is forgotten. Moreover if the instance that is being run ends with an error after which workers are run again, the next thing that happens to the worker is another attempt, with the same StartFunc and after RestartDelay, unless the worker is told to stop.", "quantifier": "every fair execution of every program of any size and shape, every runner in it, every id and every moment", "why_tests_cant": "That a worker is never forgotten is a statement about all of an infinite execution; it can be broken by any race between the end of a worker, a restart, StopWorker and Kill.", "anchors": ["runner.go:run", "runner.go:workerDone", "runner.go:runWorker", "runner.go:StartWorker"]}
{"id": "C111", "title": "An engine of a program comes to rest", "statement": "In an execution of a program as in C106, in which also delays end and the Start funcs of an engine return: if the engine is never killed, and from some time on its environment is calm (nobody Installs anything, Start funcs return workers that run and otherwise fail only with errors that are not retried at once, workers end only after they have been told to stop), then from some time on no attempt to run a manifold begins or ends, and every attempt has a worker, always the same, that has not been told to stop and has not ended. If Start funcs fail exactly when an input is missing, the manifolds with a worker are those whose inputs, direct and indirect, are all installed. This is so whatever the rest of the program does meanwhile. Workers that the engine has to stop on the way may be engines, runners or catacombs; that they end is not supposed but follows.", "quantifier": "every fair execution of every program of any size and shape, every engine in it, every set of manifolds and every order in which their workers start, fail and bounce before", "why_tests_cant": "Convergence is about infinite executions, and depends on the order of starts and bounces of all manifolds and on how long each of their workers, with everything below it, takes to stop.", "anchors": ["dependency/engine.go:loop", "dependency/engine.go:gotStarted", "dependency/engine.go:gotStopped", "dependency/engine.go:requestStart", "dependency/engine.go:bounceDependents", "dependency/engine.go:runWorker"]}
{"id": "C112", "title": "Calls made in a program return", "statement": "In every fair execution of a program (no panic), every call of StartWorker or StopWorker on a runner returns. If moreover the execution is as in C106 (Wait calls of parents return, and those who use the workers do their part), then every call of Invoke on a catacomb returns, also when it fails and must first stop its initial workers; and every call of Add returns, also when it must first stop the worker it was given, unless it was made before any Invoke got past the used check and the catacomb is never killed.", "quantifier": "every fair execution of every program of any size and shape, every runner and catacomb in it, every call and every time at which it is made", "why_tests_cant": "That no call hangs is about infinite executions, and a call can wait for the end of a worker, with everything below it in the program.", "anchors": ["runner.go:StartWorker", "runner.go:StopWorker", "catacomb/catacomb.go:Invoke", "catacomb/catacomb.go:Add"]}
{"id": "C113", "title": "What was built on a worker that has ended ends", "statement": "Say that a worker of an engine was built on another one if the Context of the Start func that returned it had the other as a resource. In a fair execution of an engine whose Start funcs heed Abort and whose workers end when told to: when a worker has finished, for whatever reason, every attempt to run a manifold that was given it ends, or the engine exits; so every worker built on it finishes, and every worker built on those, and so on. The same holds of the engines of a program as in C109, where that workers end when told to is not supposed: when a worker has ended, whatever was built on it, directly or indirectly, ends, with everything below it (C105).", "quantifier": "every fair execution of every engine, on its own or in a program of any size and shape, every set of manifolds, every worker, and chains of any length", "why_tests_cant": "That an engine never leaves a worker running on top of a dead one is about all of an infinite execution: the attempt may be delayed, in its Start func, or running when the input ends, and the engine may be busy with other manifolds at each point.", "anchors": ["dependency/engine.go:gotStopped", "dependency/engine.go:bounceDependents", "dependency/engine.go:requestStop", "dependency/engine.go:runWorker", "dependency/engine.go:gotStarted"]}
{"id": "C114", "title": "An engine keeps its manifolds going", "statement": "In a fair execution of an engine that is never killed, in which delays end, Start funcs whose context is cancelled return and workers that are Kill()ed finish, one of these holds of every installed manifold: it is uninstalled at some later time; the engine makes one attempt to run it after another for ever; from some time on its Start func does not return, and has not been told to; from some time on it has one and the same worker, which is registered, has not been told to stop and does not finish; or from some time on it waits: its last attempt ended with nil, for lack of an input or aborted, without having been told to stop, and no declared input has been registered or lost since. No manifold is forgotten: one that has no attempt and does not wait in this sense (just installed, failed, bounced, or an input has changed) gets an attempt, or is uninstalled. The same holds of the engines of a program as in C109 in which delays end, where it is not supposed that workers end when told to; the worker that does not finish has then not ended.", "quantifier": "every fair execution of every engine, on its own or in a program of any size and shape, every manifold and every moment", "why_tests_cant": "That no manifold is forgotten is about all of an infinite execution; it can be broken by any race between the end of an attempt, registrations and ends of inputs, bounces and installs while the loop is in the middle of its work.", "anchors": ["dependency/engine.go:loop", "dependency/engine.go:gotInstall", "dependency/engine.go:gotStopped", "dependency/engine.go:gotStarted", "dependency/engine.go:requestStart", "dependency/engine.go:bounceDependents"]}
{"id": "C115", "title": "A worker of a runner that is told to stop goes", "statement": "In a fair execution of a runner in which Start funcs return and workers that are Kill()ed finish: when a worker that is registered has been told to stop (by StopWorker, or because the runner is going down), whatever its attempt is doing at that time (waiting out its delay, in its Start func, handing over its worker, or running), that attempt ends at some later time and directly after that the worker is removed, so that its id is free again; there is no further attempt for this registration. The same holds of the runners of a program as in C106, where it is not supposed that workers end when told to; the worker which that attempt started, if any, has ended by then, with everything that it is made of as in C106.", "quantifier": "every fair execution of every runner, on its own or in a program of any size and shape, every worker told to stop and every moment", "why_tests_cant": "That it goes whatever happens is about all of an infinite execution and every interleaving: a stop can come before the Start func is called, while it is running, between its return and the time the runner learns of the worker, or while the worker ends on its own; a test sees a few of these.", "anchors": ["runner.go:StopWorker", "runner.go:killWorkerLocked", "runner.go:killWorker", "runner.go:workerDone", "runner.go:removeWorker", "runner.go:runWorker"]}
{"id": "C116", "title": "What becomes of calls of Worker and StopAndRemoveWorker in a program", "statement": "In a program as in C106, a call of Worker on a runner returns, unless it is never aborted, the runner is never killed and never ends, and the runner makes one attempt to run the worker after another for ever. A call of StopAndRemoveWorker returns, unless it is never aborted and either the same holds or from some time on the registration it found stays for ever (the worker it stopped was started again) or another such call was told of its removal (only one is). It is not supposed that the worker ends when StopAndRemoveWorker kills it. So an aborted call returns; and on a runner that is killed or goes down every call returns, except calls of StopAndRemoveWorker beside another that has got the result.", "quantifier": "every program of any size and shape, every fair execution of it, every runner in it and every call at any moment", "why_tests_cant": "That a call returns in the end is about all of an infinite execution; the helper goroutine that waits on the condition variable, the broadcast, the removal and the worker's restart can be interleaved in any way, and the worker that the call waits for is itself a tree of workers.", "anchors": ["runner.go:Worker", "runner.go:workerInfo", "runner.go:StopAndRemoveWorker", "runner.go:removeWorker", "runner.go:workerDone"]}
{"id": "C117", "title": "A worker of a program ends exactly if it has a reason to", "statement": "In a program as in C106, a runner ends if and only if at some time it has been killed or a worker of it has ended with an error that its IsFatal says is fatal; a catacomb if and only if at some time it has been killed, or its work func has returned or panicked, or Wait of a worker it tracks has returned an error; an engine if and only if at some time it has been killed (by a user, or by an attempt to stop it through its own manifold) or a worker of it has ended with an error that, filtered, is fatal. That a worker which has ended had such a reason holds of every program and every reachable state, without suppositions about fairness or users.", "quantifier": "every program of any size and shape, every fair execution of it, every worker in it", "why_tests_cant": "That nothing else ends a worker is about every execution; that every reason does end it is about all of an infinite execution of a program of any size.", "anchors": ["runner.go:run", "runner.go:workerDone", "catacomb/catacomb.go:Invoke", "catacomb/catacomb.go:add", "catacomb/catacomb.go:Kill", "dependency/engine.go:loop", "dependency/engine.go:gotStopped"]}
{"id": "C118", "title": "A manifold of a program whose worker fails is started again", "statement": "In a program as in C106, when a worker that an engine has started for a manifold has ended with an error, and nobody kills the engine, the engine begins another attempt for that manifold after it has seen the worker end, provided the error, after the manifold's Filter, is one after which manifolds are tried again: not nil, not ErrMissing, ErrUninstall (unless ErrBounce is there too) or the engine's own abort error, nor wrapping one.", "quantifier": "every program of any size and shape, every fair execution of it, every engine in it, every manifold and every worker of it", "why_tests_cant": "That the attempt is made in the end is about all of an infinite execution: the worker is itself a tree of workers, the engine may be handling other manifolds, bouncing dependents or waiting for inputs, and the delay before the attempt may be of any length.", "anchors": ["dependency/engine.go:gotStopped", "dependency/engine.go:requestStart", "dependency/engine.go:runWorker", "dependency/engine.go:loop", "dependency/engine.go:uninstall"]}
{"id": "C119", "title": "A manifold of a program whose worker asks for it is uninstalled", "statement": "In a program as in C106, when a worker that an engine has started for a manifold has ended with an error that, after the manifold's Filter, is or wraps ErrUninstall (and not ErrMissing, ErrBounce or the engine's own abort error), and nobody kills the engine, then either the attempt had been told to stop or the manifold is uninstalled, and that is the first thing the engine's loop does after it has taken note of the end of the attempt: in between it begins no attempt, tells no dependent, and answers no Install or Report.", "quantifier": "every program of any size and shape, every fair execution of it, every engine in it, every manifold and every worker of it", "why_tests_cant": "That the manifold goes in the end is about all of an infinite execution; that nothing of the loop comes in between is about every interleaving of the loop with any number of other goroutines.", "anchors": ["dependency/engine.go:gotStopped", "dependency/engine.go:uninstall", "dependency/engine.go:runWorker", "dependency/engine.go:loop"]}
{"id": "C120", "title": "A manifold of a program that is told to stop is started again", "statement": "In a program as in C106, when the open attempt of a manifold has been told to stop (because the worker of an input has come up or gone, C34), and nobody kills the engine, then the attempt ends, whatever it was doing (waiting, in its Start func, or running a worker, which may be a whole tree of workers), whatever it ends with, even ErrUninstall, ErrMissing or nil, and after that another attempt for the manifold begins.", "quantifier": "every program of any size and shape, every fair execution of it, every engine in it, every manifold and every moment at which an attempt of it has been told to stop", "why_tests_cant": "That the attempt is made in the end is about all of an infinite execution; the attempt can be told to stop at every point of its life and end in every way, and the tree of workers below it can have any size.", "anchors": ["dependency/engine.go:requestStop", "dependency/engine.go:gotStopped", "dependency/engine.go:bounceDependents", "dependency/engine.go:runWorker", "dependency/engine.go:requestStart"]}
