import Verif.Engine.Model

/-!
Concrete executions of the engine model. They are used to show that the hypotheses of the theorems can be met by
non-trivial executions; they are tests, not proofs of the properties.
-/

namespace Verif.Props.Demo
open Verif.Engine

/-- Run a list of operations; `none` if one is not enabled. -/
def run (cfg : Config) : State → List Op → Option State
  | s, [] => some s
  | s, op :: ops => match step cfg s op with
    | some s' => run cfg s' ops
    | none => none

theorem run_reach {cfg : Config} : ∀ (ops : List Op) {s s' : State}, Reach cfg s → run cfg s ops = some s' →
    Reach cfg s' := by
  intro ops
  induction ops with
  | nil => intro s s' hr h; simp only [run, Option.some.injEq] at h; exact h ▸ hr
  | cons op ops ih =>
    intro s s' hr h
    simp only [run] at h
    split at h
    · rename_i s1 h1; exact ih (hr.step op h1) h
    · cases h

/-- The state after the operations, if they are enabled. -/
def after (cfg : Config) (ops : List Op) : State := (run cfg init ops).getD init

theorem after_reach (cfg : Config) (ops : List Op) : Reach cfg (after cfg ops) := by
  unfold after
  cases h : run cfg init ops with
  | none => exact .init
  | some s => exact run_reach ops .init h

/-- `user 99` is fatal; the first fatal error wins; delays are the base delays. -/
def cfg : Config where
  isFatal e := e == some (.user 99)
  worstError a b := match b with
    | none => a
    | some _ => b
  errorDelay := 3
  bounceDelay := 1
  backoffResetTime := 60
  outFn f w o := if w = .obj o then none else some (.user f)

/-- No dependents at all, for the `vals` argument of armStopped. -/
def noVals : Name → List Name := fun _ => []

/-- The dependents of 0 are [1]. -/
def vals01 : Name → List Name := fun n => if n = 0 then [1] else []

/-- Manifold 0 without inputs, manifold 1 with input 0; both started, 1 with worker 11 using worker 10. -/
def opsUp : List Op :=
  [ .armInstall 0 { output := some 7 } [0] none,
    .armInstall 1 { inputs := [0] } [1, 0] none,
    .gTimer 0 0, .gStartOk 0 (.obj 10), .armStarted 0 5 none,
    -- 1's first attempt is aborted because 0 came up
    .gAbort 1, .armStopped 1 6 noVals none,
    .gTimer 2 (1/2), .gGet 2 0 (some 10), .gGet 2 5 none, .gStartOk 2 (.obj 11), .gGet 2 0 none,
    .armStarted 2 8 none, .armReport none ]

/-- Then 0's worker fails, 1 is bounced, and 0 is started again while 1 is being stopped. -/
def opsBounce : List Op := opsUp ++
  [ .finish 10 (some (.user 1)), .gWaitRet 0, .armStopped 0 100 vals01 none,
    .finish 11 none, .gWaitRet 2, .armStopped 2 101 noVals none ]

/-- From there: 1 finds 0 missing and waits; then the engine is killed and exits. -/
def opsDown : List Op := opsBounce ++
  [ .gTimer 4 0, .gGet 4 0 none, .gStartErr 4 (.wrap 0 .missing), .armStopped 4 102 noVals none,
    .kill, .gAbort 3, .armDying [0, 1] none, .armStopped 3 103 vals01 none ]

/-- The engine's own worker is installed as manifold 0 and registered; then the engine is killed and exits without
receiving the stop ticket of the self manifold. -/
def opsSelf : List Op :=
  [ .armInstall 0 {} [0] none, .gTimer 0 0, .gStartOk 0 .self, .armStarted 0 1 none,
    .kill, .armDying [0] none, .gSelfDone 0 ]

/-- A manifold that uninstalls itself, with a dependent. -/
def opsUninstall : List Op :=
  [ .armInstall 0 {} [0] none, .armInstall 1 { inputs := [0] } [1, 0] none,
    .gTimer 0 0, .gStartOk 0 (.obj 10), .armStarted 0 5 none,
    .gAbort 1, .armStopped 1 6 noVals none,
    .finish 10 (some (.wrap 3 .uninstall)), .gWaitRet 0, .armStopped 0 9 vals01 none ]

/-- A fatal error. -/
def opsFatal : List Op :=
  [ .armInstall 0 {} [0] none, .gTimer 0 0, .gStartErr 0 (.user 99), .armStopped 0 4 noVals none ]

/-- The engine is killed while both manifolds have workers; the loop has handled dying. -/
def opsKilled : List Op := opsUp ++ [ .kill, .armDying [1, 0] none ]

/-- A worker that is produced after the Kill. -/
def opsLate : List Op :=
  [ .armInstall 0 {} [0] none, .gTimer 0 0, .kill, .armDying [0] none, .gStartOk 0 (.obj 10), .gRegisterDying 0 ]

/-- A worker that fails twice in a row. -/
def opsTwice : List Op :=
  [ .armInstall 0 {} [0] none, .gTimer 0 0, .gStartErr 0 (.user 1), .armStopped 0 4 noVals none,
    .gTimer 1 (1/2), .gStartErr 1 (.user 2), .armStopped 1 9 noVals none, .gTimer 2 0 ]

/-- Some event of the history satisfies the test. -/
def has (s : State) (p : Ev → Bool) : Bool := s.hist.any p

-- Each of these executions is possible (`run` does not get stuck) ...
example : (run cfg init opsDown).isSome = true := by decide +kernel
example : (run cfg init opsSelf).isSome = true := by decide +kernel
example : (run cfg init opsUninstall).isSome = true := by decide +kernel
example : (run cfg init opsFatal).isSome = true := by decide +kernel
example : (run cfg init opsKilled).isSome = true := by decide +kernel
example : (run cfg init opsLate).isSome = true := by decide +kernel
example : (run cfg init opsTwice).isSome = true := by decide +kernel

end Verif.Props.Demo
