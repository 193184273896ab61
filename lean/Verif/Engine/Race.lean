import Verif.Engine.FineAll

/-!
# Engine: the loop's variables, and the report of a stopped engine
-/

namespace Verif.Engine
open State

/-- The same state with other values of the variables that belong to the loop goroutine (dependency/engine.go:156-191, 202). -/
def State.own (s : State) (C : AMap Info) (M : AMap Manifold) (D : AMap (List Name)) (w : Option Err) (o : Bool) : State :=
  { s with current := C, manifolds := M, dependents := D, worst := w, oneShot := o }

theorem step_own {cfg : Config} {s : State} {op : Op} (he : op.isEnv = true) (C : AMap Info) (M : AMap Manifold)
    (D : AMap (List Name)) (w : Option Err) (o : Bool) :
    step cfg (s.own C M D w o) op = (step cfg s op).map (fun s' => s'.own C M D w o) := by
  have hg : ∀ g, (s.own C M D w o).getG g = s.getG g := fun _ => rfl
  have hd : (s.own C M D w o).dying = s.dying := rfl
  have hf : (s.own C M D w o).finished = s.finished := rfl
  cases op with
  | armDying | armReport | armInstall | armStarted | armStopped => cases he
  | kill => rfl
  | gRegisterDying gid =>
    simp only [step, hg, hd]
    split
    · split
      · rename_i x _
        split
        · cases x <;> rfl
        · rfl
      · rfl
    · rfl
  | _ =>
    simp only [step, hg, hd, hf]
    repeat' split
    all_goals first | rfl | (rename_i h; exact absurd h (by simp_all))

/-- dependency/engine.go:254-266: what Report returns once the engine is dead, apart from the state `stopped`: the error of Wait
and a line for each manifold. -/
def deadReport (cfg : Config) (s : State) : Option (Option Err × List ReportLine) :=
  (waitResult cfg s).map (fun e => (e, reportLines s))

end Verif.Engine
