import Verif.Catacomb.Model

/-!
Concrete executions of the catacomb model. They are used to show that the hypotheses of the theorems can be met by
non-trivial executions; they are tests, not proofs of the properties.
-/

namespace Verif.Props.CDemo
open Verif.Catacomb

/-- Run a list of operations; `none` if one is not enabled. -/
def run (own : Nat) : State → List Op → Option State
  | s, [] => some s
  | s, op :: ops => match step own s op with
    | some s' => run own s' ops
    | none => none

theorem run_reach {own : Nat} : ∀ (ops : List Op) {s s' : State}, Reach own s → run own s ops = some s' → Reach own s' := by
  intro ops
  induction ops with
  | nil => intro s s' hr h; simp only [run, Option.some.injEq] at h; exact h ▸ hr
  | cons op ops ih =>
    intro s s' hr h
    simp only [run] at h
    split at h
    · rename_i s1 h1; exact ih (hr.step op h1) h
    · cases h

/-- The state after the operations, if they are enabled. -/
def after (own : Nat) (ops : List Op) : State := (run own init ops).getD init

theorem after_reach (own : Nat) (ops : List Op) : Reach own (after own ops) := by
  unfold after
  cases h : run own init ops with
  | none => exact .init
  | some s => exact run_reach ops .init h

/-- Invoke with Init worker 1, up to its return: tracked as number 0. -/
def opsUp : List Op := [.callInvoke { init := [some 1] }, .iBegin 0, .iAdd 0, .iListen 0, .iGo 0, .iOk 0]

/-- Then worker 2 is added: tracked as number 1. -/
def opsAdded : List Op := opsUp ++ [.callAdd 2, .aSend 0, .lAdd]

/-- Then worker 2 fails with `e`, and the catacomb learns of it. -/
def opsFailed (e : Err) : List Op := opsAdded ++ [.finish 2 (some e), .tWaitRet 1, .tKill 1]

/-- Then an Add call comes too late: its worker 3 is Kill()ed. -/
def opsLate : List Op := opsFailed (.user 5) ++ [.callAdd 3, .aDying 1]

/-- From there to death, the work func returning `r`. -/
def opsDown (r : WorkRes) : List Op :=
  [.kDying 0, .finish 1 none, .workRet r, .workKill, .wgWait, .lDying, .tWaitRet 0, .tClose 0, .tExit 0, .kWaitRet 0,
   .tClose 1, .kClosed 1, .tExit 1, .wgWake, .workEnd]

/-- A whole life: the error of worker 2 comes first, the work func's later. -/
def opsLife : List Op := opsFailed (.user 5) ++ opsDown (.ret (some (.user 6))) ++ [.waitCall]

/-- A life in which Kill(nil) is first and nothing fails. -/
def opsClean : List Op :=
  opsUp ++ [.killCall none, .workRet (.ret none), .workKill, .kDying 0, .finish 1 none, .tWaitRet 0, .tClose 0, .tExit 0, .kWaitRet 0,
    .lDying, .wgWait, .workEnd, .waitCall]

end Verif.Props.CDemo
