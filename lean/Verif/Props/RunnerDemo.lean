import Verif.Runner.Model

/-!
Concrete executions of the runner model. They are used to show that the hypotheses of the theorems can be met by
non-trivial executions; they are tests, not proofs of the properties.
-/

namespace Verif.Props.RDemo
open Verif.Runner

/-- Run a list of operations; `none` if one is not enabled. -/
def run (p : Params) : State → List Op → Option State
  | s, [] => some s
  | s, op :: ops => match step p s op with
    | some s' => run p s' ops
    | none => none

theorem run_reach {p : Params} : ∀ (ops : List Op) {s s' : State}, Reach p s → run p s ops = some s' → Reach p s' := by
  intro ops
  induction ops with
  | nil => intro s s' hr h; simp only [run, Option.some.injEq] at h; exact h ▸ hr
  | cons op ops ih =>
    intro s s' hr h
    simp only [run] at h
    split at h
    · rename_i s1 h1; exact ih (hr.step op h1) h
    · cases h

/-- The state after the operations, if they are enabled. -/
def after (p : Params) (ops : List Op) : State := (run p init ops).getD init

theorem after_reach (p : Params) (ops : List Op) : Reach p (after p ops) := by
  unfold after
  cases h : run p init ops with
  | none => exact .init
  | some s => exact run_reach ops .init h

/-- `user 90` and above are fatal, the highest wins; `user 5` is not to be restarted. -/
def prm : Params where
  isFatal
    | .user n => 90 ≤ n
    | _ => false
  shouldRestart e := e != .user 5
  moreImportant
    | .user a, .user b => b < a
    | _, _ => false
  restartDelay := 3

/-- Nothing but IsFatal is given: the defaults of NewRunner. -/
def raw : RawParams where
  isFatal := some (fun | .user n => 90 ≤ n | _ => false)

/-- StartWorker of client call `cid` handled from start to end. -/
def opsStart (cid id sf : Nat) : List Op := [.callStart id sf, .loopTop, .recvStart cid, .act 100, .reply, .bcast]

/-- Attempt `g` calls its StartFunc, which returns worker `w`, and the loop learns of it. -/
def opsOk (g w : Nat) : List Op := [.gCall g, .gStartOk g w, .loopTop, .recvStarted g, .act 101, .bcast]

/-- Worker `w` of attempt `g` finishes with `e`, and the loop handles that, up to before its broadcast. -/
def opsEnd (g w : Nat) (e : Option Err) : List Op := [.finish w e, .gWaitRet g, .loopTop, .recvDone g, .act 102]

/-- StopWorker of client call `cid` handled from start to end. -/
def opsStop (cid id : Nat) : List Op := [.callStop id, .loopTop, .recvStop cid, .act 103, .bcast]

/-- Id 7 registered with StartFunc 1 and running as worker 10 (attempt 0). -/
def opsUp : List Op := opsStart 0 7 1 ++ opsOk 0 10

/-- Worker 10 has failed and is about to be started again (attempt 1). -/
def opsRestart : List Op := opsUp ++ opsEnd 0 10 (some (.user 1)) ++ [.bcast]

/-- The second attempt has called its StartFunc. -/
def opsTwice : List Op := opsRestart ++ [.gTimer 1, .gCall 1]

/-- Worker 10 has returned nil. -/
def opsClean : List Op := opsUp ++ opsEnd 0 10 none ++ [.bcast]

/-- Ids 7 and 8 are running as 10 and 11. -/
def opsTwo : List Op := opsUp ++ opsStart 1 8 2 ++ opsOk 1 11

/-- Both have failed with a fatal error, first 7 and then 8, and the loop has returned. -/
def opsFatal (a b : Nat) : List Op :=
  opsTwo ++ opsEnd 0 10 (some (.user a)) ++ [.killAll [8], .killNext, .killNext, .bcast] ++ opsEnd 1 11 (some (.user b)) ++ [.bcast, .loopTop]

end Verif.Props.RDemo
