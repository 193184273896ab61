import Verif.Worker.Model
import Verif.Spec.AtEvery

/-!
# When the events of worker.Stop, worker.Dead and the workertest functions may happen

Written from the documentation (worker.go:22-36, workertest/check.go).
-/

namespace Verif.WSpec
open Verif.Worker Verif.Spec

/-- Functions documented to Kill() the worker. -/
def Kills (k : Kind) : Prop := k = .stop ∨ k = .checkKill ∨ k = .cleanKill ∨ k = .dirtyKill ∨ k = .nilOrKill

/-- Functions that give up after a while. -/
def TimesOut (k : Kind) : Prop := k = .checkAlive ∨ k = .checkKilled ∨ k = .checkKill ∨ k = .cleanKill ∨ k = .dirtyKill ∨
  k = .nilOrKill

/-- A Check function fails the test when it gets this from the worker. -/
def FailsWith (k : Kind) (r : Option Err) : Prop := k = .checkAlive ∨ ((k = .cleanKill ∨ k = .nilOrKill) ∧ r ≠ none)

/-- `h` is what has happened before, newest first. -/
def EvOk (e : Ev) (h : List Ev) : Prop :=
  match e with
  | .called c _ => ∀ k, .called c k ∉ h
  | .notNil c => .called c .nilOrKill ∈ h ∧ .notNil c ∉ h ∧ .kill c ∉ h
  | .kill c => (∃ k, .called c k ∈ h ∧ Kills k ∧ (.notNil c ∈ h ↔ k = .nilOrKill)) ∧ .kill c ∉ h
  | .finished _ => ∀ r, .finished r ∉ h
  | .timeout c => ∃ k, .called c k ∈ h ∧ TimesOut k
  | .failed c => .failed c ∉ h ∧ ∃ k, .called c k ∈ h ∧
      ((∃ r, .finished r ∈ h ∧ FailsWith k r) ∨ (k ≠ .checkAlive ∧ .timeout c ∈ h))
  | .stopRet c r => .called c .stop ∈ h ∧ .kill c ∈ h ∧ .finished r ∈ h ∧ ∀ r, .stopRet c r ∉ h
  | .ownDead c _ => .called c .dead ∈ h
  | .deadRet c own => ∃ d, .ownDead c d ∈ h ∧ (own = true ↔ d = .chan)
  | .closed c => .deadRet c false ∈ h ∧ (∃ r, .finished r ∈ h) ∧ .closed c ∉ h
  | .checkRet c (some r) => .finished r ∈ h ∧ ∃ k, .called c k ∈ h ∧ TimesOut k ∧ (Kills k → .kill c ∈ h) ∧
      (.failed c ∈ h ↔ FailsWith k r) ∧ ∀ r, .checkRet c r ∉ h
  | .checkRet c none => .timeout c ∈ h ∧ ∃ k, .called c k ∈ h ∧ TimesOut k ∧ (Kills k → .kill c ∈ h) ∧
      (.failed c ∈ h ↔ k ≠ .checkAlive) ∧ ∀ r, .checkRet c r ∉ h

end Verif.WSpec
