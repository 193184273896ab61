import Verif.System.Model
import Verif.Props.EngineFine
import Verif.Props.CatacombDemo
import Verif.Props.RunnerFair

/-!
# A program, for examples

An engine with two workers, a runner and a catacomb, which have a worker each.
-/

namespace Verif.Props.SDemo
open Verif.System

/-- A program with finitely many workers that are more than leaves. -/
def fn (L : List Comp) : Nat → Comp := fun i => (L[i]?).getD (.leaf false none)

def stepL (W : Wiring Nat) (L : List Comp) (i : Nat) (op : Op) : Option (List Comp) :=
  match L[i]? with
  | none => none
  | some a => (a.step op).bind (fun c =>
    if W.waits (fn L) i c && (newKills a c).all (fun w => decide (W.child i w < L.length)) then
      some (L.mapIdx (fun j x => if j = i then c else if (newKills a c).any (fun w => decide (W.child i w = j)) then x.kill else x))
    else none)

theorem stepL_some {W : Wiring Nat} {L L' : List Comp} {i : Nat} {op : Op} (h : stepL W L i op = some L') :
    W.step (fn L) i op = some (fn L') := by
  unfold stepL at h
  split at h
  · cases h
  · rename_i a ha
    have hi : fn L i = a := by simp [fn, ha]
    obtain ⟨c, hc, h⟩ := Option.bind_eq_some_iff.1 h
    split at h
    · rename_i hw
      simp only [Bool.and_eq_true, List.all_eq_true, decide_eq_true_eq] at hw
      injection h with h
      subst h
      unfold Wiring.step
      rw [hi, hc]
      simp only [Option.bind_some, hw.1, if_true, Option.some.injEq]
      funext j
      unfold Wiring.after
      rw [hi]
      by_cases hj : j < L.length
      · have e1 : fn L j = L[j] := by simp [fn, hj]
        simp only [fn, List.getElem?_mapIdx, List.getElem?_eq_getElem hj, Option.map_some, Option.getD_some]
      · have h1 : j ≠ i := by
          rintro rfl
          rw [List.getElem?_eq_none (by omega)] at ha; cases ha
        have h2 : (newKills a c).any (fun w => decide (W.child i w = j)) = false := by
          rw [List.any_eq_false]
          intro w hwk
          have := hw.2 w hwk
          simp only [decide_eq_true_eq]
          omega
        rw [if_neg h1, h2]
        simp only [Bool.false_eq_true, if_false, fn, List.getElem?_mapIdx, List.getElem?_eq_none (Nat.le_of_not_lt hj), Option.map_none]
    · cases h

def run (W : Wiring Nat) : List Comp → List (Nat × Op) → Option (List Comp)
  | L, [] => some L
  | L, (i, op) :: l => (stepL W L i op).bind (fun L' => run W L' l)

/-- 0 is an engine, 1 a runner, 2 a catacomb. -/
def kinds : List Kind := [.engine Demo.cfg, .runner RDemo.prm, .catacomb 7, .leaf, .leaf]

def W : Wiring Nat where
  kind i := (kinds[i]?).getD .leaf
  child i w := match i, w with
    | 0, 10 => 1
    | 0, 11 => 2
    | 1, 10 => 3
    | 2, 1 => 4
    | n, _ => n + 5
  ne i w := by
    split <;> simp

/-- The engine is started and gets its workers; so do the runner and the catacomb. -/
def opsUp : List (Nat × Op) := FDemo.opsUp.map (fun op => (0, .engine op)) ++ RDemo.opsUp.map (fun op => (1, .runner op)) ++
  CDemo.opsUp.map (fun op => (2, .catacomb op))

/-- The engine is killed, and kills its workers. -/
def opsKill : List (Nat × Op) := [.env .kill, .dying [1, 0], .work, .work, .work, .work].map (fun op => (0, .engine op))

/-- The runner kills its worker, which ends; and stops. -/
def opsRunner : List (Nat × Op) := [.loopTop, .recvDying, .killAll [7], .killNext, .killNext, .bcast].map (fun op => (1, .runner op)) ++
  [(3, .leafEnd none)] ++ (RDemo.opsEnd 0 10 none ++ ([.bcast, .loopTop] : List Runner.Op)).map (fun op => (1, .runner op))

/-- The catacomb kills its worker, which ends; and stops. -/
def opsCatacomb : List (Nat × Op) := [.workRet (.ret none), .workKill, .kDying 0].map (fun op => (2, .catacomb op)) ++ [(4, .leafEnd none)] ++
  [.finish 1 none, .tWaitRet 0, .tClose 0, .tExit 0, .kWaitRet 0, .lDying, .wgWait, .workEnd].map (fun op => (2, .catacomb op))

/-- The engine stops. -/
def opsEngine : List (Nat × Op) := [.env (.finish 11 none), .env (.gWaitRet 2), .stopped 2 101 Demo.noVals, .work, .work,
  .env (.finish 10 none), .env (.gWaitRet 0), .stopped 0 102 Demo.vals01, .work, .work].map (fun op => (0, .engine op))

def ops : List (Nat × Op) := opsUp ++ opsKill ++ opsRunner ++ opsCatacomb ++ opsEngine

/-- The program after `k` of these steps. -/
def after (k : Nat) : List Comp := (run W (kinds.map Kind.new) (ops.take k)).getD []

theorem run_append (W : Wiring Nat) (l m : List (Nat × Op)) : ∀ L, run W L (l ++ m) = (run W L l).bind (fun L' => run W L' m) := by
  induction l with
  | nil => intro L; rfl
  | cons x l ih =>
    intro L
    simp only [List.cons_append, run]
    cases stepL W L x.1 x.2 with
    | none => rfl
    | some L' => exact ih L'

theorem run_ops : (run W (kinds.map Kind.new) ops).isSome = true := by decide +kernel

theorem run_some (k : Nat) : run W (kinds.map Kind.new) (ops.take k) = some (after k) := by
  have h := run_ops
  rw [← List.take_append_drop k ops, run_append] at h
  unfold after
  cases hr : run W (kinds.map Kind.new) (ops.take k) with
  | none => rw [hr] at h; cases h
  | some L => rfl

theorem after_step {k : Nat} (hk : k < ops.length) : stepL W (after k) (ops[k]).1 (ops[k]).2 = some (after (k + 1)) := by
  have h := run_some (k + 1)
  rw [List.take_succ_eq_append_getElem hk, run_append, run_some k] at h
  simp only [Option.bind_some, run, Option.bind_fun_some] at h
  exact h

theorem after_last {k : Nat} (hk : ops.length ≤ k) : after k = after ops.length := by
  unfold after
  rw [List.take_of_length_le hk, List.take_of_length_le (Nat.le_refl _)]

theorem after_length (k : Nat) : (after k).length = 5 := by
  induction k with
  | zero => rfl
  | succ k ih =>
    by_cases hk : k < ops.length
    · have h := after_step hk
      unfold stepL at h
      split at h
      · cases h
      · obtain ⟨c, _, h⟩ := Option.bind_eq_some_iff.1 h
        split at h
        · injection h with h; rw [← h, List.length_mapIdx]; exact ih
        · cases h
    · rw [after_last (by omega : ops.length ≤ k + 1), ← after_last (Nat.le_of_not_lt hk)]; exact ih

theorem fn_more {L : List Comp} {i : Nat} (h : L.length ≤ i) : fn L i = .leaf false none := by
  unfold fn
  rw [List.getElem?_eq_none h]; rfl

theorem after_zero : fn (after 0) = W.new := by
  funext i
  have : after 0 = kinds.map Kind.new := rfl
  rw [this]
  simp only [fn, Wiring.new, W, List.getElem?_map]
  cases kinds[i]? <;> rfl

/-- Nobody panics. -/
theorem after_up (k : Nat) : Up (fn (after k)) := by
  have key : ∀ k, k ≤ ops.length → ((after k).all (fun c => !c.crashed)) = true := by decide +kernel
  have h : ((after k).all (fun c => !c.crashed)) = true := by
    by_cases hk : k ≤ ops.length
    · exact key k hk
    · rw [after_last (by omega)]; exact key _ (Nat.le_refl _)
  intro i
  unfold fn
  cases hi : (after k)[i]? with
  | none => rfl
  | some c =>
    have := List.all_eq_true.1 h c (List.mem_of_getElem? hi)
    simpa using this

theorem after_reach (k : Nat) : Reach W (fn (after k)) := by
  induction k with
  | zero => rw [after_zero]; exact .init
  | succ k ih =>
    by_cases hk : k < ops.length
    · exact .step _ _ ih (after_up k) (stepL_some (after_step hk))
    · rw [after_last (by omega : ops.length ≤ k + 1), ← after_last (Nat.le_of_not_lt hk)]; exact ih

/-- In the end everybody has ended. -/
example : (after ops.length).map (·.result) = [some none, some none, some none, some none, some none] := by decide +kernel

end Verif.Props.SDemo
