import Verif.Runner.Fair
import Verif.Stutter

/-!
# Infinite executions of a runner with pauses

If the runner does nothing from some point on, workers the runner knows nothing of make an infinite execution of it.
-/

namespace Verif.Runner
open State Verif.Spec Verif.Schedule

variable {p : Params}

def rtrans (p : Params) (s : State) (op : Op) (s' : State) : Prop := step p s op = some s'

/-- An infinite execution of a runner with pauses. -/
abbrev Pauses (p : Params) := SRun (rtrans p) init

/-- What has happened in the first `k` steps. -/
def pausesHist (r : Pauses p) (k : Nat) : List Ev := (r.st k).tab.hist

/-- The kinds of steps of the runner, its goroutines and its clients. -/
def rkind (op : Op) : Option Op := if op.internal then some op.kind else none

/-- A worker finishes that nobody waits for. -/
def Filler (p : Params) (a : State) (op : Op) (b : State) : Prop :=
  step p a op = some b ∧ ∃ w e, op = .finish w e ∧ (∀ g ∈ a.tab.gs, g.pc ≠ .waiting w) ∧ ∀ c ∈ a.clients, ∀ rid, c.pc ≠ .removeWait w rid

theorem Filler.form {a b : State} {op : Op} (h : Filler p a op b) : ∃ w e, (∀ g ∈ a.tab.gs, g.pc ≠ .waiting w) ∧
    (∀ c ∈ a.clients, ∀ rid, c.pc ≠ .removeWait w rid) ∧
    b = { a with tab := { a.tab with finished := a.tab.finished.set w e }.log (.finished w e) } := by
  obtain ⟨hs, w, e, rfl, h1, h2⟩ := h
  simp only [step, Op.cid?, tabStep] at hs
  split at hs
  · simp only [Option.map_some, Option.some.injEq] at hs
    exact ⟨w, e, h1, h2, hs.symm⟩
  · cases hs

/-- This makes nothing possible for the runner and its clients. -/
theorem Filler.can {a b : State} {op : Op} (h : Filler p a op b) {op' : Op} (hi : op'.internal = true) (hs : (step p b op').isSome = true) :
    (step p a op').isSome = true := by
  obtain ⟨w, e, hw, hcw, hb⟩ := h.form
  have h1 : b.tab.pc = a.tab.pc := by rw [hb]; rfl
  have h2 : b.tab.tomb = a.tab.tomb := by rw [hb]; rfl
  have h2' : b.tab.dying = a.tab.dying := by rw [hb]; rfl
  have h3 : ∀ g, b.tab.getG g = a.tab.getG g := fun g => by rw [hb]; rfl
  have h4 : b.tab.isDying = a.tab.isDying := by rw [hb]; rfl
  have h5 : b.tab.workers = a.tab.workers := by rw [hb]; rfl
  have h6 : b.tab.dyingArm = a.tab.dyingArm := by rw [hb]; rfl
  have h7 : b.mu = a.mu := by rw [hb]
  have h7' : b.muFree = a.muFree := by rw [hb]; rfl
  have h8 : ∀ c, b.getC c = a.getC c := fun c => by rw [hb]; rfl
  have h9 : ∀ m, needsMu p b.tab m = needsMu p a.tab m := fun m => by rw [hb]; rfl
  have h10 : ∀ m, getWorker b.tab m = getWorker a.tab m := fun m => by rw [hb]; rfl
  have h11 : b.tab.tokens = a.tab.tokens := by rw [hb]; rfl
  have h12 : ∀ v, v ≠ w → b.tab.finished.get? v = a.tab.finished.get? v := fun v hv => by rw [hb]; exact AMap.get?_set_ne _ _ hv
  clear hb
  cases op' with
  | kill | callStart | callStop | callWorker | callRemove | cancel | report | names | gCtx | gStartOk | gStartErr | gGoexit | finish => cases hi
  | gWaitRet g =>
    simp only [step, Op.cid?, tabStep, h3, Option.isSome_map] at hs ⊢
    cases hG : a.tab.getG g with
    | none => rw [hG] at hs; cases hs
    | some G =>
      cases hp : G.pc with
      | waiting v =>
        have hv : v ≠ w := by rintro rfl; exact hw G (List.mem_of_find?_eq_some hG) hp
        simp only [hG, hp, h12 v hv] at hs ⊢
        cases hx : a.tab.finished.get? v with
        | none => rw [hx] at hs; cases hs
        | some y => rfl
      | _ => simp only [hG, hp, Option.isSome_none, Bool.false_eq_true] at hs
  | cWaitRet c =>
    simp only [step, Op.cid?, h8] at hs ⊢
    cases hG : a.getC c with
    | none => rw [hG] at hs; cases hs
    | some C =>
      simp only [hG, clientStep] at hs ⊢
      cases hp : C.pc with
      | removeWait v rid =>
        have hv : v ≠ w := by rintro rfl; exact hcw C (List.mem_of_find?_eq_some hG) rid hp
        simp only [hp, h12 v hv] at hs ⊢
        cases hx : a.tab.finished.get? v with
        | none => rw [hx] at hs; cases hs
        | some y => rfl
      | _ => simp only [hp, Option.isSome_none, Bool.false_eq_true] at hs
  | reply =>
    simp only [step, h1] at hs ⊢
    split at hs
    · rfl
    · rfl
    · cases hs
  | bcast | loopTop | recvDying | killAll _ =>
    simp only [step, Op.cid?, tabStep, h1, h2', h4, h5, h6, h7, Option.isSome_map] at hs ⊢
    split at hs
    · rename_i h; rw [if_pos h]; first | rfl | (split <;> rfl)
    · cases hs
  | killNext =>
    simp only [step, Op.cid?, tabStep, h1, Option.isSome_map] at hs ⊢
    split at hs
    · rfl
    · rfl
    · cases hs
  | act now =>
    simp only [step, Op.cid?, tabStep, h1, h7, h9, Option.isSome_map] at hs ⊢
    split at hs
    · split at hs
      · rename_i h; simp only [if_pos h]; rfl
      · cases hs
    · cases hs
  | recvStarted g | recvDone g =>
    simp only [step, Op.cid?, tabStep, h1, h3, Option.isSome_map] at hs ⊢
    split at hs
    · rename_i h; rw [if_pos h]
      cases hG : a.tab.getG g with
      | none => rw [hG] at hs; cases hs
      | some G =>
        cases hp : G.pc <;> simp only [hG, hp, Option.isSome_none, Bool.false_eq_true] at hs ⊢
        rfl
    · cases hs
  | gDying g | gTimer g | gCall g =>
    simp only [step, Op.cid?, tabStep, h3, h2', Option.isSome_map] at hs ⊢
    cases hG : a.tab.getG g with
    | none => rw [hG] at hs; cases hs
    | some G =>
      simp only [hG] at hs ⊢
      split at hs
      · rename_i h; rw [if_pos h]; rfl
      · cases hs
  | recvStart c | recvStop c | cDead c | cLock c | cImmediate c | cRecv c | cGotWc c | cDying c | cAbort c | cClose c | cBcast c | cKill c
  | cRemoveAbort c | cRemoved c | hCheck c | hEnter c | hWake c =>
    simp only [step, Op.cid?, h8] at hs ⊢
    cases hG : a.getC c with
    | none => rw [hG] at hs; cases hs
    | some C =>
      simp only [hG, clientStep, h1, h2, h2', h7', h10, h11] at hs ⊢
      revert hs
      repeat' split
      all_goals simp_all

/-- There is always such a worker. -/
theorem Filler.exists {a : State} (hr : Reach p a) : ∃ op b, Filler p a op b := by
  have e1 : ∀ gs : List G, ∃ n, ∀ w, n ≤ w → ∀ g ∈ gs, g.pc ≠ .waiting w := by
    intro gs
    induction gs with
    | nil => exact ⟨0, nofun⟩
    | cons g gs ih =>
      obtain ⟨n, hn⟩ := ih
      cases hp : g.pc with
      | waiting v =>
        refine ⟨max n (v + 1), fun w hw x hx h => ?_⟩
        rcases List.mem_cons.1 hx with rfl | hx
        · rw [hp] at h; injection h; omega
        · exact hn w (by omega) x hx h
      | _ =>
        refine ⟨n, fun w hw x hx h => ?_⟩
        rcases List.mem_cons.1 hx with rfl | hx
        · rw [hp] at h; cases h
        · exact hn w hw x hx h
  have e2 : ∀ cs : List Client, ∃ n, ∀ w, n ≤ w → ∀ c ∈ cs, ∀ rid, c.pc ≠ .removeWait w rid := by
    intro cs
    induction cs with
    | nil => exact ⟨0, nofun⟩
    | cons c cs ih =>
      obtain ⟨n, hn⟩ := ih
      cases hp : c.pc with
      | removeWait v rid =>
        refine ⟨max n (v + 1), fun w hw x hx rid h => ?_⟩
        rcases List.mem_cons.1 hx with rfl | hx
        · rw [hp] at h; injection h; omega
        · exact hn w (by omega) x hx rid h
      | _ =>
        refine ⟨n, fun w hw x hx rid h => ?_⟩
        rcases List.mem_cons.1 hx with rfl | hx
        · rw [hp] at h; cases h
        · exact hn w hw x hx rid h
  have e3 : ∀ h : List Ev, ∃ m, ∀ w, m ≤ w → RSpec.finishedH h w = none := by
    intro h
    induction h with
    | nil => exact ⟨0, fun _ _ => rfl⟩
    | cons x h ih =>
      obtain ⟨m, hm⟩ := ih
      cases x with
      | finished v y =>
        refine ⟨max m (v + 1), fun w hw => ?_⟩
        simp only [RSpec.finishedH, if_neg (show w ≠ v by omega)]
        exact hm w (by omega)
      | _ => exact ⟨m, fun w hw => hm w hw⟩
  obtain ⟨n1, h1⟩ := e1 a.tab.gs
  obtain ⟨n2, h2⟩ := e2 a.clients
  obtain ⟨n3, h3⟩ := e3 a.tab.hist
  let w := max n1 (max n2 n3)
  have hf : a.tab.finished.get? w = none := by rw [hr.tab.hinv.fin]; exact h3 w (by omega)
  refine ⟨.finish w none, { a with tab := { a.tab with finished := a.tab.finished.set w none }.log (.finished w none) }, ?_,
    w, none, rfl, h1 w (by omega), h2 w (by omega)⟩
  simp [step, Op.cid?, tabStep, hf, withTab]

end Verif.Runner
