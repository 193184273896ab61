import Verif.Engine.FineFair
import Verif.Stutter

/-!
# Infinite executions of an engine with pauses

If the engine does nothing from some point on, workers the engine knows nothing of make an infinite execution of it.
-/

namespace Verif.Engine
open State Verif.Spec Verif.Schedule

variable {cfg : Config}

def ftrans (cfg : Config) (f : Fine) (op : FOp) (f' : Fine) : Prop := fstep cfg f op = some f'

/-- An infinite execution of an engine with pauses. -/
abbrev Pauses (cfg : Config) := SRun (ftrans cfg) ({} : Fine)

/-- What has happened in the first `k` steps. -/
def pausesHist (r : Pauses cfg) (k : Nat) : List Ev := (r.st k).s.hist

/-- The kinds of steps of the engine's own, ends of delays aside. -/
def ekind (op : FOp) : Option FKind := op.kind.filter (fun x => !x.isTimer)

theorem ekind_some {op : FOp} {x : FKind} : ekind op = some x ↔ op.kind = some x ∧ x.isTimer = false := by
  simp [ekind, Option.filter_eq_some_iff]

theorem ekind_of {op : FOp} {x : FKind} (h : op.kind = some x) (hx : x.isTimer = false) : ekind op = some x := ekind_some.2 ⟨h, hx⟩

theorem ekind_can {st : Nat → Fine} {x : FKind} (h : InfOften (fun k => Can (ftrans cfg) ekind (st k) x)) :
    x.isTimer = false ∧ InfOften (fun k => FCanDo cfg (st k) x) := by
  constructor
  · obtain ⟨_, _, op, _, hk, _⟩ := h 0
    exact (ekind_some.1 hk).2
  · exact h.mono (fun k ⟨op, f', hk, hs⟩ => ⟨op, f', (ekind_some.1 hk).1, hs⟩)

/-- A worker finishes that no goroutine of the engine waits for. -/
def Filler (cfg : Config) (a : Fine) (op : FOp) (b : Fine) : Prop :=
  fstep cfg a op = some b ∧ ∃ w e, op = .env (.finish w e) ∧ ∀ g ∈ a.s.gs, g.pc ≠ .waiting w

theorem Filler.form {a b : Fine} {op : FOp} (h : Filler cfg a op b) : ∃ w e, (∀ g ∈ a.s.gs, g.pc ≠ .waiting w) ∧
    b = { a with s := { a.s with finished := a.s.finished.set w e }.log (.finished w e) } := by
  obtain ⟨hs, w, e, rfl, hw⟩ := h
  simp only [fstep, Op.isEnv, if_true, Engine.step] at hs
  split at hs
  · simp only [Option.map_some, Option.some.injEq] at hs
    exact ⟨w, e, hw, hs.symm⟩
  · cases hs

/-- This makes nothing possible for the engine. -/
theorem Filler.can {a b : Fine} {op : FOp} (h : Filler cfg a op b) {x : FKind} (hc : FCanDo cfg b x) : FCanDo cfg a x := by
  obtain ⟨w, e, hw, hb⟩ := h.form
  obtain ⟨op', c, hk, hs⟩ := hc
  have h1 : b.todo = a.todo := by rw [hb]
  have h2 : b.s.tomb = a.s.tomb := by rw [hb]; rfl
  have h3 : ∀ g, b.s.getG g = a.s.getG g := fun g => by rw [hb]; rfl
  have h4 : b.s.oneShot = a.s.oneShot := by rw [hb]; rfl
  have h5 : b.s.current = a.s.current := by rw [hb]; rfl
  have h6 : b.s.dependents = a.s.dependents := by rw [hb]; rfl
  have h7 : b.s.dying = a.s.dying := by rw [hb]; rfl
  have h8 : ∀ v, v ≠ w → b.s.finished.get? v = a.s.finished.get? v := fun v hv => by rw [hb]; exact AMap.get?_set_ne _ _ hv
  suffices (fstep cfg a op').isSome = true by
    obtain ⟨c', hc'⟩ := Option.isSome_iff_exists.1 this
    exact ⟨op', c', hk, hc'⟩
  clear hb
  cases op' with
  | work =>
    simp only [fstep, h1] at hs ⊢
    cases ht : a.todo with
    | nil => rw [ht] at hs; cases hs
    | cons t ts => rfl
  | report | install _ _ _ => cases hk
  | dying o =>
    simp only [fstep, h1, h2, h4, h5, h7] at hs ⊢
    split at hs
    · rename_i h; rw [if_pos h]; rfl
    · cases hs
  | started g now =>
    simp only [fstep, h1, h2, h3] at hs ⊢
    split at hs
    · rename_i h
      rw [if_pos h]
      split at hs
      · cases hs
      · rename_i G hG
        cases hp : G.pc <;> simp only [hp, reduceCtorEq] at hs ⊢
        rfl
    · cases hs
  | stopped g now vals =>
    simp only [fstep, h1, h2, h3, h6] at hs ⊢
    split at hs
    · rename_i h
      rw [if_pos h]
      split at hs
      · cases hs
      · rename_i G hG
        cases hp : G.pc <;> simp only [hp, reduceCtorEq] at hs ⊢
        rfl
    · cases hs
  | env op' =>
    simp only [fstep] at hs ⊢
    split at hs
    · rename_i h
      rw [if_pos h, Option.isSome_map]
      obtain ⟨s', hs, _⟩ := Option.map_eq_some_iff.1 hs
      cases op' with
      | gAbort g | gTimer g _ | gSelfDone g =>
        simp only [Engine.step, h3, h7] at hs ⊢
        cases hG : a.s.getG g with
        | none => rw [hG] at hs; cases hs
        | some G =>
          simp only [hG] at hs ⊢
          split at hs
          · rename_i h; rw [if_pos h]; rfl
          · cases hs
      | gRegisterDying g =>
        simp only [Engine.step, h3, h7] at hs ⊢
        cases hG : a.s.getG g with
        | none => rw [hG] at hs; cases hs
        | some G =>
          cases hp : G.pc <;> simp only [hG, hp, reduceCtorEq] at hs ⊢
          split at hs
          · rename_i h; rw [if_pos h]; rfl
          · cases hs
      | gWaitRet g =>
        simp only [Engine.step, h3] at hs ⊢
        cases hG : a.s.getG g with
        | none => rw [hG] at hs; cases hs
        | some G =>
          cases hp : G.pc with
          | waiting v =>
            have hv : v ≠ w := by rintro rfl; exact hw G (List.mem_of_find?_eq_some hG) hp
            simp only [hG, hp, h8 v hv] at hs ⊢
            cases hx : a.s.finished.get? v with
            | none => rw [hx] at hs; cases hs
            | some y => rfl
          | _ => simp only [hG, hp, reduceCtorEq] at hs
      | armDying _ _ | armStarted _ _ _ | armStopped _ _ _ _ => cases h
      | _ => simp [FOp.kind, Op.kind] at hk
    · cases hs

/-- There is always such a worker. -/
theorem Filler.exists {a : Fine} (hr : FReach cfg a) : ∃ op b, Filler cfg a op b := by
  have : ∀ gs : List G, ∃ n, ∀ w, n ≤ w → ∀ g ∈ gs, g.pc ≠ .waiting w := by
    intro gs
    induction gs with
    | nil => exact ⟨0, nofun⟩
    | cons g gs ih =>
      obtain ⟨n, hn⟩ := ih
      cases hp : g.pc with
      | waiting v =>
        refine ⟨max n (v + 1), fun w hw x hx h => ?_⟩
        rcases List.mem_cons.1 hx with rfl | hx
        · rw [hp] at h; injection h; omega
        · exact hn w (by omega) x hx h
      | _ =>
        refine ⟨n, fun w hw x hx h => ?_⟩
        rcases List.mem_cons.1 hx with rfl | hx
        · rw [hp] at h; cases h
        · exact hn w hw x hx h
  obtain ⟨n, hn⟩ := this a.s.gs
  have : ∀ h : List Ev, ∃ m, ∀ w e, .finished w e ∈ h → w < m := by
    intro h
    induction h with
    | nil => exact ⟨0, nofun⟩
    | cons x h ih =>
      obtain ⟨m, hm⟩ := ih
      cases x with
      | finished v y =>
        refine ⟨max m (v + 1), fun w e hw => ?_⟩
        rcases List.mem_cons.1 hw with h | h
        · injection h; omega
        · have := hm w e h; omega
      | _ =>
        refine ⟨m, fun w e hw => ?_⟩
        rcases List.mem_cons.1 hw with h | h
        · cases h
        · exact hm w e h
  obtain ⟨m, hm⟩ := this a.s.hist
  have hf : a.s.finished.get? (max n m) = none := by
    cases h : a.s.finished.get? (max n m) with
    | none => rfl
    | some x => have := hm _ _ (((freach_hinv hr).2.fin _ x).1 h); omega
  refine ⟨_, { a with s := { a.s with finished := a.s.finished.set (max n m) none }.log (.finished (max n m) none) }, ?_,
    max n m, none, rfl, hn _ (by omega)⟩
  simp only [fstep, Op.isEnv, if_true, Engine.step, hf, Option.isNone_none, Option.map_some]

end Verif.Engine
