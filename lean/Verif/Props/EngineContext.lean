import Verif.Props.EngineHist
import Verif.Props.EngineCause
import Verif.Props.EngineConverge

/-!
# C69: the context given to a manifold's Start func
-/

namespace Verif.Props
open Verif.Spec Verif.Engine

variable {cfg : Config} {s : State}

/-- Whether the context made for attempt `g` (dependency/engine.go:404, 437-440) is done: its CancelFunc has been called
(by requestStop, 737-740, the only place), or the tomb is dying. -/
def ctxDone (s : State) (g : Nat) : Bool := s.tomb.dying || s.hist.contains (.cancelled g)

/-- C69: the context of an attempt is done exactly if the engine has been killed or the attempt has been told to stop. -/
theorem C69_context (hr : Reach cfg s) (g : Nat) : ctxDone s g = true ↔ .kill ∈ s.hist ∨ .cancelled g ∈ s.hist := by
  have hd : s.tomb.dying = true ↔ .kill ∈ s.hist := (reach_hinv hr).2.dying
  simp only [ctxDone, Bool.or_eq_true, List.contains_iff_mem, hd]

theorem open_begin {h : List Ev} {n : Name} {g : Nat} (ho : openH h n = some g) : ∃ b r sn, .begin n g b r sn ∈ h := by
  have : openH (h ++ []) n = some g := by rw [List.append_nil]; exact ho
  rcases openH_append this with h | h
  · exact h
  · cases h

/-- No two manifolds have the same open attempt. -/
theorem open_inj : ∀ {h : List Ev}, AtEvery OneAtATime h → ∀ {n m : Name} {g : Nat}, openH h n = some g → openH h m = some g → n = m := by
  intro h
  induction h with
  | nil => intro _ _ _ _ h1; cases h1
  | cons e h ih =>
    rintro ⟨he, hk⟩ n m g h1 h2
    cases e with
    | begin m' g' b r sn =>
      simp only [openH] at h1 h2
      have fresh : ∀ {x : Name}, openH h x = some g → g ≠ g' := by
        rintro x hx rfl
        obtain ⟨b', r', sn', hb⟩ := open_begin hx
        exact he.2.1 _ _ _ _ hb
      split at h1
      · rename_i hn
        cases h1
        split at h2
        · rename_i hm; exact hn.trans hm.symm
        · exact absurd rfl (fresh h2)
      · split at h2
        · cases h2; exact absurd rfl (fresh h1)
        · exact ih hk h1 h2
    | ended m' g' _ _ _ _ _ =>
      simp only [openH] at h1 h2
      split at h1
      · cases h1
      · split at h2
        · cases h2
        · exact ih hk h1 h2
    | _ => exact ih hk h1 h2

/-- An attempt that has ended is not open. -/
theorem ended_not_open : ∀ {h : List Ev}, AtEvery OneAtATime h → ∀ {n m : Name} {g : Nat} {now : Int} {raw f : Option Err} {told : Bool} {lost : Option WRef},
    .ended n g now raw f told lost ∈ h → openH h m ≠ some g := by
  intro h
  induction h with
  | nil => intro _ _ _ _ _ _ _ _ _ hm; cases hm
  | cons e h ih =>
    intro hk n m g now raw f told lost hm ho
    obtain ⟨he, hk⟩ := hk
    rcases List.mem_cons.1 hm with hm | hm'
    · subst hm
      have he : openH h n = some g := he
      simp only [openH] at ho
      split at ho
      · cases ho
      · rename_i hne
        exact hne (open_inj hk ho he)
    · clear hm
      cases e with
      | begin m' g' b r sn =>
        simp only [openH] at ho
        split at ho
        · cases ho
          obtain ⟨a, c, rfl⟩ := List.append_of_mem hm'
          have h1 : openH c n = some g := hk.split
          obtain ⟨b', r', sn', hb⟩ := open_begin h1
          exact he.2.1 _ _ _ _ (List.mem_append_right _ (List.mem_cons_of_mem _ hb))
        · exact ih hk hm' ho
      | ended m' g' _ _ _ _ _ =>
        simp only [openH] at ho
        split at ho
        · cases ho
        · exact ih hk hm' ho
      | _ => exact ih hk hm' ho

/-- C69: an attempt that has ended without having been told to stop keeps its context, not done, for as long as the engine
is not killed: nothing cancels it. -/
theorem C69_left (hr : Reach cfg s) {n : Name} {g : Nat} {now : Int} {raw f : Option Err} {lost : Option WRef}
    (he : .ended n g now raw f false lost ∈ s.hist) (hk : .kill ∉ s.hist) : ctxDone s g = false := by
  refine Bool.eq_false_iff.2 fun h => ?_
  rcases (C69_context hr g).1 h with h | h
  · exact hk h
  obtain ⟨post, pre, hh⟩ := List.append_of_mem h
  have h1 := C30_one_at_a_time hr
  have h2 := C66_caused hr
  rw [hh] at h2
  have h3 : Caused (.cancelled g) pre := h2.split
  rcases h3 with h3 | ⟨n', _, ho, _⟩
  · exact hk (by rw [hh]; exact List.mem_append_right _ (List.mem_cons_of_mem _ h3))
  · rw [hh] at he
    rcases List.mem_append.1 he with he | he
    · -- it was told to stop when it ended
      obtain ⟨a, c, rfl⟩ := List.append_of_mem he
      have h4 := C30_ends_properly hr
      rw [hh, List.append_assoc] at h4
      have h5 : EndsProperly cfg (.ended n g now raw f false lost) (c ++ .cancelled g :: pre) := by
        have := h4.split (post := a) (e := .ended n g now raw f false lost) (pre := c ++ .cancelled g :: pre)
        exact this
      have := h5.2.1.2 (List.mem_append_right _ List.mem_cons_self)
      cases this
    · have he := (List.mem_cons.1 he).resolve_left nofun
      rw [hh] at h1
      exact ended_not_open (atEvery_drop h1).2 he ho

/-- A manifold whose Start func fails every time, after `k` failures and with the history `h`. -/
def failing (k : Nat) (h : List Ev) : State :=
  { manifolds := ⟨[(0, {})]⟩, current := ⟨[(0, { starting := true, startAttempts := k + 1, recentErrors := k, cancel := some k })]⟩,
    gs := [{ gid := k, name := 0, base := if k = 0 then 0 else 3, recent := k, snap := {} }], nextG := k + 1, hist := h }

theorem failing_again (k : Nat) (h : List Ev) :
    Demo.run Demo.cfg (failing k h) [.gTimer k 0, .gStartErr k (.user 1), .armStopped k 4 Demo.noVals none] =
    some (failing (k + 1) (.begin 0 (k + 1) 3 (k + 1) {} :: .ended 0 k 4 (some (.user 1)) (some (.user 1)) false none ::
      .startErr 0 k (.user 1) :: .startCall 0 k (if k = 0 then 0 else 3) :: h)) := by
  simp only [Demo.run, step, failing, State.getG, State.mapG, State.log, List.find?, List.map, decide_true]
  simp [show (0 : Rat) < 1 by decide, validVals, AMap.empty, startError, Err.is, gotStopped, noteFatal, State.log, State.cur, State.man,
      AMap.get?, applyFilter, Demo.cfg, resetInfo, newAttempts, newRecent, State.tick, endArm, State.setCur, State.dying, Tomb.dying,
      Info.stopped, reactToStop, requestStart, launch, takeSnapshot, AMap.set, AMap.erase,
      show errIs (some (Err.user 1)) Err.aborted = false by decide, show errIs (some (Err.user 1)) Err.missing = false by decide,
      show errIs (some (Err.user 1)) Err.bounce = false by decide, show errIs (some (Err.user 1)) Err.uninstall = false by decide]

/-- C69: such contexts pile up: for every number there is a live engine that has so many of them, with a single manifold. -/
theorem C69_pile_up (k : Nat) : ∃ s, Reach Demo.cfg s ∧ .kill ∉ s.hist ∧
    ∀ g < k, (∃ now e, .ended 0 g now e e false none ∈ s.hist) ∧ ctxDone s g = false := by
  suffices h : ∃ h, Reach Demo.cfg (failing k h) ∧ .kill ∉ h ∧ ∀ g < k, .ended 0 g 4 (some (.user 1)) (some (.user 1)) false none ∈ h by
    obtain ⟨h, hr, hk, hg⟩ := h
    exact ⟨_, hr, hk, fun g hlt => ⟨⟨_, _, hg g hlt⟩, C69_left hr (hg g hlt) hk⟩⟩
  induction k with
  | zero =>
    refine ⟨[.begin 0 0 0 0 {}, .installed 0 {}], ?_, by simp, nofun⟩
    have h : failing 0 [.begin 0 0 0 0 {}, .installed 0 {}] = Demo.after Demo.cfg [.armInstall 0 {} [0] none] := by decide +kernel
    rw [h]
    exact Demo.after_reach _ _
  | succ k ih =>
    obtain ⟨h, hr, hk, hg⟩ := ih
    refine ⟨_, Demo.run_reach _ hr (failing_again k h), ?_, ?_⟩
    · simpa using hk
    · intro g hlt
      by_cases hgk : g = k
      · subst hgk; simp
      · have := hg g (by omega)
        simp [this]

/-! ### Examples -/

-- attempts 1 and 2 have been told to stop, attempt 0 ended by itself, attempt 3 is open
example : let s := Demo.after Demo.cfg Demo.opsBounce
    Reach Demo.cfg s ∧ .kill ∉ s.hist ∧ (List.range 5).map (ctxDone s) = [false, true, true, false, false] ∧
    .ended 0 0 100 (some (.user 1)) (some (.user 1)) false (some (.obj 10)) ∈ s.hist :=
  ⟨Demo.after_reach _ _, by decide +kernel, by decide +kernel, by decide +kernel⟩

-- once the engine has been killed, all are done
example : (List.range 5).map (ctxDone (Demo.after Demo.cfg Demo.opsDown)) = [true, true, true, true, true] := by decide +kernel

end Verif.Props
