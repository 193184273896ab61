import Verif.Engine.ExactFull
import Verif.Props.EngineFine

/-!
# C96: exactly which histories an engine can have

`After cfg h L` is an account of an engine as its users see it, `L` being what the history `h` does not say. What it says cannot
happen does not. All that it allows does in some execution.
-/

namespace Verif.Props
open Verif.Engine Verif.Spec

variable {cfg : Config} {h : List Ev} {e : Ev}

/-- C96: each event of an engine is one that is possible after those before it. -/
theorem C96_sound {f : Fine} (hr : FReach cfg f) : urgent cfg f.s.hist = none ∧ ∃ L, After cfg f.s.hist L :=
  let ⟨L, ha, hu, _⟩ := freach_good hr; ⟨hu, L, ha.after .new⟩

/-- C96: a history is one of an engine if and only if each of its events is possible after those before it, and what has to follow
the last one at once has happened. -/
theorem C96_exact : (∃ f, FReach cfg f ∧ f.s.hist = h) ↔ urgent cfg h = none ∧ ∃ L, After cfg h L := by
  constructor
  · rintro ⟨f, hr, rfl⟩; exact C96_sound hr
  · rintro ⟨hu, L, ha⟩
    obtain ⟨f, k, x⟩ := after_canon ha
    exact ⟨f, k.reach, x.eq hu⟩

theorem after_last {h' : List Ev} {L : Hidden} (ha : After cfg h' L) (he : h' = e :: h) :
    (urgent cfg h = none → ∃ L0 L', After cfg h L0 ∧ Happens cfg h L0 e L') ∧ ∃ L0, After cfg h L0 := by
  induction ha with
  | new => cases he
  | event ha hu hs => injection he with h1 h2; subst h1 h2; exact ⟨fun _ => ⟨_, _, ha, hs⟩, _, ha⟩
  | forced ha hu => injection he with h1 h2; subst h1 h2; exact ⟨fun h => (by rw [h] at hu; cases hu), _, ha⟩
  | silent _ _ _ ih => exact ih he

theorem after_ext {h h' : List Ev} {L : Hidden} (x : Ext cfg h h') (ha : After cfg h' L) : ∃ L0, After cfg h L0 := by
  induction x with
  | refl => exact ⟨L, ha⟩
  | step hu _ ih => obtain ⟨L0, h0⟩ := ih ha; exact (after_last h0 rfl).2

/-- C96: what can be seen next, after a history, with what has to follow it at once, is exactly what is possible. -/
theorem C96_next (hu : urgent cfg h = none) :
    (∃ f, FReach cfg f ∧ Ext cfg (e :: h) f.s.hist) ↔ ∃ L L', After cfg h L ∧ Happens cfg h L e L' := by
  constructor
  · rintro ⟨f, hr, x⟩
    obtain ⟨_, L, ha⟩ := C96_sound hr
    obtain ⟨L0, h0⟩ := after_ext x ha
    exact (after_last h0 rfl).1 hu
  · rintro ⟨L, L', ha, hs⟩
    obtain ⟨f, k, x⟩ := after_canon (.event ha hu hs)
    exact ⟨f, k.reach, x⟩

/-- C96: whatever is true of the history of every execution follows from the specification. -/
theorem C96_complete (P : List Ev → Prop) :
    (∀ f, FReach cfg f → P f.s.hist) ↔ ∀ h L, After cfg h L → urgent cfg h = none → P h :=
  ⟨fun hP h L ha hu => let ⟨f, hr, he⟩ := C96_exact.2 ⟨hu, L, ha⟩; he ▸ hP f hr,
   fun hP _ hr => let ⟨hu, L, ha⟩ := C96_sound hr; hP _ L ha hu⟩

/-- A manifold cannot be started; before it is tried again, the engine is killed. -/
def briefLife : List Ev :=
  [.exit, .kill, .ended 0 0 3 (some (.user 5)) (some (.user 5)) false none, .startErr 0 0 (.user 5),
   .startCall 0 0 (Demo.cfg.delayFn 0 0 0), .begin 0 0 0 0 {}, .installed 0 {}]

/- C96_exact, from right to left: each event is checked against the specification. So some engine lives this. -/
example : ∃ f, FReach Demo.cfg f ∧ f.s.hist = briefLife := by
  refine C96_exact.2 ⟨rfl, ?_⟩
  have h1 := After.event (cfg := Demo.cfg) .new rfl (.installed {} 0 {} rfl rfl (by
    rintro ⟨n, hn⟩
    obtain ⟨m, hm⟩ := Relation.TransGen.head'_iff.1 hn
    obtain ⟨⟨x, hx, hi⟩, _⟩ := hm
    revert hx hi
    by_cases e : n = 0 <;> simp [manH, e]
    rintro rfl; simp))
  have h2 := After.event h1 rfl (.start _ 0 0 [] {} rfl (by simp) rfl)
  have h3 := After.silent h2 rfl (.ready (by simp))
  have h4 := After.event h3 rfl (.startCall _ 0 0 0 0 0 rfl rfl (by simp) rfl (by decide +kernel))
  have h5 := After.event h4 rfl (.startErr _ 0 0 (.user 5) rfl rfl)
  have h6 := After.event h5 rfl (.ended _ 0 0 3 (some (.user 5)) {} (fun _ => []) rfl rfl rfl rfl (by
    intro i; simp))
  have h7 := After.event h6 (by decide +kernel) (.kill _)
  have h8 := After.silent h7 rfl (.drop _ (by simp))
  have h9 := After.event h8 rfl (.exit _ (.inl rfl) (by simp) (by
    intro n; left
    by_cases e : n = 0 <;> simp [openH, e]))
  exact ⟨_, h9⟩

/- C96_sound, C96_next: a worker that is up can finish; its Start func is not called again before that is known. -/
example : (∃ f, FReach Demo.cfg f ∧ f.s.hist = .finished 10 none :: (FDemo.after Demo.cfg FDemo.opsUp).s.hist) ∧
    ¬ ∃ f, FReach Demo.cfg f ∧ f.s.hist = .startCall 0 0 0 :: (FDemo.after Demo.cfg FDemo.opsUp).s.hist := by
  refine ⟨⟨FDemo.after Demo.cfg (FDemo.opsUp ++ [.env (.finish 10 none)]), FDemo.after_reach _ _, by decide +kernel⟩, ?_⟩
  rintro ⟨f, hr, he⟩
  obtain ⟨L, L', _, hs⟩ := (C96_next (cfg := Demo.cfg) (h := (FDemo.after Demo.cfg FDemo.opsUp).s.hist)
    (e := .startCall 0 0 0) (by decide +kernel)).1 ⟨f, hr, by rw [he]; exact .refl rfl⟩
  cases hs with
  | startCall _ _ _ _ _ _ hp => exact absurd hp (by decide +kernel)

end Verif.Props
