import Verif.Runner.ExactBack
import Verif.Props.RunnerDemo

/-!
# C95: exactly which histories a runner can have

`History p T` is an account of a runner as its users see it. What it says cannot happen does not. All that it allows does in some
execution.
-/

namespace Verif.Props
open Verif.RSpec Verif.Runner Verif.Spec

/-- C95: each event of a runner is one that is possible after those before it, and what is due at the end has happened. -/
theorem C95_sound {p : Params} {s : State} (hr : Reach p s) : ∃ T, History p T s.tab.hist :=
  let ⟨T, hx⟩ := hr.xinv; ⟨T, hx.tab.hist⟩

/-- C95: a history is one of a runner if and only if each of its events is possible after those before it, and what is due at the
end has happened. -/
theorem C95_exact {p : Params} {h : List Ev} : (∃ s, Reach p s ∧ s.tab.hist = h) ↔ ∃ T, History p T h :=
  ⟨fun ⟨_, hr, he⟩ => he ▸ C95_sound hr, fun ⟨_, hh⟩ => history_reach hh⟩

/-- C95: what can be seen next, after a history, with all that it brings about, is exactly what is possible. -/
theorem C95_next {p : Params} {h : List Ev} {e : Ev} (hd : dueH p h = []) :
    (∃ s, Reach p s ∧ s.tab.hist = (caused p e h).reverse ++ e :: h) ↔ ∃ T, History p T h ∧ Can p T e h := by
  rw [C95_exact]
  constructor
  · rintro ⟨T, h1, _⟩
    have h2 := RSpec.AtEvery.drop h1
    have h3 : Possible p T e h := h2.1
    unfold Possible at h3
    rw [hd] at h3
    exact ⟨T, ⟨h2.2, hd⟩, h3⟩
  · rintro ⟨T, h1, h2⟩
    exact ⟨T, hist_next h1 h2⟩

/-- C95: whatever is true of the history of every execution follows from the specification. -/
theorem C95_complete {p : Params} (P : List Ev → Prop) : (∀ s, Reach p s → P s.tab.hist) ↔ ∀ T h, History p T h → P h :=
  ⟨fun hP T _ hh => let ⟨s, hr, he⟩ := C95_exact.2 ⟨T, hh⟩; he ▸ hP s hr,
   fun hP _ hr => let ⟨T, hh⟩ := C95_sound hr; hP T _ hh⟩

/-- The life of a runner whose worker cannot be started and is not to be tried again. -/
def shortLife : List Ev :=
  [.exit, .shutdown, .kill, .removed 7 0, .ended 7 0 (some (.user 5)), .startErr 7 0 (.user 5), .ret 0 .ok, .startCall 7 0 1,
   .begin 7 0 0 1, .accepted 0 7 0 1, .callStart 0 7 1]

/- C95_exact, from right to left: each event is checked against the specification. So some runner lives this. -/
example : ∃ s, Reach RDemo.prm s ∧ s.tab.hist = shortLife := by
  refine C95_exact.2 ⟨⟨fun _ => 0, fun _ => 0⟩, ?_⟩
  have hk : ∀ id, knownH shortLife id = none := by intro id; simp [shortLife, knownH]
  refine ⟨?_, by decide +kernel⟩
  simp [shortLife, AtEvery, Possible, Can, dueH, caused, again, fatal, begins, acceptances, calls, busyH, Idle, Ready, Answer, knownH, openH, phaseH,
    sfH, callH, toldH, Asks, Undecided, armH, Delayed, RDemo.prm]

/-- Before a worker is there, one asks for it and another one wants it stopped and removed. -/
def asked : List Ev :=
  [.callWorker 2 7, .callRemove 1 7, .ret 0 .ok, .begin 7 0 0 1, .accepted 0 7 0 1, .callStart 0 7 1]

/-- The worker is started. -/
def there : List Ev := .learned 7 0 10 :: .startOk 7 0 10 :: .startCall 7 0 1 :: asked

/-- Both get it. The runner is killed in between, which does not matter to those that have waited. -/
def lookedUp : List Ev :=
  [.ret 1 (.result none), .removed 7 0, .ended 7 0 none, .finished 10 none, .ret 2 (.worker 10), .kill, .clientKillW 1 10] ++ there

/- C95_exact, from right to left, with lookups. -/
example : ∃ s, Reach RDemo.prm s ∧ s.tab.hist = lookedUp := by
  refine C95_exact.2 ⟨⟨fun _ => 0, fun _ => 0⟩, ?_, by decide +kernel⟩
  have hl1 : CanLook RDemo.prm asked := ⟨by decide +kernel, by rintro ⟨l, h, _⟩; revert h; simp [asked, busyH]⟩
  have hl2 : CanLook RDemo.prm there := ⟨by decide +kernel, by rintro ⟨l, h, _⟩; revert h; simp [there, asked, busyH]⟩
  have hw : ∀ cid, cid = 1 ∨ cid = 2 → Waits RDemo.prm there cid 7 := by
    rintro cid (rfl | rfl) <;>
      exact ⟨[.learned 7 0 10, .startOk 7 0 10, .startCall 7 0 1], asked, rfl, by decide +kernel, hl1, by decide +kernel, by decide +kernel⟩
  have hg : Gets RDemo.prm there 1 7 10 0 := ⟨[], there, rfl, by decide +kernel, hl2, ⟨by decide +kernel, by decide +kernel⟩, .inr (hw 1 (.inl rfl))⟩
  have hs : Sees RDemo.prm (.kill :: .clientKillW 1 10 :: there) 2 (fun h' => HasW h' 7 10 0 ∧ Waits RDemo.prm h' 2 7) :=
    ⟨[.kill, .clientKillW 1 10], there, rfl, by decide +kernel, hl2, ⟨by decide +kernel, by decide +kernel⟩, hw 2 (.inr rfl)⟩
  refine ⟨?ret, ?rem, ?ended, ?fin, ?got, ?kill, ?stop, ?_⟩
  case stop => exact ⟨7, by decide +kernel, by simp [there, asked], by simp [NoKill, there, asked], hg⟩
  case kill => trivial
  case got => exact ⟨by simp [there, asked], .worker 7, by decide +kernel, .inr ⟨10, 0, rfl, .inr hs⟩⟩
  case fin =>
    show finishedH (.ret 2 (.worker 10) :: .kill :: .clientKillW 1 10 :: there) 10 = none
    decide +kernel
  case ended =>
    refine ⟨⟨.inl (by decide +kernel), ?_⟩, by decide +kernel, .inr (.inr ⟨10, by decide +kernel, by simp [there], by decide +kernel⟩)⟩
    simp [there, asked]
  case rem => exact rfl
  case ret =>
    refine ⟨by simp [there, asked], .remove 7, by decide +kernel, .inr ⟨10, none, by simp, by decide +kernel, .inr ⟨rfl, by simp, ?_⟩⟩⟩
    rintro ⟨cid, w, e, _, h, _⟩
    revert h; simp [there, asked]
  simp [there, asked, AtEvery, Possible, Can, dueH, caused, again, fatal, begins, acceptances, calls, busyH, Idle, Ready, Answer, knownH, openH, phaseH,
    sfH, callH, toldH, Asks, Undecided, armH, Delayed, RDemo.prm]

/- C95_sound, C95_next: a worker that is up can finish; it cannot be started again before the runner has learned that it has. -/
example : (∃ s, Reach RDemo.prm s ∧ s.tab.hist = .finished 10 none :: (RDemo.after RDemo.prm RDemo.opsUp).tab.hist) ∧
    ¬ ∃ s, Reach RDemo.prm s ∧ s.tab.hist = .startCall 7 0 1 :: (RDemo.after RDemo.prm RDemo.opsUp).tab.hist := by
  refine ⟨⟨RDemo.after RDemo.prm (RDemo.opsUp ++ [.finish 10 none]), RDemo.after_reach _ _, by decide +kernel⟩, fun h => ?_⟩
  obtain ⟨T, _, hc⟩ := (C95_next (p := RDemo.prm) (e := .startCall 7 0 1) (h := (RDemo.after RDemo.prm RDemo.opsUp).tab.hist) (by decide +kernel)).1 h
  exact absurd hc.2.1 (by decide +kernel)

end Verif.Props
