import Verif.System.Own
import Verif.Props.SystemErr
import Verif.Props.RunnerExact
import Verif.Props.EngineExact

/-!
# Who kills whom

Components kill only workers that have been handed to them.
-/

namespace Verif.Props
open Verif.System Verif.Spec

/-- It has been handed this worker: by a start func, as argument of Add, or in a Plan. -/
def Handed : Comp → Nat → Prop
  | .runner _ s, w => ∃ id g, .startOk id g w ∈ s.tab.hist
  | .catacomb _ s, w => (∃ c, .callAdd c w ∈ s.hist) ∨ ∃ i p, .callInvoke i p ∈ s.hist ∧ some w ∈ p.init
  | .engine _ f, w => ∃ n g, .startOk n g (.obj w) ∈ f.s.hist
  | .leaf _ _, _ => False

theorem running_mem {h : List Runner.Ev} {g w : Nat} (hp : RSpec.phaseH h g = some (.running w)) : ∃ id, .startOk id g w ∈ h := by
  induction h with
  | nil => cases hp
  | cons x h ih =>
    unfold RSpec.phaseH at hp
    cases x <;> simp only at hp <;> first
      | exact (ih hp).imp (fun _ hm => List.mem_cons_of_mem _ hm)
      | (split at hp
         · first
           | (rename_i hg; subst hg; injection hp with hp; injection hp with hp; subst hp; exact ⟨_, List.mem_cons_self⟩)
           | cases hp
         · exact (ih hp).imp (fun _ hm => List.mem_cons_of_mem _ hm))

theorem inst_mem {h : List Runner.Ev} {id w : Nat} (hp : RSpec.instH h id = some w) : ∃ g, .learned id g w ∈ h := by
  induction h with
  | nil => cases hp
  | cons x h ih =>
    unfold RSpec.instH at hp
    cases x <;> simp only at hp <;> first
      | exact (ih hp).imp (fun _ hm => List.mem_cons_of_mem _ hm)
      | (split at hp
         · first
           | (rename_i hg; subst hg; injection hp with hp; subst hp; exact ⟨_, List.mem_cons_self⟩)
           | cases hp
         · exact (ih hp).imp (fun _ hm => List.mem_cons_of_mem _ hm))

theorem inst_started {p : Runner.Params} {s : Runner.State} (hr : Runner.Reach p s) {h : List Runner.Ev} (hs : ∃ l, s.tab.hist = l ++ h) {id w : Nat}
    (hp : RSpec.instH h id = some w) : ∃ id g, .startOk id g w ∈ s.tab.hist := by
  obtain ⟨l, hl⟩ := hs
  obtain ⟨g, hm⟩ := inst_mem hp
  obtain ⟨post, pre, hh⟩ := List.append_of_mem (show Runner.Ev.learned id g w ∈ s.tab.hist by rw [hl]; exact List.mem_append_right _ hm)
  have hk := runner_evOk hr
  rw [hh] at hk
  have hk : RSpec.openH pre id = some g ∧ RSpec.phaseH pre g = some (.running w) := hk.split
  obtain ⟨id', hm⟩ := running_mem hk.2
  exact ⟨id', g, by rw [hh]; exact List.mem_append_right _ (List.mem_cons_of_mem _ hm)⟩

theorem due_own {p : Runner.Params} {h : List Runner.Ev} {e : Runner.Ev} (he : e ∈ RSpec.dueH p h) : ∀ c w, e ≠ .clientKillW c w := by
  induction h with
  | nil => cases he
  | cons x h ih =>
    unfold RSpec.dueH at he
    split at he
    · intro c w h
      subst h
      unfold RSpec.caused RSpec.killing at he
      repeat' split at he
      all_goals (first | (simp at he; done) | skip)
    · rename_i hd
      exact ih (by rw [hd]; exact List.mem_cons_of_mem _ he)

theorem ok_mem {h : List Engine.Ev} {n : Name} {w : Engine.WRef} (hp : Spec.phaseH h n = .ok w) : ∃ g, .startOk n g w ∈ h := by
  induction h with
  | nil => cases hp
  | cons x h ih =>
    unfold Spec.phaseH at hp
    cases x <;> simp only at hp <;> first
      | exact (ih hp).imp (fun _ hm => List.mem_cons_of_mem _ hm)
      | (split at hp
         · first
           | (rename_i hg; subst hg; injection hp with hp; subst hp; exact ⟨_, List.mem_cons_self⟩)
           | cases hp
         · exact (ih hp).imp (fun _ hm => List.mem_cons_of_mem _ hm))

theorem worker_mem {h : List Engine.Ev} {n : Name} {w : Engine.WRef} (hp : Spec.workerH h n = some w) : ∃ g t, .registered n g w t ∈ h := by
  induction h with
  | nil => cases hp
  | cons x h ih =>
    unfold Spec.workerH at hp
    have more : (∃ g t, Engine.Ev.registered n g w t ∈ h) → ∃ g t, Engine.Ev.registered n g w t ∈ x :: h := fun ⟨g, t, hm⟩ => ⟨g, t, List.mem_cons_of_mem _ hm⟩
    cases x <;> simp only at hp <;> first
      | exact more (ih hp)
      | (split at hp
         · first
           | (rename_i hg; subst hg; injection hp with hp; subst hp; exact ⟨_, _, List.mem_cons_self⟩)
           | cases hp
         · exact more (ih hp))

/-- What an engine kills has been started. -/
theorem after_kills {cfg : Engine.Config} {h : List Engine.Ev} {L : Hidden} (ha : After cfg h L) :
    (∀ w, .killW w ∈ h → ∃ n g, .startOk n g w ∈ h) ∧ ∀ n g w t, .registered n g w t ∈ h → ∃ n g, .startOk n g w ∈ h := by
  have more : ∀ {e : Engine.Ev} {h : List Engine.Ev} {w : Engine.WRef}, (∃ n g, Engine.Ev.startOk n g w ∈ h) → ∃ n g, Engine.Ev.startOk n g w ∈ e :: h :=
    fun ⟨n, g, hm⟩ => ⟨n, g, List.mem_cons_of_mem _ hm⟩
  induction ha with
  | new => exact ⟨nofun, nofun⟩
  | @event h L e L' ha hu hs ih =>
    refine ⟨fun w hm => ?_, fun n g w t hm => ?_⟩
    · rcases List.mem_cons.1 hm with rfl | hm
      · cases hs with
        | refuse n g _ ho hp => exact more ((ok_mem hp).elim (fun g h => ⟨n, g, h⟩))
      · exact more (ih.1 w hm)
    · rcases List.mem_cons.1 hm with rfl | hm
      · cases hs with
        | registered _ _ _ _ _ _ _ hp => exact more ((ok_mem hp).elim (fun g h => ⟨n, g, h⟩))
      · exact more (ih.2 n g w t hm)
  | @forced h L e ha hu ih =>
    refine ⟨fun w hm => ?_, fun n g w t hm => ?_⟩
    · rcases List.mem_cons.1 hm with rfl | hm
      · unfold urgent at hu
        split at hu
        · split at hu
          · obtain ⟨x, hx, hw⟩ := Option.map_eq_some_iff.1 hu
            injection hw with hw; subst hw
            obtain ⟨g, t, hm⟩ := worker_mem hx
            exact more (ih.2 _ g x t (List.mem_cons_of_mem _ hm))
          · cases hu
        · cases hu
        · split at hu <;> cases hu
        · cases hu
      · exact more (ih.1 w hm)
    · rcases List.mem_cons.1 hm with rfl | hm
      · exfalso
        unfold urgent at hu
        split at hu
        · split at hu
          · obtain ⟨x, hx, hw⟩ := Option.map_eq_some_iff.1 hu
            cases hw
          · cases hu
        · cases hu
        · split at hu <;> cases hu
        · cases hu
      · exact more (ih.2 n g w t hm)
  | silent ha hu hs ih => exact ih

theorem kills_handed {k : Kind} {c : Comp} (ho : Of k c) {w : Nat} (hk : w ∈ c.kills) : Handed c w := by
  cases ho with
  | @runner p s hr =>
    obtain ⟨e, he, hk⟩ := List.mem_filterMap.1 hk
    unfold rkillOf at hk
    split at hk
    · rename_i id w'
      injection hk with hk; subst hk
      obtain ⟨post, pre, hh⟩ := List.append_of_mem he
      have hx := runner_evOk hr
      rw [hh] at hx
      have hx : pre.head? = some (.told id) ∧ RSpec.instH pre id = some w' := hx.split
      exact inst_started hr ⟨post ++ [.killW id w'], by rw [hh]; simp⟩ hx.2
    · rename_i c w'
      injection hk with hk; subst hk
      obtain ⟨post, pre, hh⟩ := List.append_of_mem he
      obtain ⟨T, hx, _⟩ := C95_sound hr
      rw [hh] at hx
      have hx : RSpec.Possible p T (.clientKillW c w') pre := hx.split
      unfold RSpec.Possible at hx
      split at hx
      · obtain ⟨id, _, _, _, mid, pre', h1, _, _, h2, _⟩ := hx
        exact inst_started hr ⟨post ++ .clientKillW c w' :: mid, by rw [hh, h1]; simp⟩ h2.1
      · rename_i hd
        exact absurd hx.symm (due_own (by rw [hd]; exact List.mem_cons_self) c w')
    · cases hk
  | @catacomb own s hr =>
    obtain ⟨e, he, hk⟩ := List.mem_filterMap.1 hk
    obtain ⟨post, pre, hh⟩ := List.append_of_mem he
    have hx := hr.events
    rw [hh] at hx
    have hx : CSpec.EvOk own e pre := hx.split
    have sub : ∀ x, x ∈ pre → x ∈ s.hist := fun x hx => by rw [hh]; exact List.mem_append_right _ (List.mem_cons_of_mem _ hx)
    unfold ckillOf at hk
    split at hk
    · rename_i t w' _
      injection hk with hk; subst hk
      obtain ⟨⟨src, hm⟩, _⟩ := hx
      obtain ⟨post', pre', hh'⟩ := List.append_of_mem (sub _ hm)
      have hy := hr.events
      rw [hh'] at hy
      have hy : CSpec.EvOk own (.tracked t w' src) pre' := hy.split
      have sub : ∀ x, x ∈ pre' → x ∈ s.hist := fun x hx => by rw [hh']; exact List.mem_append_right _ (List.mem_cons_of_mem _ hx)
      cases src with
      | init i j =>
        obtain ⟨_, _, _, _, _, p, h1, h2⟩ := hy
        exact .inr ⟨i, p, sub _ h1, List.mem_of_getElem? h2⟩
      | add c => exact .inl ⟨c, sub _ hy.2.2.2.1⟩
    · injection hk with hk; subst hk
      exact .inl ⟨_, sub _ hx.1⟩
    · injection hk with hk; subst hk
      obtain ⟨_, p, h1, h2, _⟩ := hx
      exact .inr ⟨_, p, sub _ h1, h2⟩
    · cases hk
  | @engine cfg f hr =>
    obtain ⟨e, he, hk⟩ := List.mem_filterMap.1 hk
    unfold ekillOf at hk
    split at hk
    · injection hk with hk; subst hk
      obtain ⟨_, L, ha⟩ := C96_sound hr
      exact (after_kills ha).1 _ he
    · cases hk
  | leaf => cases hk

end Verif.Props
