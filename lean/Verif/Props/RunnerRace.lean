import Mathlib.Tactic.ByContra
import Verif.Props.RunnerLive
import Verif.Runner.Race

/-!
# Runner: no data races (C85)

`Touches p s op` says that the step's outcome depends on the variables of the run goroutine, or changes them: there are other
values of `workers`, `isDying` and `finalError` with which the same step would not do exactly the same to everything else.
-/

namespace Verif.Props
open Verif.Spec Verif.Runner Verif.RSpec

variable {p : Params} {s : State}

/-- The step reads or writes `workers`, `isDying` or `finalError`. -/
def Touches (p : Params) (s : State) (op : Op) : Prop :=
  ∃ W d f, step p (s.own W d f) op ≠ (step p s op).map (fun s' => s'.own W d f)

/-- The step reads or writes `isDying`, `finalError`, or the `start` or `restartDelay` of an entry. -/
def TouchesPrivate (p : Params) (s : State) (op : Op) : Prop :=
  ∃ W d f, view W = view s.tab.workers ∧ step p (s.own W d f) op ≠ (step p s op).map (fun s' => s'.own W d f)

/-- An entry without what only the loop uses. -/
def seen (t : Tab) (id : Name) : Option (Nat × Option Nat × Bool × Int) :=
  (t.workers.get? id).map (fun i => (i.rid, i.worker, i.stopping, i.started))

theorem own_self (s : State) : s.own s.tab.workers s.tab.isDying s.tab.finalError = s := rfl

/-- C85: outside the run goroutine the table of workers is used only by a step that takes runner.mu (which nobody holds). -/
theorem C85_reads {op : Op} (hl : op.byLoop = false) (h : Touches p s op) : op.looks = true ∧ s.muFree = true := by
  obtain ⟨W, d, f, h⟩ := h
  refine ⟨?_, ?_⟩
  · by_contra hn
    exact h (step_own hl W d f (.inl (by simpa using hn)))
  · by_contra hn
    exact h (step_own hl W d f (.inr (.inl (by simpa using hn))))

/-- C85: and even then it uses neither `isDying` nor `finalError`, nor the StartFunc or the restart delay of an entry. -/
theorem C85_private {op : Op} (h : TouchesPrivate p s op) : op.byLoop = true := by
  obtain ⟨W, d, f, hv, h⟩ := h
  by_contra hn
  exact h (step_own (by simpa using hn) W d f (.inr (.inr hv)))

/-- C85: only the run goroutine changes the table, `isDying` and `finalError`. -/
theorem C85_writer {op : Op} {s' : State} (hs : step p s op = some s')
    (h : s'.tab.workers ≠ s.tab.workers ∨ s'.tab.isDying ≠ s.tab.isDying ∨ s'.tab.finalError ≠ s.tab.finalError) :
    op.byLoop = true := by
  by_contra hn
  have h1 := step_own (p := p) (s := s) (op := op) (by simpa using hn) s.tab.workers s.tab.isDying s.tab.finalError (.inr (.inr rfl))
  rw [own_self, hs] at h1
  have h2 : s' = s'.own s.tab.workers s.tab.isDying s.tab.finalError := Option.some.inj h1
  rcases h with h | h | h
  · exact h (congrArg (fun s => s.tab.workers) h2)
  · exact h (congrArg (fun s => s.tab.isDying) h2)
  · exact h (congrArg (fun s => s.tab.finalError) h2)

theorem tabStep_seen {op : Op} {t : Tab} (hmu : s.mu ≠ none) (hex : s.tab.pc.locked = true → s.mu = none) (h : tabStep p s op = some t) (id : Name) :
    seen t id = seen s.tab id := by
  unfold tabStep at h
  split at h
  · cases h; rfl
  · split at h
    · split at h <;> cases h <;> rfl
    · cases h
  · split at h <;> cases h; rfl
  · split at h
    · split at h
      · split at h <;> cases h; rfl
      · cases h
    · cases h
  · split at h
    · split at h
      · split at h <;> cases h; rfl
      · cases h
    · cases h
  · split at h
    · rename_i m hm
      split at h
      · rename_i hc
        cases h
        have hc := hc.resolve_right hmu
        cases m with
        | start cid n sf =>
          simp only [needsMu, Bool.and_eq_false_iff, Bool.not_eq_false', Option.isNone_eq_false_iff] at hc
          simp only [act]
          split
          · rfl
          · rename_i hd
            rw [if_pos (hc.resolve_left hd)]; rfl
        | stop n => cases hc
        | started g n w => cases hc
        | done g n e =>
          simp only [needsMu] at hc
          simp only [act]
          unfold workerDone
          split at hc
          · rename_i info hi
            rw [hi]
            simp only
            split at hc
            · rename_i sf hf
              rw [hf]
              show Option.map _ ((s.tab.workers.set n _).get? id) = _
              unfold seen
              rw [AMap.get?_set]
              split
              · rename_i he; rw [he, hi]; rfl
              · rfl
            · cases hc
          · cases hc
      · cases h
    · cases h
  · split at h
    · rename_i hc; exact absurd hc.2.1 hmu
    · cases h
  · split at h
    · cases h; rfl
    · rename_i hp; exact absurd (hex (by rw [hp]; rfl)) hmu
    · cases h
  all_goals first
    | (split at h <;> first | (split at h <;> first | (split at h <;> first | (cases h; rfl) | cases h) | (cases h; rfl) | cases h) | (cases h; rfl) | cases h)
    | cases h

/-- C85: what others read under runner.mu changes only by a step of the run goroutine that takes runner.mu, or has it. -/
theorem C85_locked (hr : Reach p s) {op : Op} {s' : State} (hs : step p s op = some s') {id : Name} (h : seen s'.tab id ≠ seen s.tab id) :
    op.byLoop = true ∧ s.mu = none := by
  have hw : s'.tab.workers ≠ s.tab.workers := fun he => h (by unfold seen; rw [he])
  refine ⟨C85_writer hs (.inl hw), ?_⟩
  by_contra hmu
  unfold step at hs
  split at hs
  · cases hs; exact h rfl
  · cases hs; exact h rfl
  · cases hs; exact h rfl
  · cases hs; exact h rfl
  · split at hs <;> cases hs <;> exact h rfl
  · split at hs <;> cases hs; exact h rfl
  · split at hs
    · split at hs
      · exact hw (clientStep_workers hs)
      · cases hs
    · obtain ⟨t, ht, rfl⟩ := Option.map_eq_some_iff.1 hs
      exact h (tabStep_seen hmu hr.excl ht id)

/-- C85: while the helper of a call holds runner.mu, the steps of all other goroutines leave what it can read as it is, and apart
from the run goroutine none of them uses the table. -/
theorem C85_exclusive (hr : Reach p s) {c : Client} (hc : c ∈ s.clients) {x : Helper} (hh : c.helper = some x)
    (hp : x.pc = .check ∨ x.pc = .enter) {op : Op} {s' : State} (hs : step p s op = some s') :
    (∀ id, seen s'.tab id = seen s.tab id) ∧ (Touches p s op → op.byLoop = true) := by
  have hmu : s.mu ≠ none := by rw [(hr.minv.holder c hc x hh hp).1]; nofun
  refine ⟨fun id => ?_, fun ht => ?_⟩
  · by_contra hn
    exact hmu (C85_locked hr hs hn).2
  · by_contra hn
    exact hmu (mu_of_free (C85_reads (by simpa using hn) ht).2)

/-- C85: while the run goroutine, in killAll, holds runner.mu, no step of another goroutine uses the table. -/
theorem C85_killing {rest : List Name} (hp : s.tab.pc = .killing rest) {op : Op} (ht : Touches p s op) : op.byLoop = true := by
  by_contra hn
  have := (C85_reads (by simpa using hn) ht).2
  rw [muFree_iff, hp] at this
  cases this.2

/-- A caller of Worker about to look uses the table: with no entry it would find nothing. The loop changes the table when it hears
of the worker; a caller whose helper holds the mutex makes it wait. -/
example : ∃ s, Reach RDemo.prm s ∧ Touches RDemo.prm s (.cLock 1) ∧ (Op.cLock 1).byLoop = false :=
  ⟨_, RDemo.after_reach RDemo.prm (RDemo.opsStart 0 7 1 ++ [.callWorker 7]),
    ⟨.empty, false, none, by decide +kernel⟩, rfl⟩

/-- A helper holds the mutex, and the loop and the attempt can go on. -/
example : ∃ c ∈ (RDemo.after RDemo.prm (RDemo.opsStart 0 7 1 ++ [.callWorker 7, .cLock 1])).clients, ∃ h, c.helper = some h ∧
    h.pc = .check ∧
    (step RDemo.prm (RDemo.after RDemo.prm (RDemo.opsStart 0 7 1 ++ [.callWorker 7, .cLock 1])) .loopTop).isSome = true ∧
    (step RDemo.prm (RDemo.after RDemo.prm (RDemo.opsStart 0 7 1 ++ [.callWorker 7, .cLock 1])) (.gCall 0)).isSome = true :=
  ⟨_, .head _, _, rfl, by decide +kernel, by decide +kernel, by decide +kernel⟩

def opsHear : List Op := RDemo.opsStart 0 7 1 ++ [.gCall 0, .gStartOk 0 10, .loopTop, .recvStarted 0]

example : ∃ s', step RDemo.prm (RDemo.after RDemo.prm opsHear) (.act 101) = some s' ∧
    seen s'.tab 7 ≠ seen (RDemo.after RDemo.prm opsHear).tab 7 :=
  ⟨(step RDemo.prm (RDemo.after RDemo.prm opsHear) (.act 101)).get (by decide +kernel), by decide +kernel, by decide +kernel⟩

def opsFail : List Op := RDemo.opsStart 0 7 1 ++ [.gCall 0, .gStartErr 0 (.user 3), .loopTop, .recvDone 0]

/-- The loop alone uses the restart delay: at the end of an attempt. -/
example : TouchesPrivate RDemo.prm (RDemo.after RDemo.prm opsFail) (.act 101) :=
  ⟨.set .empty 7 { rid := 0, start := some 1, restartDelay := 77, started := 100 }, false, none, by decide +kernel, by decide +kernel⟩

end Verif.Props
