import Verif.Props.RunnerLive
import Verif.Runner.Fair

/-!
# Runner: what happens in every fair execution

A `Run` is an infinite execution of a new runner and its clients. Any number of calls may be made at any time, so there need
be no moment at which nothing is left to do. It is `Fair` if no step of the runner, its goroutines or its clients' calls
that could be taken again and again is passed over for ever. The theorems are about what has then happened sooner or later.
-/

namespace Verif.Props
open Verif.Spec Verif.Runner Verif.RSpec

variable {p : Params}

/-! ## Fair executions for the examples: some operations, and then nothing but calls of Report -/

namespace RDemo

def runOp (p : Params) (ops : List Op) (k : Nat) : Op := ops.getD k (.report (after p ops).tab.workers.keys)

def runSt (p : Params) (ops : List Op) : Nat → State
  | 0 => init
  | k + 1 => (step p (runSt p ops k) (runOp p ops k)).getD (runSt p ops k)

/-- A state with another history. -/
def withHist (s : State) (h : List Ev) : State := { s with tab := { s.tab with hist := h } }

def isReport : Ev → Bool
  | .report _ => true
  | _ => false

/-- After the operations Report can be called. -/
def canReport (p : Params) (ops : List Op) : Bool :=
  (runSt p ops ops.length).muFree &&
    isRangeOrder (runSt p ops ops.length).tab.workers (after p ops).tab.workers.keys

theorem runSt_stalls (p : Params) (ops : List Op) (hmu : canReport p ops = true) (d : Nat) :
    ∃ es, es.all isReport = true ∧
      runSt p ops (ops.length + d) = withHist (runSt p ops ops.length) (es ++ (runSt p ops ops.length).tab.hist) := by
  induction d with
  | zero => exact ⟨[], rfl, rfl⟩
  | succ d ih =>
    obtain ⟨es, h1, h2⟩ := ih
    have ho : runOp p ops (ops.length + d) = .report (after p ops).tab.workers.keys := by
      unfold runOp; rw [List.getD_eq_getElem?_getD, List.getElem?_eq_none (by omega)]; rfl
    refine ⟨.report (reportLines (runSt p ops (ops.length + d)).tab (after p ops).tab.workers.keys) :: es, by simpa [isReport] using h1, ?_⟩
    show (step p (runSt p ops (ops.length + d)) (runOp p ops (ops.length + d))).getD _ = _
    rw [ho]
    have hm : (runSt p ops (ops.length + d)).muFree = true ∧
        isRangeOrder (runSt p ops (ops.length + d)).tab.workers (after p ops).tab.workers.keys = true := by
      rw [h2]; exact Bool.and_eq_true_iff.1 hmu
    simp only [step, Op.cid?, tabStep, if_pos hm, Option.map_some, Option.getD_some]
    rw [h2]; rfl

def mkRun (p : Params) (ops : List Op) (h1 : ∀ k, k < ops.length → (step p (runSt p ops k) (runOp p ops k)).isSome = true)
    (hmu : canReport p ops = true) : Run p where
  st := runSt p ops
  op := runOp p ops
  start := rfl
  next := by
    intro k
    have : (step p (runSt p ops k) (runOp p ops k)).isSome = true := by
      by_cases hk : k < ops.length
      · exact h1 k hk
      · obtain ⟨d, rfl⟩ : ∃ d, k = ops.length + d := ⟨k - ops.length, by omega⟩
        have ho : runOp p ops (ops.length + d) = .report (after p ops).tab.workers.keys := by
          unfold runOp; rw [List.getD_eq_getElem?_getD, List.getElem?_eq_none (by omega)]; rfl
        obtain ⟨es, _, h2⟩ := runSt_stalls p ops hmu d
        have hm : (runSt p ops (ops.length + d)).muFree = true ∧
            isRangeOrder (runSt p ops (ops.length + d)).tab.workers (after p ops).tab.workers.keys = true := by
          rw [h2]; exact Bool.and_eq_true_iff.1 hmu
        rw [ho]
        simp only [step, Op.cid?, tabStep, if_pos hm]; rfl
    obtain ⟨s', hs⟩ := Option.isSome_iff_exists.1 this
    show _ = some ((step p (runSt p ops k) (runOp p ops k)).getD _)
    rw [hs]; rfl

theorem mkRun_later {p : Params} {ops : List Op} {h1 : ∀ k, k < ops.length → (step p (runSt p ops k) (runOp p ops k)).isSome = true}
    {hmu : canReport p ops = true} {k : Nat} (hk : ops.length ≤ k) :
    ∃ es, es.all isReport = true ∧ (mkRun p ops h1 hmu).st k = withHist (runSt p ops ops.length) (es ++ (runSt p ops ops.length).tab.hist) := by
  obtain ⟨d, rfl⟩ : ∃ d, k = ops.length + d := ⟨k - ops.length, by omega⟩
  exact runSt_stalls p ops hmu d

/-- If nothing is left to do after the operations, the execution is fair. -/
theorem mkRun_fair {p : Params} {ops : List Op} {h1 : ∀ k, k < ops.length → (step p (runSt p ops k) (runOp p ops k)).isSome = true}
    {hmu : canReport p ops = true} (hq : ∀ h, canStepB p (withHist (runSt p ops ops.length) h) = false) :
    (mkRun p ops h1 hmu).Fair := by
  intro op hi he
  exfalso
  obtain ⟨k, hk, op', s', hkind, hs⟩ := he ops.length
  obtain ⟨es, _, h2⟩ := mkRun_later (h1 := h1) (hmu := hmu) hk
  have hi' : op'.internal = true := by
    have : ∀ o : Op, o.kind.internal = o.internal := by intro o; cases o <;> rfl
    rw [← this, hkind, this]; exact hi
  exact not_canStep ((mkRun p ops h1 hmu).reach k) (by rw [h2]; exact hq _) ⟨op', s', hi', hs⟩

theorem mkRun_hist {p : Params} {ops : List Op} {h1 : ∀ k, k < ops.length → (step p (runSt p ops k) (runOp p ops k)).isSome = true}
    {hmu : canReport p ops = true} {k : Nat} (hk : ops.length ≤ k) :
    ∃ es, es.all isReport = true ∧ (mkRun p ops h1 hmu).hist k = es ++ (runSt p ops ops.length).tab.hist := by
  obtain ⟨es, he, h2⟩ := mkRun_later (h1 := h1) (hmu := hmu) hk
  exact ⟨es, he, by unfold Run.hist; rw [h2]; rfl⟩

/-- What calls of Report leave alone stays as it is after the operations. -/
theorem mkRun_stays {α : Sort _} {p : Params} {ops : List Op}
    {h1 : ∀ k, k < ops.length → (step p (runSt p ops k) (runOp p ops k)).isSome = true}
    {hmu : canReport p ops = true} (F : List Ev → α) (hF : ∀ ls h, F (.report ls :: h) = F h) {k : Nat} (hk : ops.length ≤ k) :
    F ((mkRun p ops h1 hmu).hist k) = F (runSt p ops ops.length).tab.hist := by
  obtain ⟨es, he, h2⟩ := mkRun_hist (h1 := h1) (hmu := hmu) hk
  rw [h2]
  clear h2
  induction es with
  | nil => rfl
  | cons e es ih =>
    simp only [List.all_cons, Bool.and_eq_true] at he
    cases e <;> simp only [isReport, Bool.false_eq_true, false_and] at he
    exact (hF _ _).trans (ih he.2)

/-- The number of the attempt whose StartFunc is called by an event. -/
def calledG : Ev → Option Nat
  | .startCall _ g _ => some g
  | _ => none

theorem calling_mem {h : List Ev} {g : Nat} (hp : phaseH h g = some .calling) : g ∈ h.filterMap calledG := by
  induction h with
  | nil => cases hp
  | cons e h ih =>
    simp only [List.filterMap_cons]
    unfold phaseH at hp
    cases e <;> simp only [calledG] <;> first | exact ih hp | skip
    all_goals
      simp only at hp
      split at hp
      · first | (rename_i heq; exact List.mem_cons.2 (Or.inl heq)) | cases hp
      · first | exact ih hp | exact List.mem_cons_of_mem _ (ih hp)

theorem mkRun_starts {p : Params} {ops : List Op} {h1 : ∀ k, k < ops.length → (step p (runSt p ops k) (runOp p ops k)).isSome = true}
    {hmu : canReport p ops = true}
    (hq : ((runSt p ops ops.length).tab.hist.filterMap calledG).all
      (fun g => phaseH (runSt p ops ops.length).tab.hist g != some .calling) = true) :
    StartsReturn (mkRun p ops h1 hmu).hist := by
  intro k g _
  refine ⟨max k ops.length, Nat.le_max_left _ _, fun hp => ?_⟩
  rw [mkRun_stays (F := fun h => phaseH h g) (fun _ _ => rfl) (Nat.le_max_right k ops.length)] at hp
  have := List.all_eq_true.1 hq g (calling_mem hp)
  rw [hp] at this; simp at this

def killedW : Ev → Option Nat
  | .killW _ w => some w
  | _ => none

theorem mkRun_killed {p : Params} {ops : List Op} {h1 : ∀ k, k < ops.length → (step p (runSt p ops k) (runOp p ops k)).isSome = true}
    {hmu : canReport p ops = true}
    (hq : ((runSt p ops ops.length).tab.hist.filterMap killedW).all
      (fun w => (finishedH (runSt p ops ops.length).tab.hist w).isSome) = true) :
    KilledFinish (mkRun p ops h1 hmu).hist := by
  intro k id w hk
  refine ⟨max k ops.length, ?_⟩
  have h1' := (mkRun p ops h1 hmu).hist_mono (Nat.le_max_left k ops.length) hk
  have h2 : w ∈ ((mkRun p ops h1 hmu).hist (max k ops.length)).filterMap killedW := List.mem_filterMap.2 ⟨_, h1', rfl⟩
  rw [mkRun_stays (F := fun h => h.filterMap killedW) (fun _ _ => rfl) (Nat.le_max_right k ops.length)] at h2
  obtain ⟨e, he⟩ := Option.isSome_iff_exists.1 (List.all_eq_true.1 hq w h2)
  exact ⟨e, Nat.le_max_left _ _, by
    rw [mkRun_stays (F := fun h => finishedH h w) (fun _ _ => rfl) (Nat.le_max_right k ops.length)]; exact he⟩

/-- A worker runs; a call of Worker gets it; the runner is killed, kills the worker, and stops when it has finished. -/
def opsLife : List Op := opsUp ++ [.callWorker 7, .cLock 1, .cImmediate 1, .kill, .loopTop, .recvDying, .killAll [7], .killNext, .killNext, .bcast] ++
  opsEnd 0 10 none ++ [.bcast, .loopTop]

def life : Run prm := mkRun prm opsLife (by decide +kernel) (by decide +kernel)

theorem life_fair : life.Fair := mkRun_fair (fun h => by with_unfolding_all rfl)

theorem life_wait (k : Nat) (he : .exit ∈ life.hist k) : (waitResult (life.st k)).isSome = true := by
  by_cases hk : opsLife.length ≤ k
  · obtain ⟨es, _, h2⟩ := mkRun_later (p := prm) (h1 := by decide +kernel) (hmu := by decide +kernel) hk
    exact (congrArg (fun s => (waitResult s).isSome) h2).trans (by with_unfolding_all rfl)
  · have : ∀ k, k < opsLife.length → .exit ∉ life.hist k := by decide +kernel
    exact absurd he (this k (by omega))

/-- A call of Worker is asleep, waiting for a StartFunc that never returns. -/
def asleep : Run prm := mkRun prm opsAsleep (by decide +kernel) (by decide +kernel)

theorem asleep_fair : asleep.Fair := mkRun_fair (fun h => by with_unfolding_all rfl)

end RDemo

/-! ## C78: liveness under fairness -/

/-- A runner that is killed, or that shuts down because of a fatal error, stops, whatever its clients do meanwhile, if
every StartFunc returns and every worker it Kill()s finishes. -/
theorem C78_shutdown_ends {r : Run p} (hf : r.Fair) (hsr : StartsReturn r.hist) (hkf : KilledFinish r.hist) {n : Nat}
    (h : .kill ∈ r.hist n ∨ shutH (r.hist n)) : ∃ k, .exit ∈ r.hist k := by
  rcases h with h | h
  · obtain ⟨k, hk⟩ := Run.notices hf h
    exact Run.exits hf hsr hkf hk
  · exact Run.exits hf hsr hkf h

example : RDemo.life.Fair ∧ StartsReturn RDemo.life.hist ∧ KilledFinish RDemo.life.hist ∧ .kill ∈ RDemo.life.hist 20 ∧
    .exit ∉ RDemo.life.hist 20 :=
  ⟨RDemo.life_fair, RDemo.mkRun_starts (by decide +kernel), RDemo.mkRun_killed (by decide +kernel), by decide +kernel, by decide +kernel⟩

/-- Every call returns, or waits for something that does not happen. -/
theorem C78_calls_return {r : Run p} (hf : r.Fair) (hx : ∀ k, .exit ∈ r.hist k → (waitResult (r.st k)).isSome = true) {n cid : Nat}
    {x : Call} (hc : callH (r.hist n) cid = some x) : (∃ k v, .ret cid v ∈ r.hist k) ∨ WaitsFor r.hist cid := by
  obtain ⟨c, hm, rfl⟩ := (r.reach n).client hc
  exact Run.returns hf hx hm

example : RDemo.life.Fair ∧ (∀ k, .exit ∈ RDemo.life.hist k → (waitResult (RDemo.life.st k)).isSome = true) ∧
    callH (RDemo.life.hist 13) 1 = some (.worker 7) ∧ .ret 1 (.worker 10) ∈ RDemo.life.hist 20 :=
  ⟨RDemo.life_fair, RDemo.life_wait, by decide +kernel, by decide +kernel⟩

/- A call that never returns. -/
example : RDemo.asleep.Fair ∧ callH (RDemo.asleep.hist 7) 1 = some (.worker 7) ∧ ∀ k v, .ret 1 v ∉ RDemo.asleep.hist k := by
  refine ⟨RDemo.asleep_fair, by decide +kernel, fun k v h => ?_⟩
  have h1 := RDemo.asleep.hist_mono (Nat.le_max_left k opsAsleep.length) h
  have h2 : (RDemo.asleep.hist (max k opsAsleep.length)).any (fun | .ret 1 _ => true | _ => false) = true :=
    List.any_eq_true.2 ⟨_, h1, rfl⟩
  have h3 := RDemo.mkRun_stays (p := RDemo.prm) (ops := opsAsleep) (h1 := by decide +kernel) (hmu := by decide +kernel)
    (F := fun h => h.any (fun | .ret 1 _ => true | _ => false)) (fun _ _ => rfl) (Nat.le_max_right k opsAsleep.length)
  have h4 := h3.symm.trans h2
  revert h4
  decide +kernel

/-- Every call of StartWorker and StopWorker returns. -/
theorem C78_start_stop_return {r : Run p} (hf : r.Fair) (hx : ∀ k, .exit ∈ r.hist k → (waitResult (r.st k)).isSome = true)
    {n cid : Nat} (hc : (∃ id sf, callH (r.hist n) cid = some (.start id sf)) ∨ ∃ id, callH (r.hist n) cid = some (.stop id)) :
    ∃ k v, .ret cid v ∈ r.hist k := by
  have other : ∀ k id, callH (r.hist k) cid = some (.worker id) ∨ callH (r.hist k) cid = some (.remove id) → False := by
    intro k id h
    rcases hc with ⟨id', sf, hc⟩ | ⟨id', hc⟩ <;> rcases h with h | h <;>
      · have h1 := r.call_mono (Nat.le_max_left n k) hc
        have h2 := r.call_mono (Nat.le_max_right n k) h
        rw [h1] at h2; cases h2
  have : (∃ k v, .ret cid v ∈ r.hist k) ∨ WaitsFor r.hist cid := by
    rcases hc with ⟨id', sf, hc⟩ | ⟨id', hc⟩
    · exact C78_calls_return hf hx hc
    · exact C78_calls_return hf hx hc
  rcases this with h | ⟨id, _, _, _, ⟨k, h⟩, _⟩ | ⟨id, w, ⟨k, h⟩, _⟩ | ⟨id, rid, _, ⟨k, h⟩, _⟩
  · exact h
  · exact (other k id h).elim
  · exact (other k id (Or.inr h)).elim
  · exact (other k id (Or.inr h)).elim

example : RDemo.life.Fair ∧ callH (RDemo.life.hist 1) 0 = some (.start 7 1) ∧ ∀ v, .ret 0 v ∉ RDemo.life.hist 1 :=
  ⟨RDemo.life_fair, by decide +kernel, fun v h => by
    rw [show RDemo.life.hist 1 = [.callStart 0 7 1] by decide +kernel] at h; simp at h⟩

/-- Every attempt to run a worker ends, unless its StartFunc does not return, or the runner has noted its worker and the
worker does not finish. -/
theorem C78_attempts_end {r : Run p} (hf : r.Fair) {n g : Nat} (hb : phaseH (r.hist n) g ≠ none) :
    (∃ k, phaseH (r.hist k) g = some .over) ∨
    (∃ m, ∀ k, m ≤ k → phaseH (r.hist k) g = some .calling) ∨
    ∃ w m, (∀ k, m ≤ k → phaseH (r.hist k) g = some (.running w)) ∧ (∀ k, finishedH (r.hist k) w = none) ∧
      ∃ id, .learned id g w ∈ r.hist m := Run.attempt hf hb

example : RDemo.life.Fair ∧ phaseH (RDemo.life.hist 4) 0 = some .pending ∧
    phaseH (RDemo.life.hist RDemo.opsLife.length) 0 = some .over := ⟨RDemo.life_fair, by decide +kernel, by decide +kernel⟩

end Verif.Props
