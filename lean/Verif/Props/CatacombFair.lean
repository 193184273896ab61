import Verif.Props.CatacombLive
import Verif.Catacomb.Fair

/-!
# Catacomb: what happens in every fair execution

A `Run` is an infinite execution of a new catacomb and all that use it. Any number of calls may be made at any time. It is
`Fair` if no step of the catacomb's goroutines or of a call that could be taken again and again is passed over for ever. A
panic would end it, so there is none.
-/

namespace Verif.Props
open Verif.Spec Verif.Catacomb Verif.CSpec Cat

variable {own : Nat}

/-! ## Fair executions for the examples: some operations, and then nothing but calls of ErrDying -/

namespace CDemo

def runOp (ops : List Op) (k : Nat) : Op := ops.getD k .callErrDying

def runSt (own : Nat) (ops : List Op) : Nat → State
  | 0 => init
  | k + 1 => (step own (runSt own ops k) (runOp ops k)).getD (runSt own ops k)

/-- A state with another history. -/
def withHist (s : State) (h : List Ev) : State := { s with hist := h }

def isAsk : Ev → Bool
  | .errDying _ => true
  | _ => false

theorem runOp_later (ops : List Op) (d : Nat) : runOp ops (ops.length + d) = .callErrDying := by
  unfold runOp; rw [List.getD_eq_getElem?_getD, List.getElem?_eq_none (by omega)]; rfl

theorem runSt_stalls (own : Nat) (ops : List Op) (hc : (runSt own ops ops.length).crashed = false) (d : Nat) :
    ∃ es, es.all isAsk = true ∧
      runSt own ops (ops.length + d) = withHist (runSt own ops ops.length) (es ++ (runSt own ops ops.length).hist) := by
  induction d with
  | zero => exact ⟨[], rfl, rfl⟩
  | succ d ih =>
    obtain ⟨es, h1, h2⟩ := ih
    refine ⟨.errDying (errDying own (runSt own ops (ops.length + d))) :: es, by simpa [isAsk] using h1, ?_⟩
    show (step own (runSt own ops (ops.length + d)) (runOp ops (ops.length + d))).getD _ = _
    rw [runOp_later]
    have hm : (runSt own ops (ops.length + d)).crashed = false := by rw [h2]; exact hc
    simp only [step, hm, Bool.false_eq_true, if_false, Op.inv?, Op.add?, Op.track?, stepMain, Option.getD_some]
    rw [h2]; rfl

def mkRun (own : Nat) (ops : List Op) (h1 : ∀ k, k < ops.length → (step own (runSt own ops k) (runOp ops k)).isSome = true)
    (hc : (runSt own ops ops.length).crashed = false) : Run own where
  st := runSt own ops
  op := runOp ops
  start := rfl
  next := by
    intro k
    have : (step own (runSt own ops k) (runOp ops k)).isSome = true := by
      by_cases hk : k < ops.length
      · exact h1 k hk
      · obtain ⟨d, rfl⟩ : ∃ d, k = ops.length + d := ⟨k - ops.length, by omega⟩
        obtain ⟨es, _, h2⟩ := runSt_stalls own ops hc d
        have hm : (runSt own ops (ops.length + d)).crashed = false := by rw [h2]; exact hc
        rw [runOp_later]
        simp [step, hm, Op.inv?, Op.add?, Op.track?, stepMain]
    obtain ⟨s', hs⟩ := Option.isSome_iff_exists.1 this
    show _ = some ((step own (runSt own ops k) (runOp ops k)).getD _)
    rw [hs]; rfl

theorem mkRun_later {ops : List Op} {h1 : ∀ k, k < ops.length → (step own (runSt own ops k) (runOp ops k)).isSome = true}
    {hc : (runSt own ops ops.length).crashed = false} {k : Nat} (hk : ops.length ≤ k) :
    ∃ es, es.all isAsk = true ∧ (mkRun own ops h1 hc).st k = withHist (runSt own ops ops.length) (es ++ (runSt own ops ops.length).hist) := by
  obtain ⟨d, rfl⟩ : ∃ d, k = ops.length + d := ⟨k - ops.length, by omega⟩
  exact runSt_stalls own ops hc d

/-- If nothing is left to do after the operations, the execution is fair. -/
theorem mkRun_fair {ops : List Op} {h1 : ∀ k, k < ops.length → (step own (runSt own ops k) (runOp ops k)).isSome = true}
    {hc : (runSt own ops ops.length).crashed = false}
    (hq : ∀ h, (internalOps (withHist (runSt own ops ops.length) h)).all
      (fun op => (step own (withHist (runSt own ops ops.length) h) op).isNone) = true) :
    (mkRun own ops h1 hc).Fair := by
  intro op hi he
  exfalso
  obtain ⟨k, hk, hs⟩ := he ops.length
  obtain ⟨es, _, h2⟩ := mkRun_later (h1 := h1) (hc := hc) hk
  obtain ⟨s', hs'⟩ := Option.isSome_iff_exists.1 hs
  exact not_canStep (own := own) (s := (mkRun own ops h1 hc).st k) (by rw [h2]; exact hq _) ⟨op, s', hi, hs'⟩

/-- What calls of ErrDying leave alone stays as it is after the operations. -/
theorem mkRun_stays {α : Sort _} {ops : List Op}
    {h1 : ∀ k, k < ops.length → (step own (runSt own ops k) (runOp ops k)).isSome = true}
    {hc : (runSt own ops ops.length).crashed = false} (F : List Ev → α) (hF : ∀ e h, F (.errDying e :: h) = F h) {k : Nat} (hk : ops.length ≤ k) :
    F ((mkRun own ops h1 hc).hist k) = F (runSt own ops ops.length).hist := by
  obtain ⟨es, he, h2⟩ := mkRun_later (h1 := h1) (hc := hc) hk
  have h3 : (mkRun own ops h1 hc).hist k = es ++ (runSt own ops ops.length).hist := by unfold Run.hist; rw [h2]; rfl
  rw [h3]
  clear h2 h3
  induction es with
  | nil => rfl
  | cons e es ih =>
    simp only [List.all_cons, Bool.and_eq_true] at he
    cases e <;> simp only [isAsk, Bool.false_eq_true, false_and] at he
    exact (hF _ _).trans (ih he.2)

def killedW : Ev → Option Nat
  | .killT _ w => some w
  | _ => none

theorem mkRun_killed {ops : List Op} {h1 : ∀ k, k < ops.length → (step own (runSt own ops k) (runOp ops k)).isSome = true}
    {hc : (runSt own ops ops.length).crashed = false}
    (hq : ((runSt own ops ops.length).hist.filterMap killedW).all
      (fun w => (finishedH (runSt own ops ops.length).hist w).isSome) = true) :
    KilledFinish (mkRun own ops h1 hc).hist := by
  intro k g w hk
  refine ⟨max k ops.length, ?_⟩
  have h1' := (mkRun own ops h1 hc).hist_mono (Nat.le_max_left k ops.length) hk
  have h2 : w ∈ ((mkRun own ops h1 hc).hist (max k ops.length)).filterMap killedW := List.mem_filterMap.2 ⟨_, h1', rfl⟩
  rw [mkRun_stays (F := fun h => h.filterMap killedW) (fun _ _ => rfl) (Nat.le_max_right k ops.length)] at h2
  rw [mkRun_stays (F := fun h => finishedH h w) (fun _ _ => rfl) (Nat.le_max_right k ops.length)]
  exact List.all_eq_true.1 hq w h2

def life : Run 7 := mkRun 7 opsLife (by decide +kernel) (by decide +kernel)

set_option maxRecDepth 4000 in
theorem life_fair : life.Fair := mkRun_fair (fun h => by with_unfolding_all rfl)

/-- An Add call before Invoke, which waits for ever. -/
def opsEarly : List Op := .callAdd 2 :: [.callInvoke {}, .iBegin 0, .iListen 0, .iGo 0, .iOk 0]

def early : Run 7 := mkRun 7 opsEarly (by decide +kernel) (by decide +kernel)

theorem early_fair : early.Fair := mkRun_fair (fun h => by with_unfolding_all rfl)

end CDemo

/-! ## C79 -/

/-- Every Invoke call returns, unless it refuses its plan and has Kill()ed an Init worker that never finishes. -/
theorem C79_invoke_returns {r : Run own} (hf : r.Fair) {n i : Nat} {p : Plan} (hc : .callInvoke i p ∈ r.hist n) :
    (∃ k x, .invokeRet i x ∈ r.hist k) ∨ ∃ m w, .killI i w ∈ r.hist m ∧ ∀ k, finishedH (r.hist k) w = none := Run.invoke hf hc

example : CDemo.life.Fair ∧ .callInvoke 0 { init := [some 1] } ∈ CDemo.life.hist 1 ∧ CDemo.life.hist 1 = [.callInvoke 0 { init := [some 1] }] :=
  ⟨CDemo.life_fair, by decide +kernel, by decide +kernel⟩

/-- Every Add call returns, unless it has Kill()ed its worker, which never finishes, or it was made before any Invoke call
got past the used check and the catacomb is never killed. -/
theorem C79_add_returns {r : Run own} (hf : r.Fair) {n c w : Nat} (hc : .callAdd c w ∈ r.hist n) :
    (∃ k x, .addRet c x ∈ r.hist k) ∨
    (∃ m, .killA c w ∈ r.hist m ∧ ∀ k, finishedH (r.hist k) w = none) ∨
    (∀ k, ¬ Dying (r.hist k)) ∧ ∃ m post pre, r.hist m = post ++ .callAdd c w :: pre ∧ ∀ i, .claimed i ∉ pre := Run.adds hf hc

example : CDemo.life.Fair ∧ .callAdd 0 2 ∈ CDemo.life.hist 7 ∧ .addRet 0 none ∉ CDemo.life.hist 7 :=
  ⟨CDemo.life_fair, by decide +kernel, by decide +kernel⟩

/- An Add call that never returns. -/
example : CDemo.early.Fair ∧ .callAdd 0 2 ∈ CDemo.early.hist 1 ∧ ∀ k x, .addRet 0 x ∉ CDemo.early.hist k := by
  refine ⟨CDemo.early_fair, by decide +kernel, fun k x h => ?_⟩
  have h1 := CDemo.early.hist_mono (Nat.le_max_left k CDemo.opsEarly.length) h
  have h2 : (CDemo.early.hist (max k CDemo.opsEarly.length)).any (fun | .addRet 0 _ => true | _ => false) = true :=
    List.any_eq_true.2 ⟨_, h1, rfl⟩
  have h3 := CDemo.mkRun_stays (own := 7) (ops := CDemo.opsEarly) (h1 := by decide +kernel) (hc := by decide +kernel)
    (F := fun h => h.any (fun | .addRet 0 _ => true | _ => false)) (fun _ _ => rfl) (Nat.le_max_right k CDemo.opsEarly.length)
  have h4 := h3.symm.trans h2
  revert h4
  decide +kernel

/-- The error of a tracked worker reaches the catacomb. -/
theorem C79_error_reaches {r : Run own} (hf : r.Fair) {n g w : Nat} {src : Src} {e : Err} (hc : .tracked g w src ∈ r.hist n)
    (he : finishedH (r.hist n) w = some (some e)) : ∃ k, .workerKill g e ∈ r.hist k := Run.reports hf hc he

example : CDemo.life.Fair ∧ .tracked 1 2 (.add 0) ∈ CDemo.life.hist 10 ∧ finishedH (CDemo.life.hist 10) 2 = some (some (.user 5)) ∧
    .workerKill 1 (.user 5) ∉ CDemo.life.hist 10 :=
  ⟨CDemo.life_fair, by decide +kernel, by decide +kernel, by decide +kernel⟩

/-- Every tracked worker of a dying catacomb is Kill()ed, unless it finishes by itself. -/
theorem C79_workers_killed {r : Run own} (hf : r.Fair) {n g w : Nat} {src : Src} (hc : .tracked g w src ∈ r.hist n)
    (hd : Dying (r.hist n)) : ∃ k, .killT g w ∈ r.hist k ∨ (finishedH (r.hist k) w).isSome = true := Run.kills hf hc hd

example : CDemo.life.Fair ∧ .tracked 0 1 (.init 0 0) ∈ CDemo.life.hist 12 ∧ Dying (CDemo.life.hist 12) ∧
    .killT 0 1 ∉ CDemo.life.hist 12 ∧ finishedH (CDemo.life.hist 12) 1 = none :=
  ⟨CDemo.life_fair, by decide +kernel, ⟨.workerKill 1 (.user 5), by decide +kernel, rfl⟩, by decide +kernel, by decide +kernel⟩

/-- Once the work func has returned or panicked, the catacomb dies, however many Add calls are made meanwhile, if every
tracked worker it Kill()s finishes. -/
theorem C79_dies {r : Run own} (hf : r.Fair) (hkf : KilledFinish r.hist) {n : Nat} {x : WorkRes} (hx : .workRet x ∈ r.hist n)
    (hne : x ≠ .goexit) : ∃ k, .dead ∈ r.hist k := by
  refine Run.dies hf hx (fun hg => ?_) hkf
  have := unique (key := fun e => ∃ r, e = .workRet r) (by
    rintro e h he ⟨r, rfl⟩ x hx ⟨r', rfl⟩; exact he.2 r' hx) (r.reach n).events (a := .workRet x) (b := .workRet .goexit) hx
    hg ⟨x, rfl⟩ ⟨.goexit, rfl⟩
  cases this; exact hne rfl

example : CDemo.life.Fair ∧ KilledFinish CDemo.life.hist ∧ .workRet (.ret (some (.user 6))) ∈ CDemo.life.hist 15 ∧ .dead ∉ CDemo.life.hist 15 :=
  ⟨CDemo.life_fair, CDemo.mkRun_killed (by decide +kernel), by decide +kernel, by decide +kernel⟩

end Verif.Props
