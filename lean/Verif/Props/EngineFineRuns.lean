import Verif.Engine.FineFair
import Verif.Props.EngineFine
import Verif.Props.EngineFair

/-!
Infinite executions of the engine whose loop does its work piece by piece, for the examples of C97: some operations, and
then three operations for ever.
-/

namespace Verif.Props
open Verif.Spec Verif.Engine

namespace FDemo
open Demo (withHist)

def runOp (ops : List FOp) (x : Nat → FOp) (k : Nat) : FOp := ops.getD k (x ((k - ops.length) % 3))

def runSt (cfg : Config) (ops : List FOp) (x : Nat → FOp) : Nat → Fine
  | 0 => {}
  | k + 1 => (fstep cfg (runSt cfg ops x k) (runOp ops x k)).getD (runSt cfg ops x k)

variable {cfg : Config} {ops : List FOp} {x : Nat → FOp} {e : Ev} {todo : Nat → List Task}

/-- After the operations, three more add at most the event `e` to the history, and change nothing else in the end; `todo`
is the loop's work in between. -/
def Cycles (cfg : Config) (ops : List FOp) (x : Nat → FOp) (e : Ev) (todo : Nat → List Task) : Prop :=
  (runSt cfg ops x ops.length).todo = todo 0 ∧ ∀ j, j < 3 → ∀ h, ∃ n,
    fstep cfg ⟨withHist (runSt cfg ops x ops.length).s h, todo j⟩ (x j) =
      some ⟨withHist (runSt cfg ops x ops.length).s (List.replicate n e ++ h), todo ((j + 1) % 3)⟩

theorem runOp_later (d : Nat) : runOp ops x (ops.length + d) = x (d % 3) := by
  unfold runOp
  rw [List.getD_eq_getElem?_getD, List.getElem?_eq_none (by omega), Nat.add_sub_cancel_left]; rfl

theorem runSt_later (hx : Cycles cfg ops x e todo) (d : Nat) : ∃ n, runSt cfg ops x (ops.length + d) =
    ⟨withHist (runSt cfg ops x ops.length).s (List.replicate n e ++ (runSt cfg ops x ops.length).s.hist), todo (d % 3)⟩ := by
  induction d with
  | zero =>
    refine ⟨0, ?_⟩
    show runSt cfg ops x ops.length = ⟨(runSt cfg ops x ops.length).s, todo 0⟩
    rw [← hx.1]
  | succ d ih =>
    obtain ⟨n, ih⟩ := ih
    obtain ⟨n', h'⟩ := hx.2 (d % 3) (Nat.mod_lt _ (by decide)) (List.replicate n e ++ (runSt cfg ops x ops.length).s.hist)
    refine ⟨n' + n, ?_⟩
    show (fstep cfg (runSt cfg ops x (ops.length + d)) (runOp ops x (ops.length + d))).getD _ = _
    rw [runOp_later, ih, h', List.replicate_add, List.append_assoc, show (d % 3 + 1) % 3 = (d + 1) % 3 by omega]
    rfl

def mkRun (h1 : ∀ k, k < ops.length → (fstep cfg (runSt cfg ops x k) (runOp ops x k)).isSome = true)
    (hx : Cycles cfg ops x e todo) : FineRun cfg where
  st := runSt cfg ops x
  op := runOp ops x
  start := rfl
  next := by
    intro k
    have : (fstep cfg (runSt cfg ops x k) (runOp ops x k)).isSome = true := by
      by_cases hk : k < ops.length
      · exact h1 k hk
      · obtain ⟨d, rfl⟩ : ∃ d, k = ops.length + d := ⟨k - ops.length, by omega⟩
        obtain ⟨n, hn⟩ := runSt_later hx d
        obtain ⟨n', h'⟩ := hx.2 (d % 3) (Nat.mod_lt _ (by decide)) (List.replicate n e ++ (runSt cfg ops x ops.length).s.hist)
        rw [runOp_later, hn, h']
        rfl
    show _ = some ((fstep cfg (runSt cfg ops x k) (runOp ops x k)).getD (runSt cfg ops x k))
    obtain ⟨t, ht⟩ := Option.isSome_iff_exists.1 this
    rw [ht]; rfl

variable {h1 : ∀ k, k < ops.length → (fstep cfg (runSt cfg ops x k) (runOp ops x k)).isSome = true}
  {hx : Cycles cfg ops x e todo}

theorem mkRun_later {k : Nat} (hk : ops.length ≤ k) : ∃ n, (mkRun h1 hx).st k =
    ⟨withHist (runSt cfg ops x ops.length).s (List.replicate n e ++ (runSt cfg ops x ops.length).s.hist),
      todo ((k - ops.length) % 3)⟩ := by
  obtain ⟨d, rfl⟩ : ∃ d, k = ops.length + d := ⟨k - ops.length, by omega⟩
  rw [Nat.add_sub_cancel_left]
  exact runSt_later hx d

/-- What `e` leaves alone stays as it is after the operations. -/
theorem mkRun_stays {α : Sort _} (F : List Ev → α) (hF : ∀ h, F (e :: h) = F h) {k : Nat} (hk : ops.length ≤ k) :
    F ((mkRun h1 hx).hist k) = F (runSt cfg ops x ops.length).s.hist := by
  unfold FineRun.hist
  obtain ⟨n, hn⟩ := mkRun_later (h1 := h1) (hx := hx) hk
  rw [hn]
  show F (List.replicate n e ++ _) = _
  clear hn
  induction n with
  | zero => rfl
  | succ d ih => exact (hF _).trans ih

/-- Nothing of its own is left for the engine to do, but for the work of its loop. -/
theorem quiet_no {f : Fine} (h : Demo.quietB f.s = true) (y : Kind) : ¬ FCanDo cfg f (.of y) := by
  rintro ⟨op, f', hk, hs⟩
  have hb := h
  simp only [Demo.quietB, Bool.and_eq_true, List.all_eq_true, Bool.or_eq_true, Bool.not_eq_true'] at hb
  obtain ⟨h0, hg⟩ := hb
  cases op with
  | env op =>
    simp only [fstep] at hs
    split at hs
    · rw [Option.map_eq_some_iff] at hs
      obtain ⟨s', hs, _⟩ := hs
      cases ho : op.kind with
      | none => simp [FOp.kind, ho] at hk
      | some z =>
        simp only [FOp.kind, ho, Option.map_some, Option.some.injEq, FKind.of.injEq] at hk
        subst hk
        exact Demo.quietB_no h z ⟨op, s', ho, hs⟩
    · cases hs
  | work | report | install => cases hk
  | dying order =>
    simp only [fstep] at hs
    split at hs
    · rename_i hc
      rcases h0 with (h0 | h0) | h0
      · rw [hc.2.1] at h0; cases h0
      · rw [hc.2.2.1] at h0; cases h0
      · rw [hc.2.2.2.1] at h0; cases h0
    · cases hs
  | started gid now =>
    simp only [fstep] at hs
    split at hs
    case isFalse => cases hs
    split at hs
    · cases hs
    rename_i g hgg
    have hq := hg g (getG_some _ _ hgg).1
    split at hs
    · rename_i hp; rw [hp] at hq; cases hq
    · cases hs
  | stopped gid now vals =>
    simp only [fstep] at hs
    split at hs
    case isFalse => cases hs
    rename_i hc
    split at hs
    · cases hs
    rename_i g hgg
    have hq := hg g (getG_some _ _ hgg).1
    split at hs
    · rename_i hp; rw [hp] at hq; simp only at hq; rw [hc.2.1] at hq; cases hq
    · cases hs

theorem mkRun_fair (hq : Demo.quietB (runSt cfg ops x ops.length).s = true)
    (hwk : (∀ j, j < 3 → todo j = []) ∨ ∃ j, j < 3 ∧ x j = .work) : (mkRun h1 hx).Fair ∧ (mkRun h1 hx).DelaysEnd := by
  have key : ∀ y, ¬ InfOften (fun k => FCanDo cfg ((mkRun h1 hx).st k) (.of y)) := by
    intro y hy
    obtain ⟨k, hk, hc⟩ := hy ops.length
    obtain ⟨n, hn⟩ := mkRun_later (h1 := h1) (hx := hx) hk
    rw [hn] at hc
    exact quiet_no (f := ⟨withHist _ (List.replicate n e ++ (runSt cfg ops x ops.length).s.hist), _⟩) hq y hc
  refine ⟨fun y _ h => ?_, fun g h => absurd h (key _)⟩
  cases y with
  | of y => exact absurd h (key y)
  | work =>
    intro m
    rcases hwk with hwk | ⟨j, hj, hw⟩
    · exfalso
      obtain ⟨k, hk, op, f', hk', hs⟩ := h ops.length
      cases op with
      | work =>
        obtain ⟨n, hn⟩ := mkRun_later (h1 := h1) (hx := hx) hk
        rw [hn, hwk _ (Nat.mod_lt _ (by decide))] at hs
        cases hs
      | env op => cases ho : op.kind <;> simp [FOp.kind, ho] at hk'
      | _ => cases hk'
    · refine ⟨ops.length + (3 * m + j), by omega, ?_⟩
      show (runOp ops x (ops.length + (3 * m + j))).kind = _
      rw [runOp_later, show (3 * m + j) % 3 = j by omega, hw]
      rfl

/-- No Start func is being called at the end. -/
theorem mkRun_starts (hq : (runSt cfg ops x ops.length).s.gs.all (fun g => g.pc != .starting) = true) :
    StartsReturn (mkRun h1 hx).hist := by
  intro k n g _ _
  refine ⟨max k ops.length, Nat.le_max_left _ _, fun ⟨ho, hp⟩ => ?_⟩
  obtain ⟨c, i⟩ := freach_hinv ((mkRun h1 hx).reach (max k ops.length))
  obtain ⟨G, hG, rfl, rfl⟩ := i.openN n g ho
  have hpc := i.pc G hG
  obtain ⟨n, hn⟩ := mkRun_later (h1 := h1) (hx := hx) (Nat.le_max_right k ops.length)
  rw [hn] at hG
  have hs := List.all_eq_true.1 hq G hG
  unfold PcOk at hpc
  have hp : phaseH ((mkRun h1 hx).st (max k ops.length)).s.hist G.name = .inStart := hp
  split at hpc
  · rw [hp] at hpc; cases hpc
  · rename_i h; rw [h] at hs; simp at hs
  · rw [hp] at hpc; cases hpc
  · rw [hp] at hpc; cases hpc
  · rw [hp] at hpc; cases hpc
  · rw [hp] at hpc
    rcases hpc with ⟨h, _⟩ | ⟨_, h, _⟩ | ⟨_, h, _⟩ | ⟨h, _⟩ <;> cases h

/-- Every worker that has been Kill()ed has finished at the end. -/
theorem mkRun_killed (he : Demo.killedW e = none)
    (hq : ((runSt cfg ops x ops.length).s.hist.filterMap Demo.killedW).all
      (Demo.finishedW (runSt cfg ops x ops.length).s.hist) = true) : KilledFinish (mkRun h1 hx).hist := by
  intro k w hk
  have h2 : w ∈ ((mkRun h1 hx).hist (max k ops.length)).filterMap Demo.killedW :=
    List.mem_filterMap.2 ⟨_, (mkRun h1 hx).hist_mono (Nat.le_max_left k ops.length) hk, rfl⟩
  rw [mkRun_stays (F := fun h => h.filterMap Demo.killedW) (fun h => by simp [he]) (Nat.le_max_right k ops.length)] at h2
  obtain ⟨ev, hm, hf⟩ := List.any_eq_true.1 (List.all_eq_true.1 hq w h2)
  cases ev <;> first | (cases hf; done) | skip
  rename_i w' e'
  simp only [beq_iff_eq] at hf
  exact ⟨ops.length, e', hf ▸ hm⟩

/-- A dying engine that is killed again stays as it is. -/
theorem cycles_kill (h0 : (runSt cfg ops (fun _ => .env .kill) ops.length).todo = [])
    (h : ((runSt cfg ops (fun _ => .env .kill) ops.length).s.tomb.kill none) =
      (runSt cfg ops (fun _ => .env .kill) ops.length).s.tomb) :
    Cycles cfg ops (fun _ => .env .kill) .kill (fun _ => []) := by
  refine ⟨h0, fun j _ l => ⟨1, ?_⟩⟩
  show (fstep cfg _ (.env .kill)) = _
  simp only [fstep, Engine.step, State.killNil, withHist, h]
  rfl

/-- The report arm and the two pieces of its work. -/
def reportOps : Nat → FOp
  | 0 => .report
  | _ => .work

def reportTodo : Nat → List Task
  | 0 => []
  | 1 => [.report, .check]
  | _ => [.check]

/-- A live engine that is asked for a report stays as it is. -/
theorem cycles_report (h0 : (runSt cfg ops reportOps ops.length).todo = [])
    (h1 : (runSt cfg ops reportOps ops.length).s.tomb.dead = false)
    (h2 : (runSt cfg ops reportOps ops.length).s.dying = false)
    (h3 : (runSt cfg ops reportOps ops.length).s.pend = none) :
    Cycles cfg ops reportOps (reportEv (runSt cfg ops reportOps ops.length).s) reportTodo := by
  refine ⟨h0, ?_⟩
  generalize (runSt cfg ops reportOps ops.length).s = t at *
  have ht : ∀ l, (withHist t l).tick = withHist t l := fun l => by unfold State.tick; rw [show (withHist t l).pend = none from h3]
  intro j hj l
  match j, hj with
  | 0, _ =>
    refine ⟨0, ?_⟩
    show fstep cfg ⟨withHist t l, []⟩ .report = _
    simp only [fstep]
    rw [if_pos ⟨rfl, h1⟩]
    rfl
  | 1, _ =>
    refine ⟨1, ?_⟩
    show some (Fine.mk (liveReport (withHist t l)) [.check]) = some ⟨withHist t (reportEv t :: l), [.check]⟩
    have hl : liveReport (withHist t l) = withHist t (reportEv t :: l) := by
      unfold liveReport
      simp only [ht, show (withHist t l).dying = false from h2]
      unfold reportEv
      rw [h2]
      rfl
    rw [hl]
  | 2, _ =>
    refine ⟨0, ?_⟩
    show some (Fine.mk (endArm (withHist t l)) []) = some ⟨withHist t l, []⟩
    have hl : endArm (withHist t l) = withHist t l := by
      unfold endArm
      simp only [ht]
      rw [if_neg (by rw [show ({ withHist t l with pend := none } : State).dying = false from h2]; simp)]
      cases t; simp only [withHist] at h3 ⊢; rw [h3]
    rw [hl]

/-- Two manifolds are installed and come up, one Start func being called while the loop is at work; then the engine is
asked for reports. -/
def up : FineRun Demo.cfg := mkRun (ops := opsUp) (x := reportOps) (by decide +kernel)
  (cycles_report (by decide +kernel) (by decide +kernel) (by decide +kernel) (by decide +kernel))

/-- They come up, one worker fails, the engine is killed while its loop reacts, and exits; then it is killed again and
again. -/
def down : FineRun Demo.cfg := mkRun (ops := opsDown) (x := fun _ => .env .kill) (by decide +kernel)
  (cycles_kill (by decide +kernel) (by decide +kernel))

theorem up_fair : up.Fair ∧ up.DelaysEnd :=
  mkRun_fair (cfg := Demo.cfg) (ops := opsUp) (by decide +kernel) (Or.inr ⟨1, by decide, rfl⟩)

theorem down_fair : down.Fair ∧ down.DelaysEnd :=
  mkRun_fair (cfg := Demo.cfg) (ops := opsDown) (by decide +kernel) (Or.inl (fun _ _ => rfl))

theorem up_stays {α : Sort _} (F : List Ev → α) (hF : ∀ b w l h, F (.report b w l :: h) = F h) {k : Nat}
    (hk : opsUp.length ≤ k) : F (up.hist k) = F (runSt Demo.cfg opsUp reportOps opsUp.length).s.hist :=
  mkRun_stays (cfg := Demo.cfg) (ops := opsUp) (x := reportOps) F (fun h => by unfold reportEv; exact hF ..) hk

theorem up_live (k : Nat) : .kill ∉ up.hist k := by
  intro h
  have h1 := up.hist_mono (Nat.le_max_left k opsUp.length) h
  have h3 := up_stays (fun h => h.any (fun | .kill => true | _ => false)) (fun _ _ _ _ => rfl) (Nat.le_max_right k opsUp.length)
  have h4 := h3.symm.trans (List.any_eq_true.2 ⟨_, h1, rfl⟩)
  revert h4
  decide +kernel

theorem up_needs (k : Nat) : AtEvery NeedsInputs (up.hist k) := by
  have h3 := up_stays Demo.everyB (fun _ _ _ _ => rfl) (Nat.le_max_right k opsUp.length)
  have h4 : AtEvery NeedsInputs (up.hist (max k opsUp.length)) := Demo.everyB_spec (h3.trans (by decide +kernel))
  obtain ⟨d, hd⟩ := up.hist_append (Nat.le_max_left k opsUp.length)
  rw [hd] at h4
  exact atEvery_drop h4

end FDemo
end Verif.Props
