import Verif.Props.SystemBuilt
import Verif.Props.EngineKept

/-!
# C114: an engine of a program keeps its manifolds going

`C114_kept` for engines as parts of a program; that workers end when told to is not supposed but follows.
-/

namespace Verif.Props
open Verif.System Verif.Spec Verif.Schedule

section
open Verif.Engine
variable {cfg : Config}

theorem fills_keep {α : Sort _} (F : List Ev → α) (hF : ∀ w e h, F (.finished w e :: h) = F h) {a b : Fine} (h : Fills (Filler cfg) a b) :
    F b.s.hist = F a.s.hist := by
  induction h with
  | nil => rfl
  | snoc _ hf ih =>
    obtain ⟨w, e, _, rfl⟩ := hf.form
    exact (hF w e _).trans ih

theorem pauses_kept {q : Pauses cfg} (hf : q.Fair FOp.kind) (hs : StartsHeed (pausesHist q)) (hw : KilledFinish (pausesHist q))
    (hk : ∀ k, .kill ∉ pausesHist q k) {n : Nat} {x : Name} (hi : manH (pausesHist q n) x ≠ none) : Kept (pausesHist q) x n := by
  by_cases hrem : ∃ m, n ≤ m ∧ manH (pausesHist q m) x = none
  · obtain ⟨m, h1, h2⟩ := hrem; exact .removed m h1 h2
  have hrem : ∀ m, n ≤ m → manH (pausesHist q m) x ≠ none := fun m h1 h2 => hrem ⟨m, h1, h2⟩
  have reach : ∀ k, FReach cfg (q.st k) := q.inv (P := FReach cfg) .init (fun _ _ _ h hs => .step _ h hs)
  obtain ⟨r, h1, _, h3, h4⟩ := q.unstutter_ops (F := Filler cfg) (P := FReach cfg) hf reach (fun _ _ _ h hs => .step _ h hs.1)
    (fun _ _ _ h => h.1) (fun _ h => Filler.exists h) (fun _ _ _ x _ h ⟨op, f, hk, hc⟩ => by
      obtain ⟨op', f', hk', hc'⟩ := h.can (x := x) ⟨op, f, hk, hc⟩
      exact ⟨op', f', hk', hc'⟩)
  let R : FineRun cfg := ⟨r.st, r.op, r.start, r.next⟩
  have mono : ∀ {i j : Nat}, i ≤ j → ∀ e, e ∈ pausesHist q i → e ∈ pausesHist q j := fun {i j} hij e he => by
    obtain ⟨es, h⟩ := epauses_grow (q := q) hij
    rw [h]; exact List.mem_append_right _ he
  have hfair : R.Fair := fun x _ hi => h1 x hi
  have hdel : R.DelaysEnd := fun g hi => h1 _ hi
  have hstarts : StartsHeed R.hist := fun n a g ho hp hc => by
    refine Classical.byContradiction (fun hno => ?_)
    have hno : ∀ j, n ≤ j → openH (R.hist j) a = some g ∧ phaseH (R.hist j) a = .inStart := fun j hj =>
      Classical.byContradiction (fun h => hno ⟨j, hj, h⟩)
    obtain ⟨b, hb⟩ := h3 n
    have still : ∀ j, b ≤ j → openH (pausesHist q j) a = some g ∧ phaseH (pausesHist q j) a = .inStart := fun j hj => by
      obtain ⟨m, hm, hfl⟩ := hb j hj
      obtain ⟨f1, f2, _⟩ := fills_same hfl
      obtain ⟨g1, g2⟩ := hno m hm
      exact ⟨(f1 a).symm.trans g1, (f2 a).symm.trans g2⟩
    obtain ⟨m, hm, hfl⟩ := hb b (Nat.le_refl _)
    have hc' := ((fills_same hfl).2.2.2 _ (R.hist_mono hm hc)).resolve_right nofun
    obtain ⟨g1, g2⟩ := still b (Nat.le_refl _)
    obtain ⟨j, hj, hno'⟩ := hs b a g g1 g2 hc'
    exact hno' (still j hj)
  have hkilled : KilledFinish R.hist := fun n w hkw => by
    obtain ⟨b, hb⟩ := h3 n
    obtain ⟨m, hm, hfl⟩ := hb b (Nat.le_refl _)
    have hkw' := ((fills_same hfl).2.2.2 _ (R.hist_mono hm hkw)).resolve_right nofun
    obtain ⟨j, e, hj⟩ := hw b w hkw'
    obtain ⟨m', _, hfl'⟩ := hb (max b j) (by omega)
    exact ⟨m', e, (fills_same hfl').2.2.1 _ (mono (by omega) _ hj)⟩
  have hlive : ∀ k, .kill ∉ R.hist k := fun k h => by
    obtain ⟨b, hb⟩ := h3 k
    obtain ⟨m, hm, hfl⟩ := hb b (Nat.le_refl _)
    exact hk b (((fills_same hfl).2.2.2 _ (R.hist_mono hm h)).resolve_right nofun)
  -- it stays installed
  obtain ⟨n', hn'⟩ := h4 n
  obtain ⟨b0, hb0⟩ := h3 n'
  obtain ⟨m0, hm0, hfl0⟩ := hb0 (max b0 n) (Nat.le_max_left _ _)
  have inst : ∀ m, m0 ≤ m → manH (R.hist m) x ≠ none := fun m hm => by
    induction hm with
    | refl =>
      rw [show manH (R.hist m0) x = _ from fills_keep (fun h => manH h x) (fun _ _ _ => rfl) hfl0]
      exact hrem _ (Nat.le_max_right _ _)
    | @step m hm ih =>
      rcases hn' m (by have : m0 ≤ m := hm; omega) with ⟨j, hj, ho, hst⟩ | hF
      · have hj1 := hrem (j + 1) (by omega)
        have e : r.st (m + 1) = q.st (j + 1) := by
          rcases q.next j with ⟨a, ha, ht⟩ | ⟨ha, _⟩
          · rw [ho] at ha; injection ha with ha; subst ha
            have h5 : fstep cfg (r.st m) (r.op m) = some (r.st (m + 1)) := r.next m
            have h6 : fstep cfg (q.st j) (r.op m) = some (q.st (j + 1)) := ht
            rw [hst, h6] at h5
            injection h5 with h5; exact h5.symm
          · rw [ho] at ha; cases ha
        show manH (r.st (m + 1)).s.hist x ≠ none
        rw [e]; exact hj1
      · have : Fills (Filler cfg) (r.st m) (r.st (m + 1)) := .snoc .nil hF
        show manH (r.st (m + 1)).s.hist x ≠ none
        rw [fills_keep (fun h => manH h x) (fun _ _ _ => rfl) this]
        exact ih
  have key := C114_kept (r := R) hfair hdel hstarts hkilled hlive (inst m0 (Nat.le_refl _))
  have keep : ∀ {α : Type} (F : List Ev → α), (∀ w e h, F (.finished w e :: h) = F h) → ∀ {j m}, Fills (Filler cfg) (q.st j) (r.st m) →
      F (R.hist m) = F (pausesHist q j) := fun {_} F hF {_ _} hfl => fills_keep F hF hfl
  cases key with
  | removed m h h' => exact absurd h' (inst m h)
  | again h =>
    refine .again (fun c => ?_)
    obtain ⟨m, hm⟩ := h c
    obtain ⟨b, hb⟩ := h3 m
    obtain ⟨m', hm', hfl⟩ := hb b (Nat.le_refl _)
    refine ⟨b, ?_⟩
    rw [← keep (fun h => attemptsH h x) (fun _ _ _ => rfl) hfl]
    obtain ⟨d, hd⟩ := R.hist_append hm'
    rw [hd]
    exact Nat.le_trans hm (attempts_le ..)
  | starting m g h =>
    obtain ⟨b, hb⟩ := h3 m
    refine .starting b g (fun k hk => ?_)
    obtain ⟨m', hm', hfl⟩ := hb k hk
    obtain ⟨f1, f2, f3, _⟩ := fills_same hfl
    obtain ⟨g1, g2, g3⟩ := h m' hm'
    exact ⟨(f1 x).symm.trans g1, fun hc => g2 (f3 _ hc), (f2 x).symm.trans g3⟩
  | running m g w h =>
    obtain ⟨b, hb⟩ := h3 m
    refine .running b g w (fun k hk => ?_)
    obtain ⟨m', hm', hfl⟩ := hb k hk
    obtain ⟨f1, _, f3, _⟩ := fills_same hfl
    obtain ⟨g1, g2, g3, g4⟩ := h m' hm'
    refine ⟨(f1 x).symm.trans g1, fun hc => g2 (f3 _ hc), ?_, fun v e hv hc => g4 v e hv (f3 _ hc)⟩
    rw [← keep (fun h => workerH h x) (fun _ _ _ => rfl) hfl]; exact g3
  | waiting m h =>
    obtain ⟨b, hb⟩ := h3 m
    refine .waiting b (fun k hk => ?_)
    obtain ⟨m', hm', hfl⟩ := hb k hk
    obtain ⟨f1, _⟩ := fills_same hfl
    obtain ⟨g1, g2⟩ := h m' hm'
    refine ⟨(f1 x).symm.trans g1, ?_⟩
    rw [← keep (fun h => waitsH h x) (fun _ _ _ => rfl) hfl]; exact g2

end

variable {I : Type} [DecidableEq I] {W : Wiring I}

/-- C114: an engine of a program that is not killed keeps an installed manifold going; a worker that it never sees finish has not ended. -/
theorem C114_program {r : SysRun W} (hf : r.Fair) (hd : r.DelaysEnd) (hw : r.WaitsAll) (hu : r.Users)
    (wf : WellFounded (fun c i => ∃ k w, w ∈ (r.st k i).kills ∧ W.child i w = c)) {i : I} {cfg : Engine.Config} (hi : W.kind i = .engine cfg)
    (hk : ∀ k, .kill ∉ (r.st k i).ehist) {n : Nat} {x : Name} (hx : manH (r.st n i).ehist x ≠ none) :
    Kept (fun k => (r.st k i).ehist) x n ∧
    ∀ k w, workerH (r.st k i).ehist x = some (.obj w) → (∀ j e, .finished w e ∉ (r.st j i).ehist) → ∀ j, ¬ EndedW (r.st j (W.child i w)) := by
  obtain ⟨q, h1, h2, _⟩ := engine_part_all r hf hd hi
  have hh : ∀ n, (r.st n i).ehist = Engine.pausesHist q n := fun n => by rw [h2]; rfl
  have reach : ∀ k, Engine.FReach cfg (q.st k) := q.inv (P := Engine.FReach cfg) .init (fun _ _ _ h hs => .step _ h hs)
  have hus : StartsHeed (Engine.pausesHist q) := by
    have := hu i
    rw [hi] at this
    rw [← funext hh]; exact this
  have hkf : KilledFinish (Engine.pausesHist q) := fun n v hk => by
    obtain ⟨j, e, hj⟩ := killed_finish hf hw.killed hu wf (i := i) (k := n) (w := v) (by
      rw [h2]; exact List.mem_filterMap.2 ⟨_, hk, rfl⟩)
    rw [h2] at hj
    exact ⟨j, e, hj⟩
  refine ⟨?_, fun k w hwk hno j he => ?_⟩
  · rw [funext hh]
    rw [hh] at hx
    exact pauses_kept h1 hus hkf (fun k => by rw [← hh]; exact hk k) hx
  · rw [hh] at hwk
    have hp : Engine.WPhase (q.st k).s.hist := by
      obtain ⟨D, hl⟩ := Engine.freach_ex (reach k)
      exact Engine.ex_wphase hl
    obtain ⟨g', hg'⟩ := phase_startOk (hp _ _ hwk)
    obtain ⟨j', e, hj'⟩ := hw i w (max k j) (handed_stays r (Nat.le_max_left k j) (by rw [h2]; exact ⟨x, g', hg'⟩))
      (r.ended_stays (Nat.le_max_right k j) he)
    refine hno j' e ?_
    rw [h2] at hj' ⊢
    exact hj'

-- manifold 1 is installed and has no worker yet
example : SDemo.stay.Fair ∧ SDemo.stay.DelaysEnd ∧ SDemo.stay.WaitsAll ∧ SDemo.stay.Users ∧
    WellFounded (fun c i => ∃ k w, w ∈ (SDemo.stay.st k i).kills ∧ SDemo.W.child i w = c) ∧ SDemo.W.kind 0 = .engine Demo.cfg ∧
    (∀ k, .kill ∉ (SDemo.stay.st k 0).ehist) ∧ manH (SDemo.stay.st 12 0).ehist 1 ≠ none ∧ workerH (SDemo.stay.st 12 0).ehist 1 = none := by
  refine ⟨SDemo.stay_fair, SDemo.stay_delays, SDemo.stay_waits, SDemo.stay_users,
    ⟨fun i => ⟨i, fun j ⟨k, w, h, _⟩ => absurd h (SDemo.stay_kills i w k)⟩⟩, rfl, fun k h => ?_, by decide +kernel, by decide +kernel⟩
  have := SDemo.stay_all (P := fun c => c.ehist.all (fun e => match e with | .kill => false | _ => true)) (by decide +kernel) rfl k 0
  have := List.all_eq_true.1 this _ h
  simp at this

end Verif.Props
