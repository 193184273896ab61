import Verif.Runner.Pauses
import Verif.Catacomb.Pauses
import Verif.Props.RunnerFair
import Verif.Props.CatacombFair
import Verif.Props.CatacombObserve
import Verif.Props.EngineStop

/-!
# Runners, catacombs and engines stop, also if there are pauses between their steps

C78, C79 and C97 for executions in which something else happens meanwhile.
-/

namespace Verif.Props
open Verif.Spec Verif.Schedule

section
open Verif.Runner
variable {p : Params}

theorem rfills_same {a b : State} (h : Fills (Runner.Filler p) a b) : (∀ g, RSpec.phaseH b.tab.hist g = RSpec.phaseH a.tab.hist g) ∧
    (∀ e, e ∈ a.tab.hist → e ∈ b.tab.hist) ∧ (∀ e, e ∈ b.tab.hist → e ∈ a.tab.hist ∨ ∃ w x, e = .finished w x) ∧
      ∀ w, (RSpec.finishedH a.tab.hist w).isSome = true → (RSpec.finishedH b.tab.hist w).isSome = true := by
  induction h with
  | nil => exact ⟨fun _ => rfl, fun _ h => h, fun _ h => .inl h, fun _ h => h⟩
  | snoc _ hf ih =>
    obtain ⟨w, e, _, _, rfl⟩ := hf.form
    refine ⟨fun n => ih.1 n, fun x hx => List.mem_cons_of_mem _ (ih.2.1 x hx), fun x hx => ?_, fun v hv => ?_⟩
    · rcases List.mem_cons.1 hx with h | h
      · exact .inr ⟨w, e, h⟩
      · exact ih.2.2.1 x h
    · show (RSpec.finishedH (.finished w e :: _) v).isSome = true
      simp only [RSpec.finishedH]
      split
      · rfl
      · exact ih.2.2.2 v hv

theorem rfin_of_mem : ∀ {h : List Ev} {w : Nat} {r : Option Err}, .finished w r ∈ h → (RSpec.finishedH h w).isSome = true
  | e :: h, w, r, hm => by
    rcases List.mem_cons.1 hm with rfl | hm
    · simp [RSpec.finishedH]
    · have ih := rfin_of_mem hm
      unfold RSpec.finishedH
      split
      · split
        · rfl
        · exact ih
      · exact ih

theorem rfin_mem : ∀ {h : List Ev} {w : Nat} {r : Option Err}, RSpec.finishedH h w = some r → .finished w r ∈ h
  | e :: h, w, r, hm => by
    unfold RSpec.finishedH at hm
    split at hm
    · split at hm
      · rename_i hw; subst hw; injection hm with hm; subst hm; exact List.mem_cons_self
      · exact List.mem_cons_of_mem _ (rfin_mem hm)
    · exact List.mem_cons_of_mem _ (rfin_mem hm)

theorem rpauses_grow (q : Runner.Pauses p) {a b : Nat} (hab : a ≤ b) : ∃ es, Runner.pausesHist q b = es ++ Runner.pausesHist q a := by
  have reach : ∀ k, Runner.Reach p (q.st k) := q.inv (P := Runner.Reach p) .init (fun _ _ _ h hs => .step _ h hs)
  induction hab with
  | refl => exact ⟨[], rfl⟩
  | @step b _ ih =>
    obtain ⟨es', ih⟩ := ih
    rcases q.next b with ⟨x, _, hn⟩ | ⟨_, hn⟩
    · obtain ⟨es, h2, _⟩ := (reach b).tab.emits (step_T hn)
      exact ⟨es ++ es', by show (q.st (b + 1)).tab.hist = _; rw [h2, List.append_assoc]; exact congrArg (es ++ ·) ih⟩
    · exact ⟨es', by show (q.st (b + 1)).tab.hist = _; rw [hn]; exact ih⟩

theorem rkind_some {op x : Op} : rkind op = some x ↔ op.internal = true ∧ op.kind = x := by
  unfold rkind; split <;> simp [*]

/-- As C78: a runner that has been killed, or is shutting down, ends. -/
theorem runner_pauses_exit {q : Runner.Pauses p} (hf : q.Fair rkind) (hs : RSpec.StartsReturn (Runner.pausesHist q))
    (hw : RSpec.KilledFinish (Runner.pausesHist q)) {k : Nat} (hk : .kill ∈ Runner.pausesHist q k ∨ RSpec.shutH (Runner.pausesHist q k)) :
    ∃ j, .exit ∈ Runner.pausesHist q j := by
  have reach : ∀ k, Runner.Reach p (q.st k) := q.inv (P := Runner.Reach p) .init (fun _ _ _ h hs => .step _ h hs)
  obtain ⟨r, h1, h2, h3⟩ := q.unstutter (F := Runner.Filler p) (P := Runner.Reach p) hf reach (fun _ _ _ h hs => .step _ h hs.1)
    (fun _ _ _ h => h.1) (fun _ h => Runner.Filler.exists h) (fun s a s' x _ h ⟨op, f, hk, hc⟩ => by
      have hi := (rkind_some.1 hk).1
      have hc : Runner.step p s' op = some f := hc
      obtain ⟨c', hc'⟩ := Option.isSome_iff_exists.1 (h.can hi (by rw [hc]; rfl))
      exact ⟨op, c', hk, hc'⟩)
  let R : Runner.Run p := ⟨r.st, r.op, r.start, r.next⟩
  have mono : ∀ {i j : Nat}, i ≤ j → ∀ e, e ∈ Runner.pausesHist q i → e ∈ Runner.pausesHist q j := fun {i j} hij e he => by
    obtain ⟨es, h⟩ := rpauses_grow q hij
    rw [h]; exact List.mem_append_right _ he
  have hfair : R.Fair := fun op hop hi => by
    refine (h1 op.kind (hi.mono (fun k ⟨op', s', hk, hs⟩ => ⟨op', s', rkind_some.2 ⟨?_, hk⟩, hs⟩))).mono (fun k hk => (rkind_some.1 hk).2)
    exact kind_internal hk hop
  have hstarts : RSpec.StartsReturn R.hist := fun n g hp => by
    refine Classical.byContradiction (fun hno => ?_)
    have hno : ∀ j, n ≤ j → RSpec.phaseH (R.hist j) g = some .calling := fun j hj =>
      Classical.byContradiction (fun h => hno ⟨j, hj, h⟩)
    obtain ⟨b, hb⟩ := h3 n
    have still : ∀ j, b ≤ j → RSpec.phaseH (Runner.pausesHist q j) g = some .calling := fun j hj => by
      obtain ⟨m, hm, hfl⟩ := hb j hj
      exact ((rfills_same hfl).1 g).symm.trans (hno m hm)
    obtain ⟨j, hj, hno'⟩ := hs b g (still b (Nat.le_refl _))
    exact hno' (still j hj)
  have hkilled : RSpec.KilledFinish R.hist := fun n id w hkw => by
    obtain ⟨b, hb⟩ := h3 n
    obtain ⟨m, hm, hfl⟩ := hb b (Nat.le_refl _)
    have hkw' := ((rfills_same hfl).2.2.1 _ (R.hist_mono hm hkw)).resolve_right nofun
    obtain ⟨j, e, hj, he⟩ := hw b id w hkw'
    obtain ⟨m', hm', hfl'⟩ := hb j hj
    obtain ⟨e', he'⟩ := Option.isSome_iff_exists.1 ((rfills_same hfl').2.2.2 w (by
      show (RSpec.finishedH (Runner.pausesHist q j) w).isSome = true
      rw [he]; rfl))
    exact ⟨m', e', hm', he'⟩
  obtain ⟨j, n, hj, hn⟩ := h2 k
  have hn : R.hist n = Runner.pausesHist q j := congrArg (fun s => s.tab.hist) hn
  obtain ⟨m, hm⟩ := C78_shutdown_ends (r := R) hfair hstarts hkilled (n := n) (by
    rw [hn]; exact hk.imp (mono hj _) (mono hj _))
  obtain ⟨b, hb⟩ := h3 m
  obtain ⟨m', hm', hfl⟩ := hb b (Nat.le_refl _)
  exact ⟨b, ((rfills_same hfl).2.2.1 _ (R.hist_mono hm' hm)).resolve_right nofun⟩

end

section
open Verif.Catacomb
variable {own : Nat}

theorem cfills_same {a b : State} (h : Fills (Catacomb.Filler own) a b) : (∀ e, e ∈ a.hist → e ∈ b.hist) ∧
    (∀ e, e ∈ b.hist → e ∈ a.hist ∨ ∃ x, e = .errDying x) ∧ ∀ w, CSpec.finishedH b.hist w = CSpec.finishedH a.hist w := by
  induction h with
  | nil => exact ⟨fun _ h => h, fun _ h => .inl h, fun _ => rfl⟩
  | snoc _ hf ih =>
    rw [hf.form]
    refine ⟨fun x hx => List.mem_cons_of_mem _ (ih.1 x hx), fun x hx => ?_, fun v => ih.2.2 v⟩
    rcases List.mem_cons.1 hx with h | h
    · exact .inr ⟨_, h⟩
    · exact ih.2.1 x h

theorem cfin_of_mem : ∀ {h : List Ev} {w : Nat} {r : Option Err}, .finished w r ∈ h → (CSpec.finishedH h w).isSome = true
  | e :: h, w, r, hm => by
    rcases List.mem_cons.1 hm with rfl | hm
    · simp [CSpec.finishedH]
    · have ih := cfin_of_mem hm
      unfold CSpec.finishedH
      split
      · split
        · rfl
        · exact ih
      · exact ih

theorem cpauses_grow (q : Catacomb.Pauses own) {a b : Nat} (hab : a ≤ b) :
    ∃ es, Catacomb.pausesHist q b = es ++ Catacomb.pausesHist q a := by
  have reach : ∀ k, Catacomb.Reach own (q.st k) := q.inv (P := Catacomb.Reach own) .init (fun _ _ _ h hs => .step _ h hs)
  induction hab with
  | refl => exact ⟨[], rfl⟩
  | @step b _ ih =>
    obtain ⟨es', ih⟩ := ih
    rcases q.next b with ⟨x, _, hn⟩ | ⟨_, hn⟩
    · rcases step_hist (reach b) hn with h | ⟨e, h⟩
      · exact ⟨es', by show (q.st (b + 1)).hist = _; rw [h]; exact ih⟩
      · exact ⟨e :: es', by show (q.st (b + 1)).hist = _; rw [h]; exact congrArg (e :: ·) ih⟩
    · exact ⟨es', by show (q.st (b + 1)).hist = _; rw [hn]; exact ih⟩

theorem ckind_some {op x : Op} : ckind op = some x ↔ op.internal = true ∧ op = x := by
  unfold ckind; split <;> simp [*]

/-- As C79: a catacomb whose work func has returned ends. -/
theorem catacomb_pauses_dead {q : Catacomb.Pauses own} (hc : ∀ k, (q.st k).crashed = false) (hf : q.Fair ckind)
    (hw : CSpec.KilledFinish (Catacomb.pausesHist q)) {k : Nat} {x : WorkRes} (hk : .workRet x ∈ Catacomb.pausesHist q k) (hne : x ≠ .goexit) :
    ∃ j, .dead ∈ Catacomb.pausesHist q j := by
  obtain ⟨r, h1, h2, h3⟩ := q.unstutter (F := Catacomb.Filler own) (P := fun s => s.crashed = false) hf hc
    (fun _ _ _ h hs => by rw [hs.form]; exact h) (fun _ _ _ h => h.2) (fun _ h => Catacomb.Filler.exists h)
    (fun s a s' x _ h ⟨op, f, hk, hc⟩ => by
      have hc : Catacomb.step own s' op = some f := hc
      rw [h.form] at hc
      obtain ⟨c', hc'⟩ := Option.isSome_iff_exists.1 (emit_can (by rw [hc]; rfl))
      exact ⟨op, c', hk, hc'⟩)
  let R : Catacomb.Run own := ⟨r.st, r.op, r.start, r.next⟩
  have mono : ∀ {i j : Nat}, i ≤ j → ∀ e, e ∈ Catacomb.pausesHist q i → e ∈ Catacomb.pausesHist q j := fun {i j} hij e he => by
    obtain ⟨es, h⟩ := cpauses_grow q hij
    rw [h]; exact List.mem_append_right _ he
  have hfair : R.Fair := fun op hop hi => by
    refine (h1 op (hi.mono (fun k hs => ?_))).mono (fun k hk => (ckind_some.1 hk).2)
    obtain ⟨s', hs⟩ := Option.isSome_iff_exists.1 hs
    exact ⟨op, s', ckind_some.2 ⟨hop, rfl⟩, hs⟩
  have reach : ∀ k, Catacomb.Reach own (q.st k) := q.inv (P := Catacomb.Reach own) .init (fun _ _ _ h hs => .step _ h hs)
  have hkilled : CSpec.KilledFinish R.hist := fun n g w hkw => by
    obtain ⟨b, hb⟩ := h3 n
    obtain ⟨m, hm, hfl⟩ := hb b (Nat.le_refl _)
    have hkw' := ((cfills_same hfl).2.1 _ (R.hist_mono hm hkw)).resolve_right nofun
    obtain ⟨j, hj⟩ := hw b g w hkw'
    obtain ⟨m', hm', hfl'⟩ := hb (max b j) (by omega)
    refine ⟨m', ?_⟩
    show (CSpec.finishedH (r.st m').hist w).isSome = true
    rw [(cfills_same hfl').2.2 w]
    obtain ⟨e, he⟩ := Option.isSome_iff_exists.1 hj
    exact cfin_of_mem (mono (j := max b j) (by omega) _ (finished_mem he))
  obtain ⟨j, n, hj, hn⟩ := h2 k
  have hn : R.hist n = Catacomb.pausesHist q j := congrArg (fun s => s.hist) hn
  obtain ⟨m, hm⟩ := C79_dies (r := R) hfair hkilled (n := n) (x := x) (by rw [hn]; exact mono hj _ hk) hne
  obtain ⟨b, hb⟩ := h3 m
  obtain ⟨m', hm', hfl⟩ := hb b (Nat.le_refl _)
  exact ⟨b, ((cfills_same hfl).2.1 _ (R.hist_mono hm' hm)).resolve_right nofun⟩

end

end Verif.Props
