import Verif.Props.Continue

/-!
# C104: an engine that is stopped

In an infinite execution of an engine and its clients (`CRun`, as for C100) the scheduler is fair to the calls (`Fair`) and to the
engine's goroutines (`EngineFair`). worker.Stop(engine) is Kill followed by Wait.
-/

namespace Verif.Props
open Verif.Spec Verif.Engine Verif.Schedule

variable {cfg : Config}

theorem fills_same {a b : Fine} (h : Fills (Filler cfg) a b) : (∀ n, openH b.s.hist n = openH a.s.hist n) ∧
    (∀ n, phaseH b.s.hist n = phaseH a.s.hist n) ∧ (∀ e, e ∈ a.s.hist → e ∈ b.s.hist) ∧
      ∀ e, e ∈ b.s.hist → e ∈ a.s.hist ∨ ∃ w x, e = .finished w x := by
  induction h with
  | nil => exact ⟨fun _ => rfl, fun _ => rfl, fun _ h => h, fun _ h => .inl h⟩
  | snoc _ hf ih =>
    obtain ⟨w, e, _, rfl⟩ := hf.form
    refine ⟨fun n => ih.1 n, fun n => ih.2.1 n, fun x hx => List.mem_cons_of_mem _ (ih.2.2.1 x hx), fun x hx => ?_⟩
    rcases List.mem_cons.1 hx with h | h
    · exact .inr ⟨w, e, h⟩
    · exact ih.2.2.2 x h

/-- An engine that has been killed exits, also if there are pauses between its steps. -/
theorem pauses_exit {q : Pauses cfg} (hf : q.Fair ekind) (hs : StartsHeed (pausesHist q)) (hw : KilledFinish (pausesHist q)) {k : Nat}
    (hk : .kill ∈ pausesHist q k) : ∃ j, .exit ∈ pausesHist q j := by
  have reach : ∀ k, FReach cfg (q.st k) := q.inv (P := FReach cfg) .init (fun _ _ _ h hs => .step _ h hs)
  obtain ⟨r, h1, h2, h3⟩ := q.unstutter (F := Filler cfg) (P := FReach cfg) hf reach (fun _ _ _ h hs => .step _ h hs.1) (fun _ _ _ h => h.1)
    (fun _ h => Filler.exists h) (fun _ _ _ x _ h ⟨op, f, hk, hc⟩ => by
      obtain ⟨op', f', hk', hc'⟩ := h.can (x := x) ⟨op, f, (ekind_some.1 hk).1, hc⟩
      exact ⟨op', f', ekind_of hk' (ekind_some.1 hk).2, hc'⟩)
  let R : FineRun cfg := ⟨r.st, r.op, r.start, r.next⟩
  have mono : ∀ {i j : Nat}, i ≤ j → ∀ e, e ∈ pausesHist q i → e ∈ pausesHist q j := fun {i j} hij e he => by
    induction hij with
    | refl => exact he
    | @step m _ ih =>
      rcases q.next m with ⟨a, _, hn⟩ | ⟨_, hn⟩
      · obtain ⟨l, hl⟩ := fstep_grows (freach_hinv (reach m)).1 hn
        show e ∈ (q.st (m + 1)).s.hist
        rw [hl]; exact List.mem_append_right _ ih
      · show e ∈ (q.st (m + 1)).s.hist
        rw [hn]; exact ih
  have hfair : R.Fair := fun x hx hi => by
    refine (h1 x (hi.mono (fun k ⟨op, f', hk, hs⟩ => ⟨op, f', ekind_of hk hx, hs⟩))).mono (fun k hk => (ekind_some.1 hk).1)
  have hstarts : StartsHeed R.hist := fun n a g ho hp hc => by
    refine Classical.byContradiction (fun hno => ?_)
    have hno : ∀ j, n ≤ j → openH (R.hist j) a = some g ∧ phaseH (R.hist j) a = .inStart := fun j hj =>
      Classical.byContradiction (fun h => hno ⟨j, hj, h⟩)
    obtain ⟨b, hb⟩ := h3 n
    have still : ∀ j, b ≤ j → openH (pausesHist q j) a = some g ∧ phaseH (pausesHist q j) a = .inStart := fun j hj => by
      obtain ⟨m, hm, hfl⟩ := hb j hj
      obtain ⟨f1, f2, _⟩ := fills_same hfl
      obtain ⟨g1, g2⟩ := hno m hm
      exact ⟨(f1 a).symm.trans g1, (f2 a).symm.trans g2⟩
    obtain ⟨m, hm, hfl⟩ := hb b (Nat.le_refl _)
    have hc' := ((fills_same hfl).2.2.2 _ (R.hist_mono hm hc)).resolve_right nofun
    obtain ⟨g1, g2⟩ := still b (Nat.le_refl _)
    obtain ⟨j, hj, hno'⟩ := hs b a g g1 g2 hc'
    exact hno' (still j hj)
  have hkilled : KilledFinish R.hist := fun n w hkw => by
    obtain ⟨b, hb⟩ := h3 n
    obtain ⟨m, hm, hfl⟩ := hb b (Nat.le_refl _)
    have hkw' := ((fills_same hfl).2.2.2 _ (R.hist_mono hm hkw)).resolve_right nofun
    obtain ⟨j, e, hj⟩ := hw b w hkw'
    obtain ⟨m', _, hfl'⟩ := hb (max b j) (by omega)
    exact ⟨m', e, (fills_same hfl').2.2.1 _ (mono (by omega) _ hj)⟩
  obtain ⟨j, n, hj, hn⟩ := h2 k
  obtain ⟨m, hm⟩ := C97_killed_exits (r := R) hfair hstarts hkilled (n := n) (by
    show _ ∈ (r.st n).s.hist
    rw [hn]; exact mono hj _ hk)
  obtain ⟨b, hb⟩ := h3 m
  obtain ⟨m', hm', hfl⟩ := hb b (Nat.le_refl _)
  exact ⟨b, ((fills_same hfl).2.2.2 _ (R.hist_mono hm' hm)).resolve_right nofun⟩

/-- C104: an engine that has been killed exits, whatever its clients do, if every Start func returns whose context has been cancelled and
every worker that has been Kill()ed finishes. -/
theorem C104_exits {r : CRun cfg} (hf : r.Fair) (he : r.EngineFair) (hs : StartsHeed r.hist) (hw : KilledFinish r.hist) {k : Nat}
    (hk : .kill ∈ engOf (r.st k).log) : ∃ j, .exit ∈ engOf (r.st j).log := by
  obtain ⟨q, h1, h2⟩ := r.engine hf he
  have hh : pausesHist q = r.hist := funext (fun k => congrArg (fun f => f.s.hist) (h2 k))
  rw [(C100_engine (r.reach k)).2] at hk
  obtain ⟨j, hj⟩ := pauses_exit (q := q) h1 (by rw [hh]; exact hs) (by rw [hh]; exact hw) (k := k) (by rw [hh]; exact hk)
  rw [hh] at hj
  exact ⟨j, by rw [(C100_engine (r.reach j)).2]; exact hj⟩

/-- C104: and then every call returns, those of Wait included: worker.Stop returns. -/
theorem C104_stop_returns {r : CRun cfg} (hf : r.Fair) (he : r.EngineFair) (hs : StartsHeed r.hist) (hw : KilledFinish r.hist) {k : Nat}
    (hk : .kill ∈ engOf (r.st k).log) {i c : Nat} {q : Req} (hc : .call c q ∈ (r.st i).log) : ∃ j res, .ret c res ∈ (r.st j).log := by
  obtain ⟨j, hj⟩ := C104_exits hf he hs hw hk
  rw [(C100_engine (r.reach j)).2] at hj
  refine C100_returns hf (k := max i j) (c := c) (q := q) ?_ (.inr ?_)
  · have i' := creach_inv (r.reach i)
    obtain ⟨p, hp⟩ := (i'.called c q).1 hc
    obtain ⟨p', hp', _⟩ := r.calls (j := max i j) (by omega) hp
    exact ((creach_inv (r.reach _)).called c q).2 ⟨p', hp'⟩
  · rw [(C100_engine (r.reach _)).2]
    exact r.hist_mono (j := max i j) (by omega) hj

-- an engine that is killed while an attempt is in its Start func, one client waits and another one's Install is not yet served: there is such
-- an execution (C103), and both calls return
example : ∃ (r : CRun Demo.cfg) (n : Nat), r.st n = ClDemo.after Demo.cfg (ClDemo.opsEnd.take 14) ∧
    (∃ k res, .ret 0 res ∈ (r.st k).log) ∧ ∃ k res, .ret 1 res ∈ (r.st k).log := by
  obtain ⟨r, n, hn, h1, h2, _, h4, h5, _⟩ := C103_clients (ClDemo.after_reach Demo.cfg (ClDemo.opsEnd.take 14)) (fun _ _ => .inr (.user 1))
    (fun _ => none)
  have hk : .kill ∈ engOf (r.st n).log := by rw [hn]; decide +kernel
  exact ⟨r, n, hn, C104_stop_returns h1 h2 (Demo.starts_heed h4) h5 hk (i := n) (q := .wait) (by rw [hn]; decide +kernel),
    C104_stop_returns h1 h2 (Demo.starts_heed h4) h5 hk (i := n) (q := .install 0 {}) (by rw [hn]; decide +kernel)⟩

example : (ClDemo.after Demo.cfg (ClDemo.opsEnd.take 14)).calls.map (·.pc) = [.asking, .asking, .returned, .returned] ∧
    (ClDemo.after Demo.cfg (ClDemo.opsEnd.take 14)).f.s.gs.map (·.pc) = [.starting] := by decide +kernel

end Verif.Props
