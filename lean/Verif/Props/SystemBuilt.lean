import Verif.Props.SystemCalls
import Verif.Props.EngineBuilt

/-!
# C113: what was built on a worker that has ended ends

In a program as in C109: when a worker of an engine has ended, all workers end whose Start funcs were given it, and the workers whose Start funcs
were given those, and so on.
-/

namespace Verif.Props
open Verif.System Verif.Spec Verif.Schedule

section
open Verif.Engine
variable {cfg : Config}

theorem pauses_attempt {q : Pauses cfg} (hf : q.Fair ekind) (hs : StartsHeed (pausesHist q)) (hw : KilledFinish (pausesHist q)) {k : Nat}
    {x i : Name} {g : Nat} {d : Int} {c : Nat} {sn : Snapshot} (hb : .begin x g d c sn ∈ pausesHist q k) {w : Nat}
    (hi : sn.workers.get? i = some (some (.obj w))) {e : Option Err} (he : .finished w e ∈ pausesHist q k) :
    ∃ j, .exit ∈ pausesHist q j ∨ ∃ now raw f t l, .ended x g now raw f t l ∈ pausesHist q j := by
  have reach : ∀ k, FReach cfg (q.st k) := q.inv (P := FReach cfg) .init (fun _ _ _ h hs => .step _ h hs)
  obtain ⟨r, h1, h2, h3⟩ := q.unstutter (F := Filler cfg) (P := FReach cfg) hf reach (fun _ _ _ h hs => .step _ h hs.1) (fun _ _ _ h => h.1)
    (fun _ h => Filler.exists h) (fun _ _ _ x _ h ⟨op, f, hk, hc⟩ => by
      obtain ⟨op', f', hk', hc'⟩ := h.can (x := x) ⟨op, f, (ekind_some.1 hk).1, hc⟩
      exact ⟨op', f', ekind_of hk' (ekind_some.1 hk).2, hc'⟩)
  let R : FineRun cfg := ⟨r.st, r.op, r.start, r.next⟩
  have mono : ∀ {i j : Nat}, i ≤ j → ∀ e, e ∈ pausesHist q i → e ∈ pausesHist q j := fun {i j} hij e he => by
    induction hij with
    | refl => exact he
    | @step m _ ih =>
      rcases q.next m with ⟨a, _, hn⟩ | ⟨_, hn⟩
      · obtain ⟨l, hl⟩ := fstep_grows (freach_hinv (reach m)).1 hn
        show e ∈ (q.st (m + 1)).s.hist
        rw [hl]; exact List.mem_append_right _ ih
      · show e ∈ (q.st (m + 1)).s.hist
        rw [hn]; exact ih
  have hfair : R.Fair := fun x hx hi => by
    refine (h1 x (hi.mono (fun k ⟨op, f', hk, hs⟩ => ⟨op, f', ekind_of hk hx, hs⟩))).mono (fun k hk => (ekind_some.1 hk).1)
  have hstarts : StartsHeed R.hist := fun n a g ho hp hc => by
    refine Classical.byContradiction (fun hno => ?_)
    have hno : ∀ j, n ≤ j → openH (R.hist j) a = some g ∧ phaseH (R.hist j) a = .inStart := fun j hj =>
      Classical.byContradiction (fun h => hno ⟨j, hj, h⟩)
    obtain ⟨b, hb⟩ := h3 n
    have still : ∀ j, b ≤ j → openH (pausesHist q j) a = some g ∧ phaseH (pausesHist q j) a = .inStart := fun j hj => by
      obtain ⟨m, hm, hfl⟩ := hb j hj
      obtain ⟨f1, f2, _⟩ := fills_same hfl
      obtain ⟨g1, g2⟩ := hno m hm
      exact ⟨(f1 a).symm.trans g1, (f2 a).symm.trans g2⟩
    obtain ⟨m, hm, hfl⟩ := hb b (Nat.le_refl _)
    have hc' := ((fills_same hfl).2.2.2 _ (R.hist_mono hm hc)).resolve_right nofun
    obtain ⟨g1, g2⟩ := still b (Nat.le_refl _)
    obtain ⟨j, hj, hno'⟩ := hs b a g g1 g2 hc'
    exact hno' (still j hj)
  have hkilled : KilledFinish R.hist := fun n w hkw => by
    obtain ⟨b, hb⟩ := h3 n
    obtain ⟨m, hm, hfl⟩ := hb b (Nat.le_refl _)
    have hkw' := ((fills_same hfl).2.2.2 _ (R.hist_mono hm hkw)).resolve_right nofun
    obtain ⟨j, e, hj⟩ := hw b w hkw'
    obtain ⟨m', _, hfl'⟩ := hb (max b j) (by omega)
    exact ⟨m', e, (fills_same hfl').2.2.1 _ (mono (by omega) _ hj)⟩
  obtain ⟨j, n, hj, hn⟩ := h2 k
  have hn : R.hist n = pausesHist q j := congrArg (fun f : Fine => f.s.hist) hn
  obtain ⟨m, hm⟩ := C113_attempt (r := R) hfair hstarts hkilled (n := n) (by rw [hn]; exact mono hj _ hb) hi (by rw [hn]; exact mono hj _ he)
  obtain ⟨b, hb⟩ := h3 m
  obtain ⟨m', hm', hfl⟩ := hb b (Nat.le_refl _)
  have back : ∀ e, e ∈ R.hist m → (∀ w y, e ≠ .finished w y) → e ∈ pausesHist q b := fun e he hne =>
    ((fills_same hfl).2.2.2 _ (R.hist_mono hm' he)).resolve_right (fun ⟨v, y, h⟩ => hne v y h)
  refine ⟨b, hm.imp (fun h => back _ h nofun) (fun ⟨now, raw, f, t, l, h⟩ => ⟨now, raw, f, t, l, back _ h nofun⟩)⟩

/-- A worker an attempt was given has been made by a Start func. -/
theorem given_made {f : Fine} (hr : FReach cfg f) {x i : Name} {g : Nat} {d : Int} {c : Nat} {sn : Snapshot} (hb : .begin x g d c sn ∈ f.s.hist)
    {w : WRef} (hi : sn.workers.get? i = some (some w)) : ∃ g', .startOk i g' w ∈ f.s.hist := by
  obtain ⟨D, hex⟩ := freach_ex hr
  have h1 := ex_snapshot hex
  have h2 := ex_one_at_a_time hex
  generalize f.s.hist = h at hb h1 h2
  have reg : ∀ {h : List Ev}, AtEvery OneAtATime h → workerH h i = some w → ∃ g', .startOk i g' w ∈ h := by
    intro h
    induction h with
    | nil => exact fun _ h => by cases h
    | cons e h ih =>
      intro ha hw
      have more : workerH h i = some w → ∃ g', .startOk i g' w ∈ e :: h := fun hw => by
        obtain ⟨g', hg⟩ := ih ha.2 hw
        exact ⟨g', List.mem_cons_of_mem _ hg⟩
      have ha1 : OneAtATime e h := ha.1
      cases e with
      | registered m g' v t =>
        by_cases hm : i = m
        · subst hm
          simp only [workerH, if_true, Option.some.injEq] at hw
          subst hw
          obtain ⟨g', hg⟩ := phase_startOk ha1.2.1
          exact ⟨g', List.mem_cons_of_mem _ hg⟩
        · exact more (by simpa [workerH, hm] using hw)
      | ended m g' now raw fe t l =>
        by_cases hm : i = m
        · simp [workerH, hm] at hw
        · exact more (by simpa [workerH, hm] using hw)
      | _ => exact more hw
  induction h with
  | nil => cases hb
  | cons e h ih =>
    rcases List.mem_cons.1 hb with rfl | hb
    · obtain ⟨m, _, h3, h4⟩ := (h1.1 : SnapshotOf h x sn)
      have : workerH h i = some w := by
        by_cases him : i ∈ m.inputs
        · have := (h3 i him).1
          rw [hi] at this
          injection this with this; exact this.symm
        · rw [(h4 i him).1] at hi; cases hi
      obtain ⟨g', hg⟩ := reg h2.2 this
      exact ⟨g', List.mem_cons_of_mem _ hg⟩
    · obtain ⟨g', hg⟩ := ih hb h1.2 h2.2
      exact ⟨g', List.mem_cons_of_mem _ hg⟩

end

variable {I : Type} [DecidableEq I] {W : Wiring I}

theorem handed_stays (r : SysRun W) {i : I} {w k j : Nat} (hkj : k ≤ j) (h : Handed (r.st k i) w) : Handed (r.st j i) w := by
  induction hkj with
  | refl => exact h
  | @step m _ ih => exact handed_moves (reach_of (r.reach m) i) (r.moves m i) ih

/-- C113: in a program, what was built on a worker of an engine that has ended, directly or indirectly, ends. -/
theorem C113_ends {r : SysRun W} (hf : r.Fair) (hw : r.WaitsAll) (hu : r.Users)
    (wf : WellFounded (fun c i => ∃ k w, w ∈ (r.st k i).kills ∧ W.child i w = c)) {i : I} {cfg : Engine.Config} (hi : W.kind i = .engine cfg)
    {k w w' : Nat} (hb : Relation.TransGen (Built (r.st k i).ehist) w w') (he : EndedW (r.st k (W.child i w))) :
    ∃ j, EndedW (r.st j (W.child i w')) := by
  obtain ⟨q, h1, h2⟩ := engine_part r hf hi
  have hh : ∀ n, (r.st n i).ehist = Engine.pausesHist q n := fun n => by rw [h2]; rfl
  have reach : ∀ n, Engine.FReach cfg (q.st n) := fun n => by
    have := reach_of (r.reach n) i
    rw [h2, hi] at this
    cases this; assumption
  have mono : ∀ {a b : Nat}, a ≤ b → ∀ e, e ∈ (r.st a i).ehist → e ∈ (r.st b i).ehist := fun {a b} hab e he => by
    rw [hh] at he ⊢
    obtain ⟨es, h⟩ := epauses_grow (q := q) hab
    rw [h]; exact List.mem_append_right _ he
  have hus : StartsHeed (Engine.pausesHist q) := by
    have := hu i
    rw [hi] at this
    rw [← funext hh]; exact this
  have hkf : KilledFinish (Engine.pausesHist q) := fun n v hk => by
    obtain ⟨j, e, hj⟩ := killed_finish hf hw.killed hu wf (i := i) (k := n) (w := v) (by
      rw [h2]; exact List.mem_filterMap.2 ⟨_, hk, rfl⟩)
    rw [h2] at hj
    exact ⟨j, e, hj⟩
  have one : ∀ {w w' : Nat}, Built (r.st k i).ehist w w' → (∃ j, EndedW (r.st j (W.child i w))) → ∃ j, EndedW (r.st j (W.child i w')) := by
    rintro w w' ⟨x, y, g, d, c, sn, b1, b2, b3⟩ ⟨j, hj⟩
    rw [hh] at b1 b3
    obtain ⟨g', hg'⟩ := given_made (reach k) b1 b2
    obtain ⟨m, e, hm⟩ := hw i w (max k j) (by
      rw [h2]
      refine ⟨y, g', ?_⟩
      have := mono (Nat.le_max_left k j) _ (by rw [hh]; exact hg')
      rw [hh] at this; exact this) (r.ended_stays (Nat.le_max_right k j) hj)
    rw [h2] at hm
    have up : ∀ {a b : Nat}, a ≤ b → ∀ e, e ∈ Engine.pausesHist q a → e ∈ Engine.pausesHist q b := fun {a b} hab e he => by
      have := mono hab e (by rw [hh]; exact he)
      rw [hh] at this; exact this
    obtain ⟨m', hm'⟩ := pauses_attempt (q := q) h1 hus hkf (k := max k m) (up (Nat.le_max_left _ _) _ b1) b2 (up (Nat.le_max_right _ _) _ hm)
    obtain ⟨e', he'⟩ := over_finished (reach (max k m')) (up (Nat.le_max_left k m') _ b3)
      (hm'.imp (up (Nat.le_max_right k m') _) (fun ⟨now, raw, fe, t, l, h⟩ => ⟨now, raw, fe, t, l, up (Nat.le_max_right k m') _ h⟩))
    have := C105_seen (r.reach (max k m')) (i := i) (w := w') (e := e') (by rw [h2]; exact he')
    exact ⟨max k m', this.isSome⟩
  induction hb with
  | single h => exact one h ⟨k, he⟩
  | tail _ h ih => exact one h ih

/-! ## A concrete case -/

namespace SDemo

theorem life_all_waits : life.WaitsAll := by
  intro i w k hk _
  have h := handed_mem (handed_stays life (Nat.le_max_left k ops.length) hk)
  rw [life_last (Nat.le_max_right k ops.length)] at h
  have key := fn_all (L := after ops.length) (P := fun c => (handeds c).all (fun w => c.ends.any (fun x => x.1 == w))) (by decide +kernel) rfl i
  obtain ⟨x, hx, hxw⟩ := List.any_eq_true.1 (List.all_eq_true.1 key w h)
  refine ⟨ops.length, x.2, ?_⟩
  have h2 : life.st ops.length i = fn (after ops.length) i := rfl
  rw [h2]
  exact saw_iff.2 (by rw [← beq_iff_eq.1 hxw]; exact hx)

end SDemo

-- worker 11 of the engine, a catacomb, was built on worker 10, a runner, which has ended
example : SDemo.life.Fair ∧ SDemo.life.WaitsAll ∧ SDemo.life.Users ∧ WellFounded (fun c i => ∃ k w, w ∈ (SDemo.life.st k i).kills ∧ SDemo.W.child i w = c) ∧
    ∃ k, Relation.TransGen (Built (SDemo.life.st k 0).ehist) 10 11 ∧ EndedW (SDemo.life.st k (SDemo.W.child 0 10)) ∧
      ¬ EndedW (SDemo.life.st k (SDemo.W.child 0 11)) :=
  ⟨SDemo.life_fair, SDemo.life_all_waits, SDemo.life_users, SDemo.life_wf, (SDemo.opsUp ++ SDemo.opsKill ++ SDemo.opsRunner).length,
    .single (FDemo.builtB_spec (by decide +kernel)), by unfold EndedW; decide +kernel, by unfold EndedW; decide +kernel⟩

end Verif.Props
