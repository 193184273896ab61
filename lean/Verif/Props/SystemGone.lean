import Verif.Props.SystemManifolds

/-!
# C115: a worker of a runner that is told to stop goes

A worker is told to stop by StopWorker, or when the runner is killed or has had a fatal error. Then the attempt to run it ends, and the id is
free again.
-/

namespace Verif.Props
open Verif.System Verif.Spec Verif.Schedule

section
open Verif.Runner
variable {p : Params}

theorem first_of {α : Type} {P : α → Prop} : ∀ {es : List α}, (∃ x ∈ es, P x) → ∃ post y mid, es = post ++ y :: mid ∧ P y ∧ ∀ z ∈ mid, ¬ P z
  | [], h => by obtain ⟨_, h, _⟩ := h; cases h
  | a :: es, h => by
    by_cases he : ∃ x ∈ es, P x
    · obtain ⟨post, y, mid, h1, h2, h3⟩ := first_of he
      exact ⟨a :: post, y, mid, by rw [h1]; rfl, h2, h3⟩
    · obtain ⟨x, hx, hp⟩ := h
      rcases List.mem_cons.1 hx with rfl | hx
      · exact ⟨[], x, es, rfl, hp, fun z hz hc => he ⟨z, hz, hc⟩⟩
      · exact absurd ⟨x, hx, hp⟩ he

/-- While an attempt lasts, the id stays registered and told to stop. -/
theorem told_keeps {mid h : List Ev} {id : Name} {g rid : Nat} (hk : AtEvery (RSpec.EvOk p) (mid ++ h)) (ho : RSpec.openH h id = some g)
    (hr : RSpec.knownH h id = some rid) (ht : RSpec.toldH h id = true) (hn : ∀ z ∈ mid, ¬ ∃ e, z = .ended id g e) :
    RSpec.openH (mid ++ h) id = some g ∧ RSpec.knownH (mid ++ h) id = some rid ∧ RSpec.toldH (mid ++ h) id = true := by
  induction mid with
  | nil => exact ⟨ho, hr, ht⟩
  | cons x mid ih =>
    obtain ⟨i1, i2, i3⟩ := ih hk.2 (fun z hz => hn z (List.mem_cons_of_mem _ hz))
    have hx : RSpec.EvOk p x (mid ++ h) := hk.1
    have hnx := hn x List.mem_cons_self
    rw [List.cons_append]
    cases x with
    | accepted c m rid' sf =>
      by_cases hm : id = m
      · subst hm; have := hx.2.2.1; rw [i1] at this; cases this
      · exact ⟨i1, by simpa [RSpec.knownH, hm] using i2, by simpa [RSpec.toldH, hm] using i3⟩
    | begin m g' d sf =>
      by_cases hm : id = m
      · subst hm; have := hx.2.1; rw [i1] at this; cases this
      · exact ⟨by simpa [RSpec.openH, hm] using i1, i2, i3⟩
    | ended m g' e =>
      by_cases hm : id = m
      · subst hm
        have := hx.2.1
        rw [i1] at this
        injection this with this; subst this
        exact absurd ⟨e, rfl⟩ hnx
      · exact ⟨by simpa [RSpec.openH, hm] using i1, i2, i3⟩
    | removed m rid' =>
      by_cases hm : id = m
      · subst hm; have := hx.2.1; rw [i1] at this; cases this
      · exact ⟨i1, by simpa [RSpec.knownH, hm] using i2, i3⟩
    | told m => exact ⟨i1, i2, by simp only [RSpec.toldH]; split <;> trivial⟩
    | _ => exact ⟨i1, i2, i3⟩

/-- The attempt from which a worker was learned, if it is open, is open for that id. -/
theorem learned_id {s : State} (hr : Runner.Reach p s) {id id' : Name} {g w : Nat} (hm : .learned id' g w ∈ s.tab.hist)
    (ho : RSpec.openH s.tab.hist id = some g) : id' = id := by
  obtain ⟨post, pre, hsp⟩ := List.append_of_mem hm
  have hev := runner_evOk hr
  rw [hsp] at hev
  have hx : RSpec.EvOk p (.learned id' g w) pre := hev.split
  have hsp' : s.tab.hist = (post ++ [Ev.learned id' g w]) ++ pre := by rw [hsp]; simp
  have hboth : RSpec.openH s.tab.hist id' = some g := by
    rw [hsp']
    refine RSpec.open_stays (by rw [← hsp']; exact runner_evOk hr) hx.1 (fun e he => ?_)
    have hmem : Ev.ended id' g e ∈ s.tab.hist := by rw [hsp']; exact List.mem_append_left _ he
    obtain ⟨post', pre', hsp2⟩ := List.append_of_mem hmem
    have hev' := runner_evOk hr
    have := open_not_over hr ho
    rw [hsp2] at hev' this
    exact this.2 (over_stays hev' (by simp [RSpec.phaseH]))
  exact open_one hr hboth ho

/-- What an execution with fair goroutines needs for a worker to go. -/
theorem gone_core {st : Nat → State} (reach : ∀ k, Runner.Reach p (st k)) (grow : ∀ {a b}, a ≤ b → ∃ es, (st b).tab.hist = es ++ (st a).tab.hist)
    (att : ∀ {k g}, RSpec.phaseH (st k).tab.hist g ≠ none → (∃ j, RSpec.phaseH (st j).tab.hist g = some .over) ∨
      (∃ m, ∀ j, m ≤ j → RSpec.phaseH (st j).tab.hist g = some .calling) ∨
      ∃ w m, (∀ j, m ≤ j → RSpec.phaseH (st j).tab.hist g = some (.running w)) ∧ (∀ j, RSpec.finishedH (st j).tab.hist w = none) ∧
        ∃ id, .learned id g w ∈ (st m).tab.hist)
    (hs : RSpec.StartsReturn (fun k => (st k).tab.hist)) (hw : RSpec.KilledFinish (fun k => (st k).tab.hist)) {k : Nat} {id : Name} {g rid : Nat}
    (hk : RSpec.knownH (st k).tab.hist id = some rid) (ho : RSpec.openH (st k).tab.hist id = some g) (ht : RSpec.toldH (st k).tab.hist id = true) :
    ∃ m post e pre, (st m).tab.hist = post ++ .removed id rid :: .ended id g e :: pre := by
  have mono : ∀ {a b : Nat}, a ≤ b → ∀ e, e ∈ (st a).tab.hist → e ∈ (st b).tab.hist := fun {a b} hab e he => by
    obtain ⟨es, h⟩ := grow hab
    rw [h]; exact List.mem_append_right _ he
  by_cases hend : ∃ m es, (st m).tab.hist = es ++ (st k).tab.hist ∧ ∃ x ∈ es, ∃ e, x = .ended id g e
  · obtain ⟨m, es, hes, hx⟩ := hend
    obtain ⟨post, y, mid, rfl, ⟨e, rfl⟩, hmid⟩ := first_of hx
    have hev := runner_evOk (reach m)
    have haf := runner_after (reach m)
    have hsp : (st m).tab.hist = post ++ Ev.ended id g e :: (mid ++ (st k).tab.hist) := by rw [hes]; simp
    rw [hsp] at hev haf
    obtain ⟨_, i2, i3⟩ := told_keeps (RSpec.AtEvery.drop hev).2 ho hk ht hmid
    obtain ⟨l, rid', h1, rfl⟩ := (haf post _ _ rfl).2.1 (fun h => by rw [i3] at h; cases h.2)
    rw [i2] at h1
    injection h1 with h1; subst h1
    exact ⟨m, l, e, mid ++ (st k).tab.hist, by rw [hsp]; simp⟩
  · exfalso
    have keep : ∀ m, k ≤ m → RSpec.openH (st m).tab.hist id = some g ∧ RSpec.knownH (st m).tab.hist id = some rid ∧
        RSpec.toldH (st m).tab.hist id = true := fun m hm => by
      obtain ⟨es, hes⟩ := grow hm
      have hev := runner_evOk (reach m)
      rw [hes] at hev ⊢
      exact told_keeps hev ho hk ht (fun z hz ⟨e, he⟩ => hend ⟨m, es, hes, z, hz, e, he⟩)
    rcases att (open_not_over (reach k) ho).1 with ⟨j, h⟩ | ⟨m, h⟩ | ⟨w, m, h1, h2, id', h3⟩
    · obtain ⟨es, hes⟩ := grow (Nat.le_max_right k j)
      have hev := runner_evOk (reach (max k j))
      rw [hes] at hev
      refine (open_not_over (reach (max k j)) (keep _ (Nat.le_max_left k j)).1).2 ?_
      rw [hes]; exact over_stays hev h
    · obtain ⟨k', hk', hne⟩ := hs m g (h m (Nat.le_refl _))
      exact hne (h k' hk')
    · have hm := mono (Nat.le_max_right k m) _ h3
      obtain ⟨u1, u2, u3⟩ := keep (max k m) (Nat.le_max_left _ _)
      have hid : id' = id := learned_id (reach _) hm u1
      subst hid
      have hin := (reach (max k m)).tab.hinv
      have hkn := hin.kn id'
      rcases RSpec.learned_accounted (runner_evOk (reach (max k m))) hm with h | h | h
      · rw [hin.inst] at h
        cases hg : (st (max k m)).tab.workers.get? id' with
        | none => rw [hg] at h; cases h
        | some i =>
          rw [hg] at h
          have hst : i.stopping = true := by rw [← hin.told id' i hg]; exact u3
          have := (reach (max k m)).tab.shape.stopped id' i hg hst
          simp [this] at h
      · obtain ⟨k', e, _, he⟩ := hw _ _ _ h
        rw [show RSpec.finishedH (st k').tab.hist w = none from h2 k'] at he; cases he
      · rw [h2] at h; cases h

/-- C115: a worker of a runner that has been told to stop goes. -/
theorem C115_gone {r : Runner.Run p} (hf : r.Fair) (hs : RSpec.StartsReturn r.hist) (hw : RSpec.KilledFinish r.hist) {k : Nat} {id : Name} {rid : Nat}
    (hk : RSpec.knownH (r.hist k) id = some rid) (ht : RSpec.toldH (r.hist k) id = true) :
    ∃ m g post e pre, RSpec.openH (r.hist k) id = some g ∧ r.hist m = post ++ .removed id rid :: .ended id g e :: pre := by
  obtain ⟨g, ho⟩ := known_open (r.reach k) (id := id) (by rw [show RSpec.knownH (r.st k).tab.hist id = some rid from hk]; rfl)
  obtain ⟨m, post, e, pre, h⟩ := gone_core (st := r.st) r.reach (fun hab => r.hist_grows hab) (fun h => C78_attempts_end hf h) hs hw hk ho ht
  exact ⟨m, g, post, e, pre, ho, h⟩

end

variable {I : Type} [DecidableEq I] {W : Wiring I}

/-- C115: a worker of a runner of a program that has been told to stop goes, and if it was there it has ended. -/
theorem C115_program {r : SysRun W} (hf : r.Fair) (hw : r.WaitsReturn) (hu : r.Users)
    (wf : WellFounded (fun c i => ∃ k w, w ∈ (r.st k i).kills ∧ W.child i w = c)) {i : I} {p : Runner.Params} (hi : W.kind i = .runner p)
    {k : Nat} {id : Name} {rid : Nat} (hk : RSpec.knownH (r.st k i).rhist id = some rid) (ht : RSpec.toldH (r.st k i).rhist id = true) :
    ∃ m g post e pre, RSpec.openH (r.st k i).rhist id = some g ∧ (r.st m i).rhist = post ++ .removed id rid :: .ended id g e :: pre ∧
      ∀ w, .startOk id g w ∈ pre → EndedW (r.st m (W.child i w)) := by
  obtain ⟨q, h1, h2⟩ := runner_part r hf hi
  have hh : ∀ n, (r.st n i).rhist = Runner.pausesHist q n := fun n => by rw [h2]; rfl
  have reach : ∀ k, Runner.Reach p (q.st k) := q.inv (P := Runner.Reach p) .init (fun _ _ _ h hs => .step _ h hs)
  have hs : RSpec.StartsReturn (Runner.pausesHist q) := by
    have := hu i
    rw [hi] at this
    rw [← funext hh]; exact this
  have mono : ∀ {a b : Nat}, a ≤ b → ∀ e, e ∈ Runner.pausesHist q a → e ∈ Runner.pausesHist q b := fun {a b} hab e he => by
    obtain ⟨es, h⟩ := rpauses_grow q hab
    rw [h]; exact List.mem_append_right _ he
  have hkf : RSpec.KilledFinish (Runner.pausesHist q) := fun n id v hk => by
    obtain ⟨j, e, hj⟩ := killed_finish hf hw hu wf (i := i) (k := n) (w := v) (by
      rw [h2]; exact List.mem_filterMap.2 ⟨_, hk, rfl⟩)
    rw [h2] at hj
    obtain ⟨e', he'⟩ := Option.isSome_iff_exists.1 (rfin_of_mem (mono (Nat.le_max_right n j) _ hj))
    exact ⟨max n j, e', Nat.le_max_left _ _, he'⟩
  rw [hh] at hk ht
  obtain ⟨g, ho⟩ := known_open (reach k) (id := id) (by rw [show RSpec.knownH (q.st k).tab.hist id = some rid from hk]; rfl)
  obtain ⟨m, post, e, pre, h⟩ := gone_core (st := q.st) reach (fun hab => rpauses_grow q hab) (fun h => runner_pauses_attempt h1 h) hs hkf hk ho ht
  refine ⟨m, g, post, e, pre, by rw [hh]; exact ho, by rw [h2]; exact h, fun w hsw => ?_⟩
  have hev := runner_evOk (reach m)
  have h' : (q.st m).tab.hist = (post ++ [Runner.Ev.removed id rid]) ++ .ended id g e :: pre := by rw [h]; simp
  rw [h'] at hev
  have hx : RSpec.EvOk p (.ended id g e) pre := hev.split
  have hpre : AtEvery (RSpec.EvOk p) pre := (RSpec.AtEvery.drop hev).2
  have hfin : (RSpec.finishedH pre w).isSome = true := by
    rcases RSpec.startOk_open hpre hsw with ⟨_, h5⟩ | h5
    · rcases hx.2.2 with ⟨h6, _⟩ | ⟨_, h6, _⟩ | ⟨w', h6, h7⟩
      · rw [h5] at h6; cases h6
      · rw [h5] at h6; cases h6
      · rw [h5] at h6
        injection h6 with h6; injection h6 with h6; subst h6
        rw [h7]; rfl
    · exact h5
  obtain ⟨e', he'⟩ := Option.isSome_iff_exists.1 hfin
  have hm : Runner.Ev.finished w e' ∈ (q.st m).tab.hist := by rw [h']; exact List.mem_append_right _ (List.mem_cons_of_mem _ (rfin_mem he'))
  have := C105_seen (r.reach m) (i := i) (w := w) (e := e') (by rw [h2]; exact hm)
  exact this.isSome

/-! ## Concrete cases -/

-- the program of the examples: the runner has told its worker, which is still running, to stop
example : SDemo.life.Fair ∧ SDemo.life.WaitsReturn ∧ SDemo.life.Users ∧
    WellFounded (fun c i => ∃ k w, w ∈ (SDemo.life.st k i).kills ∧ SDemo.W.child i w = c) ∧ SDemo.W.kind 1 = .runner RDemo.prm ∧
    ∃ rid, RSpec.knownH (SDemo.life.st 53 1).rhist 7 = some rid ∧ RSpec.toldH (SDemo.life.st 53 1).rhist 7 = true ∧
      .startOk 7 0 10 ∈ (SDemo.life.st 53 1).rhist ∧ ¬ EndedW (SDemo.life.st 53 (SDemo.W.child 1 10)) :=
  ⟨SDemo.life_fair, SDemo.life_waits, SDemo.life_users, SDemo.life_wf, rfl, 0, by decide +kernel, by decide +kernel, by decide +kernel,
    by unfold EndedW; decide +kernel⟩

-- a runner on its own
example : RDemo.life.Fair ∧ RSpec.StartsReturn RDemo.life.hist ∧ RSpec.KilledFinish RDemo.life.hist ∧
    ∃ rid, RSpec.knownH (RDemo.life.hist 20) 7 = some rid ∧ RSpec.toldH (RDemo.life.hist 20) 7 = true :=
  ⟨RDemo.life_fair, RDemo.mkRun_starts (by decide +kernel), RDemo.mkRun_killed (by decide +kernel), 0, by decide +kernel, by decide +kernel⟩

end Verif.Props
