import Verif.Props.SystemGone

/-!
# C116: calls of Worker and StopAndRemoveWorker in a program

Such a call returns, except while the worker of its id fails to be there again and again (the runner makes one attempt after another), or,
for StopAndRemoveWorker, while the worker stays registered (it was restarted) or another such call was told of its removal.
-/

namespace Verif.Props
open Verif.System Verif.Spec Verif.Schedule

section
open Verif.Runner
variable {p : Params}

theorem open_nobegin {id : Name} {h : List Ev} : ∀ {es : List Ev}, (∀ g d sf, .begin id g d sf ∉ es) →
    RSpec.openH (es ++ h) id = RSpec.openH h id ∨ RSpec.openH (es ++ h) id = none
  | [], _ => .inl rfl
  | x :: es, hn => by
    have ih := open_nobegin (id := id) (h := h) (es := es) (fun g d sf hm => hn g d sf (List.mem_cons_of_mem _ hm))
    rw [List.cons_append]
    cases x with
    | begin m g d sf =>
      by_cases hm : id = m
      · subst hm; exact absurd List.mem_cons_self (hn g d sf)
      · simpa [RSpec.openH, hm] using ih
    | ended m g e =>
      by_cases hm : id = m
      · right; simp [RSpec.openH, hm]
      · simpa [RSpec.openH, hm] using ih
    | _ => exact ih

/-- An id which again and again is registered and has no worker is attempted for ever. -/
theorem attempted_ever {r : Runner.Run p} (hf : r.Fair) (hs : RSpec.StartsReturn r.hist) (hw : RSpec.KilledFinish r.hist) {id : Name}
    (hi : InfOften (fun k => (RSpec.knownH (r.hist k) id).isSome = true ∧ RSpec.instH (r.hist k) id = none)) (n : Nat) :
    ∃ m, n ≤ attemptsOf id (r.hist m) := by
  have mono : ∀ {a b : Nat}, a ≤ b → attemptsOf id (r.hist a) ≤ attemptsOf id (r.hist b) := fun {a b} hab => by
    obtain ⟨es, h⟩ := r.hist_grows hab
    rw [h, attempts_append]; exact Nat.le_add_left _ _
  induction n with
  | zero => exact ⟨0, Nat.zero_le _⟩
  | succ n ih =>
    obtain ⟨a, ha⟩ := ih
    by_contra hno
    have hno : ∀ m, attemptsOf id (r.hist m) ≤ n := fun m => by
      by_contra h; exact hno ⟨m, by omega⟩
    obtain ⟨k, hk, hk1, _⟩ := hi a
    obtain ⟨g, ho⟩ := known_open (r.reach k) hk1
    have nob : ∀ {b c es}, k ≤ b → r.hist c = es ++ r.hist b → ∀ g d sf, .begin id g d sf ∉ es := fun {b c es} hb hes g d sf hm => by
      have h1 := attempts_pos hm
      have h2 := hno c
      rw [hes, attempts_append] at h2
      have h3 := mono (Nat.le_trans hk hb)
      omega
    have keep : ∀ m, k ≤ m → RSpec.openH (r.hist m) id = some g := fun m hm => by
      obtain ⟨es, hes⟩ := r.hist_grows hm
      rcases open_nobegin (h := r.hist k) (nob (Nat.le_refl _) hes) with h | h
      · rw [hes, h]; exact ho
      · rw [← hes] at h
        obtain ⟨m', hm', h1, _⟩ := hi m
        obtain ⟨g', ho'⟩ := known_open (r.reach m') h1
        obtain ⟨es', hes'⟩ := r.hist_grows hm'
        have hc : RSpec.openH (r.hist m') id = none := by
          rcases open_nobegin (h := r.hist m) (nob hm hes') with h' | h'
          · rw [hes', h', h]
          · rw [hes', h']
        rw [show RSpec.openH (r.st m').tab.hist id = none from hc] at ho'
        cases ho'
    rcases C78_attempts_end hf (open_not_over (r.reach k) ho).1 with ⟨j, h⟩ | ⟨m, h⟩ | ⟨w, m, h1, h2, id', h3⟩
    · obtain ⟨es, hes⟩ := r.hist_grows (Nat.le_max_right k j)
      have hev := runner_evOk (r.reach (max k j))
      rw [show (r.st (max k j)).tab.hist = es ++ r.hist j from hes] at hev
      refine (open_not_over (r.reach (max k j)) (keep _ (Nat.le_max_left k j))).2 ?_
      rw [show (r.st (max k j)).tab.hist = es ++ r.hist j from hes]; exact over_stays hev h
    · obtain ⟨k', hk', hne⟩ := hs m g (h m (Nat.le_refl _))
      exact hne (h k' hk')
    · obtain ⟨j, hj, _, hj2⟩ := hi (max k m)
      have hm := r.hist_mono (Nat.le_trans (Nat.le_max_right k m) hj) h3
      have hid := learned_id (r.reach j) hm (keep j (Nat.le_trans (Nat.le_max_left k m) hj))
      subst hid
      rcases RSpec.learned_accounted (runner_evOk (r.reach j)) hm with h | h | h
      · rw [show RSpec.instH (r.st j).tab.hist id' = none from hj2] at h; cases h
      · obtain ⟨k', e, _, he⟩ := hw _ _ _ h
        rw [show RSpec.finishedH (r.hist k') w = none from h2 k'] at he; cases he
      · rw [show RSpec.finishedH (r.st j).tab.hist w = none from h2 j] at h; cases h

theorem rfills_hist {a b : State} (h : Fills (Runner.Filler p) a b) : ∃ fs, b.tab.hist = fs ++ a.tab.hist ∧ ∀ e ∈ fs, ∃ w x, e = .finished w x := by
  induction h with
  | nil => exact ⟨[], rfl, nofun⟩
  | snoc _ hf ih =>
    obtain ⟨fs, h1, h2⟩ := ih
    obtain ⟨w, e, _, _, rfl⟩ := hf.form
    refine ⟨.finished w e :: fs, by show _ :: _ = _; rw [h1]; rfl, fun e he => ?_⟩
    rcases List.mem_cons.1 he with rfl | he
    · exact ⟨_, _, rfl⟩
    · exact h2 e he

theorem known_finished {id : Name} {h : List Ev} : ∀ {fs : List Ev}, (∀ e ∈ fs, ∃ w x, e = .finished w x) → RSpec.knownH (fs ++ h) id = RSpec.knownH h id
  | [], _ => rfl
  | x :: fs, hf => by
    obtain ⟨w, y, rfl⟩ := hf x List.mem_cons_self
    exact known_finished (fs := fs) (fun e he => hf e (List.mem_cons_of_mem _ he))

theorem attempts_finished {id : Name} {fs : List Ev} (hf : ∀ e ∈ fs, ∃ w x, e = .finished w x) : attemptsOf id fs = 0 := by
  unfold attemptsOf
  rw [List.length_eq_zero_iff, List.filter_eq_nil_iff]
  intro e he
  obtain ⟨w, y, rfl⟩ := hf e he
  exact nofun

theorem got_finished {fs h : List Ev} (hf : ∀ e ∈ fs, ∃ w x, e = .finished w x) {cid rid : Nat} {id : Name} (hg : RSpec.GotResult (fs ++ h) cid id rid) :
    RSpec.GotResult h cid id rid := by
  obtain ⟨post, pre, w, e, h1, h2⟩ := hg
  have : ∃ post', h = post' ++ .ret cid (.result e) :: pre := by
    rcases List.append_eq_append_iff.1 h1 with ⟨c, _, h2⟩ | ⟨c, h1, h2⟩
    · exact ⟨c, h2⟩
    · cases c with
      | nil => exact ⟨[], by simpa using h2.symm⟩
      | cons x c =>
        simp only [List.cons_append, List.cons.injEq] at h2
        obtain ⟨_, _, h3⟩ := hf (.ret cid (.result e)) (by rw [h1, ← h2.1]; simp)
        cases h3
  obtain ⟨post', h'⟩ := this
  exact ⟨post', pre, w, e, h', h2⟩

/-- What a call of Worker or StopAndRemoveWorker that does not return waits for, in a program. -/
def StillWaits (h : Nat → List Ev) (cid : Nat) : RSpec.Call → Prop
  | .worker id => (∀ k, .cancelled cid ∉ h k) ∧ (∀ k, .kill ∉ h k) ∧ (∀ k, .exit ∉ h k) ∧ ∀ n, ∃ m, n ≤ attemptsOf id (h m)
  | .remove id => (∀ k, .cancelled cid ∉ h k) ∧
      (((∀ k, .kill ∉ h k) ∧ (∀ k, .exit ∉ h k) ∧ ∀ n, ∃ m, n ≤ attemptsOf id (h m)) ∨
      ∃ rid n, ∀ k, n ≤ k → RSpec.knownH (h k) id = some rid ∨ ∃ cid', cid' ≠ cid ∧ RSpec.GotResult (h k) cid' id rid)
  | _ => False

theorem runner_pauses_waits {q : Runner.Pauses p} (hf : q.Fair rkind) (hu : ∀ k, (q.st k).tab.tomb.panicked = false)
    (hs : RSpec.StartsReturn (Runner.pausesHist q))
    (hw : ∀ k w, w ∈ (Runner.pausesHist q k).filterMap rkillOf → ∃ j e, .finished w e ∈ Runner.pausesHist q j)
    {k cid : Nat} {x : RSpec.Call} (hc : RSpec.callH (Runner.pausesHist q k) cid = some x) :
    (∃ j v, .ret cid v ∈ Runner.pausesHist q j) ∨ StillWaits (Runner.pausesHist q) cid x := by
  have reach : ∀ k, Runner.Reach p (q.st k) := q.inv (P := Runner.Reach p) .init (fun _ _ _ h hs => .step _ h hs)
  obtain ⟨r, h1, h2, h3⟩ := q.unstutter (F := Runner.Filler p) (P := Runner.Reach p) hf reach (fun _ _ _ h hs => .step _ h hs.1)
    (fun _ _ _ h => h.1) (fun _ h => Runner.Filler.exists h) (fun s a s' x _ h ⟨op, f, hk, hc⟩ => by
      have hi := (rkind_some.1 hk).1
      have hc : Runner.step p s' op = some f := hc
      obtain ⟨c', hc'⟩ := Option.isSome_iff_exists.1 (h.can hi (by rw [hc]; rfl))
      exact ⟨op, c', hk, hc'⟩)
  let R : Runner.Run p := ⟨r.st, r.op, r.start, r.next⟩
  have hfair : R.Fair := fun op hop hi => by
    refine (h1 op.kind (hi.mono (fun k ⟨op', s', hk, hs⟩ => ⟨op', s', rkind_some.2 ⟨?_, hk⟩, hs⟩))).mono (fun k hk => (rkind_some.1 hk).2)
    exact kind_internal hk hop
  have hx : ∀ k, .exit ∈ R.hist k → (Runner.waitResult (R.st k)).isSome = true := fun k he => by
    refine runner_wait (R.reach k) he ?_
    by_contra hp
    obtain ⟨b, hb⟩ := h3 k
    obtain ⟨m, hm, hfl⟩ := hb b (Nat.le_refl _)
    have := exited_panicked (r := R) hm he (by simpa using hp)
    rw [show (R.st m).tab.tomb = _ from rfills_tomb hfl, hu b] at this
    cases this
  have call : ∀ {a b : Nat} {x : RSpec.Call}, a ≤ b → RSpec.callH (Runner.pausesHist q a) cid = some x → RSpec.callH (Runner.pausesHist q b) cid = some x := by
    intro a b x hab h
    induction hab with
    | refl => exact h
    | @step b _ ih =>
      rcases q.next b with ⟨op, _, hn⟩ | ⟨_, hn⟩
      · exact step_call (reach b) hn ih
      · show RSpec.callH (q.st (b + 1)).tab.hist cid = some x
        rw [hn]; exact ih
  -- what happens in the one happens in the other
  have up : ∀ {e : Ev} {a : Nat}, e ∈ Runner.pausesHist q a → ∃ n, e ∈ R.hist n := fun {e a} he => by
    obtain ⟨j, n, hj, hn⟩ := h2 a
    obtain ⟨es, hes⟩ := rpauses_grow q hj
    have hn : R.hist n = Runner.pausesHist q j := congrArg (fun s => s.tab.hist) hn
    exact ⟨n, by rw [hn, hes]; exact List.mem_append_right _ he⟩
  have down : ∀ {e : Ev} {a : Nat}, e ∈ R.hist a → (∀ w x, e ≠ .finished w x) → ∃ b, e ∈ Runner.pausesHist q b := fun {e a} he hne => by
    obtain ⟨b, hb⟩ := h3 a
    obtain ⟨m', hm', hfl⟩ := hb b (Nat.le_refl _)
    exact ⟨b, ((rfills_same hfl).2.2.1 _ (R.hist_mono hm' he)).resolve_right (fun ⟨w, x, h⟩ => hne w x h)⟩
  have kfin : ∀ {e : Ev} {a w : Nat}, e ∈ R.hist a → rkillOf e = some w → (∀ w x, e ≠ .finished w x) →
      ∃ n e, a ≤ n ∧ RSpec.finishedH (R.hist n) w = some e := fun {e a w} he hk hne => by
    obtain ⟨b, hb⟩ := down he hne
    obtain ⟨j, e', hj⟩ := hw b w (List.mem_filterMap.2 ⟨_, hb, hk⟩)
    obtain ⟨n, hn⟩ := up hj
    obtain ⟨e'', he''⟩ := Option.isSome_iff_exists.1 (rfin_of_mem (R.hist_mono (Nat.le_max_right a n) hn))
    exact ⟨max a n, e'', Nat.le_max_left _ _, he''⟩
  have hS : RSpec.StartsReturn R.hist := fun m g hm => by
    by_contra hno
    have hno : ∀ k', m ≤ k' → RSpec.phaseH (R.hist k') g = some .calling := fun k' hk' => by
      by_contra h; exact hno ⟨k', hk', h⟩
    obtain ⟨b, hb⟩ := h3 m
    have hq : ∀ j, b ≤ j → RSpec.phaseH (Runner.pausesHist q j) g = some .calling := fun j hj => by
      obtain ⟨m', hm', hfl⟩ := hb j hj
      exact ((rfills_same hfl).1 g).symm.trans (hno m' hm')
    obtain ⟨k', hk', hne⟩ := hs b g (hq b (Nat.le_refl _))
    exact hne (hq k' hk')
  have hK : RSpec.KilledFinish R.hist := fun n id w hk => kfin hk rfl nofun
  have hA : ∀ {id : Name}, (∀ n, ∃ m, n ≤ attemptsOf id (R.hist m)) → ∀ n, ∃ m, n ≤ attemptsOf id (Runner.pausesHist q m) := fun {id} h n => by
    obtain ⟨m, hm⟩ := h n
    obtain ⟨b, hb⟩ := h3 m
    obtain ⟨m', hm', hfl⟩ := hb b (Nat.le_refl _)
    obtain ⟨fs, f1, f2⟩ := rfills_hist hfl
    obtain ⟨es, hes⟩ := R.hist_grows hm'
    have e1 : attemptsOf id (R.hist m') = attemptsOf id (Runner.pausesHist q b) := by
      show attemptsOf id (r.st m').tab.hist = _
      rw [f1, attempts_append, attempts_finished f2, Nat.zero_add]; rfl
    have e2 : attemptsOf id (R.hist m) ≤ attemptsOf id (R.hist m') := by rw [hes, attempts_append]; exact Nat.le_add_left _ _
    exact ⟨b, by omega⟩
  obtain ⟨j, n, hj, hn⟩ := h2 k
  have hn : R.hist n = Runner.pausesHist q j := congrArg (fun s => s.tab.hist) hn
  have hcR : RSpec.callH (R.hist n) cid = some x := by rw [hn]; exact call hj hc
  have same : ∀ {m y}, RSpec.callH (R.hist m) cid = some y → y = x := fun {m y} h => by
    have e1 := R.call_mono (Nat.le_max_left n m) hcR
    have e2 := R.call_mono (Nat.le_max_right n m) h
    rw [e1] at e2; injection e2 with e2; exact e2.symm
  have no : ∀ {e : Ev}, (∀ a, e ∉ R.hist a) → ∀ a, e ∉ Runner.pausesHist q a := fun {e} h a he => by
    obtain ⟨n, hn⟩ := up he
    exact h n hn
  rcases C78_calls_return hfair hx hcR with ⟨m, v, hm⟩ | ⟨id, w1, w2, w3, ⟨m, w4⟩, w5⟩ | ⟨id, w, _, ⟨m, w2⟩, w3⟩ | ⟨id, rid, w1, ⟨m, w2⟩, a, w3⟩
  · obtain ⟨b, hb⟩ := down hm nofun
    exact .inl ⟨b, v, hb⟩
  · refine .inr ?_
    have := hA (attempted_ever hfair hS hK w5)
    rcases w4 with w4 | w4 <;> have := same w4 <;> subst this
    · exact ⟨no w1, no w2, no w3, hA (attempted_ever hfair hS hK w5)⟩
    · exact ⟨no w1, .inl ⟨no w2, no w3, hA (attempted_ever hfair hS hK w5)⟩⟩
  · obtain ⟨n', e, _, he⟩ := kfin w2 rfl nofun
    rw [w3] at he; cases he
  · refine .inr ?_
    have := same w2; subst this
    refine ⟨no w1, .inr ?_⟩
    obtain ⟨b, hb⟩ := h3 a
    refine ⟨rid, b, fun j hj => ?_⟩
    obtain ⟨m', hm', hfl⟩ := hb j hj
    obtain ⟨fs, f1, f2⟩ := rfills_hist hfl
    have hh : R.hist m' = fs ++ Runner.pausesHist q j := f1
    rcases w3 m' hm' with h | ⟨cid', h4, h5⟩
    · rw [hh, known_finished f2] at h; exact .inl h
    · rw [hh] at h5; exact .inr ⟨cid', h4, got_finished f2 h5⟩

end

variable {I : Type} [DecidableEq I] {W : Wiring I}

/-- C116: what becomes of a call of a method of a runner of a program. -/
theorem C116_calls {r : SysRun W} (hf : r.Fair) (hw : r.WaitsReturn) (hu : r.Users)
    (wf : WellFounded (fun c i => ∃ k w, w ∈ (r.st k i).kills ∧ W.child i w = c)) {i : I} {p : Runner.Params} (hi : W.kind i = .runner p)
    {k cid : Nat} {x : RSpec.Call} (hc : RSpec.callH (r.st k i).rhist cid = some x) :
    (∃ j v, .ret cid v ∈ (r.st j i).rhist) ∨ StillWaits (fun n => (r.st n i).rhist) cid x := by
  obtain ⟨q, h1, h2⟩ := runner_part r hf hi
  have hh : ∀ n, (r.st n i).rhist = Runner.pausesHist q n := fun n => by rw [h2]; rfl
  have hs : RSpec.StartsReturn (Runner.pausesHist q) := by
    have := hu i
    rw [hi] at this
    rw [← funext hh]; exact this
  simp only [hh] at hc ⊢
  exact runner_pauses_waits h1 (fun k => by have := r.up k i; rw [h2] at this; exact this) hs (fun n v hv => by
    obtain ⟨j, e, hj⟩ := killed_finish hf hw hu wf (i := i) (k := n) (w := v) (by rw [h2]; exact hv)
    exact ⟨j, e, by rw [h2] at hj; exact hj⟩) hc

/-- C116: a call whose context or abort channel has been closed returns. -/
theorem C116_cancelled {r : SysRun W} (hf : r.Fair) (hw : r.WaitsReturn) (hu : r.Users)
    (wf : WellFounded (fun c i => ∃ k w, w ∈ (r.st k i).kills ∧ W.child i w = c)) {i : I} {p : Runner.Params} (hi : W.kind i = .runner p)
    {k k' cid : Nat} {x : RSpec.Call} (hc : RSpec.callH (r.st k i).rhist cid = some x) (ha : .cancelled cid ∈ (r.st k' i).rhist) :
    ∃ j v, .ret cid v ∈ (r.st j i).rhist := by
  rcases C116_calls hf hw hu wf hi hc with h | h
  · exact h
  · cases x with
    | worker id => exact absurd ha (h.1 k')
    | remove id => exact absurd ha (h.1 k')
    | start id sf => exact h.elim
    | stop id => exact h.elim

theorem exit_unknown {p : Runner.Params} {s : Runner.State} (hr : Runner.Reach p s) (he : .exit ∈ s.tab.hist) (id : Name) :
    RSpec.knownH s.tab.hist id = none := by
  rw [hr.tab.hinv.kn, (hr.tab.shape.exited (hr.tab.hinv.exit.2 he)).2 id]; rfl

/-- C116: a call on a runner that stops returns, unless it is of StopAndRemoveWorker and another such call was told of the removal. -/
theorem C116_dead {r : SysRun W} (hf : r.Fair) (hw : r.WaitsReturn) (hu : r.Users)
    (wf : WellFounded (fun c i => ∃ k w, w ∈ (r.st k i).kills ∧ W.child i w = c)) {i : I} {p : Runner.Params} (hi : W.kind i = .runner p)
    {k k' cid : Nat} {x : RSpec.Call} (hc : RSpec.callH (r.st k i).rhist cid = some x) (hs : StoppingW (r.st k' i)) :
    (∃ j v, .ret cid v ∈ (r.st j i).rhist) ∨
      ∃ id rid cid' j, x = .remove id ∧ cid' ≠ cid ∧ RSpec.GotResult (r.st j i).rhist cid' id rid := by
  obtain ⟨m, hm⟩ := C106_stops hf hw hu wf i hs
  obtain ⟨q, h1, h2⟩ := runner_part r hf hi
  have reach : ∀ k, Runner.Reach p (q.st k) := q.inv (P := Runner.Reach p) .init (fun _ _ _ h hs => .step _ h hs)
  have hh : ∀ n, (r.st n i).rhist = Runner.pausesHist q n := fun n => by rw [h2]; rfl
  have hex : .exit ∈ (r.st m i).rhist := by
    obtain ⟨e, he⟩ := Option.isSome_iff_exists.1 hm
    rw [h2] at he ⊢
    exact wait_exit (reach m) he
  rcases C116_calls hf hw hu wf hi hc with h | h
  · exact .inl h
  · cases x with
    | worker id => exact absurd hex (h.2.2.1 m)
    | remove id =>
      rcases h.2 with h | ⟨rid, n, h⟩
      · exact absurd hex (h.2.1 m)
      · rcases h (max n m) (Nat.le_max_left _ _) with h | ⟨cid', h3, h4⟩
        · exfalso
          obtain ⟨es, hes⟩ := rpauses_grow q (Nat.le_max_right n m)
          have h : RSpec.knownH (r.st (max n m) i).rhist id = some rid := h
          rw [hh] at h hex
          have := exit_unknown (reach (max n m)) (by
            rw [show (q.st (max n m)).tab.hist = es ++ Runner.pausesHist q m from hes]; exact List.mem_append_right _ hex) id
          rw [show RSpec.knownH (q.st (max n m)).tab.hist id = some rid from h] at this; cases this
        · exact .inr ⟨id, rid, cid', _, rfl, h3, h4⟩
    | start id sf => exact h.elim
    | stop id => exact h.elim

/-! ## A concrete case -/

namespace SDemo

/-- Somebody has called StopAndRemoveWorker and Worker on the runner of the program of the examples, the runner has been killed, and the
first of the calls has been aborted. -/
def opsAsk : List (Nat × Op) := opsUp ++ [.callRemove 7, .callWorker 7, .kill, .cancel 1].map (fun op => (1, .runner op))

def asked : List Comp := (runUp SDemo.W (kinds.map Kind.new) opsAsk).getD (kinds.map Kind.new)

theorem asked_reach : System.Reach SDemo.W (fn asked) := by
  have h : (runUp SDemo.W (kinds.map Kind.new) opsAsk).isSome = true := by decide +kernel
  obtain ⟨L, hL⟩ := Option.isSome_iff_exists.1 h
  have h0 : System.Reach SDemo.W (fn (kinds.map Kind.new)) := by
    have : fn (kinds.map Kind.new) = SDemo.W.new := after_zero
    rw [this]; exact .init
  have := runUp_reach _ h0 hL
  unfold asked
  rw [hL]; exact this

theorem asked_going : Going SDemo.W known (fn asked) := by
  refine ⟨asked_reach, fun i e h => ?_, fun i own s h => .inr ?_⟩
  · have key : asked.all (fun c => (givens c).all (fun e => e == .user 99 || e == .missing)) = true := by decide +kernel
    simpa [known] using List.all_eq_true.1 (fn_all key rfl i) e (given_mem h)
  · have key : asked.all (fun c => match c with
      | .catacomb _ s => s.hist.contains .workCall && !s.hist.contains (.workRet .goexit)
      | _ => true) = true := by decide +kernel
    have := fn_all key rfl i
    rw [h] at this
    simpa using this

end SDemo

-- calls that have not returned yet
example : ∃ (r : SysRun SDemo.W) (n : Nat), r.Fair ∧ r.WaitsReturn ∧ r.Users ∧
    WellFounded (fun c i => ∃ k w, w ∈ (r.st k i).kills ∧ SDemo.W.child i w = c) ∧ SDemo.W.kind 1 = .runner RDemo.prm ∧
    RSpec.callH (r.st n 1).rhist 1 = some (.remove 7) ∧ RSpec.callH (r.st n 1).rhist 2 = some (.worker 7) ∧
    .cancelled 1 ∈ (r.st n 1).rhist ∧ StoppingW (r.st n 1) ∧ ¬ EndedW (r.st n 1) ∧ (r.st n 1).rhist.all (fun e => match e with
      | .ret c _ => c == 0
      | _ => true) = true := by
  obtain ⟨r, n, hn, h1, h2, h3, h4, h5⟩ := C108_goes_on SDemo.known_closed SDemo.known_plain (e0 := .user 99) (.inl rfl) SDemo.asked_going
  refine ⟨r, n, h1, h2.killed, h3, ?_, rfl, by rw [hn]; decide +kernel, by rw [hn]; decide +kernel, by rw [hn]; decide +kernel, ?_,
    by unfold EndedW; rw [hn]; decide +kernel, by rw [hn]; decide +kernel⟩
  · refine Subrelation.wf (r := fun a b : Nat => 5 - a < 5 - b) ?_ (measure (fun i => 5 - i)).wf
    rintro c i ⟨k, w, hk, rfl⟩
    have h := SDemo.handed_mem (h5 k i w hk)
    have key : ∀ i, i < 5 → ((SDemo.handeds (SDemo.fn SDemo.asked i)).all (fun w => decide (5 - SDemo.W.child i w < 5 - i))) = true := by decide +kernel
    by_cases hi : i < 5
    · exact of_decide_eq_true (List.all_eq_true.1 (key i hi) w h)
    · rw [SDemo.fn_more (by have : SDemo.asked.length = 5 := by decide +kernel
                            omega)] at h
      cases h
  · rw [hn]
    have : (match SDemo.fn SDemo.asked 1 with | .runner _ s => s.tab.hist.contains .kill | _ => false) = true := by decide +kernel
    generalize SDemo.fn SDemo.asked 1 = c at this
    cases c with
    | runner p s => exact .inl (by simpa using this)
    | _ => cases this

end Verif.Props
