import Verif.Props.SystemWorker

/-!
# C117: a worker of a program ends exactly if it has a reason to
-/

namespace Verif.Props
open Verif.System Verif.Spec Verif.Schedule

variable {I : Type} [DecidableEq I] {W : Wiring I}

/-- What makes a worker end. -/
def Reason : Comp → Prop
  -- it was killed, or a worker of it ended with a fatal error
  | .runner p s => .kill ∈ s.tab.hist ∨ ∃ id g e, .ended id g (some e) ∈ s.tab.hist ∧ p.isFatal e = true
  -- it was killed, or its work func returned (or panicked), or Wait of a worker of it returned an error
  | .catacomb _ s => (∃ e, .kill e ∈ s.hist) ∨ (∃ x, .workRet x ∈ s.hist ∧ x ≠ .goexit) ∨
      ∃ g w src e, .tracked g w src ∈ s.hist ∧ CSpec.finishedH s.hist w = some (some e)
  -- it was killed, or a worker of it ended with a fatal error
  | .engine cfg f => .kill ∈ f.s.hist ∨ ∃ n g now raw e t l, .ended n g now raw e t l ∈ f.s.hist ∧ cfg.isFatal e = true
  -- it was killed, or has ended
  | .leaf killed res => killed = true ∨ res.isSome = true

/-- C117: a worker that has ended had a reason to. -/
theorem C117_reason {S : I → Comp} (hr : System.Reach W S) {i : I} (he : EndedW (S i)) : Reason (S i) := by
  have ho := reach_of hr i
  unfold EndedW at he
  generalize W.kind i = κ at ho
  generalize S i = c at ho he
  cases ho with
  | @runner p s hr =>
    obtain ⟨e, he⟩ := Option.isSome_iff_exists.1 he
    have hx := wait_exit hr he
    have hev := runner_evOk hr
    obtain ⟨post, pre, hh⟩ := List.append_of_mem hx
    have sub : ∀ x, x ∈ pre → x ∈ s.tab.hist := fun x hx => by rw [hh]; exact List.mem_append_right _ (List.mem_cons_of_mem _ hx)
    rw [hh] at hev
    have h1 : RSpec.EvOk p .exit pre := hev.split
    obtain ⟨post', pre', hh'⟩ := List.append_of_mem (show Runner.Ev.shutdown ∈ pre from h1.1)
    have hev' := (RSpec.AtEvery.drop hev).2
    rw [hh'] at hev'
    have h2 : RSpec.EvOk p .shutdown pre' := hev'.split
    have sub' : ∀ x, x ∈ pre' → x ∈ s.tab.hist := fun x hx => sub x (by rw [hh']; exact List.mem_append_right _ (List.mem_cons_of_mem _ hx))
    rcases h2 with h | ⟨_, id, rid, g, err, tl, h, hf⟩
    · exact .inl (sub' _ h)
    · exact .inr ⟨id, g, err, sub' _ (by rw [h]; simp), hf⟩
  | @catacomb own s hr =>
    have hd : .dead ∈ s.hist := Classical.byContradiction (fun hx => by
      have := (C67_wait hr).1 hx
      rw [Comp.result, this] at he; cases he)
    obtain ⟨x, hx, hk⟩ := ((C67_wait hr).2 hd).2
    have hev := hr.events
    obtain ⟨post, pre, hh⟩ := List.append_of_mem hx
    have sub : ∀ x, x ∈ pre → x ∈ s.hist := fun x hx => by rw [hh]; exact List.mem_append_right _ (List.mem_cons_of_mem _ hx)
    have hev' := hev
    rw [hh] at hev
    have hx' : CSpec.EvOk own x pre := hev.split
    cases x with
    | kill e => exact .inl ⟨e, hx⟩
    | workKill e =>
      obtain ⟨⟨y, h1, h2⟩, _⟩ := hx'
      refine .inr (.inl ⟨y, sub _ h1, ?_⟩)
      rcases h2 with rfl | ⟨v, rfl, _⟩ <;> exact nofun
    | workerKill g e =>
      obtain ⟨⟨w, src, h1, h2⟩, _⟩ := hx'
      refine .inr (.inr ⟨g, w, src, e, sub _ h1, ?_⟩)
      have : s.hist = (post ++ [Catacomb.Ev.workerKill g e]) ++ pre := by rw [hh]; simp
      rw [this] at hev' ⊢
      exact Cat.fin_post hev' h2
    | _ => cases hk
  | @engine cfg f hr =>
    refine .inl ?_
    rw [Comp.result, C81_wait_result hr] at he
    by_cases hx : Engine.Ev.exit ∈ f.s.hist
    · obtain ⟨post, pre, hh⟩ := List.append_of_mem hx
      have := C81_clean_exit hr
      rw [hh] at this
      rw [hh]
      exact List.mem_append_right _ (List.mem_cons_of_mem _ this.split.1)
    · rw [if_neg hx] at he; cases he
  | leaf => exact .inr he

/-- C117: in a program that goes on, a worker ends exactly if it has a reason to. -/
theorem C117_ends_iff {r : SysRun W} (hf : r.Fair) (hw : r.WaitsReturn) (hu : r.Users)
    (wf : WellFounded (fun c i => ∃ k w, w ∈ (r.st k i).kills ∧ W.child i w = c)) (i : I) :
    (∃ k, EndedW (r.st k i)) ↔ ∃ k, Reason (r.st k i) := by
  refine ⟨fun ⟨k, h⟩ => ⟨k, C117_reason (r.reach k) h⟩, fun ⟨k, h⟩ => ?_⟩
  cases hi : W.kind i with
  | runner p =>
    obtain ⟨q, h1, h2⟩ := runner_part r hf hi
    have reach : ∀ k, Runner.Reach p (q.st k) := q.inv (P := Runner.Reach p) .init (fun _ _ _ h hs => .step _ h hs)
    rw [h2] at h
    refine C106_stops hf hw hu wf i (k := k) ?_
    rw [h2]
    rcases h with h | ⟨id, g, e, hm, hfe⟩
    · exact .inl h
    · refine .inr ?_
      obtain ⟨post, pre, hh⟩ := List.append_of_mem hm
      rcases C19_fatal_shuts_down (reach k) hh hfe with h | ⟨l, rid, h⟩
      · show Runner.Ev.shutdown ∈ _
        rw [hh]; exact List.mem_append_right _ (List.mem_cons_of_mem _ h)
      · show Runner.Ev.shutdown ∈ _
        rw [hh, h]; simp
  | catacomb own =>
    obtain ⟨q, h1, h2⟩ := catacomb_part r hf hi
    rw [h2] at h
    have up : ∀ k, (q.st k).crashed = false := fun k => by
      have := r.up k i
      rw [h2] at this; exact this
    rcases h with ⟨e, h⟩ | ⟨x, h, hne⟩ | ⟨g, w, src, e, ht, he⟩
    · exact C106_stops hf hw hu wf i (k := k) (by rw [h2]; exact ⟨_, h, rfl⟩)
    · obtain ⟨m, hm⟩ := catacomb_pauses_dead (q := q) up h1 (fun n g w hk => by
        obtain ⟨j, e, hj⟩ := killed_finish hf hw hu wf (i := i) (k := n) (w := w) (by
          rw [h2]
          exact List.mem_filterMap.2 ⟨_, hk, rfl⟩)
        rw [h2] at hj
        exact ⟨j, cfin_of_mem hj⟩) h hne
      refine ⟨m, ?_⟩
      have hr := reach_of (r.reach m) i
      rw [h2] at hr ⊢
      rw [hi] at hr
      cases hr with
      | catacomb hr =>
        unfold EndedW
        rw [Comp.result, ((C67_wait hr).2 hm).1]; rfl
    · obtain ⟨m, hm⟩ := catacomb_pauses_reports (q := q) up h1 ht he
      exact C106_stops hf hw hu wf i (k := m) (by rw [h2]; exact ⟨_, hm, rfl⟩)
  | engine cfg =>
    obtain ⟨q, h1, h2⟩ := engine_part r hf hi
    have reach : Engine.FReach cfg (q.st k) := by
      have := reach_of (r.reach k) i
      rw [h2, hi] at this
      cases this; assumption
    rw [h2] at h
    refine C106_stops hf hw hu wf i (k := k) ?_
    rw [h2]
    rcases h with h | ⟨n, g, now, raw, e, t, l, hm, hfe⟩
    · exact h
    · exact C81_fatal_kills reach hm hfe
  | leaf =>
    have ho := reach_of (r.reach k) i
    rw [hi] at ho
    have hu' := hu i
    rw [hi] at hu'
    generalize hc : r.st k i = c at ho h
    cases ho with
    | leaf =>
      rcases h with h | h
      · exact hu' k (by rw [hc]; exact h)
      · exact ⟨k, by unfold EndedW; rw [hc]; exact h⟩

/-! ## Concrete cases -/

-- the program of the examples, whose engine has been killed, and has not ended yet; nor has anybody else a reason to
example : SDemo.life.Fair ∧ SDemo.life.WaitsReturn ∧ SDemo.life.Users ∧
    WellFounded (fun c i => ∃ k w, w ∈ (SDemo.life.st k i).kills ∧ SDemo.W.child i w = c) ∧
    Reason (SDemo.life.st 44 0) ∧ ¬ EndedW (SDemo.life.st 44 0) ∧ ¬ Reason (SDemo.life.st 44 1) := by
  refine ⟨SDemo.life_fair, SDemo.life_waits, SDemo.life_users, SDemo.life_wf, ?_, by unfold EndedW; decide +kernel, ?_⟩
  · have h : (match SDemo.life.st 44 0 with | .engine _ f => f.s.hist.contains .kill | _ => false) = true := by decide +kernel
    generalize SDemo.life.st 44 0 = c at h
    cases c with
    | engine cfg f => exact .inl (by simpa using h)
    | _ => cases h
  · have h : (match SDemo.life.st 44 1 with
      | .runner _ s => !s.tab.hist.contains .kill && s.tab.hist.all (fun e => match e with | .ended _ _ _ => false | _ => true)
      | _ => false) = true := by decide +kernel
    generalize SDemo.life.st 44 1 = c at h
    cases c with
    | runner p s =>
      simp only [Bool.and_eq_true, List.all_eq_true] at h
      rintro (h1 | ⟨id, g, e, h1, _⟩)
      · simp [h1] at h
      · exact absurd (h.2 _ h1) nofun
    | _ => cases h

-- what has ended had a reason
example : System.Reach SDemo.W (SDemo.life.st SDemo.ops.length) ∧ EndedW (SDemo.life.st SDemo.ops.length 2) :=
  ⟨SDemo.life.reach _, by unfold EndedW; decide +kernel⟩

end Verif.Props
