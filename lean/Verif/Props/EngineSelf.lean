import Verif.Props.EngineHeld

/-!
# A manifold whose worker is the engine itself (C92)

`SelfManifold` (dependency/util.go:85-105) makes one, without inputs; nothing stops its caller from adding some. To restart such a manifold, as is done for any other when one of its
inputs changes, is to kill the engine.
-/

namespace Verif.Engine
open State Verif.Spec

/-- The engine is killed the moment it is told to stop as a worker, and this is the last event but one. -/
def SelfEnds (h : List Ev) : Prop :=
  AtEvery (fun e h => h.head? = some (.killW .self) → e = .kill) h ∧ h.head? ≠ some (.killW .self)

theorem SelfEnds.cons {e : Ev} {h : List Ev} (hi : SelfEnds h) (he : e ≠ .killW .self) : SelfEnds (e :: h) :=
  ⟨⟨fun hh => absurd hh hi.2, hi.1⟩, by simpa using he⟩

theorem SelfEnds.pair {h : List Ev} (hi : SelfEnds h) : SelfEnds (.kill :: .killW .self :: h) :=
  ⟨⟨fun _ => rfl, fun hh => absurd hh hi.2, hi.1⟩, by simp⟩

theorem SelfEnds.killWorker {s : State} (hi : SelfEnds s.hist) (w : WRef) : SelfEnds (s.killWorker w).hist := by
  cases w with
  | self => exact hi.pair
  | obj k => exact hi.cons nofun

theorem micro_selfEnds {v : List Ev → List Ev} {cfg : Config} {s s' : State} {D D' : Debt} (m : Micro v cfg s D s' D')
    (hns : ∀ g ∈ s.gs, (s.cur g.name).stopped = false) (hi : SelfEnds s.hist) : SelfEnds s'.hist := by
  cases m with
  | setPend | discharge | gAbort | gSelfDone | gWaitRet | oneShot => exact hi
  | kill | launch | record | register | uninstall | gTimer | gGet | gStartOk | gStartErr | finish | exit => exact hi.cons nofun
  | neutral e h =>
    rcases h with ⟨n, x, rfl⟩ | rfl
    · exact hi.cons nofun
    · refine hi.cons ?_
      unfold reportEv
      split <;> nofun
  | refuse g hg w => exact SelfEnds.killWorker (s := s.mapG g.gid _) hi w
  | stop g hg raw now =>
    rw [stopState_eq cfg s g raw now (hns g hg)]
    simp only
    split
    · exact SelfEnds.cons (e := .kill) (SelfEnds.cons (e := .ended ..) hi nofun) nofun
    · exact SelfEnds.cons (e := .ended ..) hi nofun
  | reqStop n hs hst =>
    have hm : SelfEnds (markStopping s n).hist := by
      unfold markStopping
      simp only
      split
      · exact hi.cons nofun
      · exact hi
    unfold requestStop
    simp only
    split
    · exact hi
    · split
      · exact hm.killWorker _
      · exact hm

theorem ex_selfEnds {v : List Ev → List Ev} {cfg : Config} {s : State} {D : Debt} (h : Ex v cfg s D) : SelfEnds s.hist :=
  ex_induct2 (P := fun s _ => SelfEnds s.hist) ⟨trivial, by simp [init]⟩
    (fun _ _ _ _ c _ p m => micro_selfEnds m (fun g hg => (c.rel g hg).notStopped) p) h

end Verif.Engine

namespace Verif.Props
open Verif.Spec Verif.Engine

variable {cfg : Config} {f : Fine}

/-- C92: whenever the engine calls Kill on itself as the worker of a manifold, it is killed then and there, before
anything else happens. -/
theorem C92_killed (hr : FReach cfg f) {post pre : List Ev} (hh : f.s.hist = post ++ .killW .self :: pre) :
    ∃ post', post = post' ++ [.kill] := by
  obtain ⟨D, hl⟩ := freach_link hr
  obtain ⟨h1, h2⟩ := ex_selfEnds hl.1
  rw [hh] at h1 h2
  rcases List.eq_nil_or_concat post with rfl | ⟨post', e, rfl⟩
  · simp at h2
  · refine ⟨post', ?_⟩
    rw [List.concat_append] at h1
    have : e = .kill := h1.split (e := e) rfl
    rw [this, List.concat_eq_append]

theorem killed_mem {n : Name} {w : WRef} : ∀ {h : List Ev}, killedH h n = true → phaseH h n = .ok w → .killW w ∈ h := by
  intro h
  induction h with
  | nil => intro h1; cases h1
  | cons e h ih =>
    intro h1 h2
    cases e <;> simp only [killedH, phaseH] at h1 h2 <;> first | exact .tail _ (ih h1 h2) | skip
    case killW w' =>
      split at h1
      · rename_i hw; cases h2.symm.trans hw; exact .head _
      · exact .tail _ (ih h1 h2)
    all_goals
      split at h2
      · first | (cases h2; done) | (rename_i hn; simp [hn] at h1; done)
      · first | exact .tail _ (ih h1 h2) | (rename_i hn; rw [if_neg hn] at h1; exact .tail _ (ih h1 h2))

/-- C92: as long as the engine has not been killed, whenever its loop is at its select, a manifold whose worker is the engine
has not been told to stop, and each of its inputs has the very worker, or lack of one, it had when that manifold was
started. So any change of an input kills the engine. -/
theorem C92_inputs (hr : FReach cfg f) (h0 : f.todo = []) {n : Name} (hw : workerH f.s.hist n = some .self)
    (hk : .kill ∉ f.s.hist) : ∃ g, openH f.s.hist n = some g ∧ .cancelled g ∉ f.s.hist ∧ UpToDate f.s.hist n := by
  obtain ⟨D, hl⟩ := freach_link hr
  obtain ⟨c, i⟩ := ex_hinv hl.1
  have hns : (f.s.cur n).stopped = false := by
    rw [not_stopped_iff]; left; rw [i.worker, hw]; simp
  obtain ⟨g, hg, rfl⟩ := c.live n hns
  have ho : openH f.s.hist g.name = some g.gid := (i.openG g hg)
  have hc : .cancelled g.gid ∉ f.s.hist := by
    intro hc
    have hp := ex_wphase hl.1 _ _ hw
    have hpc : g.pc ≠ .registering .self := by
      obtain ⟨_, h' | ⟨e, h'⟩⟩ := (c.rel g hg).worker .self (by rw [i.worker]; exact hw)
      · rw [h']; nofun
      · rw [h']; nofun
    have h1 := ex_killed_on_arrival hl.1 hg hp hpc (.inl hc)
    have h2 : .killW .self ∈ f.s.hist := killed_mem h1 hp
    obtain ⟨post, pre, hh⟩ := List.append_of_mem h2
    obtain ⟨post', rfl⟩ := C92_killed hr hh
    exact hk (by rw [hh]; simp)
  exact ⟨g.gid, ho, hc, C81_inputs_at_rest hr h0 ho hc hk⟩

/-- An attempt of the manifold begins, or its Start func is called. -/
def calls (n : Name) : Ev → Bool
  | .begin m _ _ _ _ | .startCall m _ _ => n == m
  | _ => false

theorem self_stays {n : Name} {g : Nat} {pre : List Ev} : ∀ {mid : List Ev}, AtEvery OneAtATime (mid ++ .startOk n g .self :: pre) →
    AtEvery (EndsProperly cfg) (mid ++ .startOk n g .self :: pre) →
    AtEvery (fun e h => match e with
      | .begin _ _ _ _ _ => .kill ∉ h
      | .registered _ _ _ _ => .kill ∉ h
      | _ => True) (mid ++ .startOk n g .self :: pre) →
    ((phaseH (mid ++ .startOk n g .self :: pre) n = .ok .self ∧ openH (mid ++ .startOk n g .self :: pre) n = some g) ∨
      (phaseH (mid ++ .startOk n g .self :: pre) n = .idle ∧ .kill ∈ mid ++ .startOk n g .self :: pre)) ∧
    ∀ e ∈ mid, calls n e = false ∧ ∀ g' now raw fl told lost, e = .ended n g' now raw fl told lost → .kill ∈ mid ++ .startOk n g .self :: pre := by
  intro mid
  induction mid with
  | nil =>
    intro h1 _ _
    have : openH pre n = some g := h1.1.1
    exact ⟨.inl ⟨by simp [phaseH], by simpa [openH] using this⟩, by simp⟩
  | cons e mid ih =>
    intro h1 h2 h3
    obtain ⟨hp, hm⟩ := ih h1.2 h2.2 h3.2
    have h1 : OneAtATime e (mid ++ .startOk n g .self :: pre) := h1.1
    have h2 : EndsProperly cfg e (mid ++ .startOk n g .self :: pre) := h2.1
    have h3 := h3.1
    rw [List.cons_append]
    generalize hH : mid ++ .startOk n g .self :: pre = H at *
    have hm' : calls n e = false → (∀ g' now raw fl told lost, e = .ended n g' now raw fl told lost → .kill ∈ e :: H) →
        ∀ x ∈ e :: mid, calls n x = false ∧ ∀ g' now raw fl told lost, x = .ended n g' now raw fl told lost → .kill ∈ e :: H := by
      intro a b x hx
      rcases List.mem_cons.1 hx with rfl | hx
      · exact ⟨a, b⟩
      · exact ⟨(hm x hx).1, fun _ _ _ _ _ _ h => .tail _ ((hm x hx).2 _ _ _ _ _ _ h)⟩
    have keep : phaseH (e :: H) n = phaseH H n → openH (e :: H) n = openH H n →
        (phaseH (e :: H) n = .ok .self ∧ openH (e :: H) n = some g) ∨ (phaseH (e :: H) n = .idle ∧ .kill ∈ e :: H) := by
      intro a b
      rw [a, b]
      exact hp.imp id fun h => ⟨h.1, .tail _ h.2⟩
    cases e with
    | «begin» m g' b r sn =>
      have hne : n ≠ m := by
        rintro rfl
        rcases hp with ⟨_, h⟩ | ⟨_, h⟩
        · cases h.symm.trans h1.1
        · exact h3 (show .kill ∈ mid ++ .startOk n g .self :: pre by rw [hH]; exact h)
      exact ⟨keep (by simp [phaseH, hne]) (by simp [openH, hne]), hm' (beq_false_of_ne hne) nofun⟩
    | startCall m g' d =>
      have hne : n ≠ m := by
        rintro rfl
        rcases hp with ⟨h, _⟩ | ⟨h, _⟩ <;> cases h.symm.trans h1.2
      exact ⟨keep (by simp [phaseH, hne]) rfl, hm' (beq_false_of_ne hne) nofun⟩
    | startOk m g' w =>
      have hne : n ≠ m := by
        rintro rfl
        rcases hp with ⟨h, _⟩ | ⟨h, _⟩ <;> cases h.symm.trans h1.2
      exact ⟨keep (by simp [phaseH, hne]) rfl, hm' rfl nofun⟩
    | startErr m g' w =>
      have hne : n ≠ m := by
        rintro rfl
        rcases hp with ⟨h, _⟩ | ⟨h, _⟩ <;> cases h.symm.trans h1.2
      exact ⟨keep (by simp [phaseH, hne]) rfl, hm' rfl nofun⟩
    | ended m g' now raw fl told lost =>
      by_cases hne : n = m
      · subst hne
        have hk : .kill ∈ H := by
          rcases hp with ⟨h, _⟩ | ⟨_, h⟩
          · have := h2.2.2.2; rw [h] at this; exact this.2
          · exact h
        exact ⟨.inr ⟨by simp [phaseH], .tail _ hk⟩, hm' rfl fun _ _ _ _ _ _ _ => .tail _ hk⟩
      · refine ⟨keep (by simp [phaseH, hne]) (by simp [openH, hne]), hm' rfl ?_⟩
        rintro _ _ _ _ _ _ h
        cases h; exact absurd rfl hne
    | _ => exact ⟨keep rfl rfl, hm' rfl nofun⟩

/-- C92: a Start func that returns the engine itself is not called again, and the attempt does not end before the engine
has been killed. -/
theorem C92_once (hr : FReach cfg f) {post pre : List Ev} {n : Name} {g : Nat} (hh : f.s.hist = post ++ .startOk n g .self :: pre) :
    (∀ g' b r sn, .begin n g' b r sn ∉ post) ∧ (∀ g' d, .startCall n g' d ∉ post) ∧
    ∀ g' now raw fl told lost, .ended n g' now raw fl told lost ∈ post → .kill ∈ f.s.hist := by
  obtain ⟨-, h⟩ := self_stays (hh ▸ C81_one_at_a_time hr) (hh ▸ C81_ends_properly hr) (hh ▸ C81_nothing_started hr)
  refine ⟨fun g' b r sn hm => ?_, fun g' d hm => ?_, fun g' now raw fl told lost hm => ?_⟩
  · have := (h _ hm).1; simp [calls] at this
  · have := (h _ hm).1; simp [calls] at this
  · rw [hh]; exact (h _ hm).2 _ _ _ _ _ _ rfl

/-- Manifold 1, which uses 0, is the engine; 0's worker fails. -/
def opsSelf : List FOp := [ .install 0 {} [0], .work, .work, .env (.gTimer 0 0), .env (.gStartOk 0 (.obj 10)), .started 0 5, .work, .work,
  .install 1 { inputs := [0] } [1, 0], .work, .work, .env (.gTimer 1 0), .env (.gStartOk 1 .self), .started 1 6, .work, .work ]

def opsSelfBounced : List FOp := opsSelf ++ [ .env (.finish 10 (some (.user 1))), .env (.gWaitRet 0), .stopped 0 100 Demo.vals01,
  .work, .work, .work, .work, .work ]

/-- The loop is at its select, the engine a worker and not killed. -/
example : (FDemo.after Demo.cfg opsSelf).todo.length = 0 ∧ workerH (FDemo.after Demo.cfg opsSelf).s.hist 1 = some .self ∧
    .kill ∉ (FDemo.after Demo.cfg opsSelf).s.hist := by decide +kernel

/-- The loop handles that it is dying, and 0's next attempt ends. -/
def opsSelfEnd : List FOp := opsSelfBounced ++ [ .dying [1, 0], .work, .work, .work, .work, .env (.gAbort 2), .stopped 2 101 Demo.vals01,
  .work, .work ]

/-- C92: a failure of an input that is not fatal, which for any other manifold would mean a restart, ends the engine, with the
result nil; nobody else has killed it. -/
theorem C92_bounced : ∃ (cfg : Config) (f : Fine) (post pre : List Ev), FReach cfg f ∧ f.s.hist = post ++ [.kill, .killW .self, .cancelled 1] ++ pre ∧
    .kill ∉ post ∧ .kill ∉ pre ∧ (∀ w r, .finished w r ∈ f.s.hist → cfg.isFatal r = false) ∧ .exit ∈ post ∧
    waitResult cfg f.s = some none := by
  refine ⟨Demo.cfg, FDemo.after Demo.cfg opsSelfEnd, (FDemo.after Demo.cfg opsSelfEnd).s.hist.take 3,
    (FDemo.after Demo.cfg opsSelfEnd).s.hist.drop 6, FDemo.after_reach _ _, by decide +kernel, by decide +kernel, by decide +kernel, ?_,
    by decide +kernel, by decide +kernel⟩
  intro w r hm
  have : ∀ e ∈ (FDemo.after Demo.cfg opsSelfEnd).s.hist, (match e with
    | .finished _ r => Demo.cfg.isFatal r
    | _ => false) = false := by decide +kernel
  exact this _ hm

end Verif.Props
