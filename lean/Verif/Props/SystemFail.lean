import Verif.Props.SystemGo

/-!
# C109: failures go up

A worker of a catacomb that ends with an error makes the catacomb end with an error; a worker of a runner does if its error is fatal. So a
failure goes up through any number of catacombs, runners and engines, and takes everything below them down.
-/

namespace Verif.Props
open Verif.System Verif.Spec Verif.Schedule

section
open Verif.Catacomb
variable {own : Nat}

/-- As C79: an error of a worker is reported, also if there are pauses between the steps. -/
theorem catacomb_pauses_reports {q : Catacomb.Pauses own} (hc : ∀ k, (q.st k).crashed = false) (hf : q.Fair ckind)
    {k g w : Nat} {src : Src} {e : Err} (ht : .tracked g w src ∈ Catacomb.pausesHist q k)
    (he : CSpec.finishedH (Catacomb.pausesHist q k) w = some (some e)) : ∃ j, .workerKill g e ∈ Catacomb.pausesHist q j := by
  obtain ⟨r, h1, h2, h3⟩ := q.unstutter (F := Catacomb.Filler own) (P := fun s => s.crashed = false) hf hc
    (fun _ _ _ h hs => by rw [hs.form]; exact h) (fun _ _ _ h => h.2) (fun _ h => Catacomb.Filler.exists h)
    (fun s a s' x _ h ⟨op, f, hk, hc⟩ => by
      have hc : Catacomb.step own s' op = some f := hc
      rw [h.form] at hc
      obtain ⟨c', hc'⟩ := Option.isSome_iff_exists.1 (emit_can (by rw [hc]; rfl))
      exact ⟨op, c', hk, hc'⟩)
  let R : Catacomb.Run own := ⟨r.st, r.op, r.start, r.next⟩
  have hfair : R.Fair := fun op hop hi => by
    refine (h1 op (hi.mono (fun k hs => ?_))).mono (fun k hk => (ckind_some.1 hk).2)
    obtain ⟨s', hs⟩ := Option.isSome_iff_exists.1 hs
    exact ⟨op, s', ckind_some.2 ⟨hop, rfl⟩, hs⟩
  have reach : ∀ k, Catacomb.Reach own (q.st k) := q.inv (P := Catacomb.Reach own) .init (fun _ _ _ h hs => .step _ h hs)
  obtain ⟨j, n, hj, hn⟩ := h2 k
  have hn : R.hist n = Catacomb.pausesHist q j := congrArg (fun s => s.hist) hn
  obtain ⟨es, hes⟩ := cpauses_grow q hj
  have hk : Spec.AtEvery (CSpec.EvOk own) (es ++ Catacomb.pausesHist q k) := by rw [← hes]; exact (reach j).events
  obtain ⟨m, hm⟩ := C79_error_reaches (r := R) hfair (n := n) (g := g) (w := w) (src := src) (e := e)
    (by rw [hn, hes]; exact List.mem_append_right _ ht) (by rw [hn, hes]; exact Cat.fin_post hk he)
  obtain ⟨b, hb⟩ := h3 m
  obtain ⟨m', hm', hfl⟩ := hb b (Nat.le_refl _)
  exact ⟨b, ((cfills_same hfl).2.1 _ (R.hist_mono hm' hm)).resolve_right nofun⟩

/-- An error of a worker has been reported when the catacomb is dead. -/
theorem dead_reported {s : State} (hr : Catacomb.Reach own s) (hd : .dead ∈ s.hist) {g w : Nat} {src : Src} {e : Err}
    (ht : .tracked g w src ∈ s.hist) (he : CSpec.finishedH s.hist w = some (some e)) : .workerKill g e ∈ s.hist := by
  have hk := hr.events
  obtain ⟨p1, p2, hh, _, _, _, h6⟩ := AtEvery.mem hk hd
  have ht' : .tracked g w src ∈ p2 := by
    rw [hh] at ht
    rcases List.mem_append.1 ht with hx | hx
    · obtain ⟨q1, q2, rfl⟩ := List.append_of_mem hx
      rw [hh, List.append_assoc] at hk
      have hy : CSpec.EvOk own (.tracked g w src) (q2 ++ .dead :: p2) := hk.split
      exact absurd (by simp) hy.2.2.1
    · exact (List.mem_cons.1 hx).resolve_left nofun
  obtain ⟨r, hr1, hr2⟩ := h6 g w src ht'
  have hk' : AtEvery (CSpec.EvOk own) ((p1 ++ [Ev.dead]) ++ p2) := by rw [hh] at hk; simpa using hk
  have := Cat.fin_post hk' hr1
  simp only [List.append_assoc, List.singleton_append] at this
  rw [hh, this] at he
  injection he with he
  rw [hh]
  exact List.mem_append_right _ (List.mem_cons_of_mem _ (hr2 e he))

/-- Errors of workers are reported before the catacomb is dead. -/
theorem reported_before {es h : List Ev} (hk : AtEvery (CSpec.EvOk own) (es ++ h)) (hd : .dead ∈ h) {g : Nat} {e : Err}
    (hm : .workerKill g e ∈ es ++ h) : .workerKill g e ∈ h := by
  rcases List.mem_append.1 hm with hx | hx
  · obtain ⟨q1, q2, rfl⟩ := List.append_of_mem hx
    rw [List.append_assoc] at hk
    have hy : CSpec.EvOk own (.workerKill g e) (q2 ++ h) := hk.split
    exact absurd (List.mem_append_right _ hd) hy.2.2
  · exact hx

theorem first_some {h : List Ev} {x : Ev} {k : Option Err} (hx : x ∈ h) (hk : CSpec.killOf x = some k) (he : CSpec.effective own k ≠ none) :
    CSpec.firstError own h ≠ none := by
  induction h with
  | nil => cases hx
  | cons y h ih =>
    unfold CSpec.firstError
    rcases List.mem_cons.1 hx with rfl | hx
    · split
      · exact nofun
      · rw [hk]; exact he
    · split
      · exact nofun
      · rename_i hn; exact absurd hn (ih hx)

theorem effective_plain {e : Err} (h : own ∉ CSpec.dyings e) : CSpec.effective own (some e) ≠ none := by
  simp only [CSpec.effective]
  split
  · exact nofun
  · cases hd : (CSpec.dyings e).head? with
    | none => exact nofun
    | some c =>
      simp only
      split
      · rename_i hco; subst hco
        exact absurd (List.mem_of_mem_head? hd) h
      · exact nofun

end

section
open Verif.Runner
variable {p : Params}

/-- What becomes of an attempt whose StartFunc has returned a worker. -/
theorem started_phase {h : List Ev} (hk : AtEvery (RSpec.EvOk p) h) {id g w : Nat} (hs : .startOk id g w ∈ h) :
    RSpec.phaseH h g = some (.running w) ∨ ∃ id' e post pre, h = post ++ .ended id' g e :: pre ∧ RSpec.phaseH pre g = some (.running w) := by
  induction h with
  | nil => cases hs
  | cons x h ih =>
    rcases List.mem_cons.1 hs with rfl | hs
    · exact .inl (by simp [RSpec.phaseH])
    rcases ih hk.2 hs with hp | ⟨id', e, post, pre, rfl, hp⟩
    · have hx := hk.1
      by_cases hsame : RSpec.phaseH (x :: h) g = RSpec.phaseH h g
      · exact .inl (hsame.trans hp)
      cases x with
      | begin id' g' d sf =>
        by_cases hg : g = g'
        · subst hg; rw [hx.2.2.2.2.1] at hp; cases hp
        · exact absurd (by simp [RSpec.phaseH, hg]) hsame
      | startCall id' g' sf =>
        by_cases hg : g = g'
        · subst hg; rw [hx.2.1] at hp; cases hp
        · exact absurd (by simp [RSpec.phaseH, hg]) hsame
      | startOk id' g' w' =>
        by_cases hg : g = g'
        · subst hg; rw [hx.2] at hp; cases hp
        · exact absurd (by simp [RSpec.phaseH, hg]) hsame
      | startErr id' g' e =>
        by_cases hg : g = g'
        · subst hg; rw [hx.2] at hp; cases hp
        · exact absurd (by simp [RSpec.phaseH, hg]) hsame
      | ended id' g' e =>
        by_cases hg : g = g'
        · subst hg; exact .inr ⟨id', e, [], h, rfl, hp⟩
        · exact absurd (by simp [RSpec.phaseH, hg]) hsame
      | _ => exact absurd rfl hsame
    · exact .inr ⟨id', e, x :: post, pre, rfl, hp⟩

theorem over_stays {es h : List Ev} (hk : AtEvery (RSpec.EvOk p) (es ++ h)) {g : Nat} (ho : RSpec.phaseH h g = some .over) :
    RSpec.phaseH (es ++ h) g = some .over := by
  induction es with
  | nil => exact ho
  | cons x es ih =>
    have hp := ih hk.2
    have hx : RSpec.EvOk p x (es ++ h) := hk.1
    show RSpec.phaseH (x :: (es ++ h)) g = some .over
    cases x with
    | begin id' g' d sf =>
      by_cases hg : g = g'
      · subst hg; rw [hx.2.2.2.2.1] at hp; cases hp
      · simpa [RSpec.phaseH, hg] using hp
    | startCall id' g' sf =>
      by_cases hg : g = g'
      · subst hg; rw [hx.2.1] at hp; cases hp
      · simpa [RSpec.phaseH, hg] using hp
    | startOk id' g' w' =>
      by_cases hg : g = g'
      · subst hg; rw [hx.2] at hp; cases hp
      · simpa [RSpec.phaseH, hg] using hp
    | startErr id' g' e =>
      by_cases hg : g = g'
      · subst hg; rw [hx.2] at hp; cases hp
      · simpa [RSpec.phaseH, hg] using hp
    | ended id' g' e =>
      by_cases hg : g = g'
      · simp [RSpec.phaseH, hg]
      · simpa [RSpec.phaseH, hg] using hp
    | _ => exact hp

/-- Attempts have ended before the loop returns. -/
theorem ended_before {s : State} (hr : Runner.Reach p s) {es h : List Ev} (hh : s.tab.hist = es ++ h) (hd : .exit ∈ h) {id g : Nat}
    {e : Option Err} (hm : .ended id g e ∈ es ++ h) : .ended id g e ∈ h := by
  rcases List.mem_append.1 hm with hx | hx
  · obtain ⟨b, pre, rfl⟩ := List.append_of_mem hd
    obtain ⟨a, c, rfl⟩ := List.append_of_mem hx
    have hq : s.tab.hist = (a ++ .ended id g e :: c ++ b) ++ .exit :: pre := by rw [hh]; simp
    have hnb := fun g d sf => (((C20_exit hr hq).2.2 id).2.1 g d sf)
    have hk := runner_evOk hr
    rw [show s.tab.hist = a ++ .ended id g e :: (c ++ b ++ .exit :: pre) by rw [hh]; simp] at hk
    have h1 : RSpec.EvOk p (.ended id g e) (c ++ b ++ .exit :: pre) := hk.split
    have hx : RSpec.EvOk p .exit pre := by
      have hk := runner_evOk hr
      rw [hq] at hk
      exact hk.split
    have := RSpec.closed_stays (mid := c ++ b) (pre := .exit :: pre) (id := id) (by simpa [RSpec.openH] using (hx.2 id).2) (fun g d sf hm =>
      hnb g d sf (by simp only [List.mem_append, List.mem_cons] at hm ⊢; tauto))
    rw [h1.2.1] at this; cases this
  · exact hx

/-- As C78: an attempt whose worker has finished ends, also if there are pauses between the steps. -/
theorem runner_pauses_ended {q : Runner.Pauses p} (hf : q.Fair rkind) {k id g w : Nat} {e : Option Err}
    (hs : .startOk id g w ∈ Runner.pausesHist q k) (he : RSpec.finishedH (Runner.pausesHist q k) w = some e) :
    ∃ j id', .ended id' g e ∈ Runner.pausesHist q j := by
  have reach : ∀ k, Runner.Reach p (q.st k) := q.inv (P := Runner.Reach p) .init (fun _ _ _ h hs => .step _ h hs)
  obtain ⟨r, h1, h2, h3⟩ := q.unstutter (F := Runner.Filler p) (P := Runner.Reach p) hf reach (fun _ _ _ h hs => .step _ h hs.1)
    (fun _ _ _ h => h.1) (fun _ h => Runner.Filler.exists h) (fun s a s' x _ h ⟨op, f, hk, hc⟩ => by
      have hi := (rkind_some.1 hk).1
      have hc : Runner.step p s' op = some f := hc
      obtain ⟨c', hc'⟩ := Option.isSome_iff_exists.1 (h.can hi (by rw [hc]; rfl))
      exact ⟨op, c', hk, hc'⟩)
  let R : Runner.Run p := ⟨r.st, r.op, r.start, r.next⟩
  have hfair : R.Fair := fun op hop hi => by
    refine (h1 op.kind (hi.mono (fun k ⟨op', s', hk, hs⟩ => ⟨op', s', rkind_some.2 ⟨?_, hk⟩, hs⟩))).mono (fun k hk => (rkind_some.1 hk).2)
    exact kind_internal hk hop
  have stays : ∀ {a b : Nat}, a ≤ b → RSpec.finishedH (Runner.pausesHist q a) w = some e → RSpec.finishedH (Runner.pausesHist q b) w = some e :=
    fun {a b} hab h => by
      obtain ⟨es, hes⟩ := rpauses_grow q hab
      have hk := runner_evOk (reach b)
      rw [show (q.st b).tab.hist = es ++ Runner.pausesHist q a from hes] at hk
      rw [hes]; exact RSpec.finished_stays hk h
  have mono : ∀ {a b : Nat}, a ≤ b → ∀ e, e ∈ Runner.pausesHist q a → e ∈ Runner.pausesHist q b := fun {a b} hab e he => by
    obtain ⟨es, h⟩ := rpauses_grow q hab
    rw [h]; exact List.mem_append_right _ he
  obtain ⟨j, n, hj, hn⟩ := h2 k
  have hn : R.hist n = Runner.pausesHist q j := congrArg (fun s => s.tab.hist) hn
  have hsn : ∀ m, n ≤ m → .startOk id g w ∈ R.hist m := fun m hm => R.hist_mono hm (by rw [hn]; exact mono hj _ hs)
  have hfin : ∀ m, n ≤ m → RSpec.finishedH (R.hist m) w = some e := fun m hm => by
    obtain ⟨es, hes⟩ := R.hist_grows hm
    have hk := runner_evOk (R.reach m)
    rw [show (R.st m).tab.hist = es ++ R.hist n from hes] at hk
    rw [hes]; exact RSpec.finished_stays hk (by rw [hn]; exact stays hj he)
  obtain ⟨m, id', hm⟩ : ∃ m id', .ended id' g e ∈ R.hist m := by
    by_contra hno
    have hno : ∀ m, n ≤ m → RSpec.phaseH (R.hist m) g = some (.running w) := fun m hm => by
      rcases started_phase (runner_evOk (R.reach m)) (hsn m hm) with h | ⟨id', e', post, pre, hh, hp⟩
      · exact h
      have hk := runner_evOk (R.reach m)
      rw [hh] at hk
      have hx : RSpec.EvOk p (.ended id' g e') pre := hk.split
      have he' : RSpec.finishedH pre w = some e' := by
        rcases hx.2.2 with ⟨h, _⟩ | ⟨_, h, _⟩ | ⟨w', h, h'⟩ <;> rw [hp] at h <;> cases h
        exact h'
      have h1 := hfin m hm
      rw [show R.hist m = (post ++ [.ended id' g e']) ++ pre by rw [show R.hist m = _ from hh]; simp,
        RSpec.finished_stays (mid := post ++ [Ev.ended id' g e']) (by simpa using hk) he'] at h1
      injection h1 with h1; subst h1
      exact absurd ⟨m, id', show _ ∈ (R.st m).tab.hist by rw [hh]; simp⟩ hno
    rcases C78_attempts_end (r := R) hfair (n := n) (g := g) (by rw [hno n (Nat.le_refl _)]; exact nofun) with ⟨m, h⟩ | ⟨m, h⟩ | ⟨w', m, h4, h5, _⟩
    · obtain ⟨es, hes⟩ := R.hist_grows (Nat.le_max_left m n)
      have hk := runner_evOk (R.reach (max m n))
      rw [show (R.st (max m n)).tab.hist = es ++ R.hist m from hes] at hk
      have := over_stays hk h
      rw [← hes, hno _ (Nat.le_max_right m n)] at this; cases this
    · have h := h (max m n) (Nat.le_max_left _ _)
      rw [hno (max m n) (Nat.le_max_right _ _)] at h; cases h
    · have h := h4 (max m n) (Nat.le_max_left _ _)
      rw [hno (max m n) (Nat.le_max_right _ _)] at h
      injection h with h; injection h with h; subst h
      have := h5 n
      rw [hfin n (Nat.le_refl _)] at this; cases this
  obtain ⟨b, hb⟩ := h3 m
  obtain ⟨m', hm', hfl⟩ := hb b (Nat.le_refl _)
  exact ⟨b, id', ((rfills_same hfl).2.2.1 _ (R.hist_mono hm' hm)).resolve_right nofun⟩

end

section
open Verif.Engine
variable {cfg : Config}

/-- What becomes of an attempt whose Start func has returned a worker. -/
theorem estarted_phase {h : List Ev} (hk : AtEvery OneAtATime h) {n : Name} {g : Nat} {w : WRef} (hs : .startOk n g w ∈ h) :
    (openH h n = some g ∧ phaseH h n = .ok w) ∨
      ∃ now raw f t l post pre, h = post ++ .ended n g now raw f t l :: pre ∧ phaseH pre n = .ok w := by
  induction h with
  | nil => cases hs
  | cons x h ih =>
    rcases List.mem_cons.1 hs with rfl | hs
    · exact .inl ⟨hk.1.1, by simp [phaseH]⟩
    rcases ih hk.2 hs with ⟨ho, hp⟩ | ⟨now, raw, f, t, l, post, pre, rfl, hp⟩
    · have hx := hk.1
      cases x with
      | begin m g' b r sn =>
        by_cases hg : n = m
        · subst hg; rw [hx.1] at ho; cases ho
        · exact .inl (by simpa [openH, phaseH, hg] using ⟨ho, hp⟩)
      | startCall m g' sf =>
        by_cases hg : n = m
        · subst hg; rw [hx.2] at hp; cases hp
        · exact .inl (by simpa [openH, phaseH, hg] using ⟨ho, hp⟩)
      | startOk m g' w' =>
        by_cases hg : n = m
        · subst hg; rw [hx.2] at hp; cases hp
        · exact .inl (by simpa [openH, phaseH, hg] using ⟨ho, hp⟩)
      | startErr m g' e =>
        by_cases hg : n = m
        · subst hg; rw [hx.2] at hp; cases hp
        · exact .inl (by simpa [openH, phaseH, hg] using ⟨ho, hp⟩)
      | ended m g' now raw f t l =>
        by_cases hg : n = m
        · subst hg
          have hx : openH h n = some g' := hx
          rw [hx] at ho; injection ho with ho; subst ho
          exact .inr ⟨now, raw, f, t, l, [], h, rfl, hp⟩
        · exact .inl (by simpa [openH, phaseH, hg] using ⟨ho, hp⟩)
      | _ => exact .inl ⟨ho, hp⟩
    · exact .inr ⟨now, raw, f, t, l, x :: post, pre, rfl, hp⟩

theorem fills_hist {a b : Fine} (h : Fills (Filler cfg) a b) : ∃ fs, b.s.hist = fs ++ a.s.hist ∧ ∀ e ∈ fs, ∃ w x, e = .finished w x := by
  induction h with
  | nil => exact ⟨[], rfl, fun _ h => by cases h⟩
  | snoc _ hf ih =>
    obtain ⟨w, e, _, rfl⟩ := hf.form
    obtain ⟨fs, h1, h2⟩ := ih
    refine ⟨.finished w e :: fs, by show _ :: _ = _; rw [h1]; rfl, fun x hx => ?_⟩
    rcases List.mem_cons.1 hx with rfl | hx
    · exact ⟨w, e, rfl⟩
    · exact h2 x hx

theorem split_before {fs h post pre : List Ev} {e : Ev} (hh : fs ++ h = post ++ e :: pre) (he : e ∉ fs) : ∃ post', h = post' ++ e :: pre := by
  rcases List.append_eq_append_iff.1 hh with ⟨c, _, h2⟩ | ⟨c, h1, h2⟩
  · exact ⟨c, h2⟩
  · cases c with
    | nil => exact ⟨[], h2.symm⟩
    | cons x c =>
      injection h2 with h2 _; subst h2
      exact absurd (by rw [h1]; simp) he

/-- Attempts have ended before the loop returns. -/
theorem eended_before {es h : List Ev} (hk : AtEvery CleanExit (es ++ h)) (hd : .exit ∈ h) {n : Name} {g : Nat} {now : Int} {raw f : Option Err}
    {t : Bool} {l : Option WRef} (hm : .ended n g now raw f t l ∈ es ++ h) : .ended n g now raw f t l ∈ h := by
  rcases List.mem_append.1 hm with hx | hx
  · obtain ⟨a, b, rfl⟩ := List.append_of_mem hx
    rw [List.append_assoc] at hk
    have : .exit ∉ b ++ h := hk.split
    exact absurd (List.mem_append_right _ hd) this
  · exact hx

theorem epauses_grow {q : Engine.Pauses cfg} {a b : Nat} (hab : a ≤ b) : ∃ es, Engine.pausesHist q b = es ++ Engine.pausesHist q a := by
  have reach : ∀ k, FReach cfg (q.st k) := q.inv (P := FReach cfg) .init (fun _ _ _ h hs => .step _ h hs)
  induction hab with
  | refl => exact ⟨[], rfl⟩
  | @step m _ ih =>
    obtain ⟨es, ih⟩ := ih
    rcases q.next m with ⟨a, _, hn⟩ | ⟨_, hn⟩
    · obtain ⟨l, hl⟩ := fstep_grows (freach_hinv (reach m)).1 hn
      exact ⟨l ++ es, by show (q.st (m + 1)).s.hist = _; rw [hl, List.append_assoc, ← ih]; rfl⟩
    · exact ⟨es, by show (q.st (m + 1)).s.hist = _; rw [hn, ← ih]; rfl⟩

/-- An attempt whose worker has ended ends, also if there are pauses between the steps. -/
theorem engine_pauses_ended {q : Engine.Pauses cfg} (hf : q.Fair ekind) {k g w : Nat} {n : Name} {e : Option Err}
    (hs : .startOk n g (.obj w) ∈ Engine.pausesHist q k) (he : .finished w e ∈ Engine.pausesHist q k) :
    ∃ j now raw f t l post pre, Engine.pausesHist q j = post ++ .ended n g now raw f t l :: pre ∧ phaseH pre n = .ok (.obj w) := by
  have reach : ∀ k, FReach cfg (q.st k) := q.inv (P := FReach cfg) .init (fun _ _ _ h hs => .step _ h hs)
  obtain ⟨r, h1, h2, h3⟩ := q.unstutter (F := Filler cfg) (P := FReach cfg) hf reach (fun _ _ _ h hs => .step _ h hs.1) (fun _ _ _ h => h.1)
    (fun _ h => Filler.exists h) (fun _ _ _ x _ h ⟨op, f, hk, hc⟩ => by
      obtain ⟨op', f', hk', hc'⟩ := h.can (x := x) ⟨op, f, (ekind_some.1 hk).1, hc⟩
      exact ⟨op', f', ekind_of hk' (ekind_some.1 hk).2, hc'⟩)
  let R : FineRun cfg := ⟨r.st, r.op, r.start, r.next⟩
  have hfair : R.Fair := fun x hx hi => by
    refine (h1 x (hi.mono (fun k ⟨op, f', hk, hs⟩ => ⟨op, f', ekind_of hk hx, hs⟩))).mono (fun k hk => (ekind_some.1 hk).1)
  have mono : ∀ {a b : Nat}, a ≤ b → ∀ e, e ∈ Engine.pausesHist q a → e ∈ Engine.pausesHist q b := fun {a b} hab e he => by
    obtain ⟨es, h⟩ := epauses_grow (q := q) hab
    rw [h]; exact List.mem_append_right _ he
  obtain ⟨j, m, hj, hm⟩ := h2 k
  have hm : R.hist m = Engine.pausesHist q j := congrArg (fun s : Fine => s.s.hist) hm
  by_contra hno
  have hphase : ∀ i, m ≤ i → openH (R.hist i) n = some g ∧ phaseH (R.hist i) n = .ok (.obj w) := fun i hi => by
    rcases estarted_phase (C81_one_at_a_time (R.reach i)) (R.hist_mono hi (by rw [hm]; exact mono hj _ hs)) with
      h | ⟨now, raw, f, t, l, post, pre, hh, hp⟩
    · exact h
    · obtain ⟨b, hb⟩ := h3 i
      obtain ⟨i', hi', hfl⟩ := hb b (Nat.le_refl _)
      obtain ⟨fs, h4, h5⟩ := fills_hist hfl
      obtain ⟨es, h6⟩ := R.hist_append hi'
      have h6 : (r.st i').s.hist = es ++ (R.st i).s.hist := h6
      rw [hh, h4, ← List.append_assoc] at h6
      obtain ⟨post', h7⟩ := split_before h6 (fun h => by obtain ⟨_, _, h⟩ := h5 _ h; cases h)
      exact absurd ⟨b, now, raw, f, t, l, post', pre, h7, hp⟩ hno
  rcases FineRun.stuck hfair (fun i hi => (hphase i hi).1) with h | ⟨i, hi, h⟩
  · cases h with
    | start i h =>
      have := h (max i m) (Nat.le_max_left _ _)
      rw [(hphase _ (Nat.le_max_right i m)).2] at this; cases this
    | worker i w' h h' =>
      have := (h (max i m) (Nat.le_max_left _ _)).1
      rw [(hphase _ (Nat.le_max_right i m)).2] at this; cases this
      exact h' m e (by rw [hm]; exact mono hj _ he)
    | self i h =>
      have := (h (max i m) (Nat.le_max_left _ _)).1
      rw [(hphase _ (Nat.le_max_right i m)).2] at this; cases this
    | gone i h =>
      have := h (max i m) (Nat.le_max_left _ _)
      rw [(hphase _ (Nat.le_max_right i m)).2] at this; cases this
  · obtain ⟨_, x, hx, hpc⟩ := h i (Nat.le_refl _)
    obtain ⟨hx, hgid⟩ := getG_some _ _ hx
    obtain ⟨c, hi'⟩ := freach_hinv (R.reach i)
    obtain ⟨y, hy, h4, h5⟩ := hi'.openN n g (hphase i hi).1
    have hxy : y = x := by
      have e1 := c.getG_eq hy
      have e2 := c.getG_eq hx
      rw [h5] at e1; rw [hgid] at e2
      rw [e1] at e2; injection e2
    subst hxy
    have := hi'.pc y hy
    rw [PcOk, hpc, h4] at this
    have : phaseH (R.hist i) n = .delayed := this
    rw [(hphase i hi).2] at this; cases this

/-- The worst error is one, if there has been a fatal one. -/
theorem worst_some (hw : ∀ e acc, cfg.isFatal e = true → cfg.worstError e acc ≠ none) {h : List Ev} {n : Name} {g : Nat} {now : Int}
    {raw f : Option Err} {t : Bool} {l : Option WRef} (hm : .ended n g now raw f t l ∈ h) (hf : cfg.isFatal f = true) :
    worstH cfg.isFatal cfg.worstError h ≠ none := by
  induction h with
  | nil => cases hm
  | cons x h ih =>
    rcases List.mem_cons.1 hm with rfl | hm'
    · simp only [worstH, hf, if_true]; exact hw _ _ hf
    clear hm
    cases x with
    | ended =>
      unfold worstH
      simp only
      split
      · exact hw _ _ (by assumption)
      · exact ih hm'
    | _ => exact ih hm'

end

variable {I : Type} [DecidableEq I] {W : Wiring I} {S : I → Comp} {G : Err → Prop}

/-- What Wait has returned is what Wait of that worker would have returned then. -/
theorem saw_then (r : SysRun W) {i : I} {k w : Nat} {e : Option Err} (h : SawW (r.st k i) w e) : ∃ j, (r.st j (W.child i w)).result = some e := by
  induction k with
  | zero =>
    rw [r.start] at h
    refine absurd h ?_
    simp only [Wiring.new]
    cases W.kind i <;> exact nofun
  | succ k ih =>
    by_cases hold : SawW (r.st k i) w e
    · exact ih hold
    rcases r.next k with ⟨j, op, _, hs⟩ | ⟨_, h'⟩
    · obtain ⟨c, hc, hS, hf⟩ := wstep_inv hs
      rw [hS] at h
      by_cases hij : i = j
      · subst hij
        rw [after_self, saw_iff, (reach_of (r.reach k) i).ends hc] at h
        exact ⟨k, hf w _ ((List.mem_append.1 h).resolve_right (fun h => hold (saw_iff.2 h)))⟩
      · refine absurd ?_ hold
        unfold Wiring.after at h
        rw [if_neg hij] at h
        split at h
        · exact kill_saw (reach_of (r.reach k) i) (r.up k i) h
        · exact h
    · rw [h'] at h; exact absurd h hold

/-- A worker ends with an error: its Wait method returns, and never nil. -/
def Fails (r : SysRun W) (i : I) : Prop := (∃ k, EndedW (r.st k i)) ∧ ∀ k, (r.st k i).result ≠ some none

/-- The component heeds the failures of this worker, of which these are the errors: a catacomb that watches it, or a runner that has started
it and takes the errors for fatal; or an engine that has started it and takes them for fatal, filtered or not, if its WorstError and its filter do
not make nil of an error. -/
def Heeds (F : Err → Prop) : Comp → Nat → Prop
  | .catacomb _ s, w => ∃ g src, .tracked g w src ∈ s.hist
  | .runner p s, w => (∃ id g, .startOk id g w ∈ s.tab.hist) ∧ ∀ e, F e → p.isFatal e = true
  | .engine cfg f, w => (∃ n g, .startOk n g (.obj w) ∈ f.s.hist) ∧
      (∀ e, F e → cfg.isFatal (some e) = true ∧ ∀ φ, cfg.isFatal (cfg.filterFn φ (some e)) = true) ∧
      (∀ e acc, cfg.isFatal e = true → cfg.worstError e acc ≠ none) ∧ ∀ e, e ≠ none → cfg.filter.getD id e ≠ none
  | .leaf _ _, _ => False

/-- The errors that this worker ends with. -/
def FailsWith (r : SysRun W) (i : I) (e : Err) : Prop := ∃ k, (r.st k i).result = some (some e)

theorem _root_.Verif.Props.SysRun.result_stays (r : SysRun W) {a b : Nat} (hab : a ≤ b) {i : I} (hi : ∀ own, W.kind i ≠ .catacomb own)
    {x : Option Err} (ha : (r.st a i).result = some x) : (r.st b i).result = some x := by
  have : System.Settled (r.st b i) x := by
    induction hab with
    | refl => exact .inl ha
    | @step m _ ih => exact (reach_of (r.reach m) i).settled (r.moves m i) ih
  rcases this with h | ⟨_, _, own, s, h⟩
  · exact h
  · have ho := reach_of (r.reach b) i
    rw [h] at ho
    generalize hk : W.kind i = κ at ho
    cases ho
    exact absurd hk (hi _)

/-- C109: a worker other than a catacomb whose Wait method has returned an error has failed. A catacomb's Wait may return an error after it has
returned nil. -/
theorem C109_error (r : SysRun W) {i : I} {k : Nat} {e : Err} (hi : ∀ own, W.kind i ≠ .catacomb own) (he : (r.st k i).result = some (some e)) :
    Fails r i := by
  refine ⟨⟨k, by unfold EndedW; rw [he]; rfl⟩, fun n hn => ?_⟩
  have h1 := r.result_stays (Nat.le_max_left k n) hi he
  rw [r.result_stays (Nat.le_max_right k n) hi hn] at h1
  cases h1

/-- C109: a catacomb fails if one of its workers does; so does a runner or an engine, if the error is fatal. -/
theorem C109_fails {r : SysRun W} (hf : r.Fair) (hw : r.WaitsAll) (hu : r.Users)
    (wf : WellFounded (fun c i => ∃ k w, w ∈ (r.st k i).kills ∧ W.child i w = c))
    (hc : Closed W G) (hG : ∀ e, G e → Plain W e) (hg : ∀ k i e, Given (r.st k i) e → G e)
    {i : I} {k w : Nat} (ht : Heeds (FailsWith r (W.child i w)) (r.st k i) w) (hx : Fails r (W.child i w)) : Fails r i := by
  cases hi : W.kind i with
  | catacomb own =>
    obtain ⟨q, h1, h2⟩ := catacomb_part r hf hi
    have reach : ∀ k, Catacomb.Reach own (q.st k) := q.inv (P := Catacomb.Reach own) .init (fun _ _ _ h hs => .step _ h hs)
    rw [h2] at ht
    obtain ⟨g, src, ht⟩ := ht
    have hh : Handed (r.st k i) w := by
      rw [h2]
      obtain ⟨post', pre', hh'⟩ := List.append_of_mem ht
      have hy := (reach k).events
      rw [hh'] at hy
      have hy : CSpec.EvOk own (.tracked g w src) pre' := hy.split
      have sub : ∀ x, x ∈ pre' → x ∈ (q.st k).hist := fun x hx => by rw [hh']; exact List.mem_append_right _ (List.mem_cons_of_mem _ hx)
      cases src with
      | init i j =>
        obtain ⟨_, _, _, _, _, p, h1, h2⟩ := hy
        exact .inr ⟨i, p, sub _ h1, List.mem_of_getElem? h2⟩
      | add c => exact .inl ⟨c, sub _ hy.2.2.2.1⟩
    obtain ⟨n, hn⟩ := hx.1
    have hh' : Handed (r.st (max k n) i) w := by
      have : ∀ {b}, k ≤ b → Handed (r.st b i) w := fun {b} hb => by
        induction hb with
        | refl => exact hh
        | @step m _ ih => exact handed_moves (reach_of (r.reach m) i) (r.moves m i) ih
      exact this (Nat.le_max_left k n)
    obtain ⟨j, e, hj⟩ := hw i w _ hh' (r.ended_stays (Nat.le_max_right k n) hn)
    rw [h2] at hj
    have mono : ∀ {a b : Nat}, a ≤ b → ∀ e, e ∈ (q.st a).hist → e ∈ (q.st b).hist := fun {a b} hab e he => by
      obtain ⟨es, h⟩ := cpauses_grow q hab
      have h : (q.st b).hist = es ++ (q.st a).hist := h
      rw [h]; exact List.mem_append_right _ he
    -- from some moment on the worker has been seen to fail
    have seen : ∀ b, j ≤ b → ∃ x, CSpec.finishedH (q.st b).hist w = some (some x) ∧ own ∉ CSpec.dyings x := fun b hb => by
      obtain ⟨e', he'⟩ := Option.isSome_iff_exists.1 (cfin_of_mem (mono hb _ hj))
      have hs : SawW (r.st b i) w e' := by rw [h2]; exact Catacomb.finished_mem he'
      cases e' with
      | none =>
        obtain ⟨m, hm⟩ := saw_then r hs
        exact absurd hm (hx.2 m)
      | some x => exact ⟨x, he', (hG x (saw_in (r.reach b) hc (hg b) hs)).2.2 i own hi⟩
    refine ⟨?_, fun n hn => ?_⟩
    · obtain ⟨x, hx1, _⟩ := seen (max k j) (Nat.le_max_right k j)
      obtain ⟨m, hm⟩ := catacomb_pauses_reports (q := q) (fun k => by
        have := r.up k i
        rw [h2] at this; exact this) h1 (k := max k j) (mono (Nat.le_max_left k j) _ ht) hx1
      exact C106_stops hf hw.killed hu wf i (k := m) (by rw [h2]; exact ⟨_, hm, rfl⟩)
    · rw [h2] at hn
      have hd : .dead ∈ (q.st n).hist := Classical.byContradiction (fun hx => by
        have := (C67_wait (reach n)).1 hx
        rw [Comp.result, this] at hn; cases hn)
      obtain ⟨x, hx1, hx2⟩ := seen (max n (max k j)) (by omega)
      have hrep := dead_reported (reach (max n (max k j))) (mono (Nat.le_max_left _ _) _ hd) (mono (b := max n (max k j)) (by omega) _ ht) hx1
      obtain ⟨es, hes⟩ := cpauses_grow q (Nat.le_max_left n (max k j))
      have hes : (q.st (max n (max k j))).hist = es ++ (q.st n).hist := hes
      have hev := (reach (max n (max k j))).events
      rw [hes] at hrep hev
      have hne := first_some (own := own) (reported_before hev hd hrep) rfl (effective_plain hx2)
      have hdy := ((C67_wait (reach n)).2 hd)
      rw [Comp.result, hdy.1, (C67_err (reach n)).2 hdy.2] at hn
      injection hn with hn
      exact hne hn
  | runner p =>
    obtain ⟨q, h1, h2⟩ := runner_part r hf hi
    have reach : ∀ k, Runner.Reach p (q.st k) := q.inv (P := Runner.Reach p) .init (fun _ _ _ h hs => .step _ h hs)
    rw [h2] at ht
    obtain ⟨⟨id, g, ht⟩, hfat⟩ := ht
    have mono : ∀ {a b : Nat}, a ≤ b → ∀ e, e ∈ (q.st a).tab.hist → e ∈ (q.st b).tab.hist := fun {a b} hab e he => by
      obtain ⟨es, h⟩ := rpauses_grow q hab
      have h : (q.st b).tab.hist = es ++ (q.st a).tab.hist := h
      rw [h]; exact List.mem_append_right _ he
    obtain ⟨n, hn⟩ := hx.1
    obtain ⟨j, e, hj⟩ := hw i w (max k n) (by rw [h2]; exact ⟨id, g, mono (Nat.le_max_left k n) _ ht⟩) (r.ended_stays (Nat.le_max_right k n) hn)
    rw [h2] at hj
    obtain ⟨e', he'⟩ := Option.isSome_iff_exists.1 (rfin_of_mem (mono (Nat.le_max_right k j) _ hj))
    have hs : SawW (r.st (max k j) i) w e' := by rw [h2]; exact rfin_mem he'
    obtain ⟨x, rfl⟩ : ∃ x, e' = some x := by
      cases e' with
      | none =>
        obtain ⟨m, hm⟩ := saw_then r hs
        exact absurd hm (hx.2 m)
      | some x => exact ⟨x, rfl⟩
    have hGx := hfat x (saw_then r hs)
    obtain ⟨m, id', hm⟩ := runner_pauses_ended (q := q) h1 (k := max k j) (mono (Nat.le_max_left k j) _ ht) he'
    have hm : .ended id' g (some x) ∈ (q.st m).tab.hist := hm
    refine ⟨?_, fun n hn => ?_⟩
    · refine C106_stops hf hw.killed hu wf i (k := m) ?_
      rw [h2]
      refine .inr ?_
      obtain ⟨post, pre, hh⟩ := List.append_of_mem hm
      rcases C19_fatal_shuts_down (reach m) hh hGx with h | ⟨l, rid, h⟩
      · show Runner.Ev.shutdown ∈ _
        rw [hh]; exact List.mem_append_right _ (List.mem_cons_of_mem _ h)
      · show Runner.Ev.shutdown ∈ _
        rw [hh, h]; simp
    · rw [h2] at hn
      have hd := wait_exit (reach n) hn
      obtain ⟨es, hes⟩ := rpauses_grow q (Nat.le_max_left n m)
      have hes : (q.st (max n m)).tab.hist = es ++ (q.st n).tab.hist := hes
      have hend := ended_before (reach (max n m)) hes hd (by rw [← hes]; exact mono (Nat.le_max_right n m) _ hm)
      have hres := C16_wait (reach n) hn
      cases hfr : fatalResult p (q.st n).tab.hist with
      | none =>
        have := (C16_nil_iff _).1 hfr _ _ _ hend
        rw [hGx] at this; cases this
      | some y =>
        obtain ⟨_, id2, g2, hy⟩ := C16_is_fatal _ hfr
        have hGy : G y := runner_ended (reach n) (fun e he => hg n i e (by rw [h2]; exact he))
          (fun w e he => saw_in (r.reach n) hc (hg n) (i := i) (by rw [h2]; exact he)) hy
        rw [hfr, if_neg (fun h => (hG y hGy).2.1 (by injection h))] at hres
        cases hres
  | engine cfg =>
    obtain ⟨q, h1, h2⟩ := engine_part r hf hi
    have reach : ∀ k, Engine.FReach cfg (q.st k) := q.inv (P := Engine.FReach cfg) .init (fun _ _ _ h hs => .step _ h hs)
    rw [h2] at ht
    obtain ⟨⟨n, g, ht⟩, hfat, hworst, hfilter⟩ := ht
    have mono : ∀ {a b : Nat}, a ≤ b → ∀ e, e ∈ (q.st a).s.hist → e ∈ (q.st b).s.hist := fun {a b} hab e he => by
      obtain ⟨es, h⟩ := epauses_grow (q := q) hab
      have h : (q.st b).s.hist = es ++ (q.st a).s.hist := h
      rw [h]; exact List.mem_append_right _ he
    obtain ⟨k', hk'⟩ := hx.1
    obtain ⟨j, e, hj⟩ := hw i w (max k k') (by rw [h2]; exact ⟨n, g, mono (Nat.le_max_left k k') _ ht⟩) (r.ended_stays (Nat.le_max_right k k') hk')
    rw [h2] at hj
    obtain ⟨m, now, raw, f, t, l, post, pre, hh, hph⟩ := engine_pauses_ended (q := q) h1 (k := max k j) (mono (Nat.le_max_left k j) _ ht)
      (mono (Nat.le_max_right k j) _ hj)
    have hh : (q.st m).s.hist = post ++ .ended n g now raw f t l :: pre := hh
    have hm : .ended n g now raw f t l ∈ (q.st m).s.hist := by rw [hh]; simp
    -- what the attempt ended with
    have hff : cfg.isFatal f = true := by
      have hp := C81_ends_properly (reach m)
      rw [hh] at hp
      obtain ⟨⟨mf, _, hfl⟩, _, _, hp⟩ := hp.split
      rw [hph] at hp
      have hsaw : SawW (r.st m i) w raw := by
        rw [h2]
        show Engine.Ev.finished w raw ∈ _
        rw [hh]; exact List.mem_append_right _ (List.mem_cons_of_mem _ hp)
      obtain ⟨x, rfl⟩ : ∃ x, raw = some x := by
        cases raw with
        | none =>
          obtain ⟨m', hm'⟩ := saw_then r hsaw
          exact absurd hm' (hx.2 m')
        | some x => exact ⟨x, rfl⟩
      obtain ⟨g1, g2⟩ := hfat x (saw_then r hsaw)
      split at hfl <;> rw [hfl]
      · exact g2 _
      · exact g1
    refine ⟨?_, fun n' hn => ?_⟩
    · refine C106_stops hf hw.killed hu wf i (k := m) ?_
      rw [h2]
      exact C81_fatal_kills (reach m) hm hff
    · rw [h2] at hn
      have hn : Engine.waitResult cfg (q.st n').s = some none := hn
      rw [C81_wait_result (reach n')] at hn
      split at hn
      · rename_i hd
        obtain ⟨es, hes⟩ := epauses_grow (q := q) (Nat.le_max_left n' m)
        have hes : (q.st (max n' m)).s.hist = es ++ (q.st n').s.hist := hes
        have hcl := C81_clean_exit (reach (max n' m))
        rw [hes] at hcl
        have hend := eended_before hcl hd (by rw [← hes]; exact mono (Nat.le_max_right n' m) _ hm)
        injection hn with hn
        exact hfilter _ (worst_some hworst hend hff) hn
      · cases hn
  | leaf =>
    have ho := reach_of (r.reach k) i
    rw [hi] at ho
    generalize r.st k i = c at ho ht
    cases ho; exact False.elim ht

/-- C109: a failure goes up through any number of catacombs, runners and engines, and takes down everything below them. -/
theorem C109_goes_up {r : SysRun W} (hf : r.Fair) (hw : r.WaitsAll) (hu : r.Users)
    (wf : WellFounded (fun c i => ∃ k w, w ∈ (r.st k i).kills ∧ W.child i w = c))
    (hc : Closed W G) (hG : ∀ e, G e → Plain W e) (hg : ∀ k i e, Given (r.st k i) e → G e)
    {i j : I} (hb : Relation.ReflTransGen (fun j i => ∃ k w, Heeds (FailsWith r (W.child i w)) (r.st k i) w ∧ W.child i w = j) j i) (hx : Fails r j) :
    Fails r i ∧ ∃ n, ∀ m, n ≤ m → ∀ x, BelowW W (r.st m) x i → EndedW (r.st m x) := by
  have hi : Fails r i := by
    induction hb with
    | refl => exact hx
    | tail _ h ih => obtain ⟨k, w, hk, rfl⟩ := h; exact C109_fails hf hw hu wf hc hG hg hk ih
  obtain ⟨n, hn⟩ := hi.1
  exact ⟨hi, n, fun m hm x hb => C105_no_orphans (r.reach m) (r.ended_stays hm hn) hb⟩

namespace SDemo

/-- The program of the examples when the worker of its catacomb and that of its runner have just failed. -/
def hurt : List Comp := (runUp SDemo.W (kinds.map Kind.new) (opsUp ++ [(4, .leafEnd (some (.user 99))), (3, .leafEnd (some (.user 99)))])).getD (kinds.map Kind.new)

theorem hurt_reach : System.Reach SDemo.W (fn hurt) := by
  have h : (runUp SDemo.W (kinds.map Kind.new) (opsUp ++ [(4, .leafEnd (some (.user 99))), (3, .leafEnd (some (.user 99)))])).isSome = true := by decide +kernel
  obtain ⟨L, hL⟩ := Option.isSome_iff_exists.1 h
  have h0 : System.Reach SDemo.W (fn (kinds.map Kind.new)) := by
    have : fn (kinds.map Kind.new) = SDemo.W.new := after_zero
    rw [this]; exact .init
  have := runUp_reach _ h0 hL
  unfold hurt
  rw [hL]; exact this

theorem hurt_going : Going SDemo.W known (fn hurt) := by
  refine ⟨hurt_reach, fun i e h => ?_, fun i own s h => .inr ?_⟩
  · have key : hurt.all (fun c => (givens c).all (fun e => e == .user 99 || e == .missing)) = true := by decide +kernel
    simpa [known] using List.all_eq_true.1 (fn_all key rfl i) e (given_mem h)
  · have key : hurt.all (fun c => match c with
      | .catacomb _ s => s.hist.contains .workCall && !s.hist.contains (.workRet .goexit)
      | _ => true) = true := by decide +kernel
    have := fn_all key rfl i
    rw [h] at this
    simpa using this

theorem hurt_wf : WellFounded (fun c i => ∃ w, Handed (fn hurt i) w ∧ SDemo.W.child i w = c) := by
  refine Subrelation.wf (r := fun a b : Nat => 5 - a < 5 - b) ?_ (measure (fun i => 5 - i)).wf
  rintro c i ⟨w, hw, rfl⟩
  have key : ∀ i, i < 5 → ((handeds (fn hurt i)).all (fun w => decide (5 - SDemo.W.child i w < 5 - i))) = true := by decide +kernel
  have h := handed_mem hw
  by_cases hi : i < 5
  · exact of_decide_eq_true (List.all_eq_true.1 (key i hi) w h)
  · rw [fn_more (by have : hurt.length = 5 := by decide +kernel
                    omega)] at h
    cases h

theorem hurt_heeds (F : Err → Prop) : Heeds F (fn hurt 2) 1 := by
  have key : (match fn hurt 2 with
    | .catacomb _ s => s.hist.any (fun e => match e with | .tracked _ w _ => w == 1 | _ => false)
    | _ => false) = true := by decide +kernel
  generalize fn hurt 2 = c at key
  cases c with
  | catacomb own s =>
    obtain ⟨e, he, h⟩ := List.any_eq_true.1 key
    cases e with
    | tracked g w src => cases beq_iff_eq.1 h; exact ⟨g, src, he⟩
    | _ => cases h
  | _ => cases key

theorem hurt_runner {F : Err → Prop} (hF : ∀ e, F e → e = .user 99) : Heeds F (fn hurt 1) 10 := by
  have key : (match fn hurt 1 with
    | .runner p s => p.isFatal (.user 99) && s.tab.hist.any (fun e => match e with | .startOk _ _ w => w == 10 | _ => false)
    | _ => false) = true := by decide +kernel
  generalize fn hurt 1 = c at key
  cases c with
  | runner p s =>
    obtain ⟨h1, h2⟩ := Bool.and_eq_true_iff.1 key
    refine ⟨?_, fun e he => by rw [hF e he]; exact h1⟩
    obtain ⟨e, he, h⟩ := List.any_eq_true.1 h2
    cases e with
    | startOk id g w => cases beq_iff_eq.1 h; exact ⟨id, g, he⟩
    | _ => cases h
  | _ => cases key

theorem hurt_engine {F : Err → Prop} (hF : ∀ e, F e → e = .user 99) : Heeds F (fn hurt 0) 10 := by
  have key : (match fn hurt 0 with
    | .engine _ s => s.s.hist.any (fun e => match e with | .startOk _ _ (.obj w) => w == 10 | _ => false)
    | _ => false) = true := by decide +kernel
  have ho := reach_of hurt_reach 0
  generalize fn hurt 0 = c at key ho
  have hk : SDemo.W.kind 0 = .engine Demo.cfg := rfl
  rw [hk] at ho
  cases ho with
  | engine hr =>
    obtain ⟨e, he, h⟩ := List.any_eq_true.1 key
    refine ⟨?_, fun e he => by rw [hF e he]; exact ⟨by decide, fun _ => rfl⟩, fun e acc h => ?_, fun e h => h⟩
    · cases e with
      | startOk id g w =>
        cases w with
        | obj w => cases beq_iff_eq.1 h; exact ⟨id, g, he⟩
        | self => cases h
      | _ => cases h
    · have h : e = some (.user 99) := by simpa [Demo.cfg] using h
      subst h
      cases acc <;> exact nofun

end SDemo

theorem leaf_fails_with (r : SysRun W) {i : I} {n : Nat} {e : Err} (hi : ∀ own, W.kind i ≠ .catacomb own) (h : (r.st n i).result = some (some e))
    {x : Err} (hx : FailsWith r i x) : x = e := by
  obtain ⟨k, hk⟩ := hx
  have h1 := r.result_stays (Nat.le_max_left k n) hi hk
  rw [r.result_stays (Nat.le_max_right k n) hi h] at h1
  cases h1; rfl

/-- The runner of the examples ends with a fatal error, if at all. -/
theorem runner_fails_with (r : SysRun SDemo.W) (hg : ∀ k i e, Given (r.st k i) e → SDemo.known e) {x : Err} (hx : FailsWith r 1 x) : x = .user 99 := by
  obtain ⟨k, hk⟩ := hx
  have hr := r.reach k
  have ho := reach_of hr 1
  have hkn : SDemo.known x := C107_origin hr SDemo.known_closed (hg k) hk
  have hkind : SDemo.W.kind 1 = .runner RDemo.prm := rfl
  rw [hkind] at ho
  generalize r.st k 1 = c at ho hk
  cases ho with
  | runner hr =>
    have hw := C16_wait hr hk
    split at hw
    · cases hw
    · have := (C16_is_fatal _ hw.symm).1
      rcases hkn with rfl | rfl
      · rfl
      · revert this; decide

/-- The workers of the catacomb and of the runner fail; this is an execution in which their failures are bound to go up, that of the runner to
the engine. -/
example : ∃ (r : SysRun SDemo.W) (n : Nat), r.Fair ∧ r.WaitsAll ∧ r.Users ∧ (r.st n 1).result = none ∧ (r.st n 2).result = none ∧
    Heeds (FailsWith r (SDemo.W.child 2 1)) (r.st n 2) 1 ∧ Heeds (FailsWith r (SDemo.W.child 1 10)) (r.st n 1) 10 ∧
    (r.st n (SDemo.W.child 2 1)).result = some (some (.user 99)) ∧ Fails r 4 ∧ Fails r 2 ∧ Fails r 1 ∧ Fails r 0 := by
  obtain ⟨r, n, hn, h1, h2, h3, h4, h5⟩ := C108_goes_on SDemo.known_closed SDemo.known_plain (e0 := .user 99) (.inl rfl) SDemo.hurt_going
  have hres : (r.st n (SDemo.W.child 2 1)).result = some (some (.user 99)) := by rw [hn]; decide +kernel
  have hres' : (r.st n (SDemo.W.child 1 10)).result = some (some (.user 99)) := by rw [hn]; decide +kernel
  have hfail : Fails r (SDemo.W.child 2 1) := C109_error r nofun hres
  have hfail' : Fails r (SDemo.W.child 1 10) := C109_error r nofun hres'
  have hwat : Heeds (FailsWith r (SDemo.W.child 2 1)) (r.st n 2) 1 := by rw [hn]; exact SDemo.hurt_heeds _
  have hwat' : Heeds (FailsWith r (SDemo.W.child 1 10)) (r.st n 1) 10 := by
    rw [hn]; exact SDemo.hurt_runner (fun e he => leaf_fails_with r (by intro own h; cases h) hres' he)
  have wf := Subrelation.wf (fun {c i} (⟨k, w, hk, hw⟩ : ∃ k w, w ∈ (r.st k i).kills ∧ SDemo.W.child i w = c) => ⟨w, h5 k i w hk, hw⟩) SDemo.hurt_wf
  have hwat0 : Heeds (FailsWith r (SDemo.W.child 0 10)) (r.st n 0) 10 := by
    rw [hn]; exact SDemo.hurt_engine (fun e he => runner_fails_with r h4 he)
  exact ⟨r, n, h1, h2, h3, by rw [hn]; decide +kernel, by rw [hn]; decide +kernel, hwat, hwat', hres, hfail,
    C109_fails h1 h2 h3 wf SDemo.known_closed SDemo.known_plain h4 hwat hfail,
    C109_fails h1 h2 h3 wf SDemo.known_closed SDemo.known_plain h4 hwat' hfail',
    (C109_goes_up h1 h2 h3 wf SDemo.known_closed SDemo.known_plain h4
      (.tail (.single ⟨n, 10, hwat', rfl⟩) ⟨n, 10, hwat0, rfl⟩) hfail').1⟩

end Verif.Props
