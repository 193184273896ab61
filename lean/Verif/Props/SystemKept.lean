import Verif.Props.SystemFail

/-!
# C110: runners keep their workers running

C109 is about the failures that go up. After the others a runner starts the worker again. So, unless it is told to stop or ends with something
after which it is not to be run again, a worker is run again and again, or runs from some moment on.
-/

namespace Verif.Props
open Verif.System Verif.Spec Verif.Schedule

/-- The number of attempts to run a worker with this id. -/
def attemptsOf (id : Name) (h : List Runner.Ev) : Nat := (h.filter (fun e => match e with | .begin m _ _ _ => m == id | _ => false)).length

section
open Verif.Runner
variable {p : Params}

theorem known_open {s : State} (hr : Runner.Reach p s) {id : Name} (hk : (RSpec.knownH s.tab.hist id).isSome = true) :
    ∃ g, RSpec.openH s.tab.hist id = some g := by
  rw [hr.tab.hinv.kn] at hk
  have := (hr.tab.shape.known id).1 (by simpa using hk)
  obtain ⟨g, hg, rfl⟩ := List.mem_map.1 this
  exact ⟨g.gid, (hr.tab.hinv.opn _ _).2 ⟨g, hg, rfl, rfl⟩⟩

theorem open_not_over {s : State} (hr : Runner.Reach p s) {id : Name} {g : Nat} (ho : RSpec.openH s.tab.hist id = some g) :
    RSpec.phaseH s.tab.hist g ≠ none ∧ RSpec.phaseH s.tab.hist g ≠ some .over := by
  obtain ⟨x, hx, _, rfl⟩ := (hr.tab.hinv.opn _ _).1 ho
  have := hr.tab.hinv.ph x hx
  unfold PhaseOk at this
  split at this
  · rw [this]; exact ⟨nofun, nofun⟩
  · rw [this]; exact ⟨nofun, nofun⟩
  · rw [this]; exact ⟨nofun, nofun⟩
  · rw [this]; exact ⟨nofun, nofun⟩
  · rw [this]; exact ⟨nofun, nofun⟩
  · rcases this with ⟨h, _⟩ | ⟨_, h, _⟩ | ⟨_, h, _⟩ <;> rw [h] <;> exact ⟨nofun, nofun⟩
  · rcases this with ⟨h, _⟩ | ⟨_, h, _⟩ | ⟨_, h, _⟩ <;> rw [h] <;> exact ⟨nofun, nofun⟩

theorem open_one {s : State} (hr : Runner.Reach p s) {a b : Name} {g : Nat} (ha : RSpec.openH s.tab.hist a = some g)
    (hb : RSpec.openH s.tab.hist b = some g) : a = b := by
  obtain ⟨x, hx, rfl, h1⟩ := (hr.tab.hinv.opn _ _).1 ha
  obtain ⟨y, hy, rfl, h2⟩ := (hr.tab.hinv.opn _ _).1 hb
  rw [List.inj_on_of_nodup_map hr.tab.shape.gidNd hx hy (h1.trans h2.symm)]

theorem told_since {es h : List Ev} {id : Name} (ht : RSpec.toldH h id = false) (hn : .told id ∉ es) : RSpec.toldH (es ++ h) id = false := by
  induction es with
  | nil => exact ht
  | cons x es ih =>
    have ih := ih (fun h => hn (List.mem_cons_of_mem _ h))
    show RSpec.toldH (x :: (es ++ h)) id = false
    cases x with
    | told m =>
      by_cases hm : id = m
      · subst hm; exact absurd List.mem_cons_self hn
      · simpa [RSpec.toldH, hm] using ih
    | accepted c m rid sf =>
      by_cases hm : id = m
      · simp [RSpec.toldH, hm]
      · simpa [RSpec.toldH, hm] using ih
    | _ => exact ih

/-- A worker that is not told to stop and ends only with errors after which it is run again is in some attempt. -/
theorem still_open {n : Nat} : ∀ {es h : List Ev}, es.length ≤ n → AtEvery (RSpec.EvOk p) (es ++ h) → Followed (RSpec.After p) (es ++ h) → ∀ {id : Name} {g : Nat},
    RSpec.openH h id = some g → RSpec.toldH h id = false → .told id ∉ es → (∀ g e, .ended id g e ∈ es → RSpec.Restartable p e) →
    ∃ g', RSpec.openH (es ++ h) id = some g' ∧ (g' = g ∨ ∃ g d sf, .begin id g d sf ∈ es) := by
  induction n with
  | zero =>
    intro es h hl hk ha id g ho ht hnt hre
    cases es with
    | nil => exact ⟨g, ho, .inl rfl⟩
    | cons => simp at hl
  | succ n ih =>
    intro es h hl hk ha id g ho ht hnt hre
    by_cases hne : ∃ e, .ended id g e ∈ es
    · obtain ⟨e, he⟩ := hne
      obtain ⟨post, mid, rfl⟩ := List.append_of_mem he
      have hres := hre g e he
      have htold : RSpec.toldH (mid ++ h) id = false := told_since ht (fun hx => hnt (by simp [hx]))
      obtain ⟨l, g', sf, _, hpost⟩ := (ha post (.ended id g e) (mid ++ h) (by simp)).1 ⟨hres, htold⟩
      subst hpost
      have heq : (l ++ [Ev.begin id g' p.restartDelay sf] ++ Ev.ended id g e :: mid) ++ h =
          l ++ (Ev.begin id g' p.restartDelay sf :: Ev.ended id g e :: (mid ++ h)) := by simp
      rw [heq] at hk ha ⊢
      obtain ⟨g'', h1, _⟩ := ih (es := l) (by simp at hl; omega) hk ha (id := id) (g := g') (by simp [RSpec.openH])
        (by simpa [RSpec.toldH] using htold) (fun hx => hnt (by simp [hx])) (fun g e hx => hre g e (by simp [hx]))
      exact ⟨g'', h1, .inr ⟨g', p.restartDelay, sf, by simp⟩⟩
    · exact ⟨g, RSpec.open_stays hk ho (fun e he => hne ⟨e, he⟩), .inl rfl⟩

theorem phase_stays {h : List Ev} {x : Ev} {g : Nat} (hp : RSpec.phaseH h g ≠ none) : RSpec.phaseH (x :: h) g ≠ none := by
  cases x <;> first
    | exact hp
    | (simp only [RSpec.phaseH]; split
       · exact nofun
       · exact hp)

/-- As C78: where attempts get to, also if there are pauses between the steps. -/
theorem runner_pauses_attempt {q : Runner.Pauses p} (hf : q.Fair rkind) {k g : Nat} (hb : RSpec.phaseH (Runner.pausesHist q k) g ≠ none) :
    (∃ j, RSpec.phaseH (Runner.pausesHist q j) g = some .over) ∨
    (∃ m, ∀ j, m ≤ j → RSpec.phaseH (Runner.pausesHist q j) g = some .calling) ∨
    ∃ w m, (∀ j, m ≤ j → RSpec.phaseH (Runner.pausesHist q j) g = some (.running w)) ∧ (∀ j, RSpec.finishedH (Runner.pausesHist q j) w = none) ∧
      ∃ id, .learned id g w ∈ Runner.pausesHist q m := by
  have reach : ∀ k, Runner.Reach p (q.st k) := q.inv (P := Runner.Reach p) .init (fun _ _ _ h hs => .step _ h hs)
  obtain ⟨r, h1, h2, h3⟩ := q.unstutter (F := Runner.Filler p) (P := Runner.Reach p) hf reach (fun _ _ _ h hs => .step _ h hs.1)
    (fun _ _ _ h => h.1) (fun _ h => Runner.Filler.exists h) (fun s a s' x _ h ⟨op, f, hk, hc⟩ => by
      have hi := (rkind_some.1 hk).1
      have hc : Runner.step p s' op = some f := hc
      obtain ⟨c', hc'⟩ := Option.isSome_iff_exists.1 (h.can hi (by rw [hc]; rfl))
      exact ⟨op, c', hk, hc'⟩)
  let R : Runner.Run p := ⟨r.st, r.op, r.start, r.next⟩
  have hfair : R.Fair := fun op hop hi => by
    refine (h1 op.kind (hi.mono (fun k ⟨op', s', hk, hs⟩ => ⟨op', s', rkind_some.2 ⟨?_, hk⟩, hs⟩))).mono (fun k hk => (rkind_some.1 hk).2)
    exact kind_internal hk hop
  have gone : ∀ {a b : Nat}, a ≤ b → RSpec.phaseH (Runner.pausesHist q a) g ≠ none → RSpec.phaseH (Runner.pausesHist q b) g ≠ none := fun {a b} hab h => by
    obtain ⟨es, hes⟩ := rpauses_grow q hab
    rw [hes]
    clear hes
    induction es with
    | nil => exact h
    | cons x es ih => exact phase_stays ih
  obtain ⟨j, n, hj, hn⟩ := h2 k
  have hn : R.hist n = Runner.pausesHist q j := congrArg (fun s => s.tab.hist) hn
  rcases C78_attempts_end (r := R) hfair (n := n) (g := g) (by rw [hn]; exact gone hj hb) with ⟨m, h⟩ | ⟨m, h⟩ | ⟨w, m, h4, h5, id, h6⟩
  · refine .inl ?_
    obtain ⟨b, hb⟩ := h3 m
    obtain ⟨m', hm', hfl⟩ := hb b (Nat.le_refl _)
    obtain ⟨es, hes⟩ := R.hist_grows hm'
    have hk := runner_evOk (R.reach m')
    rw [show (R.st m').tab.hist = es ++ R.hist m from hes] at hk
    have := over_stays hk h
    refine ⟨b, ?_⟩
    show RSpec.phaseH (q.st b).tab.hist g = _
    rw [← (rfills_same hfl).1 g]
    show RSpec.phaseH (R.st m').tab.hist g = _
    rw [show (R.st m').tab.hist = es ++ R.hist m from hes]; exact this
  · refine .inr (.inl ?_)
    obtain ⟨b, hb⟩ := h3 m
    refine ⟨b, fun j hj => ?_⟩
    obtain ⟨m', hm', hfl⟩ := hb j hj
    exact ((rfills_same hfl).1 g).symm.trans (h m' hm')
  · refine .inr (.inr ?_)
    obtain ⟨b, hb⟩ := h3 m
    refine ⟨w, b, fun j hj => ?_, fun j => ?_, id, ?_⟩
    · obtain ⟨m', hm', hfl⟩ := hb j hj
      exact ((rfills_same hfl).1 g).symm.trans (h4 m' hm')
    · cases hc : RSpec.finishedH (Runner.pausesHist q j) w with
      | none => rfl
      | some e =>
        obtain ⟨es, hes⟩ := rpauses_grow q (Nat.le_max_left j b)
        have hm := rfin_mem hc
        obtain ⟨m', _, hfl⟩ := hb (max j b) (Nat.le_max_right _ _)
        have := rfin_of_mem ((rfills_same hfl).2.1 _ (show _ ∈ (q.st (max j b)).tab.hist by
          rw [show (q.st (max j b)).tab.hist = es ++ Runner.pausesHist q j from hes]; exact List.mem_append_right _ hm))
        have h6 : RSpec.finishedH (R.st m').tab.hist w = none := h5 m'
        rw [show (R.st m').tab.hist = (r.st m').tab.hist from rfl] at h6
        rw [h6] at this; cases this
    · obtain ⟨m', hm', hfl⟩ := hb b (Nat.le_refl _)
      obtain ⟨es, hes⟩ := R.hist_grows hm'
      have : Runner.Ev.learned id g w ∈ (R.st m').tab.hist := by
        rw [show (R.st m').tab.hist = es ++ R.hist m from hes]; exact List.mem_append_right _ h6
      exact ((rfills_same hfl).2.2.1 _ this).resolve_right nofun

/-- An attempt belongs to one id. -/
theorem open_from {mid h : List Ev} {id : Name} {g : Nat} (hk : AtEvery (RSpec.EvOk p) (mid ++ h)) (hp : RSpec.phaseH h g ≠ none)
    (ho : RSpec.openH (mid ++ h) id = some g) : RSpec.openH h id = some g := by
  induction mid with
  | nil => exact ho
  | cons x mid ih =>
    have hx : RSpec.EvOk p x (mid ++ h) := hk.1
    have hp' : RSpec.phaseH (mid ++ h) g ≠ none := by
      clear hk ho ih hx
      induction mid with
      | nil => exact hp
      | cons y mid ih => exact phase_stays ih
    have ho : RSpec.openH (x :: (mid ++ h)) id = some g := ho
    refine ih hk.2 ?_
    cases x with
    | begin m g' d sf =>
      by_cases hm : id = m
      · simp only [RSpec.openH, hm, if_true] at ho
        injection ho with ho; subst ho
        exact absurd hx.2.2.2.2.1 hp'
      · simpa [RSpec.openH, hm] using ho
    | ended m g' e =>
      by_cases hm : id = m
      · simp [RSpec.openH, hm] at ho
      · simpa [RSpec.openH, hm] using ho
    | _ => exact ho

theorem attempts_append (id : Name) (es h : List Ev) : attemptsOf id (es ++ h) = attemptsOf id es + attemptsOf id h := by
  simp [attemptsOf, List.filter_append]

theorem attempts_pos {id : Name} {es : List Ev} {g sf : Nat} {d : Int} (h : .begin id g d sf ∈ es) : 0 < attemptsOf id es :=
  List.length_pos_of_mem (List.mem_filter.2 ⟨h, by simp⟩)

end

variable {I : Type} [DecidableEq I] {W : Wiring I}

/-- C110: a worker that a runner has and has not told to stop: it is told to stop; or an attempt to run it ends with something after which it
is not run again; or it is run again and again; or from some moment on it runs and does not end. -/
theorem C110_kept {r : SysRun W} (hf : r.Fair) (hw : r.WaitsAll) (hu : r.Users) {i : I} {p : Runner.Params} (hi : W.kind i = .runner p)
    {k : Nat} {id : Name} (hk : (RSpec.knownH (r.st k i).rhist id).isSome = true) (ht : RSpec.toldH (r.st k i).rhist id = false) :
    (∃ m es, (r.st m i).rhist = es ++ (r.st k i).rhist ∧ (.told id ∈ es ∨ ∃ g e, .ended id g e ∈ es ∧ ¬ RSpec.Restartable p e)) ∨
    (∀ n, ∃ m, n ≤ attemptsOf id (r.st m i).rhist) ∨
    ∃ m g w, .startOk id g w ∈ (r.st m i).rhist ∧ ∀ n, m ≤ n → RSpec.openH (r.st n i).rhist id = some g ∧ ¬ EndedW (r.st n (W.child i w)) := by
  obtain ⟨q, h1, h2⟩ := runner_part r hf hi
  have hh : ∀ n, (r.st n i).rhist = Runner.pausesHist q n := fun n => by rw [h2]; rfl
  have reach : ∀ k, Runner.Reach p (q.st k) := q.inv (P := Runner.Reach p) .init (fun _ _ _ h hs => .step _ h hs)
  simp only [hh] at hk ht ⊢
  refine or_iff_not_imp_left.2 (fun hno => ?_)
  have hnt : ∀ {a b : Nat} {es : List Runner.Ev}, k ≤ a → Runner.pausesHist q b = es ++ Runner.pausesHist q a →
      .told id ∉ es ∧ ∀ g e, .ended id g e ∈ es → RSpec.Restartable p e := fun {a b es} ha hes => by
    obtain ⟨es', hes'⟩ := rpauses_grow q ha
    rw [hes', ← List.append_assoc] at hes
    refine ⟨fun h => hno ⟨b, _, hes, .inl (List.mem_append_left _ h)⟩, fun g e h => ?_⟩
    by_contra hc
    exact hno ⟨b, _, hes, .inr ⟨g, e, List.mem_append_left _ h, hc⟩⟩
  have htold : ∀ a, k ≤ a → RSpec.toldH (Runner.pausesHist q a) id = false := fun a ha => by
    obtain ⟨es, hes⟩ := rpauses_grow q ha
    rw [hes]; exact told_since ht (hnt (Nat.le_refl _) hes).1
  -- from one attempt to the next
  have next : ∀ {a g : Nat}, k ≤ a → RSpec.openH (Runner.pausesHist q a) id = some g → (∃ j, RSpec.phaseH (Runner.pausesHist q j) g = some .over) →
      ∃ b g', a ≤ b ∧ RSpec.openH (Runner.pausesHist q b) id = some g' ∧
        attemptsOf id (Runner.pausesHist q a) < attemptsOf id (Runner.pausesHist q b) := fun {a g} ha ho ⟨j, hj⟩ => by
    obtain ⟨es, hes⟩ := rpauses_grow q (Nat.le_max_left a j)
    obtain ⟨es', hes'⟩ := rpauses_grow q (Nat.le_max_right a j)
    have hev := runner_evOk (reach (max a j))
    have hov : RSpec.phaseH (Runner.pausesHist q (max a j)) g = some .over := by
      rw [hes']
      exact over_stays (by rw [← hes']; exact hev) hj
    have hx := hnt ha hes
    obtain ⟨g', h3, h4⟩ := still_open (n := es.length) (Nat.le_refl _) (by rw [← hes]; exact hev)
      (by rw [← hes]; exact runner_after (reach (max a j))) ho (htold a ha) hx.1 hx.2
    rw [← hes] at h3
    refine ⟨max a j, g', Nat.le_max_left _ _, h3, ?_⟩
    rcases h4 with rfl | ⟨g1, d, sf, h4⟩
    · exact absurd hov (open_not_over (reach (max a j)) h3).2
    · rw [hes, attempts_append]
      have := attempts_pos h4
      omega
  obtain ⟨g0, hg0⟩ := known_open (reach k) hk
  by_cases hall : ∀ a g, k ≤ a → RSpec.openH (Runner.pausesHist q a) id = some g → ∃ j, RSpec.phaseH (Runner.pausesHist q j) g = some .over
  · refine .inl (fun n => ?_)
    have : ∃ m g, k ≤ m ∧ RSpec.openH (Runner.pausesHist q m) id = some g ∧ n ≤ attemptsOf id (Runner.pausesHist q m) := by
      induction n with
      | zero => exact ⟨k, g0, Nat.le_refl _, hg0, Nat.zero_le _⟩
      | succ n ih =>
        obtain ⟨m, g, hm, ho, hn⟩ := ih
        obtain ⟨b, g', hb, ho', hlt⟩ := next hm ho (hall m g hm ho)
        exact ⟨b, g', by omega, ho', by omega⟩
    obtain ⟨m, _, _, _, hn⟩ := this
    exact ⟨m, hn⟩
  · refine .inr ?_
    obtain ⟨a, hall⟩ := not_forall.1 hall
    obtain ⟨g, hall⟩ := not_forall.1 hall
    obtain ⟨ha, hall⟩ := Classical.not_imp.1 hall
    obtain ⟨ho, hall⟩ := Classical.not_imp.1 hall
    have hopen : ∀ b, a ≤ b → RSpec.openH (Runner.pausesHist q b) id = some g := fun b hb => by
      obtain ⟨es, hes⟩ := rpauses_grow q hb
      have hev := runner_evOk (reach b)
      rw [show (q.st b).tab.hist = es ++ Runner.pausesHist q a from hes] at hev
      rw [hes]
      refine RSpec.open_stays hev ho (fun e he => ?_)
      obtain ⟨post, mid, rfl⟩ := List.append_of_mem he
      refine hall ⟨b, ?_⟩
      rw [hes]
      have : RSpec.phaseH (Runner.Ev.ended id g e :: (mid ++ Runner.pausesHist q a)) g = some .over := by simp [RSpec.phaseH]
      have h' := over_stays (es := post) (h := Runner.Ev.ended id g e :: (mid ++ Runner.pausesHist q a)) (by simpa using hev) this
      simpa using h'
    rcases runner_pauses_attempt h1 (open_not_over (reach a) ho).1 with h | ⟨m, h⟩ | ⟨w, m, h3, h4, _⟩
    · exact absurd h hall
    · have hs := hu i
      rw [hi] at hs
      have hs : RSpec.StartsReturn (fun k => (r.st k i).rhist) := hs
      obtain ⟨k', hk', hne⟩ := hs m g (by simp only [hh]; exact h m (Nat.le_refl _))
      simp only [hh] at hne
      exact absurd (h k' hk') hne
    · have hok : ∃ id', .startOk id' g w ∈ Runner.pausesHist q (max a m) := running_mem (h3 _ (Nat.le_max_right _ _))
      obtain ⟨id', hok⟩ := hok
      have hid : id' = id := by
        rcases RSpec.startOk_open (runner_evOk (reach (max a m))) hok with ⟨h5, _⟩ | h5
        · exact open_one (reach (max a m)) h5 (hopen _ (Nat.le_max_left _ _))
        · rw [show RSpec.finishedH (q.st (max a m)).tab.hist w = none from h4 _] at h5; cases h5
      subst hid
      have mono : ∀ {a b : Nat}, a ≤ b → ∀ e, e ∈ Runner.pausesHist q a → e ∈ Runner.pausesHist q b := fun {a b} hab e he => by
        obtain ⟨es, h⟩ := rpauses_grow q hab
        rw [h]; exact List.mem_append_right _ he
      refine ⟨max a m, g, w, hok, fun n hn => ⟨hopen n (by omega), fun he => ?_⟩⟩
      obtain ⟨j, e, hj⟩ := hw i w n (by rw [h2]; exact ⟨id', g, mono hn _ hok⟩) he
      rw [h2] at hj
      have := rfin_of_mem (show Runner.Ev.finished w e ∈ Runner.pausesHist q j from hj)
      rw [h4 j] at this; cases this

/-- C110: a worker of a runner that ends with an error after which workers are run again is run again, with the same StartFunc and after the
delay, unless it is told to stop. -/
theorem C110_again {r : SysRun W} (hf : r.Fair) (hw : r.WaitsAll) {i : I} {p : Runner.Params} (hi : W.kind i = .runner p) {k w g : Nat} {id : Name}
    (hs : .startOk id g w ∈ (r.st k i).rhist) (ho : RSpec.openH (r.st k i).rhist id = some g) (he : ∃ n, EndedW (r.st n (W.child i w)))
    (hr : ∀ n e, (r.st n (W.child i w)).result = some e → RSpec.Restartable p e) :
    RSpec.toldH (r.st k i).rhist id = true ∨ (∃ m es, (r.st m i).rhist = es ++ (r.st k i).rhist ∧ .told id ∈ es) ∨
      ∃ m g' sf e post pre, (r.st m i).rhist = post ++ .begin id g' p.restartDelay sf :: .ended id g e :: pre ∧ RSpec.sfH pre id = some sf := by
  obtain ⟨q, h1, h2⟩ := runner_part r hf hi
  have hh : ∀ n, (r.st n i).rhist = Runner.pausesHist q n := fun n => by rw [h2]; rfl
  have reach : ∀ k, Runner.Reach p (q.st k) := q.inv (P := Runner.Reach p) .init (fun _ _ _ h hs => .step _ h hs)
  have mono : ∀ {a b : Nat}, a ≤ b → ∀ e, e ∈ Runner.pausesHist q a → e ∈ Runner.pausesHist q b := fun {a b} hab e he => by
    obtain ⟨es, h⟩ := rpauses_grow q hab
    rw [h]; exact List.mem_append_right _ he
  simp only [hh] at hs ho ⊢
  obtain ⟨n, hn⟩ := he
  obtain ⟨j, e, hj⟩ := hw i w (max k n) (by rw [h2]; exact ⟨id, g, mono (Nat.le_max_left k n) _ hs⟩) (r.ended_stays (Nat.le_max_right k n) hn)
  rw [h2] at hj
  obtain ⟨e', he'⟩ := Option.isSome_iff_exists.1 (rfin_of_mem (mono (Nat.le_max_right k j) _ hj))
  obtain ⟨m, id', hm⟩ := runner_pauses_ended (q := q) h1 (k := max k j) (mono (Nat.le_max_left k j) _ hs) he'
  have hres : RSpec.Restartable p e' := by
    obtain ⟨n, hn⟩ := saw_then r (i := i) (k := max k j) (w := w) (e := e') (by rw [h2]; exact rfin_mem he')
    exact hr n e' hn
  obtain ⟨es, hes⟩ := rpauses_grow q (Nat.le_max_left k m)
  have hm := mono (Nat.le_max_right k m) _ hm
  have hev := runner_evOk (reach (max k m))
  have haf := runner_after (reach (max k m))
  rw [show (q.st (max k m)).tab.hist = es ++ Runner.pausesHist q k from hes] at hev haf
  rw [hes] at hm
  have hph := open_not_over (reach k) ho
  rcases List.mem_append.1 hm with hm | hm
  · obtain ⟨post, mid, rfl⟩ := List.append_of_mem hm
    have hev' : AtEvery (RSpec.EvOk p) (post ++ Runner.Ev.ended id' g e' :: (mid ++ Runner.pausesHist q k)) := by simpa using hev
    have hx : RSpec.EvOk p (.ended id' g e') (mid ++ Runner.pausesHist q k) := hev'.split
    have hid : id' = id := open_one (reach k) (open_from (RSpec.AtEvery.drop hev').2 hph.1 hx.2.1) ho
    subst hid
    by_cases ht : RSpec.toldH (mid ++ Runner.pausesHist q k) id' = false
    · obtain ⟨l, g', sf, h3, rfl⟩ := (haf post (.ended id' g e') _ (by simp)).1 ⟨hres, ht⟩
      exact .inr (.inr ⟨max k m, g', sf, e', l, mid ++ Runner.pausesHist q k, by rw [hes]; simp, h3⟩)
    · by_cases ht0 : RSpec.toldH (Runner.pausesHist q k) id' = true
      · exact .inl ht0
      · refine .inr (.inl ⟨max k m, _, hes, ?_⟩)
        by_contra hc
        exact ht (told_since (by simpa using ht0) (fun h => hc (by simp [h])))
  · -- it had not ended yet
    exfalso
    obtain ⟨post, pre, hh'⟩ := List.append_of_mem hm
    have hev0 := runner_evOk (reach k)
    refine hph.2 ?_
    show RSpec.phaseH (q.st k).tab.hist g = some .over
    have hh' : (q.st k).tab.hist = post ++ .ended id' g e' :: pre := hh'
    rw [hh'] at hev0 ⊢
    exact over_stays hev0 (by simp [RSpec.phaseH])

namespace SDemo

/-- The program of the examples when the worker of its runner has just failed, with an error that is not fatal. -/
def slip : List Comp := (runUp SDemo.W (kinds.map Kind.new) (opsUp ++ [(3, .leafEnd (some .missing))])).getD (kinds.map Kind.new)

theorem slip_reach : System.Reach SDemo.W (fn slip) := by
  have h : (runUp SDemo.W (kinds.map Kind.new) (opsUp ++ [(3, .leafEnd (some .missing))])).isSome = true := by decide +kernel
  obtain ⟨L, hL⟩ := Option.isSome_iff_exists.1 h
  have h0 : System.Reach SDemo.W (fn (kinds.map Kind.new)) := by
    have : fn (kinds.map Kind.new) = SDemo.W.new := after_zero
    rw [this]; exact .init
  have := runUp_reach _ h0 hL
  unfold slip
  rw [hL]; exact this

theorem slip_going : Going SDemo.W known (fn slip) := by
  refine ⟨slip_reach, fun i e h => ?_, fun i own s h => .inr ?_⟩
  · have key : slip.all (fun c => (givens c).all (fun e => e == .user 99 || e == .missing)) = true := by decide +kernel
    simpa [known] using List.all_eq_true.1 (fn_all key rfl i) e (given_mem h)
  · have key : slip.all (fun c => match c with
      | .catacomb _ s => s.hist.contains .workCall && !s.hist.contains (.workRet .goexit)
      | _ => true) = true := by decide +kernel
    have := fn_all key rfl i
    rw [h] at this
    simpa using this

end SDemo

/-- The worker of the runner fails; this is an execution in which the runner is bound to react. -/
example : ∃ (r : SysRun SDemo.W) (n g : Nat), r.Fair ∧ r.WaitsAll ∧ r.Users ∧ SDemo.W.kind 1 = .runner RDemo.prm ∧
    (RSpec.knownH (r.st n 1).rhist 7).isSome = true ∧ RSpec.toldH (r.st n 1).rhist 7 = false ∧ .startOk 7 g 10 ∈ (r.st n 1).rhist ∧
    RSpec.openH (r.st n 1).rhist 7 = some g ∧ EndedW (r.st n (SDemo.W.child 1 10)) ∧
    ∀ m e, (r.st m (SDemo.W.child 1 10)).result = some e → RSpec.Restartable RDemo.prm e := by
  obtain ⟨r, n, hn, h1, h2, h3, h4, h5⟩ := C108_goes_on SDemo.known_closed SDemo.known_plain (e0 := .user 99) (.inl rfl) SDemo.slip_going
  have hres : (r.st n (SDemo.W.child 1 10)).result = some (some .missing) := by rw [hn]; decide +kernel
  refine ⟨r, n, 0, h1, h2, h3, rfl, by rw [hn]; decide +kernel, by rw [hn]; decide +kernel, by rw [hn]; decide +kernel, by rw [hn]; decide +kernel,
    by unfold EndedW; rw [hres]; rfl, fun m e he => ?_⟩
  have e1 := r.result_stays (Nat.le_max_left n m) (i := SDemo.W.child 1 10) (by intro own h; cases h) hres
  rw [r.result_stays (Nat.le_max_right n m) (by intro own h; cases h) he] at e1
  injection e1 with e1; subst e1
  exact ⟨.missing, rfl, by decide, by decide⟩

end Verif.Props
