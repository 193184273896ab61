import Verif.Catacomb.Progress
import Verif.Props.CatacombDemo

/-!
# Catacomb: properties of every execution

`s.hist` lists what has happened, newest first; `hist = post ++ e :: pre` says that `e` has happened, after `pre` and
before `post`.
-/

namespace Verif.Props
open Verif.Spec Verif.Catacomb Verif.CSpec

namespace Cat

variable {own : Nat} {s : State}

/-! ## Lemmas -/

theorem drop {P : Ev → List Ev → Prop} {post h : List Ev} (hk : AtEvery P (post ++ h)) : AtEvery P h := by
  induction post with
  | nil => exact hk
  | cons _ _ ih => exact ih hk.2

/-- At most one event with a given key. -/
theorem unique {P : Ev → List Ev → Prop} {key : Ev → Prop} (hP : ∀ e h, P e h → key e → ∀ x ∈ h, ¬ key x) {h : List Ev}
    (hk : AtEvery P h) {a b : Ev} (ha : a ∈ h) (hb : b ∈ h) (hka : key a) (hkb : key b) : a = b := by
  induction h with
  | nil => cases ha
  | cons e h ih =>
    rcases List.mem_cons.1 ha with ha | ha'
    · subst ha
      rcases List.mem_cons.1 hb with hb | hb'
      · exact hb.symm
      · exact absurd hkb (hP _ _ hk.1 hka b hb')
    · rcases List.mem_cons.1 hb with hb | hb'
      · subst hb
        exact absurd hka (hP _ _ hk.1 hkb a ha')
      · exact ih hk.2 ha' hb'

theorem one_plan {h : List Ev} (hk : AtEvery (EvOk own) h) {i : Nat} {p q : Plan} (hp : .callInvoke i p ∈ h) (hq : .callInvoke i q ∈ h) : p = q := by
  have := unique (key := fun e => ∃ p, e = .callInvoke i p) (by
    rintro e h he ⟨p, rfl⟩ x hx ⟨q, rfl⟩; exact he q hx) hk hp hq ⟨p, rfl⟩ ⟨q, rfl⟩
  injection this

theorem one_claim {h : List Ev} (hk : AtEvery (EvOk own) h) {i j : Nat} (hi : .claimed i ∈ h) (hj : .claimed j ∈ h) : i = j := by
  have := unique (key := fun e => ∃ i, e = .claimed i) (by
    rintro e h he ⟨p, rfl⟩ x hx ⟨q, rfl⟩; exact he.2 q hx) hk hi hj ⟨i, rfl⟩ ⟨j, rfl⟩
  injection this

theorem one_add {h : List Ev} (hk : AtEvery (EvOk own) h) {c v w : Nat} (hi : .callAdd c v ∈ h) (hj : .callAdd c w ∈ h) : v = w := by
  have := unique (key := fun e => ∃ w, e = .callAdd c w) (by
    rintro e h he ⟨p, rfl⟩ x hx ⟨q, rfl⟩; exact he q hx) hk hi hj ⟨v, rfl⟩ ⟨w, rfl⟩
  injection this

theorem one_src {h : List Ev} (hk : AtEvery (EvOk own) h) {k l v w : Nat} {src : Src} (hi : .tracked k v src ∈ h) (hj : .tracked l w src ∈ h) :
    k = l ∧ v = w := by
  have := unique (key := fun e => ∃ k w, e = .tracked k w src) (by
    rintro e h he ⟨k, w, rfl⟩ x hx ⟨l, v, rfl⟩; exact he.2.1 l v hx) hk hi hj ⟨k, v, rfl⟩ ⟨l, w, rfl⟩
  injection this with h1 h2
  exact ⟨h1, h2⟩

theorem fin_post {post h : List Ev} (hk : AtEvery (EvOk own) (post ++ h)) {w : Nat} {r : Option Err} (hf : finishedH h w = some r) :
    finishedH (post ++ h) w = some r := by
  induction post with
  | nil => exact hf
  | cons e post ih => exact finished_cons hk.1 (ih hk.2)

theorem fe_post {post h : List Ev} {x : Err} (hf : firstError own h = some x) : firstError own (post ++ h) = some x := by
  induction post with
  | nil => exact hf
  | cons e post ih => simp only [List.cons_append, firstError, ih]

/-- The error that an event brings to the catacomb. -/
def errorOf (own : Nat) (e : Ev) : Option Err := match killOf e with
  | some k => effective own k
  | none => none

theorem firstError_cons (e : Ev) (h : List Ev) : firstError own (e :: h) = (firstError own h).or (errorOf own e) := by
  simp only [firstError, errorOf]
  cases firstError own h <;> rfl

theorem firstError_none {h : List Ev} : firstError own h = none ↔ ∀ e ∈ h, errorOf own e = none := by
  induction h with
  | nil => exact ⟨fun _ => nofun, fun _ => rfl⟩
  | cons e h ih =>
    rw [firstError_cons]
    simp only [Option.or_eq_none_iff, ih, List.mem_cons, forall_eq_or_imp]
    exact And.comm

theorem firstError_some {h : List Ev} {x : Err} (hf : firstError own h = some x) :
    ∃ post e pre, h = post ++ e :: pre ∧ errorOf own e = some x ∧ ∀ e' ∈ pre, errorOf own e' = none := by
  induction h with
  | nil => cases hf
  | cons e h ih =>
    rw [firstError_cons] at hf
    cases hh : firstError own h with
    | none =>
      rw [hh] at hf
      exact ⟨[], e, h, rfl, hf, firstError_none.1 hh⟩
    | some y =>
      rw [hh] at hf
      cases hf
      obtain ⟨post, e', pre, h1, h2⟩ := ih hh
      exact ⟨e :: post, e', pre, by rw [h1]; rfl, h2⟩

/-- A dead catacomb has been set up completely, and its work func has ended. -/
theorem dead_setup {h : List Ev} (hk : AtEvery (EvOk own) h) (hd : .dead ∈ h) :
    (∃ r, .workRet r ∈ h) ∧ ∃ i p, .claimed i ∈ h ∧ .callInvoke i p ∈ h ∧
      ∀ j w, p.init[j]? = some (some w) → ∃ k, .tracked k w (.init i j) ∈ h := by
  obtain ⟨post, pre, rfl, h1⟩ := AtEvery.mem hk hd
  obtain ⟨_, ⟨e, he⟩, _⟩ := h1
  obtain ⟨post2, pre2, rfl, ⟨r, hr, _⟩, _⟩ := AtEvery.mem (drop hk).2 he
  have hr' : .workRet r ∈ post ++ Ev.dead :: (post2 ++ Ev.workKill e :: pre2) := by simp [hr]
  refine ⟨⟨r, hr'⟩, ?_⟩
  obtain ⟨post3, pre3, h3, hwc, _⟩ := AtEvery.mem hk hr'
  have hk3 := hk
  rw [h3] at hk3
  obtain ⟨post4, pre4, rfl, _, i, p, h4, h5, h6⟩ := AtEvery.mem (drop hk3).2 hwc
  rw [h3]
  refine ⟨i, p, by simp [h4], by simp [h5], ?_⟩
  intro j w hj
  obtain ⟨k, hk⟩ := h6 j w hj
  exact ⟨k, by simp [hk]⟩

end Cat
open Cat

variable {own : Nat} {s : State}

/-! ## C01: what Wait returns -/

/-- C01: Wait returns once the catacomb is dead, with the first error there was. -/
theorem C01_wait (hr : Reach own s) {post pre : List Ev} {r : Option Err} (hh : s.hist = post ++ .waitRet r :: pre) :
    .dead ∈ pre ∧ r = firstError own pre := by
  have hk := hr.events
  rw [hh] at hk
  exact hk.split

/-- C01: if Wait returns an error, it was brought by a Kill call, the work func or a tracked worker, and nothing that came
before brought one. -/
theorem C01_first (hr : Reach own s) {post pre : List Ev} {x : Err} (hh : s.hist = post ++ .waitRet (some x) :: pre) :
    ∃ p1 e p2 k, pre = p1 ++ e :: p2 ∧
      (e = .kill k ∨ e = .workKill k ∨ ∃ n w src y, e = .workerKill n y ∧ k = some y ∧ .tracked n w src ∈ p2 ∧ finishedH p2 w = some (some y)) ∧
      effective own k = some x ∧ ∀ e' ∈ p2, ∀ k', killOf e' = some k' → effective own k' = none := by
  have hk := hr.events
  rw [hh] at hk
  obtain ⟨_, hx⟩ : Ev.dead ∈ pre ∧ some x = firstError own pre := hk.split
  obtain ⟨p1, e, p2, rfl, he, hp⟩ := firstError_some hx.symm
  have he2 : EvOk own e p2 := (drop (drop hk).2).1
  unfold errorOf at he
  split at he
  · rename_i k hkk
    refine ⟨p1, e, p2, k, rfl, ?_, he, ?_⟩
    · cases e with
      | kill k' => cases hkk; exact Or.inl rfl
      | workKill k' => cases hkk; exact Or.inr (Or.inl rfl)
      | workerKill n y =>
        cases hkk
        obtain ⟨⟨w, src, h1, h2⟩, _⟩ := he2
        exact Or.inr (Or.inr ⟨n, w, src, y, rfl, rfl, h1, h2⟩)
      | _ => cases hkk
    · intro e' he' k' hk'
      have := hp e' he'
      rw [errorOf, hk'] at this
      exact this
  · cases he

/-- C01: if Wait returns nil, then no Kill call, no worker accepted and not the work func brought any error. -/
theorem C01_nil (hr : Reach own s) {post pre : List Ev} (hh : s.hist = post ++ .waitRet none :: pre) :
    (∀ k, .kill k ∈ pre → effective own k = none) ∧
    (∀ n w src y, .tracked n w src ∈ pre → finishedH pre w = some (some y) → effective own (some y) = none) ∧
    ∃ r e, .workRet r ∈ pre ∧ WorkErr r e ∧ effective own e = none := by
  have hk := hr.events
  rw [hh] at hk
  obtain ⟨hd, hx⟩ : Ev.dead ∈ pre ∧ none = firstError own pre := hk.split
  have hno := firstError_none.1 hx.symm
  have hkp := (drop hk).2
  obtain ⟨p1, p2, rfl, h1⟩ := AtEvery.mem hkp hd
  refine ⟨fun k hm => hno _ hm, ?_, ?_⟩
  · intro n w src y ht hf
    have ht2 : .tracked n w src ∈ p2 := by
      rcases List.mem_append.1 ht with ht | ht
      · obtain ⟨q1, q2, rfl⟩ := List.append_of_mem ht
        rw [List.append_assoc] at hkp
        exact absurd (by simp) (drop hkp).1.2.2.1
      · exact mem_cons_ne ht nofun
    obtain ⟨r, hr1, hr2⟩ := h1.2.2.2 n w src ht2
    have hr3 : finishedH (p1 ++ Ev.dead :: p2) w = some r := by
      have : AtEvery (EvOk own) ((p1 ++ [Ev.dead]) ++ p2) := by simpa using hkp
      have := fin_post this hr1
      simpa using this
    rw [hr3] at hf
    cases hf
    have := hno (.workerKill n y) (by simp [hr2 y rfl])
    exact this
  · obtain ⟨e, he⟩ := h1.2.1
    have hwe := hno (.workKill e) (by simp [he])
    obtain ⟨q1, q2, rfl, ⟨r, h2, h3⟩, _⟩ := AtEvery.mem (drop hkp).2 he
    exact ⟨r, e, by simp [h2], h3, hwe⟩

/-- Worker 2's error comes before the work func's, and Wait returns it. -/
example : ∃ post pre, (CDemo.after 7 CDemo.opsLife).hist = post ++ .waitRet (some (.user 5)) :: pre ∧ .workKill (some (.user 6)) ∈ pre := by
  refine ⟨[], _, Eq.refl _, ?_⟩; decide +kernel

/-- … and with no error at all it returns nil. -/
example : ∃ post pre, (CDemo.after 7 CDemo.opsClean).hist = post ++ .waitRet none :: pre ∧ .tracked 0 1 (.init 0 0) ∈ pre := by
  refine ⟨[], _, Eq.refl _, ?_⟩; decide +kernel

/-! ## C02: no worker outlives its catacomb -/

/-- The catacomb has taken responsibility for `w` and said so. -/
def Accepted (h : List Ev) (w : Nat) : Prop :=
  (∃ i p, .claimed i ∈ h ∧ .callInvoke i p ∈ h ∧ some w ∈ p.init) ∨ ∃ c, .callAdd c w ∈ h ∧ .addRet c none ∈ h

/-- C02: when the catacomb is dead, the work func has ended and every worker accepted has finished. -/
theorem C02_dead (hr : Reach own s) (hd : .dead ∈ s.hist) :
    (∃ r, .workRet r ∈ s.hist) ∧ ∀ w, Accepted s.hist w → (finishedH s.hist w).isSome = true := by
  have hk := hr.events
  obtain ⟨h1, i, p, h2, h3, h4⟩ := dead_setup hk hd
  refine ⟨h1, ?_⟩
  obtain ⟨p1, p2, hh, _, _, h5, h6⟩ := AtEvery.mem hk hd
  have late : ∀ {x : Ev}, x ∈ s.hist → (∀ h, EvOk own x h → .dead ∉ h) → x ≠ .dead → x ∈ p2 := by
    intro x hx hP hne
    rw [hh] at hx
    rcases List.mem_append.1 hx with hx | hx
    · obtain ⟨q1, q2, rfl⟩ := List.append_of_mem hx
      rw [hh, List.append_assoc] at hk
      exact absurd (by simp) (hP _ (drop hk).1)
    · exact mem_cons_ne hx hne
  have fin : ∀ k w src, .tracked k w src ∈ s.hist → (finishedH s.hist w).isSome = true := by
    intro k w src ht
    obtain ⟨r, hr1, _⟩ := h6 k w src (late ht (fun _ hx => hx.2.2.1) nofun)
    have hk' : AtEvery (EvOk own) ((p1 ++ [Ev.dead]) ++ p2) := by rw [hh] at hk; simpa using hk
    have := fin_post hk' hr1
    rw [hh]
    simp only [List.append_assoc, List.singleton_append] at this
    rw [this]; rfl
  rintro w (⟨i', p', h7, h8, h9⟩ | ⟨c, h7, h8⟩)
  · have := one_claim hk h2 h7
    subst this
    have := one_plan hk h3 h8
    subst this
    obtain ⟨j, hj⟩ := List.mem_iff_getElem?.1 h9
    obtain ⟨k, hkt⟩ := h4 j w hj
    exact fin k w _ hkt
  · obtain ⟨k, w', h10, h11⟩ := h5 c (late h8 (fun _ hx => hx.2.1) nofun)
    have : w' = w := one_add hk (by rw [hh]; simp [h10]) h7
    subst this
    exact fin k w' (.add c) (by rw [hh]; simp [h11])

/-- C02: in particular when Wait returns. -/
theorem C02_wait (hr : Reach own s) {r : Option Err} (hw : .waitRet r ∈ s.hist) {w : Nat} (ha : Accepted s.hist w) :
    (finishedH s.hist w).isSome = true := by
  obtain ⟨post, pre, hh, h1, _⟩ := AtEvery.mem hr.events hw
  exact (C02_dead hr (by rw [hh]; simp [h1])).2 w ha

example : .dead ∈ (CDemo.after 7 CDemo.opsLife).hist ∧ Accepted (CDemo.after 7 CDemo.opsLife).hist 1 ∧
    Accepted (CDemo.after 7 CDemo.opsLife).hist 2 := by
  refine ⟨by decide +kernel, Or.inl ⟨0, { init := [some 1] }, ?_⟩, Or.inr ⟨0, ?_⟩⟩ <;> decide +kernel

/-! ## C03: what Add returns -/

/-- C03: an Add call that returns an error has Kill()ed its worker, because the catacomb was dying, and the worker has
finished; the error is a trace of the worker's own, or the catacomb's ErrDying. -/
theorem C03_add_error (hr : Reach own s) {post pre : List Ev} {c : Nat} {e : Err} (hh : s.hist = post ++ .addRet c (some e) :: pre) :
    Dying pre ∧ ∃ w, .callAdd c w ∈ pre ∧ .killA c w ∈ pre ∧
      ((∃ x, finishedH pre w = some (some x) ∧ e = .wrap 0 x) ∨ (finishedH pre w = some none ∧ e = .catDying own)) := by
  have hk := hr.events
  rw [hh] at hk
  obtain ⟨_, w, h1, h2, h3⟩ : EvOk own (.addRet c (some e)) pre := hk.split
  obtain ⟨q1, q2, rfl, h4⟩ := AtEvery.mem (drop hk).2 h2
  exact ⟨Dying.post (Dying.cons h4.2.1), w, h1, h2, h3⟩

/-- C03: an Add call that returns nil has not Kill()ed its worker, the catacomb is not dead, and the worker is tracked, or
about to be by the next step of the listen goroutine, which nothing can prevent. -/
theorem C03_add_nil (hr : Reach own s) {c w : Nat} (hc : .callAdd c w ∈ s.hist) (ha : .addRet c none ∈ s.hist) :
    .killA c w ∉ s.hist ∧ ((∃ k, .tracked k w (.add c) ∈ s.hist) ∨
      (.dead ∉ s.hist ∧ (s.crashed = false → ∃ s' k, Catacomb.step own s .lAdd = some s' ∧ .tracked k w (.add c) ∈ s'.hist))) := by
  have hk := hr.events
  refine ⟨?_, ?_⟩
  · intro hm
    obtain ⟨p1, p2, hh, h1⟩ := AtEvery.mem hk hm
    obtain ⟨q1, q2, hh', h2⟩ := AtEvery.mem hk ha
    rw [hh'] at hm
    rcases List.mem_append.1 hm with hm | hm
    · obtain ⟨r1, r2, rfl⟩ := List.append_of_mem hm
      rw [hh', List.append_assoc] at hk
      exact (drop hk).1.2.2.1 none (by simp)
    · have hm := mem_cons_ne hm nofun
      obtain ⟨⟨w', h3, h4⟩, _⟩ := h2
      have : w' = w := one_add hk (by rw [hh']; simp [h3]) hc
      subst this
      exact h4 hm
  · rcases hr.hinv.list.all c ha with ⟨k, w', h1, h2⟩ | ⟨w', hl⟩
    · have := one_add hk h1 hc
      subst this
      exact Or.inl ⟨k, h2⟩
    · obtain ⟨h1, _, _⟩ := hr.hinv.list.cur c w' hl
      have := one_add hk h1 hc
      subst this
      refine Or.inr ⟨?_, ?_⟩
      · intro hm
        exact hr.shape.not_dead (hr.shape.count_pos (by rw [hl]; nofun) (by rw [hl]; nofun)) (hr.hinv.tomb.dead.2 hm)
      · intro hcr
        refine ⟨add { s with listener := .select } w' (.add c), _, ?_, List.mem_cons_self⟩
        simp only [Catacomb.step, hcr, Bool.false_eq_true, if_false, Op.inv?, Op.add?, Op.track?, stepMain, hl]

/-- A late Add whose worker fails, one whose worker stops cleanly, and one in time. -/
example :
    (CDemo.after 7 (CDemo.opsLate ++ [.finish 3 (some (.user 8)), .aWaitRet 1])).hist.head? = some (.addRet 1 (some (.wrap 0 (.user 8)))) ∧
    (CDemo.after 7 (CDemo.opsLate ++ [.finish 3 none, .aWaitRet 1])).hist.head? = some (.addRet 1 (some (.catDying 7))) ∧
    .callAdd 0 2 ∈ (CDemo.after 7 (CDemo.opsUp ++ [.callAdd 2, .aSend 0])).hist ∧
    .addRet 0 none ∈ (CDemo.after 7 (CDemo.opsUp ++ [.callAdd 2, .aSend 0])).hist ∧
    (CDemo.after 7 (CDemo.opsUp ++ [.callAdd 2, .aSend 0])).crashed = false := by decide +kernel

/-! ## C04: a dying catacomb kills every tracked worker -/

/-- C04: a catacomb that is not dying Kill()s no worker it has accepted, nor one given to Add; and it Kill()s each at most
once per acceptance. -/
theorem C04_alive_kills_none (hr : Reach own s) {post pre : List Ev} {n w : Nat}
    (hh : s.hist = post ++ .killT n w :: pre ∨ s.hist = post ++ .killA n w :: pre) : Dying pre := by
  have hk := hr.events
  rcases hh with hh | hh
  · rw [hh] at hk; exact (hk.split : EvOk own (.killT n w) pre).2.1
  · rw [hh] at hk; exact (hk.split : EvOk own (.killA n w) pre).2.1

theorem C04_once (hr : Reach own s) {post pre : List Ev} {n w : Nat} (hh : s.hist = post ++ .killT n w :: pre) :
    (∃ src, .tracked n w src ∈ pre) ∧ .killT n w ∉ pre ∧ .dead ∉ pre := by
  have hk := hr.events
  rw [hh] at hk
  have := (hk.split : EvOk own (.killT n w) pre)
  exact ⟨this.1, this.2.2⟩

/-- C04: in a dying catacomb every tracked worker has been Kill()ed, or has finished, or can be Kill()ed right now. -/
theorem C04_dying_kills_all (hr : Reach own s) (hc : s.crashed = false) (hd : Dying s.hist) {k w : Nat} {src : Src}
    (ht : .tracked k w src ∈ s.hist) :
    .killT k w ∈ s.hist ∨ (finishedH s.hist w).isSome = true ∨
      ∃ s', Catacomb.step own s (.kDying k) = some s' ∧ s'.hist = .killT k w :: s.hist := by
  obtain ⟨t, h1, rfl⟩ := hr.hinv.tracks.all k w src ht
  have hT := hr.hinv.tracks.ok k t h1
  have hdy : s.dying = true := hr.hinv.tomb.dying.2 hd
  cases hp : t.killer with
  | stop => exact Or.inl (hT.stop hp)
  | done =>
    right; left
    rw [← hr.hinv.fin]
    exact (hr.shape.tracks k t h1).killer hp
  | select =>
    right; right
    refine ⟨(s.setTrack k { t with killer := .stop }).emit (.killT k t.w), ?_, rfl⟩
    simp only [Catacomb.step, hc, Bool.false_eq_true, if_false, Op.inv?, Op.add?, Op.track?, h1, Option.bind_some, stepTrack, hp, hdy, if_true]

example : (∃ post pre, (CDemo.after 7 CDemo.opsLife).hist = post ++ .killT 0 1 :: pre) ∧
    .killT 0 1 ∉ (CDemo.after 7 (CDemo.opsFailed (.user 5))).hist ∧ (CDemo.after 7 (CDemo.opsFailed (.user 5))).crashed = false ∧
    Dying (CDemo.after 7 (CDemo.opsFailed (.user 5))).hist ∧ .tracked 0 1 (.init 0 0) ∈ (CDemo.after 7 (CDemo.opsFailed (.user 5))).hist := by
  refine ⟨⟨_, _, List.append_of_mem (by decide +kernel) |>.choose_spec.choose_spec⟩, by decide +kernel, by decide +kernel,
    ⟨.workerKill 1 (.user 5), by decide +kernel, rfl⟩, by decide +kernel⟩

/-! ## C05: why a catacomb dies -/

/-- C05: the Dying channel is closed exactly if there has been a Kill call, the work func has returned (or panicked), or a
tracked worker has finished with an error. -/
theorem C05_why_dying (hr : Reach own s) (hd : s.dying = true) :
    (∃ e, .kill e ∈ s.hist) ∨ (∃ r, .workRet r ∈ s.hist ∧ r ≠ .goexit) ∨
      ∃ k w src e, .tracked k w src ∈ s.hist ∧ finishedH s.hist w = some (some e) := by
  obtain ⟨x, hx, hy⟩ := hr.hinv.tomb.dying.1 hd
  cases x with
  | kill e => exact Or.inl ⟨e, hx⟩
  | workKill e =>
    obtain ⟨post, pre, hh, ⟨r, h1, h2⟩, _⟩ := AtEvery.mem hr.events hx
    refine Or.inr (Or.inl ⟨r, by rw [hh]; simp [h1], ?_⟩)
    rintro rfl
    rcases h2 with h2 | ⟨v, h2, _⟩ <;> cases h2
  | workerKill k e =>
    obtain ⟨post, pre, hh, ⟨w, src, h1, h2⟩, _⟩ := AtEvery.mem hr.events hx
    have hk := hr.events
    rw [hh] at hk
    have hk' : AtEvery (EvOk own) ((post ++ [Ev.workerKill k e]) ++ pre) := by simpa using hk
    refine Or.inr (Or.inr ⟨k, w, src, e, by rw [hh]; simp [h1], ?_⟩)
    rw [hh]
    simpa using fin_post hk' h2
  | _ => cases hy

/-- C05: conversely each of these kills the catacomb: a Kill call when it returns, the others as soon as the goroutine
concerned gets to run. -/
theorem C05_kills (hr : Reach own s) : ((∃ e, .kill e ∈ s.hist) ∨ (∃ e, .workKill e ∈ s.hist) ∨ ∃ k e, .workerKill k e ∈ s.hist) →
    s.dying = true := by
  rintro (⟨e, h⟩ | ⟨e, h⟩ | ⟨k, e, h⟩) <;> exact hr.hinv.tomb.dying.2 ⟨_, h, rfl⟩

/-- C05: a tracked worker that finishes with nil leads to no Kill call. -/
theorem C05_clean_exit (hr : Reach own s) {k w : Nat} {src : Src} (ht : .tracked k w src ∈ s.hist) (hf : finishedH s.hist w = some none) (e : Err) :
    .workerKill k e ∉ s.hist := by
  intro hm
  obtain ⟨post, pre, hh, ⟨w', src', h1, h2⟩, _⟩ := AtEvery.mem hr.events hm
  have hk := hr.events
  rw [hh] at hk
  have hk' : AtEvery (EvOk own) ((post ++ [Ev.workerKill k e]) ++ pre) := by simpa using hk
  have h3 := fin_post hk' h2
  have h1' : .tracked k w' src' ∈ s.hist := by rw [hh]; simp [h1]
  have hw : w' = w := by
    have := unique (key := fun e => ∃ w src, e = .tracked k w src) (by
      rintro e h he ⟨w, src, rfl⟩ x hx ⟨v, src', rfl⟩; exact he.1 v src' hx) hr.events h1' ht ⟨_, _, rfl⟩ ⟨_, _, rfl⟩
    injection this
  subst hw
  rw [hh] at hf
  simp only [List.append_assoc, List.singleton_append] at h3
  rw [h3] at hf; cases hf

example : (CDemo.after 7 (CDemo.opsFailed (.user 5))).dying = true ∧
    (CDemo.after 7 (CDemo.opsAdded ++ [.finish 2 none, .tWaitRet 1, .tClose 1, .tExit 1, .kClosed 1])).dying = false ∧
    finishedH (CDemo.after 7 (CDemo.opsAdded ++ [.finish 2 none, .tWaitRet 1, .tClose 1, .tExit 1, .kClosed 1])).hist 2 = some none := by
  decide +kernel

/-! ## C06: how Kill treats ErrDying values -/

/-- C06: what Kill passes on to its tomb. `dyings e` lists the catacombs whose ErrDying occurs in the tree of `e`. -/
theorem C06_kill_arg (own : Nat) :
    killArg own none = none ∧ killArg own (some .tombDying) = some .badKillTombDying ∧
    (∀ e, e ≠ .tombDying → dyings e = [] → killArg own (some e) = some e) ∧
    (∀ e c l, dyings e = c :: l → c ≠ own → killArg own (some e) = some .badKillOther) ∧
    (∀ e l, dyings e = own :: l → killArg own (some e) = some .tombDying) := by
  refine ⟨rfl, rfl, ?_, ?_, ?_⟩
  · intro e he hd
    simp [killArg, asDying_eq, he, hd]
  · intro e c l hd hc
    have he : e ≠ .tombDying := by rintro rfl; simp [dyings, Err.tree] at hd
    simp [killArg, asDying_eq, he, hd, Ne.symm hc]
  · intro e l hd
    have he : e ≠ .tombDying := by rintro rfl; simp [dyings, Err.tree] at hd
    simp [killArg, asDying_eq, he, hd]

/-- C06: wrapping does not matter, however deep. -/
theorem C06_wrapped (own : Nat) (tags : List Nat) (c : Nat) :
    killArg own (some (tags.foldr Err.wrap (.catDying c))) = if c = own then some .tombDying else some .badKillOther := by
  have hd : dyings (tags.foldr Err.wrap (.catDying c)) = [c] := by
    induction tags with
    | nil => rfl
    | cons t l ih => simpa [dyings, Err.tree] using ih
  split
  · rename_i h; subst h; exact (C06_kill_arg c).2.2.2.2 _ _ hd
  · rename_i h; exact (C06_kill_arg own).2.2.2.1 _ _ _ hd h

/-- C06: a Kill call with this catacomb's ErrDying, in whatever wrapping, changes nothing about a dying catacomb. -/
theorem C06_own_dying_ignored {e : Err} {l : List Nat} (he : dyings e = own :: l) (hc : s.crashed = false) (hd : s.dying = true) :
    Catacomb.step own s (.killCall (some e)) = some { s with hist := .kill (some e) :: s.hist } := by
  have ha := (C06_kill_arg own).2.2.2.2 e l he
  have hr : s.tomb.reason ≠ none := by
    intro hx; simp [State.dying, Tomb.dying, hx] at hd
  have ht : s.tomb.kill (some .tombDying) = s.tomb := by simp [Tomb.kill, hr]
  have hp : s.tomb.panicked = false := by
    simp only [State.crashed, Bool.or_eq_false_iff] at hc; exact hc.1
  simp only [Catacomb.step, hc, Bool.false_eq_true, if_false, Op.inv?, Op.add?, Op.track?, stepMain, kill, ha, ht, hp]

example : dyings (.join (.user 1) (.wrap 3 (.join (.catDying 7) (.catDying 8)))) = [7, 8] ∧
    (CDemo.after 7 (CDemo.opsFailed (.user 5))).dying = true ∧ (CDemo.after 7 (CDemo.opsFailed (.user 5))).crashed = false := by
  decide +kernel

/-! ## C07: no panics -/

/-- C07: no WaitGroup operation ever panics, whatever user code does. -/
theorem C07_waitgroup (hr : Reach own s) : s.wgPanic = false := hr.shape.noPanic

/-- C07: nothing panics if user code never supplies tomb.ErrStillAlive and uses this catacomb's ErrDying only after having
got it from ErrDying or Add. -/
theorem C07_no_panic (hr : Reach own s) (hp : Proper own s.hist) : s.crashed = false := hr.no_crash hp

/-- C07: and then no Kill call panics. -/
theorem C07_no_panic_event (hr : Reach own s) (hp : Proper own s.hist) (who : Caller) (e : Option Err) : .killPanics who e ∉ s.hist := by
  intro hm
  obtain ⟨post, pre, hh⟩ := List.append_of_mem hm
  have hk := hr.events
  rw [hh] at hk hp
  exact no_panic (drop hk) (drop hp)

/-- The life of the demo is proper; so is one in which the work func returns the ErrDying it got. -/
example : Proper 7 (CDemo.after 7 CDemo.opsLife).hist := by
  have : (CDemo.after 7 CDemo.opsLife).hist.all (fun ev => match supplied ev with
      | some e => decide (e ≠ .tombStillAlive ∧ 7 ∉ dyings e)
      | none => true) = true := by decide +kernel
  have key : ∀ h : List Ev, h.all (fun ev => match supplied ev with
      | some e => decide (e ≠ .tombStillAlive ∧ 7 ∉ dyings e)
      | none => true) = true → Proper 7 h := by
    intro h
    induction h with
    | nil => intro _; trivial
    | cons e h ih =>
      intro hx
      simp only [List.all_cons, Bool.and_eq_true] at hx
      refine ⟨?_, ih hx.2⟩
      intro x hs
      have h1 := hx.1
      simp only [hs, decide_eq_true_eq] at h1
      exact ⟨h1.1, fun hy => absurd hy h1.2⟩
  exact key _ this

/-- Both provisos are needed: Kill(tomb.ErrStillAlive) panics, and so does this catacomb's ErrDying while it is alive. -/
theorem C07_provisos : (CDemo.after 7 (CDemo.opsUp ++ [.killCall (some .tombStillAlive)])).crashed = true ∧
    (CDemo.after 7 (CDemo.opsUp ++ [.killCall (some (.catDying 7))])).crashed = true := by decide +kernel

/-! ## C08: Invoke -/

/-- C08: Plan.Validate accepts exactly the plans with a name, a site, a work func and no nil Init worker. -/
theorem C08_validate (p : Plan) : p.validate = none ↔ p.name = true ∧ p.site = true ∧ p.work = true ∧ none ∉ p.init := validate_iff

/-- C08: and its error is about the first thing that is wrong. -/
theorem C08_validate_error (p : Plan) (x : PlanErr) : p.validate = some x ↔ Fault p x := by
  refine ⟨validate_fault, fun h => ?_⟩
  cases hv : p.validate with
  | none => exact absurd (validate_iff.1 hv) (Catacomb.Fault.not_valid h)
  | some y =>
    have hy := validate_fault hv
    congr 1
    cases x <;> cases y <;> simp_all [Fault]
    rename_i i j
    apply Classical.byContradiction
    intro hne
    rcases Nat.lt_or_gt_of_ne hne with hl | hl
    · exact h.2.2.2.2 _ hl hy.1
    · exact hy.2 _ hl h.2.2.2.1

example : Fault { init := [some 1, none, none] } (.nilInit 1) := by simp [Fault]

/-- C08: an Invoke call that returns nil had a valid plan, and no other call got past the used check; the work func has
been called and all of Init is tracked. -/
theorem C08_invoke_nil (hr : Reach own s) {post pre : List Ev} {i : Nat} (hh : s.hist = post ++ .invokeRet i none :: pre) :
    .workCall ∈ pre ∧ (∀ j, .claimed j ∈ s.hist → j = i) ∧ ∃ p, .callInvoke i p ∈ pre ∧ Valid p ∧
      ∀ w, some w ∈ p.init → ∃ k j, .tracked k w (.init i j) ∈ pre := by
  have hk := hr.events
  have hk2 := hk
  rw [hh] at hk
  obtain ⟨h1, h2, _⟩ : EvOk own (.invokeRet i none) pre := hk.split
  have hkp := (drop hk).2
  refine ⟨h2, fun j hj => one_claim hk2 hj (by rw [hh]; simp [h1]), ?_⟩
  obtain ⟨q1, q2, h5, ⟨p, h3, h4⟩, _⟩ := AtEvery.mem hkp h1
  refine ⟨p, by rw [h5]; simp [h3], h4, ?_⟩
  intro w hw
  obtain ⟨r1, r2, h6, _, i', p', h7, h8, h9⟩ := AtEvery.mem hkp h2
  have : i' = i := one_claim hkp (by rw [h6]; simp [h7]) h1
  subst this
  have : p' = p := one_plan (i := i') hkp (by rw [h6]; simp [h8]) (by rw [h5]; simp [h3])
  subst this
  obtain ⟨j, hj⟩ := List.mem_iff_getElem?.1 hw
  obtain ⟨k, hk⟩ := h9 j w hj
  exact ⟨k, j, by rw [h6]; simp [hk]⟩

/-- C08: an Invoke call that returns an error had an invalid plan, or came after another one got past the used check; it
has Kill()ed every non-nil Init worker, and all of them have finished. -/
theorem C08_invoke_error (hr : Reach own s) {post pre : List Ev} {i : Nat} {e : InvErr} (hh : s.hist = post ++ .invokeRet i (some e) :: pre) :
    ∃ p, .callInvoke i p ∈ pre ∧ ((∃ x, e = .invalid x ∧ Fault p x) ∨ (e = .used ∧ Valid p ∧ ∃ j, j ≠ i ∧ .claimed j ∈ pre)) ∧
      ∀ w, some w ∈ p.init → .killI i w ∈ pre ∧ (finishedH pre w).isSome = true := by
  have hk := hr.events
  rw [hh] at hk
  obtain ⟨_, p, h1, h2, h3, _, h5⟩ : EvOk own (.invokeRet i (some e)) pre := hk.split
  refine ⟨p, h1, ?_, h5⟩
  cases e with
  | used => exact Or.inr ⟨rfl, h3, h2.resolve_left (fun hx => hx h3)⟩
  | invalid x => exact Or.inl ⟨x, rfl, h3⟩

/-- C08: at most one Invoke call ever gets past the used check. -/
theorem C08_one_claim (hr : Reach own s) {i j : Nat} (hi : .claimed i ∈ s.hist) (hj : .claimed j ∈ s.hist) : i = j :=
  one_claim hr.events hi hj

/-- C08: whether an Invoke call gets past the checks is decided in one step: it does exactly if its plan is valid and no
other call has. -/
theorem C08_check (hr : Reach own s) {i : Nat} {p : Plan} {s' : State} (hc : .callInvoke i p ∈ s.hist)
    (hs : Catacomb.step own s (.iBegin i) = some s') : .claimed i ∈ s'.hist ↔ Valid p ∧ ∀ j, .claimed j ∉ s.hist := by
  obtain ⟨v, hv, rfl⟩ := hr.hinv.invs.all i p hc
  have hI := hr.hinv.invs.ok i v hv
  have nclaim : ∀ {i' : Nat} {v' : InvCall}, s.invs[i']? = some v' → v'.pc = .start → .claimed i' ∉ s.hist := by
    intro i' v' hv' hp
    have := (hr.hinv.invs.ok i' v' hv').pc
    rw [hp] at this; exact this
  have hT := (step_T hs).2
  generalize hop : Op.iBegin i = op at hT
  cases hT with
  | iInvalid _ v' e hv' hp he =>
    cases hop
    rw [hv] at hv'; cases hv'
    have hnv : ¬ Valid v.plan := fun hx => by rw [validate_iff.2 hx] at he; cases he
    exact ⟨fun hx => absurd hx (nclaim hv hp), fun hx => absurd hx.1 hnv⟩
  | iUsed _ v' o hv' hp he ho =>
    cases hop
    rw [hv] at hv'; cases hv'
    exact ⟨fun hx => absurd hx (nclaim hv hp), fun hx => absurd ((hr.hinv.invs.own o).1 ho) (hx.2 o)⟩
  | iClaim _ v' hv' hp he ho =>
    cases hop
    rw [hv] at hv'; cases hv'
    refine ⟨fun _ => ⟨validate_iff.1 he, ?_⟩, fun _ => List.mem_cons_self⟩
    intro j hj
    have := (hr.hinv.invs.own j).2 hj
    rw [ho] at this; cases this
  | killPanics who => cases who <;> cases hop
  | _ => cases hop

/-- One successful Invoke, a second one refused, and one with an invalid plan that still stops its worker. -/
example :
    .invokeRet 0 none ∈ (CDemo.after 7 CDemo.opsUp).hist ∧
    (CDemo.after 7 (CDemo.opsUp ++ [.callInvoke { init := [some 4] }, .iBegin 1, .iKill 1, .finish 4 none, .iWaitRet 1, .iFail 1])).hist.head? =
      some (.invokeRet 1 (some .used)) ∧
    (CDemo.after 7 [.callInvoke { init := [some 4, none] }, .iBegin 0, .iKill 0, .finish 4 none, .iWaitRet 0, .iKill 0, .iFail 0]).hist =
      [.invokeRet 0 (some (.invalid (.nilInit 1))), .finished 4 none, .killI 0 4, .callInvoke 0 { init := [some 4, none] }] := by
  decide +kernel

/-! ## C10: panics and Goexit in the work func -/

/-- C10: when the work func panics, the panic value reaches Kill as an error. -/
theorem C10_panic (hr : Reach own s) {v : Nat} {e : Option Err} (hp : .workRet (.panic v) ∈ s.hist) (hk : .workKill e ∈ s.hist) :
    e = some (.panicked v) := by
  obtain ⟨post, pre, hh, ⟨r, h1, h2⟩, _⟩ := AtEvery.mem hr.events hk
  have : r = .panic v := by
    have := unique (key := fun e => ∃ r, e = .workRet r) (by
      rintro e h he ⟨r, rfl⟩ x hx ⟨r', rfl⟩; exact he.2 r' hx) hr.events (a := .workRet r) (b := .workRet (.panic v))
      (by rw [hh]; simp [h1]) hp ⟨_, rfl⟩ ⟨_, rfl⟩
    injection this
  subst this
  rcases h2 with h2 | ⟨v', h2, h3⟩
  · cases h2
  · cases h2; exact h3

/-- C10: so Wait returns an error after a panic: the panic itself, unless there was another error before it. -/
theorem C10_wait (hr : Reach own s) {v : Nat} (hp : .workRet (.panic v) ∈ s.hist) {r : Option Err} (hw : .waitRet r ∈ s.hist) :
    ∃ x, r = some x ∧ (x = .panicked v ∨ ∃ p1 p2, s.hist = p1 ++ .workKill (some (.panicked v)) :: p2 ∧ firstError own p2 = some x) := by
  obtain ⟨post, pre, hh, h1, h2⟩ := AtEvery.mem hr.events hw
  obtain ⟨q1, q2, h3, _, ⟨e, h4⟩, _⟩ := AtEvery.mem (drop (hh ▸ hr.events : AtEvery (EvOk own) (post ++ Ev.waitRet r :: pre))).2 h1
  have he : e = some (.panicked v) := C10_panic hr hp (by rw [hh, h3]; simp [h4])
  subst he
  obtain ⟨r1, r2, rfl⟩ := List.append_of_mem h4
  have hpre : pre = (q1 ++ Ev.dead :: r1) ++ Ev.workKill (some (.panicked v)) :: r2 := by rw [h3]; simp
  have hE : errorOf own (.workKill (some (.panicked v))) = some (.panicked v) := by
    simp [errorOf, killOf, effective, dyings, Err.tree]
  cases hf : firstError own r2 with
  | none =>
    have : firstError own pre = some (.panicked v) := by
      rw [hpre]
      refine fe_post ?_
      rw [firstError_cons, hf, hE]; rfl
    exact ⟨_, h2.trans this, Or.inl rfl⟩
  | some x =>
    have : firstError own pre = some x := by
      rw [hpre]
      refine fe_post ?_
      rw [firstError_cons, hf]; rfl
    refine ⟨x, h2.trans this, Or.inr ⟨post ++ Ev.waitRet r :: (q1 ++ Ev.dead :: r1), r2, ?_, hf⟩⟩
    rw [hh, hpre]; simp

/-- C10: a catacomb whose work func has called runtime.Goexit never dies, whatever happens. -/
theorem C10_goexit (hr : Reach own s) (hg : .workRet .goexit ∈ s.hist) : .dead ∉ s.hist ∧ ∀ r, .waitRet r ∉ s.hist := by
  have hd : .dead ∉ s.hist := by
    intro hm
    have := (hr.shape.dead.1 (hr.hinv.tomb.dead.2 hm)).2
    rw [hr.hinv.work.exit.2 hg] at this; cases this
  refine ⟨hd, fun r hm => ?_⟩
  obtain ⟨post, pre, hh, h1, _⟩ := AtEvery.mem hr.events hm
  exact hd (by rw [hh]; simp [h1])

/-- C10: and Goexit by itself does not even make it dying: the Dying channel stays open unless something else kills it. -/
theorem C10_goexit_alive (hr : Reach own s) (hg : .workRet .goexit ∈ s.hist) (hd : s.dying = true) :
    (∃ e, .kill e ∈ s.hist) ∨ ∃ k w src e, .tracked k w src ∈ s.hist ∧ finishedH s.hist w = some (some e) := by
  rcases C05_why_dying hr hd with h | ⟨r, h, hne⟩ | h
  · exact Or.inl h
  · have := unique (key := fun e => ∃ r, e = .workRet r) (by
      rintro e h he ⟨r, rfl⟩ x hx ⟨r', rfl⟩; exact he.2 r' hx) hr.events h hg ⟨_, rfl⟩ ⟨_, rfl⟩
    injection this with this
    exact absurd this hne
  · exact Or.inr h

/-- A panic with a worker outstanding, which is then killed; and a Goexit after which even Kill does not help. -/
example :
    (CDemo.after 7 (CDemo.opsUp ++ [.workRet (.panic 3), .workKill, .wgWait, .kDying 0, .finish 1 none, .tWaitRet 0, .tClose 0, .tExit 0, .kWaitRet 0,
      .lDying, .wgWake, .workEnd, .waitCall])).hist.head? = some (.waitRet (some (.panicked 3))) ∧
    .workRet .goexit ∈ (CDemo.after 7 (CDemo.opsUp ++ [.workRet .goexit, .killCall (some (.user 1)), .wgWait, .kDying 0, .finish 1 none, .tWaitRet 0,
      .tClose 0, .tExit 0, .kWaitRet 0, .lDying, .wgWake, .workEnd])).hist ∧
    (CDemo.after 7 (CDemo.opsUp ++ [.workRet .goexit, .killCall (some (.user 1)), .wgWait, .kDying 0, .finish 1 none, .tWaitRet 0,
      .tClose 0, .tExit 0, .kWaitRet 0, .lDying, .wgWake, .workEnd])).work = .done := by decide +kernel

/-! ## C11: Kill after death -/

/-- C11, the true part: a non-nil result never changes. -/
theorem C11_error_stays (hr : Reach own s) {post mid pre : List Ev} {x : Err} {r : Option Err}
    (hh : s.hist = post ++ .waitRet r :: (mid ++ .waitRet (some x) :: pre)) : r = some x := by
  have hk := hr.events
  rw [hh] at hk
  obtain ⟨_, h2⟩ : _ ∧ r = firstError own (mid ++ .waitRet (some x) :: pre) := hk.split
  obtain ⟨_, h3⟩ : _ ∧ some x = firstError own pre := (drop (drop hk).2).1
  rw [h2]
  refine fe_post ?_
  rw [firstError_cons, ← h3]; rfl

/-- C11: and a nil result changes only if somebody calls Kill with an error after death. -/
theorem C11_changes_only_by_kill (hr : Reach own s) {post mid pre : List Ev} {r r' : Option Err}
    (hh : s.hist = post ++ .waitRet r :: (mid ++ .waitRet r' :: pre)) (hne : r ≠ r') :
    r' = none ∧ ∃ k, .kill k ∈ mid ∧ r = effective own k := by
  have hk := hr.events
  cases r' with
  | some x => exact absurd (C11_error_stays hr hh) hne
  | none =>
    refine ⟨rfl, ?_⟩
    rw [hh] at hk
    obtain ⟨hd, h2⟩ : _ ∧ r = firstError own (mid ++ .waitRet none :: pre) := hk.split
    have hkm := (drop hk).2
    obtain ⟨hd', h3⟩ : Ev.dead ∈ pre ∧ none = firstError own pre := (drop hkm).1
    cases r with
    | none => exact absurd rfl hne
    | some x =>
      obtain ⟨p1, e, p2, h4, h5, _⟩ := firstError_some h2.symm
      have hem : e ∈ mid := by
        have : e ∈ mid ++ Ev.waitRet none :: pre := by rw [h4]; simp
        rcases List.mem_append.1 this with h | h
        · exact h
        · rcases List.mem_cons.1 h with h | h
          · subst h; cases h5
          · have := firstError_none.1 h3.symm e h
            rw [this] at h5; cases h5
      obtain ⟨m1, m2, rfl⟩ := List.append_of_mem hem
      rw [List.append_assoc] at hkm
      have hev : EvOk own e (m2 ++ Ev.waitRet none :: pre) := (drop hkm).1
      have hdead : .dead ∈ m2 ++ Ev.waitRet none :: pre := by simp [hd']
      cases e with
      | kill k => exact ⟨k, by simp, h5.symm⟩
      | workerKill n y => exact absurd hdead hev.2.2
      | workKill k =>
        obtain ⟨q1, q2, h6, h7⟩ := AtEvery.mem (drop hkm).2 hdead
        obtain ⟨k', hk'⟩ := h7.2.1
        have h6' : m2 ++ Ev.waitRet none :: pre = q1 ++ Ev.dead :: q2 := h6
        exact absurd (by rw [h6']; simp [hk']) (hev.2 k')
      | _ => cases h5

/-- C11: the documented claim "errors passed to Kill after the catacomb is dead will be ignored" is false: an execution in
which Wait returns nil, and after a further Kill call an error. -/
theorem C11_negation : ∃ (s : State) (post mid pre : List Ev) (e : Err), Reach 7 s ∧
    s.hist = post ++ .waitRet (some e) :: (mid ++ .waitRet none :: pre) ∧ .dead ∈ pre ∧ mid = [.kill (some e)] := by
  refine ⟨CDemo.after 7 (CDemo.opsClean ++ [.killCall (some (.user 9)), .waitCall]), [], [.kill (some (.user 9))],
    (CDemo.after 7 CDemo.opsClean).hist.tail, .user 9, CDemo.after_reach _ _, ?_, ?_, rfl⟩ <;> decide +kernel

example : ∃ post mid pre, (CDemo.after 7 (CDemo.opsLife ++ [.killCall (some (.user 9)), .waitCall])).hist =
    post ++ .waitRet (some (.user 5)) :: (mid ++ .waitRet (some (.user 5)) :: pre) ∧ .kill (some (.user 9)) ∈ mid := by
  refine ⟨[], [.kill (some (.user 9))], (CDemo.after 7 CDemo.opsLife).hist.tail, ?_, ?_⟩ <;> decide +kernel

end Verif.Props
