import Verif.Catacomb.Trans

/-!
# Catacomb: how the parts of a reachable state fit together
-/

namespace Verif.Catacomb
open State

/-! ## Lists -/

theorem get_set {α : Type} {l : List α} {k i : Nat} {x y : α} (h : (l.set k x)[i]? = some y) :
    (i = k ∧ y = x) ∨ (i ≠ k ∧ l[i]? = some y) := by
  rw [List.getElem?_set] at h
  split at h
  · rename_i he
    split at h
    · exact Or.inl ⟨he.symm, by cases h; rfl⟩
    · cases h
  · rename_i he; exact Or.inr ⟨fun hx => he hx.symm, h⟩

theorem get_set_self {α : Type} {l : List α} {k : Nat} {x y : α} (h : l[k]? = some y) : (l.set k x)[k]? = some x := by
  rw [List.getElem?_set_self (List.getElem?_eq_some_iff.1 h).1]

theorem get_set_ne {α : Type} {l : List α} {k i : Nat} {x : α} (h : i ≠ k) : (l.set k x)[i]? = l[i]? :=
  List.getElem?_set_ne (Ne.symm h)

theorem get_append {α : Type} {l : List α} {i : Nat} {x y : α} (h : (l ++ [x])[i]? = some y) :
    l[i]? = some y ∨ (i = l.length ∧ y = x) := by
  by_cases hi : i < l.length
  · rw [List.getElem?_append_left hi] at h; exact Or.inl h
  · rw [List.getElem?_append_right (by omega)] at h
    have : i - l.length = 0 := by
      have := (List.getElem?_eq_some_iff.1 h).1
      simp at this; omega
    rw [this] at h
    exact Or.inr ⟨by omega, by cases h; rfl⟩

theorem get_append_old {α : Type} {l : List α} {i : Nat} {x y : α} (h : l[i]? = some y) : (l ++ [x])[i]? = some y := by
  rw [List.getElem?_append_left (List.getElem?_eq_some_iff.1 h).1]; exact h

theorem sum_set {α : Type} (f : α → Nat) {l : List α} {k : Nat} {x y : α} (h : l[k]? = some y) :
    ((l.set k x).map f).sum + f y = (l.map f).sum + f x := by
  induction l generalizing k with
  | nil => simp at h
  | cons a l ih =>
    cases k with
    | zero =>
      rw [List.getElem?_cons_zero] at h
      cases h
      simp only [List.set_cons_zero, List.map_cons, List.sum_cons]; omega
    | succ k =>
      rw [List.getElem?_cons_succ] at h
      simp only [List.set_cons_succ, List.map_cons, List.sum_cons]
      have := ih h; omega

theorem le_sum {α : Type} (f : α → Nat) {l : List α} {k : Nat} {y : α} (h : l[k]? = some y) : f y ≤ (l.map f).sum := by
  have := sum_set f (x := y) h
  induction l generalizing k with
  | nil => simp at h
  | cons a l ih =>
    cases k with
    | zero => rw [List.getElem?_cons_zero] at h; cases h; simp only [List.map_cons, List.sum_cons]; omega
    | succ k =>
      rw [List.getElem?_cons_succ] at h
      have := ih h (sum_set f (x := y) h)
      simp only [List.map_cons, List.sum_cons]; omega

/-! ## The invariant -/

/-- The WaitGroup counts of the two goroutines of a tracked worker. -/
def tcount (t : Track) : Nat := (if t.waiter = .done then 0 else 1) + (if t.killer = .done then 0 else 1)

/-- … and of the listen goroutine. -/
def lcount : LPc → Nat
  | .none | .done => 0
  | _ => 1

/-- This Invoke call got past the used check. -/
def IPc.active : IPc → Bool
  | .adding .. | .go | .ok | .returned none => true
  | _ => false

/-- How far the owner is determines which goroutines there are. -/
def PhaseOk (s : State) : IPc → Prop
  | .adding .. => s.listener = .none ∧ s.work = .none
  | .go => s.listener ≠ .none ∧ s.work = .none
  | _ => s.listener ≠ .none ∧ s.work ≠ .none

/-- The work goroutine is beyond wg.Wait. -/
def GPc.waited : GPc → Bool
  | .woken | .ret | .done => true
  | _ => false

/-- The work goroutine is beyond the work func and Kill. -/
def GPc.over : GPc → Bool
  | .wait | .asleep | .woken | .ret | .done => true
  | _ => false

structure TrackOk (fins : AMap (Option Err)) (dying : Bool) (t : Track) : Prop where
  kill : ∀ e, t.waiter = .kill e → fins.get? t.w = some (some e)
  fin : t.waiter ≠ .wait → (fins.get? t.w).isSome = true
  killer : t.killer = .done → (fins.get? t.w).isSome = true
  stop : t.killer = .stop → dying = true

structure Shape (s : State) : Prop where
  noPanic : s.wgPanic = false
  count : s.wg.n = lcount s.listener + (s.tracks.map tcount).sum
  waiters : s.wg.waiters = if s.work = .asleep then 1 else 0
  asleep : s.work = .asleep → s.wg.n ≠ 0
  waited : s.work.waited = true → s.wg.n = 0
  lst : s.listener = .done → s.dying = true
  act : ∀ (i : Nat) v, s.invs[i]? = some v → v.pc.active = true → s.owner = some i
  own : ∀ i, s.owner = some i → ∃ v, s.invs[i]? = some v ∧ v.pc.active = true ∧ PhaseOk s v.pc
  noOwn : s.owner = none → s.listener = .none ∧ s.work = .none ∧ s.tracks = []
  alive : s.tomb.alive = if s.work = .none ∨ (s.work = .done ∧ s.goexit = false) then 0 else 1
  dead : s.tomb.dead = true ↔ s.work = .done ∧ s.goexit = false
  goexit : s.goexit = true → s.work.over = true
  over : s.work.over = true → s.goexit = true ∨ s.dying = true
  tracks : ∀ (k : Nat) t, s.tracks[k]? = some t → TrackOk s.fin s.dying t
  stop : ∀ (c : Nat) a, s.adds[c]? = some a → a.pc = .stop → s.dying = true
  plans : ∀ (i : Nat) v, s.invs[i]? = some v → ∀ j ws, v.pc = .adding j ws → ∀ x ∈ ws, x ≠ none

theorem shape_init : Shape init := by
  refine ⟨rfl, rfl, rfl, nofun, nofun, nofun, ?_, nofun, ?_, rfl, ?_, nofun, nofun, ?_, ?_, ?_⟩
  · intro i v h; simp [Catacomb.init] at h
  · intro _; exact ⟨rfl, rfl, rfl⟩
  · simp [Catacomb.init]
  · intro i v h; simp [Catacomb.init] at h
  · intro i v h; simp [Catacomb.init] at h
  · intro i v h; simp [Catacomb.init] at h

/-! ## WaitGroup operations -/

theorem wgDone_eq {s : State} (hn : s.wg.n ≠ 0) (hw : s.wg.waiters = if s.work = .asleep then 1 else 0) :
    wgDone s = { s with wg := { n := s.wg.n - 1, waiters := if s.wg.n = 1 then 0 else s.wg.waiters },
                        work := if s.work = .asleep ∧ s.wg.n = 1 then .woken else s.work } := by
  unfold wgDone Wg.done
  rw [if_neg hn]
  by_cases h1 : s.wg.n = 1
  · rw [if_pos h1]
    simp only [h1, if_true, Nat.sub_self, and_true]
    by_cases ha : s.work = .asleep
    · rw [if_pos ha] at hw; simp [ha, hw]
    · rw [if_neg ha] at hw; simp [ha]
  · rw [if_neg h1]
    simp only [if_neg h1, h1, and_false, if_false]
    by_cases ha : s.work = .asleep
    · rw [if_pos ha] at hw; simp [hw]
    · rw [if_neg ha] at hw; simp [hw]

theorem wgAdd_eq {s : State} {d : Nat} (h : s.wg.waiters = 0 ∨ s.wg.n ≠ 0) :
    wgAdd s d = { s with wg := { s.wg with n := s.wg.n + d } } := by
  unfold wgAdd Wg.add
  rw [if_neg (by rintro ⟨h1, h2⟩; rcases h with h | h <;> contradiction)]

/-! ## Changes that keep the shape -/

/-- Nothing the shape is about has changed, except that the catacomb may have started dying, workers may have finished, and
calls that matter less may have moved on. -/
theorem Shape.frame {s s' : State} (h : Shape s) (h1 : s'.wgPanic = s.wgPanic) (h2 : s'.wg = s.wg) (h3 : s'.owner = s.owner)
    (h4 : s'.listener = s.listener) (h5 : s'.work = s.work) (h6 : s'.goexit = s.goexit) (h7 : s'.tracks = s.tracks)
    (h8 : s'.tomb.alive = s.tomb.alive) (h9 : s'.tomb.dead = s.tomb.dead) (h10 : s.dying = true → s'.dying = true)
    (h11 : ∀ w e, s.fin.get? w = some e → s'.fin.get? w = some e)
    (h12 : ∀ (i : Nat) v, s'.invs[i]? = some v → (∃ v0, s.invs[i]? = some v0 ∧ v0.pc = v.pc) ∨
      (v.pc.active = false))
    (h13 : ∀ (i : Nat) v, s.invs[i]? = some v → v.pc.active = true → ∃ v', s'.invs[i]? = some v' ∧ v'.pc = v.pc)
    (h14 : ∀ (c : Nat) a, s'.adds[c]? = some a → a.pc = .stop → s'.dying = true) : Shape s' := by
  have hsome : ∀ w, (s.fin.get? w).isSome = true → (s'.fin.get? w).isSome = true := by
    intro w hw
    obtain ⟨e, he⟩ := Option.isSome_iff_exists.1 hw
    rw [h11 w e he]; rfl
  refine ⟨h1 ▸ h.noPanic, ?_, ?_, ?_, ?_, ?_, ?_, ?_, ?_, ?_, ?_, ?_, ?_, ?_, h14, ?_⟩
  · rw [h2, h4, h7]; exact h.count
  · rw [h2, h5]; exact h.waiters
  · rw [h2, h5]; exact h.asleep
  · rw [h2, h5]; exact h.waited
  · rw [h4]; exact fun hx => h10 (h.lst hx)
  · intro i v hi ha
    rw [h3]
    rcases h12 i v hi with ⟨v0, hv, hp⟩ | hp
    · exact h.act i v0 hv (by rw [hp]; exact ha)
    · rw [hp] at ha; cases ha
  · intro i hi
    rw [h3] at hi
    obtain ⟨v, hv, ha, hp⟩ := h.own i hi
    obtain ⟨v', hv', hp'⟩ := h13 i v hv ha
    refine ⟨v', hv', by rw [hp']; exact ha, ?_⟩
    rw [hp']
    unfold PhaseOk at *
    rw [h4, h5]
    exact hp
  · rw [h3, h4, h5, h7]; exact h.noOwn
  · rw [h8, h5, h6]; exact h.alive
  · rw [h9, h5, h6]; exact h.dead
  · rw [h6, h5]; exact h.goexit
  · rw [h6, h5]; exact fun hx => (h.over hx).imp (fun x => x) h10
  · intro k t ht
    rw [h7] at ht
    have := h.tracks k t ht
    exact ⟨fun e he => h11 _ _ (this.kill e he), fun hx => hsome _ (this.fin hx), fun hx => hsome _ (this.killer hx),
      fun hx => h10 (this.stop hx)⟩
  · intro i v hv j ws hp
    rcases h12 i v hv with ⟨v0, hv0, hp0⟩ | hx
    · exact h.plans i v0 hv0 j ws (by rw [hp0, hp])
    · rw [hp] at hx; cases hx

/-- The same when only the state of one Invoke call that is not the owner changes. -/
theorem Shape.inv {s : State} (h : Shape s) {i : Nat} {v : InvCall} (hv : s.invs[i]? = some v) {pc : IPc}
    (ha : v.pc.active = false) (hb : pc.active = false) {hh : List Ev} :
    Shape { s.setInv i { v with pc := pc } with hist := hh } := by
  refine h.frame rfl rfl rfl rfl rfl rfl rfl rfl rfl (fun x => x) (fun _ _ x => x) ?_ ?_ h.stop
  · intro j u hu
    rcases get_set hu with ⟨_, rfl⟩ | ⟨_, hu⟩
    · exact Or.inr hb
    · exact Or.inl ⟨u, hu, rfl⟩
  · intro j u hu hua
    have hne : j ≠ i := by rintro rfl; rw [hv] at hu; cases hu; rw [ha] at hua; cases hua
    exact ⟨u, by show (s.invs.set i _)[j]? = _; rw [get_set_ne hne]; exact hu, rfl⟩

/-- A step of the owner. -/
theorem Shape.owner {s s' : State} (h : Shape s) {i : Nat} {v : InvCall} (hv : s.invs[i]? = some v) {pc : IPc}
    (ha : v.pc.active = true) (hb : pc.active = true) (hi : s'.invs = s.invs.set i { v with pc := pc })
    (ho : s'.owner = s.owner) (hp : PhaseOk s' pc) :
    (∀ (i : Nat) v, s'.invs[i]? = some v → v.pc.active = true → s'.owner = some i) ∧
    (∀ i, s'.owner = some i → ∃ v, s'.invs[i]? = some v ∧ v.pc.active = true ∧ PhaseOk s' v.pc) ∧
    (s'.owner = none → s'.listener = .none ∧ s'.work = .none ∧ s'.tracks = []) := by
  have hown := h.act i v hv ha
  refine ⟨?_, ?_, ?_⟩
  · intro j u hu hua
    rw [hi] at hu
    rw [ho]
    rcases get_set hu with ⟨rfl, _⟩ | ⟨_, hu⟩
    · exact hown
    · exact h.act j u hu hua
  · intro j hj
    rw [ho, hown] at hj
    cases hj
    exact ⟨_, by rw [hi]; exact get_set_self hv, hb, hp⟩
  · intro hx; rw [ho, hown] at hx; cases hx

theorem Shape.phase {s : State} (h : Shape s) {i : Nat} {v : InvCall} (hv : s.invs[i]? = some v) (ha : v.pc.active = true) :
    PhaseOk s v.pc := by
  obtain ⟨u, hu, _, hp⟩ := h.own i (h.act i v hv ha)
  rw [hv] at hu; cases hu; exact hp

/-- Only the listen goroutine, the work goroutine, the WaitGroup, or the goroutines for workers have moved. -/
theorem Shape.calls {s s' : State} (h : Shape s) (hi : s'.invs = s.invs) (ho : s'.owner = s.owner)
    (hl : s'.listener = .none ↔ s.listener = .none) (hw : s'.work = .none ↔ s.work = .none) (ht : s.tracks = [] → s.listener = .none → s'.tracks = []) :
    (∀ (i : Nat) v, s'.invs[i]? = some v → v.pc.active = true → s'.owner = some i) ∧
    (∀ i, s'.owner = some i → ∃ v, s'.invs[i]? = some v ∧ v.pc.active = true ∧ PhaseOk s' v.pc) ∧
    (s'.owner = none → s'.listener = .none ∧ s'.work = .none ∧ s'.tracks = []) := by
  rw [hi, ho]
  refine ⟨h.act, ?_, ?_⟩
  · intro i hx
    obtain ⟨v, h1, h2, h3⟩ := h.own i hx
    refine ⟨v, h1, h2, ?_⟩
    unfold PhaseOk at *
    split at h3 <;> simp only [ne_eq, hl, hw] <;> exact h3
  · intro hx
    obtain ⟨h1, h2, h3⟩ := h.noOwn hx
    exact ⟨hl.2 h1, hw.2 h2, ht h3 h1⟩

/-- wg.Done of one of the counted goroutines. -/
theorem Shape.wgDone {s : State} (h : Shape s) {l : LPc} {tr : List Track}
    (hc : lcount s.listener + (s.tracks.map tcount).sum = lcount l + (tr.map tcount).sum + 1)
    (hl : l = .none ↔ s.listener = .none) (hld : l = .done → s.dying = true)
    (ht : s.tracks = [] → s.listener = .none → tr = []) (htr : ∀ (k : Nat) t, tr[k]? = some t → TrackOk s.fin s.dying t) :
    Shape (wgDone { s with listener := l, tracks := tr }) := by
  have hn : s.wg.n ≠ 0 := by rw [h.count, hc]; omega
  rw [wgDone_eq (s := { s with listener := l, tracks := tr }) hn h.waiters]
  have hnw : s.work.waited = false := by
    cases hx : s.work.waited with
    | false => rfl
    | true => exact absurd (h.waited hx) hn
  have hnone : (if s.work = .asleep ∧ s.wg.n = 1 then GPc.woken else s.work) = .none ↔ s.work = .none := by
    split
    · rename_i hx; rw [hx.1]; simp
    · rfl
  have hover : (if s.work = .asleep ∧ s.wg.n = 1 then GPc.woken else s.work).over = s.work.over := by
    split
    · rename_i hx; rw [hx.1]; rfl
    · rfl
  have hdone : (if s.work = .asleep ∧ s.wg.n = 1 then GPc.woken else s.work) = .done ↔ s.work = .done := by
    split
    · rename_i hx; rw [hx.1]; simp
    · rfl
  obtain ⟨c1, c2, c3⟩ := h.calls (s' := { s with
    wg := { n := s.wg.n - 1, waiters := if s.wg.n = 1 then 0 else s.wg.waiters },
    work := if s.work = .asleep ∧ s.wg.n = 1 then .woken else s.work, listener := l, tracks := tr }) rfl rfl hl hnone ht
  refine ⟨h.noPanic, ?_, ?_, ?_, ?_, hld, c1, c2, c3, ?_, ?_, ?_, ?_, ?_, h.stop, h.plans⟩
  · show s.wg.n - 1 = _
    rw [h.count, hc]; simp
  · show (if s.wg.n = 1 then 0 else s.wg.waiters) = _
    by_cases h1 : s.wg.n = 1
    · rw [if_pos h1]
      by_cases ha : s.work = .asleep
      · simp [ha, h1]
      · simp [ha]
    · rw [if_neg h1, h.waiters]; simp [h1]
  · show (if s.work = .asleep ∧ s.wg.n = 1 then GPc.woken else s.work) = .asleep → s.wg.n - 1 ≠ 0
    intro hx
    split at hx
    · cases hx
    · rename_i hy
      have : s.wg.n ≠ 1 := fun hz => hy ⟨hx, hz⟩
      omega
  · show (if s.work = .asleep ∧ s.wg.n = 1 then GPc.woken else s.work).waited = true → s.wg.n - 1 = 0
    intro hx
    split at hx
    · rename_i hy; omega
    · rw [hnw] at hx; cases hx
  · show s.tomb.alive = _
    rw [h.alive]; simp only [hnone, hdone]
  · show s.tomb.dead = true ↔ (if s.work = .asleep ∧ s.wg.n = 1 then GPc.woken else s.work) = .done ∧ s.goexit = false
    rw [h.dead, hdone]
  · show s.goexit = true → (if s.work = .asleep ∧ s.wg.n = 1 then GPc.woken else s.work).over = true
    rw [hover]; exact h.goexit
  · show (if s.work = .asleep ∧ s.wg.n = 1 then GPc.woken else s.work).over = true → _
    rw [hover]; exact h.over
  · exact htr

/-- A change of the goroutines of one worker that keeps its count. -/
theorem Shape.track {s : State} (h : Shape s) {k : Nat} {t t' : Track} (ht : s.tracks[k]? = some t) (hc : tcount t' = tcount t)
    (hok : TrackOk s.fin s.dying t') {hh : List Ev} : Shape { s.setTrack k t' with hist := hh } := by
  obtain ⟨c1, c2, c3⟩ := h.calls (s' := { s.setTrack k t' with hist := hh }) rfl rfl (Iff.rfl) (Iff.rfl) (by
    intro hx; rw [hx] at ht; simp at ht)
  refine ⟨h.noPanic, ?_, h.waiters, h.asleep, h.waited, h.lst, c1, c2, c3, h.alive, h.dead, h.goexit, h.over, ?_, h.stop, h.plans⟩
  · show s.wg.n = lcount s.listener + ((s.tracks.set k t').map tcount).sum
    have := sum_set tcount (x := t') ht
    rw [h.count]; omega
  · intro j u hu
    rcases get_set hu with ⟨_, rfl⟩ | ⟨_, hu⟩
    · exact ⟨hok.1, hok.2, hok.3, hok.4⟩
    · exact h.tracks j u hu

/-- wg.Done by one of the goroutines of a worker. -/
theorem Shape.trackDone {s : State} (h : Shape s) {k : Nat} {t t' : Track} (ht : s.tracks[k]? = some t)
    (hc : tcount t = tcount t' + 1) (hok : TrackOk s.fin s.dying t') : Shape (Catacomb.wgDone (s.setTrack k t')) := by
  refine h.wgDone (l := s.listener) (tr := s.tracks.set k t') ?_ Iff.rfl h.lst ?_ ?_
  · have := sum_set tcount (x := t') ht
    omega
  · intro hx; rw [hx] at ht; simp at ht
  · intro j u hu
    rcases get_set hu with ⟨_, rfl⟩ | ⟨_, hu⟩
    · exact hok
    · exact h.tracks j u hu

/-- Kill keeps the shape. -/
theorem Shape.kill {s : State} (h : Shape s) (e : Option Err) {hh : List Ev} : Shape { s with tomb := s.tomb.kill e, hist := hh } := by
  refine h.frame rfl rfl rfl rfl rfl rfl rfl (Tomb.kill_alive _ _) (Tomb.kill_dead _ _)
    (Tomb.kill_dying_of_dying _ _) (fun _ _ x => x) (fun i v hv => Or.inl ⟨v, hv, rfl⟩) (fun i v hv _ => ⟨v, hv, rfl⟩) ?_
  intro c a hc hp
  exact Tomb.kill_dying_of_dying _ _ (h.stop c a hc hp)

/-- If the tomb did not panic it is dying afterwards. -/
theorem Tomb_kill_dying {t : Tomb} {e : Option Err} (h : (t.kill e).panicked = false) : (t.kill e).dying = true := by
  unfold Tomb.kill Tomb.dying at *
  split
  · rename_i hx; simp [hx] at h
  · rename_i hx
    split
    · rename_i hy
      simp only [hx, hy, if_true] at h
      split
      · rename_i hz; simp [hz] at h
      · rename_i hz
        cases hr : t.reason with
        | none => exact absurd hr hz
        | some _ => rfl
    · split <;> simp_all

theorem addOk {s : State} (h : Shape s) (hw : s.work = .none ∨ s.listener ≠ .none ∧ s.listener ≠ .done) :
    s.wg.waiters = 0 ∨ s.wg.n ≠ 0 := by
  rcases hw with hw | hw
  · left; rw [h.waiters, hw]; rfl
  · right
    rw [h.count]
    have : lcount s.listener = 1 := by
      cases hl : s.listener with
      | none => exact absurd hl hw.1
      | done => exact absurd hl hw.2
      | _ => rfl
    omega

theorem trackOk_new (f : AMap (Option Err)) (d : Bool) (w : Nat) : TrackOk f d ⟨w, .wait, .select⟩ :=
  ⟨nofun, fun h => absurd rfl h, nofun, nofun⟩

theorem nilInit_none {i : Nat} {ws : List (Option Nat)} : nilInit i ws = none ↔ ∀ x ∈ ws, x ≠ none := by
  induction ws generalizing i with
  | nil => simp [nilInit]
  | cons x ws ih =>
    cases x with
    | none => simp [nilInit]
    | some w =>
      rw [nilInit, ih]
      simp

theorem validate_none {p : Plan} (h : p.validate = none) : p.name = true ∧ p.site = true ∧ p.work = true ∧ ∀ x ∈ p.init, x ≠ none := by
  unfold Plan.validate at h
  split at h
  · cases h
  · split at h
    · cases h
    · split at h
      · cases h
      · rename_i h1 h2 h3
        exact ⟨by simpa using h1, by simpa using h2, by simpa using h3, nilInit_none.1 h⟩

/-- A step of the work goroutine (which may kill the tomb). -/
theorem Shape.work' {s : State} (h : Shape s) {w w0 : GPc} {g : Bool} {tb : Tomb} {hh : List Ev} (hw : s.work = w0) (hw0 : w0 ≠ .none)
    (hna : w ≠ .none) (hwait : w.waited = true → s.wg.n = 0) (hg : g = true → w.over = true)
    (hov : w.over = true → g = true ∨ tb.dying = true)
    (hal : tb.alive = if w = .none ∨ (w = .done ∧ g = false) then 0 else 1)
    (hd : tb.dead = true ↔ w = .done ∧ g = false) (hdy : s.dying = true → tb.dying = true) (hn1 : w0 ≠ .asleep := by nofun)
    (hn2 : w ≠ .asleep := by nofun) :
    Shape { s with work := w, goexit := g, tomb := tb, hist := hh } := by
  obtain ⟨c1, c2, c3⟩ := h.calls (s' := { s with work := w, goexit := g, tomb := tb, hist := hh }) rfl rfl
    Iff.rfl (by simp [hw, hw0, hna]) (fun hx _ => hx)
  refine ⟨h.noPanic, h.count, ?_, fun hx => absurd hx hn2, hwait, fun hx => hdy (h.lst hx), c1, c2, c3, hal, hd, hg, hov, 
    fun k t ht => ⟨(h.tracks k t ht).1, (h.tracks k t ht).2, (h.tracks k t ht).3, fun hx => hdy ((h.tracks k t ht).4 hx)⟩, 
    fun c a hc hp => hdy (h.stop c a hc hp), h.plans⟩
  show s.wg.waiters = _
  rw [h.waiters, hw, if_neg hn1, if_neg hn2]

theorem Shape.work {s : State} (h : Shape s) {w w0 : GPc} {g : Bool} {hh : List Ev} (hw : s.work = w0) (hw0 : w0 ≠ .none)
    (hna : w ≠ .none) (hwait : w.waited = true → s.wg.n = 0) (hnd : (decide (w = .done) || decide (w0 = .done)) = false)
    (hg : g = true → w.over = true)
    (hov : w.over = true → g = true ∨ s.dying = true)
    (hn1 : w0 ≠ .asleep := by nofun) (hn2 : w ≠ .asleep := by nofun) :
    Shape { s with work := w, goexit := g, hist := hh } := by
  simp only [Bool.or_eq_false_iff, decide_eq_false_iff_not] at hnd
  refine h.work' (w := w) (g := g) (tb := s.tomb) hw hw0 hna hwait hg hov ?_ ?_ (fun x => x) hn1 hn2
  · rw [h.alive, hw]; simp [hw0, hna, hnd]
  · rw [h.dead, hw]; simp [hnd]

theorem T.shape {own : Nat} {s s' : State} (h : Shape s) (hc : s.crashed = false) {op : Op} (hT : T own s op s') : Shape s' := by
  cases hT with
  | callInvoke p =>
    refine h.frame rfl rfl rfl rfl rfl rfl rfl rfl rfl (fun x => x) (fun _ _ x => x) ?_ ?_ h.stop
    · intro i v hv
      rcases get_append hv with hv | ⟨_, rfl⟩
      · exact Or.inl ⟨v, hv, rfl⟩
      · exact Or.inr rfl
    · intro i v hv _; exact ⟨v, get_append_old hv, rfl⟩
  | iInvalid i v e hv hp he => exact h.inv hv (by rw [hp]; rfl) rfl
  | iUsed i v o hv hp he ho => exact h.inv hv (by rw [hp]; rfl) rfl
  | iClaim i v hv hp he ho =>
    obtain ⟨n1, n2, n3⟩ := h.noOwn ho
    refine ⟨h.noPanic, h.count, h.waiters, h.asleep, h.waited, h.lst, ?_, ?_, nofun, h.alive, h.dead, h.goexit, h.over,
      h.tracks, h.stop, ?_⟩
    · intro j u hu ha
      rcases get_set hu with ⟨rfl, _⟩ | ⟨_, hu⟩
      · rfl
      · have := h.act j u hu ha; rw [ho] at this; cases this
    · intro j hj
      cases hj
      exact ⟨_, get_set_self hv, rfl, n1, n2⟩
    · intro j u hu
      rcases get_set hu with ⟨_, rfl⟩ | ⟨_, hu⟩
      · intro j ws hx; cases hx; exact (validate_none he).2.2.2
      · exact h.plans j u hu
  | iAdd i v j w ws hv hp =>
    have ha : v.pc.active = true := by rw [hp]; rfl
    have hph := h.phase hv ha
    rw [hp] at hph
    unfold add
    rw [wgAdd_eq (addOk h (Or.inl hph.2))]
    obtain ⟨c1, c2, c3⟩ := h.owner (s' := { s with
      wg := { s.wg with n := s.wg.n + 2 }, tracks := s.tracks ++ [Track.mk w .wait .select],
      hist := .tracked s.tracks.length w (.init i j) :: s.hist, invs := s.invs.set i { v with pc := .adding (j + 1) ws } })
      hv ha (pc := .adding (j + 1) ws) rfl rfl rfl hph
    refine ⟨h.noPanic, ?_, h.waiters, ?_, ?_, h.lst, c1, c2, c3, h.alive, h.dead, h.goexit, h.over, ?_, h.stop, ?_⟩
    · show s.wg.n + 2 = lcount s.listener + ((s.tracks ++ [Track.mk w .wait .select]).map tcount).sum
      rw [List.map_append, List.sum_append, h.count]; simp [tcount]; omega
    · intro hx; have := hph.2.symm.trans hx; cases this
    · intro hx
      have hx : s.work.waited = true := hx
      rw [show s.work = .none from hph.2] at hx; cases hx
    · intro k t ht
      rcases get_append ht with ht | ⟨_, rfl⟩
      · have := h.tracks k t ht; exact ⟨this.1, this.2, this.3, this.4⟩
      · exact trackOk_new _ _ _
    · intro k u hu
      rcases get_set hu with ⟨_, rfl⟩ | ⟨_, hu⟩
      · intro j' ws' hx; cases hx
        intro x hx
        exact h.plans i v hv _ _ hp x (List.mem_cons_of_mem _ hx)
      · exact h.plans k u hu
  | iListen i v j hv hp =>
    have ha : v.pc.active = true := by rw [hp]; rfl
    have hph := h.phase hv ha
    rw [hp] at hph
    rw [wgAdd_eq (addOk h (Or.inl hph.2))]
    obtain ⟨c1, c2, c3⟩ := h.owner (s' := { s with
      wg := { s.wg with n := s.wg.n + 1 }, listener := .select, invs := s.invs.set i { v with pc := .go } })
      hv ha (pc := .go) rfl rfl rfl ⟨nofun, hph.2⟩
    refine ⟨h.noPanic, ?_, h.waiters, ?_, ?_, nofun, c1, c2, c3, h.alive, h.dead, h.goexit, h.over, 
      h.tracks, h.stop, ?_⟩
    · show s.wg.n + 1 = 1 + (s.tracks.map tcount).sum
      rw [h.count, hph.1]; simp [lcount]; omega
    · intro hx; have := hph.2.symm.trans hx; cases this
    · intro hx
      have hx : s.work.waited = true := hx
      rw [show s.work = .none from hph.2] at hx; cases hx
    · intro k u hu
      rcases get_set hu with ⟨_, rfl⟩ | ⟨_, hu⟩
      · intro j' ws' hx; cases hx
      · exact h.plans k u hu
  | iGo i v hv hp =>
    have ha : v.pc.active = true := by rw [hp]; rfl
    have hph := h.phase hv ha
    rw [hp] at hph
    have hnd : s.tomb.dead = false := by
      cases hx : s.tomb.dead with
      | false => rfl
      | true => have := h.dead.1 hx; rw [hph.2] at this; cases this.1
    have hgo : s.tomb.go = { s.tomb with alive := s.tomb.alive + 1 } := by
      unfold Tomb.go; rw [if_neg (by rw [hnd]; nofun)]
    have hng : s.goexit = false := by
      cases hx : s.goexit with
      | false => rfl
      | true => have := h.goexit hx; rw [hph.2] at this; cases this
    rw [hgo]
    obtain ⟨c1, c2, c3⟩ := h.owner (s' := { s with
      work := .running, tomb := { s.tomb with alive := s.tomb.alive + 1 }, invs := s.invs.set i { v with pc := .ok },
      hist := .workCall :: s.hist }) hv ha (pc := .ok) rfl rfl rfl ⟨hph.1, nofun⟩
    refine ⟨h.noPanic, h.count, ?_, nofun, nofun, h.lst, c1, c2, c3, ?_, ?_, ?_, nofun,
      h.tracks, h.stop, ?_⟩
    · show s.wg.waiters = _; rw [h.waiters, hph.2]; rfl
    · show s.tomb.alive + 1 = 1; rw [h.alive, hph.2]; simp
    · show s.tomb.dead = true ↔ GPc.running = .done ∧ s.goexit = false; rw [hnd]; simp
    · show s.goexit = true → _; rw [hng]; nofun
    · intro k u hu
      rcases get_set hu with ⟨_, rfl⟩ | ⟨_, hu⟩
      · intro j' ws' hx; cases hx
      · exact h.plans k u hu
  | iOk i v hv hp =>
    have ha : v.pc.active = true := by rw [hp]; rfl
    have hph := h.phase hv ha
    rw [hp] at hph
    obtain ⟨c1, c2, c3⟩ := h.owner (s' := { s with
      invs := s.invs.set i { v with pc := .returned none },
      hist := .invokeRet i none :: s.hist }) hv ha (pc := .returned none) rfl rfl rfl hph
    refine ⟨h.noPanic, h.count, h.waiters, h.asleep, h.waited, h.lst, c1, c2, c3, h.alive, h.dead, h.goexit, h.over,
      h.tracks, h.stop, ?_⟩
    · intro k u hu
      rcases get_set hu with ⟨_, rfl⟩ | ⟨_, hu⟩
      · intro j' ws' hx; cases hx
      · exact h.plans k u hu
  | iSkip i v e ws hv hp => exact h.inv hv (by rw [hp]; rfl) rfl
  | iKill i v e w ws hv hp => exact h.inv hv (by rw [hp]; rfl) rfl
  | iWaitRet i v e w ws hv hp hf => exact h.inv hv (by rw [hp]; rfl) rfl
  | iFail i v e hv hp => exact h.inv hv (by rw [hp]; rfl) rfl
  | callAdd w =>
    refine h.frame rfl rfl rfl rfl rfl rfl rfl rfl rfl (fun x => x) (fun _ _ x => x) (fun i v hv => Or.inl ⟨v, hv, rfl⟩)
      (fun i v hv _ => ⟨v, hv, rfl⟩) ?_
    intro c a hx hp
    rcases get_append hx with hx | ⟨_, rfl⟩
    · exact h.stop c a hx hp
    · cases hp
  | aDying c a ha hp hd =>
    refine h.frame rfl rfl rfl rfl rfl rfl rfl rfl rfl (fun x => x) (fun _ _ x => x) (fun i v hv => Or.inl ⟨v, hv, rfl⟩)
      (fun i v hv _ => ⟨v, hv, rfl⟩) ?_
    intro c' a' hx hp
    exact hd
  | aSend c a ha hp hc hl =>
    obtain ⟨c1, c2, c3⟩ := h.calls (s' := { s with
      listener := .adding c a.w, adds := s.adds.set c { a with pc := .returned none },
      hist := .addRet c none :: s.hist }) rfl rfl (by simp [hl]) Iff.rfl (fun hx _ => hx)
    refine ⟨h.noPanic, ?_, h.waiters, h.asleep, h.waited, nofun, c1, c2, c3, h.alive, h.dead, h.goexit, h.over,
      h.tracks, ?_, h.plans⟩
    · show s.wg.n = _; rw [h.count, hl]; rfl
    · intro c' a' hx hp
      rcases get_set hx with ⟨_, rfl⟩ | ⟨_, hx⟩
      · cases hp
      · exact h.stop c' a' hx hp
  | aErr c a e ha hp hf =>
    refine h.frame rfl rfl rfl rfl rfl rfl rfl rfl rfl (fun x => x) (fun _ _ x => x) (fun i v hv => Or.inl ⟨v, hv, rfl⟩)
      (fun i v hv _ => ⟨v, hv, rfl⟩) ?_
    intro c' a' hx hp
    rcases get_set hx with ⟨_, rfl⟩ | ⟨_, hx⟩
    · cases hp
    · exact h.stop c' a' hx hp
  | aNil c a ha hp hf =>
    refine h.frame rfl rfl rfl rfl rfl rfl rfl rfl rfl (fun x => x) (fun _ _ x => x) (fun i v hv => Or.inl ⟨v, hv, rfl⟩)
      (fun i v hv _ => ⟨v, hv, rfl⟩) ?_
    intro c' a' hx hp
    rcases get_set hx with ⟨_, rfl⟩ | ⟨_, hx⟩
    · cases hp
    · exact h.stop c' a' hx hp
  | lDying hl hd =>
    refine h.wgDone (l := .done) (tr := s.tracks) ?_ (by simp [hl]) (fun _ => hd) (fun hx _ => hx) h.tracks
    rw [hl]; simp [lcount]; omega
  | lAdd c w hl =>
    unfold add
    rw [wgAdd_eq (s := { s with listener := .select }) (addOk (s := s) h (Or.inr ⟨by simp [hl], by simp [hl]⟩))]
    obtain ⟨c1, c2, c3⟩ := h.calls (s' := { s with
      listener := .select, wg := { s.wg with n := s.wg.n + 2 },
      tracks := s.tracks ++ [Track.mk w .wait .select], hist := .tracked s.tracks.length w (.add c) :: s.hist }) rfl rfl
      (by simp [hl]) Iff.rfl (fun _ hx => by rw [hl] at hx; cases hx)
    have hn : s.wg.n ≠ 0 := by rw [h.count, hl]; simp [lcount]
    refine ⟨h.noPanic, ?_, h.waiters, ?_, ?_, nofun, c1, c2, c3, h.alive, h.dead, h.goexit, h.over, ?_, h.stop, h.plans⟩
    · show s.wg.n + 2 = 1 + ((s.tracks ++ [Track.mk w .wait .select]).map tcount).sum
      rw [List.map_append, List.sum_append, h.count, hl]; simp [tcount, lcount]; omega
    · intro _; show s.wg.n + 2 ≠ 0; omega
    · intro hx; exact absurd (h.waited hx) hn
    · intro k t ht
      rcases get_append ht with ht | ⟨_, rfl⟩
      · have := h.tracks k t ht; exact ⟨this.1, this.2, this.3, this.4⟩
      · exact trackOk_new _ _ _
  | tErr k t e ht hp hf =>
    refine h.track (t' := { t with waiter := .kill e }) (hh := s.hist) ht (by simp [tcount, hp]) ⟨?_, fun _ => by rw [hf]; rfl, (h.tracks k t ht).killer, (h.tracks k t ht).stop⟩
    intro e' he; cases he; exact hf
  | tNil k t ht hp hf =>
    exact h.track (t' := { t with waiter := .close }) (hh := s.hist) ht (by simp [tcount, hp]) ⟨nofun, fun _ => by rw [hf]; rfl, (h.tracks k t ht).killer, (h.tracks k t ht).stop⟩
  | tKill k t e ht hp hk =>
    refine Shape.kill (s := s.setTrack k { t with waiter := .close }) ?_ _
    exact h.track (t' := { t with waiter := .close }) (hh := s.hist) ht (by simp [tcount, hp]) ⟨nofun, fun _ => (h.tracks k t ht).fin (by rw [hp]; nofun), (h.tracks k t ht).killer, (h.tracks k t ht).stop⟩
  | tClose k t ht hp =>
    exact h.track (t' := { t with waiter := .exit }) (hh := s.hist) ht (by simp [tcount, hp]) ⟨nofun, fun _ => (h.tracks k t ht).fin (by rw [hp]; nofun), (h.tracks k t ht).killer, (h.tracks k t ht).stop⟩
  | tExit k t ht hp =>
    exact h.trackDone (t' := { t with waiter := .done }) ht (by simp [tcount, hp]; omega) ⟨nofun, fun _ => (h.tracks k t ht).fin (by rw [hp]; nofun), (h.tracks k t ht).killer, (h.tracks k t ht).stop⟩
  | kDying k t ht hp hd =>
    exact h.track (t' := { t with killer := .stop }) ht (by simp [tcount, hp]) ⟨(h.tracks k t ht).kill, (h.tracks k t ht).fin, nofun, fun _ => hd⟩
  | kWaitRet k t ht hp hf =>
    exact h.trackDone (t' := { t with killer := .done }) ht (by simp [tcount, hp]) ⟨(h.tracks k t ht).kill, (h.tracks k t ht).fin, fun _ => hf, nofun⟩
  | kClosed k t ht hp hc =>
    refine h.trackDone (t' := { t with killer := .done }) ht (by simp [tcount, hp]) ⟨(h.tracks k t ht).kill, (h.tracks k t ht).fin, fun _ => (h.tracks k t ht).fin ?_, nofun⟩
    rcases hc with hc | hc <;> rw [hc] <;> nofun
  | workRet r e hw hr =>
    exact h.work (w := .kill e) (g := s.goexit) hw nofun nofun nofun rfl (fun hx => by have := h.goexit hx; rw [hw] at this; cases this)
      nofun
  | workExit r hw hr =>
    exact h.work (w := .wait) (g := true) hw nofun nofun nofun rfl (fun _ => rfl) (fun _ => Or.inl rfl)
  | workKill e hw hk =>
    exact (h.kill (killArg own e) (hh := s.hist)).work (w := .wait) (g := s.goexit) (w0 := .kill e) hw nofun nofun nofun rfl
      (fun _ => rfl) (fun _ => Or.inr (Tomb_kill_dying hk))
  | wgPass hw hn =>
    exact h.work (w := .ret) (g := s.goexit) (hh := s.hist) hw nofun nofun (fun _ => hn) rfl (fun _ => rfl)
      (fun _ => h.over (by rw [hw]; rfl))
  | wgSleep hw hn =>
    obtain ⟨c1, c2, c3⟩ := h.calls (s' := { s with work := .asleep, wg := { s.wg with waiters := s.wg.waiters + 1 } }) rfl rfl
      Iff.rfl (by simp [hw]) (fun hx _ => hx)
    refine ⟨h.noPanic, h.count, ?_, fun _ => hn, nofun, h.lst, c1, c2, c3, ?_, ?_, fun _ => rfl, fun _ => h.over (by rw [hw]; rfl),
      h.tracks, h.stop, h.plans⟩
    · show s.wg.waiters + 1 = _; rw [h.waiters, hw]; rfl
    · show s.tomb.alive = _; rw [h.alive, hw]; rfl
    · show s.tomb.dead = true ↔ _; rw [h.dead, hw]; simp
  | wgWake hw hn =>
    exact h.work (w := .ret) (g := s.goexit) (hh := s.hist) hw nofun nofun (fun _ => h.waited (by rw [hw]; rfl)) rfl (fun _ => rfl)
      (fun _ => h.over (by rw [hw]; rfl))
  | wgReused hw hn =>
    refine absurd ?_ hn
    have h1 := h.waited (by rw [hw]; rfl)
    have h2 := h.waiters
    rw [hw] at h2
    generalize s.wg = g at *
    obtain ⟨n, m⟩ := g
    cases h1; cases h2; rfl
  | goexited hw hg =>
    refine h.work' (w := .done) (g := s.goexit) (hh := s.hist) (tb := s.tomb) hw nofun nofun (fun _ => h.waited (by rw [hw]; rfl)) (fun _ => rfl)
      (fun _ => Or.inl hg) ?_ ?_ (fun x => x)
    · rw [h.alive, hw, hg]; rfl
    · rw [h.dead, hw, hg]; simp
  | dead hw hg =>
    have hal : s.tomb.alive = 1 := by rw [h.alive, hw]; rfl
    have hfin : s.tomb.finish none = { (({ s.tomb with alive := 0 } : Tomb).kill none) with dead := true } ∨ s.tomb.panicked = true := by
      cases hp : s.tomb.panicked with
      | true => exact Or.inr rfl
      | false =>
        left
        unfold Tomb.finish
        simp [hal, hp]
    rcases hfin with hfin | hfin
    · rw [hfin]
      refine h.work' (w := .done) (g := s.goexit) hw nofun nofun (fun _ => h.waited (by rw [hw]; rfl)) (fun _ => rfl)
        (fun _ => Or.inr ?_) ?_ ?_ ?_
      · exact Tomb.kill_none_dying _
      · show (Tomb.kill _ none).alive = _
        rw [Tomb.kill_alive, hg]; rfl
      · show true = true ↔ _
        simp [hg]
      · intro _; exact Tomb.kill_none_dying _
    · unfold State.crashed at hc; rw [hfin] at hc; cases hc
  | killCall e hk => exact h.kill _
  | killPanics who e hw hk => exact h.kill _
  | callErrDying =>
    exact h.frame rfl rfl rfl rfl rfl rfl rfl rfl rfl (fun x => x) (fun _ _ x => x) (fun i v hv => Or.inl ⟨v, hv, rfl⟩)
      (fun i v hv _ => ⟨v, hv, rfl⟩) h.stop
  | waitCall r hr =>
    exact h.frame rfl rfl rfl rfl rfl rfl rfl rfl rfl (fun x => x) (fun _ _ x => x) (fun i v hv => Or.inl ⟨v, hv, rfl⟩)
      (fun i v hv _ => ⟨v, hv, rfl⟩) h.stop
  | finish w e hf =>
    refine h.frame rfl rfl rfl rfl rfl rfl rfl rfl rfl (fun x => x) ?_ (fun i v hv => Or.inl ⟨v, hv, rfl⟩)
      (fun i v hv _ => ⟨v, hv, rfl⟩) h.stop
    intro u x hx
    show (s.fin.set w e).get? u = _
    rw [AMap.get?_set, if_neg]
    · exact hx
    · rintro rfl; rw [hf] at hx; cases hx

theorem Reach.shape {own : Nat} {s : State} (hr : Reach own s) : Shape s := by
  induction hr with
  | init => exact shape_init
  | step op _ hs ih =>
    obtain ⟨hc, hT⟩ := step_T hs
    exact hT.shape ih hc

end Verif.Catacomb
