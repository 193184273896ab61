import Verif.Catacomb.Progress
import Verif.Spec.Fair

/-!
# Catacomb: infinite executions in which nothing that can go on is passed over for ever
-/

namespace Verif.Catacomb
open State CSpec Verif.Spec

/-! ## What a step does to each part -/

theorem wgDone_same (s : State) : (wgDone s).invs = s.invs ∧ (wgDone s).adds = s.adds ∧ (wgDone s).tracks = s.tracks ∧
    (wgDone s).owner = s.owner ∧ (wgDone s).listener = s.listener ∧ (wgDone s).tomb = s.tomb ∧ (wgDone s).fin = s.fin := by
  unfold wgDone; split <;> exact ⟨rfl, rfl, rfl, rfl, rfl, rfl, rfl⟩

theorem wgDone_work (s : State) : (wgDone s).work = s.work ∨ s.work = .asleep ∧ (wgDone s).work = .woken := by
  unfold wgDone
  split
  · dsimp only
    split
    · rename_i h; exact Or.inr ⟨h.2.2, rfl⟩
    · exact Or.inl rfl
  · exact Or.inl rfl

theorem wgAdd_same (s : State) (d : Nat) : (wgAdd s d).invs = s.invs ∧ (wgAdd s d).adds = s.adds ∧ (wgAdd s d).tracks = s.tracks ∧
    (wgAdd s d).owner = s.owner ∧ (wgAdd s d).listener = s.listener ∧ (wgAdd s d).work = s.work := by
  unfold wgAdd; split <;> exact ⟨rfl, rfl, rfl, rfl, rfl, rfl⟩

def krank (t : Track) : Nat := t.waiter.rank + t.killer.rank

/-- What a step does to a list of calls or goroutines: it belongs to one of them, which goes on, and leaves the others as
they are. -/
def Moves {α : Type} (rank : α → Nat) (mine : Nat → Prop) (l l' : List α) : Prop :=
  ∀ (i : Nat) x, l[i]? = some x → ∃ y, l'[i]? = some y ∧ (¬ mine i ∧ y = x ∨ mine i ∧ rank y < rank x)

theorem Moves.same {α : Type} {rank : α → Nat} {mine : Nat → Prop} {l : List α} (h : ∀ i, ¬ mine i) : Moves rank mine l l :=
  fun i x hx => ⟨x, hx, Or.inl ⟨h i, rfl⟩⟩

theorem Moves.set {α : Type} {rank : α → Nat} {mine : Nat → Prop} {l : List α} {k : Nat} {x y : α} (hk : l[k]? = some x)
    (h : ∀ i, mine i ↔ i = k) (hr : rank y < rank x) : Moves rank mine l (l.set k y) := by
  intro i z hz
  by_cases hi : i = k
  · subst hi
    rw [hk] at hz; cases hz
    exact ⟨y, get_set_self hk, Or.inr ⟨(h i).2 rfl, hr⟩⟩
  · exact ⟨z, by rw [get_set_ne hi]; exact hz, Or.inl ⟨fun hm => hi ((h i).1 hm), rfl⟩⟩

theorem Moves.append {α : Type} {rank : α → Nat} {mine : Nat → Prop} {l : List α} {x : α} (h : ∀ i, ¬ mine i) :
    Moves rank mine l (l ++ [x]) := fun i z hz => ⟨z, get_append_old hz, Or.inl ⟨h i, rfl⟩⟩

/-- What a step may do to the listen goroutine. -/
inductive LMove (s s' : State) (op : Op) : Prop
  | same (h : s'.listener = s.listener) (h1 : op ∉ listenOps)
  | stop (h : s.listener = .select) (h' : s'.listener = .done) (ho : op = .lDying)
  | add (h : ∃ c w, s.listener = .adding c w) (h' : s'.listener = .select) (ho : op = .lAdd)
  | recv (h : s.listener = .select) (h' : ∃ c w, s'.listener = .adding c w) (ho : ∃ c, op = .aSend c)
  | start (h' : s'.listener = .select) (ho : ∃ i, op = .iListen i) (hi : ∃ (i : Nat) (v : InvCall) (j : Nat), s.invs[i]? = some v ∧ v.pc = .adding j [])

/-- What a step may do to the work goroutine. -/
inductive GMove (s s' : State) (op : Op) : Prop
  | same (h : s'.work = s.work) (h1 : op ∉ workOps)
  | start (h : s'.work = .running) (h1 : ∃ i, op = .iGo i)
  | go (h : s'.work.rank < s.work.rank) (h1 : s.work ≠ .none)

structure Step (s s' : State) (op : Op) : Prop where
  inv : Moves irank (fun i => op ∈ invOps i) s.invs s'.invs
  add : Moves arank (fun c => op ∈ addOps c) s.adds s'.adds
  track : Moves krank (fun k => op ∈ trackOps k) s.tracks s'.tracks
  lst : LMove s s' op
  work : GMove s s' op
  len : s'.tracks.length = s.tracks.length ∨ (∃ c w, s.listener = .adding c w) ∨
    ∃ (i : Nat) (v : InvCall) (j : Nat) (ws : List (Option Nat)), s.invs[i]? = some v ∧ v.pc = .adding j ws

theorem T.parts {own : Nat} {s s' : State} {op : Op} (hT : T own s op s') (hc : s'.crashed = false) : Step s s' op := by
  cases hT with
  | killPanics who e hw hk =>
    simp only [crashed, Bool.or_eq_false_iff] at hc
    rw [hk] at hc; cases hc.1
  | wgReused hw hn => simp [crashed] at hc
  | callInvoke p | callAdd w | killCall e hk | callErrDying | waitCall r hr | finish w e hf =>
    refine ⟨?_, ?_, ?_, .same rfl (by simp [listenOps]), .same rfl (by simp [workOps]), Or.inl rfl⟩ <;>
      first | exact .same (by simp [invOps, addOps, trackOps]) | exact .append (by simp [invOps, addOps, trackOps])
  | workRet r e hw hr =>
    refine ⟨.same (by simp [invOps]), .same (by simp [addOps]), .same (by simp [trackOps]), .same rfl (by simp [listenOps]),
      .go ?_ (by rw [hw]; nofun), Or.inl rfl⟩
    rw [hw]; show GPc.rank (.kill e) < _; simp [GPc.rank]
  | workExit r hw hr =>
    refine ⟨.same (by simp [invOps]), .same (by simp [addOps]), .same (by simp [trackOps]), .same rfl (by simp [listenOps]),
      .go ?_ (by rw [hw]; nofun), Or.inl rfl⟩
    rw [hw]; show GPc.rank .wait < _; decide
  | workKill e hw hk =>
    refine ⟨.same (by simp [invOps]), .same (by simp [addOps]), .same (by simp [trackOps]), .same rfl (by simp [listenOps]),
      .go ?_ (by rw [hw]; nofun), Or.inl rfl⟩
    rw [hw]; show GPc.rank .wait < _; simp [GPc.rank]
  | wgPass hw hn =>
    refine ⟨.same (by simp [invOps]), .same (by simp [addOps]), .same (by simp [trackOps]), .same rfl (by simp [listenOps]),
      .go ?_ (by rw [hw]; nofun), Or.inl rfl⟩
    rw [hw]; show GPc.rank .ret < _; decide
  | wgSleep hw hn =>
    refine ⟨.same (by simp [invOps]), .same (by simp [addOps]), .same (by simp [trackOps]), .same rfl (by simp [listenOps]),
      .go ?_ (by rw [hw]; nofun), Or.inl rfl⟩
    rw [hw]; show GPc.rank .asleep < _; decide
  | wgWake hw hn =>
    refine ⟨.same (by simp [invOps]), .same (by simp [addOps]), .same (by simp [trackOps]), .same rfl (by simp [listenOps]),
      .go ?_ (by rw [hw]; nofun), Or.inl rfl⟩
    rw [hw]; show GPc.rank .ret < _; decide
  | goexited hw hg =>
    refine ⟨.same (by simp [invOps]), .same (by simp [addOps]), .same (by simp [trackOps]), .same rfl (by simp [listenOps]),
      .go ?_ (by rw [hw]; nofun), Or.inl rfl⟩
    rw [hw]; show GPc.rank .done < _; decide
  | dead hw hg =>
    refine ⟨.same (by simp [invOps]), .same (by simp [addOps]), .same (by simp [trackOps]), .same rfl (by simp [listenOps]),
      .go ?_ (by rw [hw]; nofun), Or.inl rfl⟩
    rw [hw]; show GPc.rank .done < _; decide
  | iInvalid i v e hv hp he =>
    refine ⟨.set hv (by simp [invOps, eq_comm]) ?_, .same (by simp [addOps]), .same (by simp [trackOps]), .same rfl (by simp [listenOps]),
      .same rfl (by simp [workOps]), Or.inl rfl⟩
    simp only [irank, hp, IPc.rank]; omega
  | iUsed i v o hv hp he ho =>
    refine ⟨.set hv (by simp [invOps, eq_comm]) ?_, .same (by simp [addOps]), .same (by simp [trackOps]), .same rfl (by simp [listenOps]),
      .same rfl (by simp [workOps]), Or.inl rfl⟩
    simp only [irank, hp, IPc.rank]; omega
  | iClaim i v hv hp he ho =>
    refine ⟨.set hv (by simp [invOps, eq_comm]) ?_, .same (by simp [addOps]), .same (by simp [trackOps]), .same rfl (by simp [listenOps]),
      .same rfl (by simp [workOps]), Or.inl rfl⟩
    simp only [irank, hp, IPc.rank]; omega
  | iAdd i v j w ws hv hp =>
    obtain ⟨h1, h2, h3, h4, h5, h6⟩ := wgAdd_same s 2
    refine ⟨?_, ?_, ?_, .same h5 (by simp [listenOps]), .same h6 (by simp [workOps]), Or.inr (Or.inr ⟨i, v, j, _, hv, hp⟩)⟩
    · show Moves _ _ _ ((wgAdd s 2).invs.set i _)
      rw [h1]
      refine .set hv (by simp [invOps, eq_comm]) ?_
      simp only [irank, hp, IPc.rank, List.length_cons]; omega
    · show Moves _ _ _ (wgAdd s 2).adds
      rw [h2]; exact .same (by simp [addOps])
    · show Moves _ _ _ ((wgAdd s 2).tracks ++ _)
      rw [h3]; exact .append (by simp [trackOps])
  | iListen i v j hv hp =>
    obtain ⟨h1, h2, h3, h4, h5, h6⟩ := wgAdd_same s 1
    refine ⟨?_, ?_, ?_, .start rfl ⟨i, rfl⟩ ⟨i, v, j, hv, hp⟩, .same h6 (by simp [workOps]), Or.inl (congrArg _ h3)⟩
    · show Moves _ _ _ ((wgAdd s 1).invs.set i _)
      rw [h1]
      refine .set hv (by simp [invOps, eq_comm]) ?_
      simp only [irank, hp, IPc.rank, List.length_nil]; omega
    · show Moves _ _ _ (wgAdd s 1).adds
      rw [h2]; exact .same (by simp [addOps])
    · show Moves _ _ _ (wgAdd s 1).tracks
      rw [h3]; exact .same (by simp [trackOps])
  | iGo i v hv hp =>
    refine ⟨.set hv (by simp [invOps, eq_comm]) ?_, .same (by simp [addOps]), .same (by simp [trackOps]), .same rfl (by simp [listenOps]),
      .start rfl ⟨i, rfl⟩, Or.inl rfl⟩
    simp only [irank, hp, IPc.rank]; omega
  | iOk i v hv hp =>
    refine ⟨.set hv (by simp [invOps, eq_comm]) ?_, .same (by simp [addOps]), .same (by simp [trackOps]), .same rfl (by simp [listenOps]),
      .same rfl (by simp [workOps]), Or.inl rfl⟩
    simp only [irank, hp, IPc.rank]; omega
  | iSkip i v e ws hv hp =>
    refine ⟨.set hv (by simp [invOps, eq_comm]) ?_, .same (by simp [addOps]), .same (by simp [trackOps]), .same rfl (by simp [listenOps]),
      .same rfl (by simp [workOps]), Or.inl rfl⟩
    simp only [irank, hp, IPc.rank, List.length_cons]; omega
  | iKill i v e w ws hv hp =>
    refine ⟨.set hv (by simp [invOps, eq_comm]) ?_, .same (by simp [addOps]), .same (by simp [trackOps]), .same rfl (by simp [listenOps]),
      .same rfl (by simp [workOps]), Or.inl rfl⟩
    simp only [irank, hp, IPc.rank, List.length_cons]; omega
  | iWaitRet i v e w ws hv hp hf =>
    refine ⟨.set hv (by simp [invOps, eq_comm]) ?_, .same (by simp [addOps]), .same (by simp [trackOps]), .same rfl (by simp [listenOps]),
      .same rfl (by simp [workOps]), Or.inl rfl⟩
    simp only [irank, hp, IPc.rank]; omega
  | iFail i v e hv hp =>
    refine ⟨.set hv (by simp [invOps, eq_comm]) ?_, .same (by simp [addOps]), .same (by simp [trackOps]), .same rfl (by simp [listenOps]),
      .same rfl (by simp [workOps]), Or.inl rfl⟩
    simp only [irank, hp, IPc.rank]; omega
  | aDying c a ha hp hd =>
    refine ⟨.same (by simp [invOps]), .set ha (by simp [addOps, eq_comm]) ?_, .same (by simp [trackOps]), .same rfl (by simp [listenOps]),
      .same rfl (by simp [workOps]), Or.inl rfl⟩
    simp only [arank, hp]; omega
  | aSend c a ha hp hch hl =>
    refine ⟨.same (by simp [invOps]), .set ha (by simp [addOps, eq_comm]) ?_, .same (by simp [trackOps]), .recv hl ⟨c, a.w, rfl⟩ ⟨c, rfl⟩,
      .same rfl (by simp [workOps]), Or.inl rfl⟩
    simp only [arank, hp]; omega
  | aErr c a e ha hp hf =>
    refine ⟨.same (by simp [invOps]), .set ha (by simp [addOps, eq_comm]) ?_, .same (by simp [trackOps]), .same rfl (by simp [listenOps]),
      .same rfl (by simp [workOps]), Or.inl rfl⟩
    simp only [arank, hp]; omega
  | aNil c a ha hp hf =>
    refine ⟨.same (by simp [invOps]), .set ha (by simp [addOps, eq_comm]) ?_, .same (by simp [trackOps]), .same rfl (by simp [listenOps]),
      .same rfl (by simp [workOps]), Or.inl rfl⟩
    simp only [arank, hp]; omega
  | lDying hl hd =>
    obtain ⟨h1, h2, h3, h4, h5, h6⟩ := wgDone_same { s with listener := .done }
    refine ⟨?_, ?_, ?_, .stop hl h5 rfl, ?_, Or.inl (congrArg _ h3)⟩
    · rw [h1]; exact .same (by simp [invOps])
    · rw [h2]; exact .same (by simp [addOps])
    · rw [h3]; exact .same (by simp [trackOps])
    · rcases wgDone_work { s with listener := .done } with h | ⟨h, h'⟩
      · exact .same h (by simp [workOps])
      · exact .go (by rw [h', show s.work = .asleep from h]; decide) (by rw [show s.work = .asleep from h]; nofun)
  | lAdd c w hl =>
    obtain ⟨h1, h2, h3, h4, h5, h6⟩ := wgAdd_same { s with listener := .select } 2
    refine ⟨?_, ?_, ?_, .add ⟨c, w, hl⟩ h5 rfl, .same h6 (by simp [workOps]), Or.inr (Or.inl ⟨c, w, hl⟩)⟩
    · show Moves _ _ _ (wgAdd _ 2).invs
      rw [h1]; exact .same (by simp [invOps])
    · show Moves _ _ _ (wgAdd _ 2).adds
      rw [h2]; exact .same (by simp [addOps])
    · show Moves _ _ _ ((wgAdd _ 2).tracks ++ _)
      rw [h3]; exact .append (by simp [trackOps])
  | tErr k t e ht hp hf =>
    refine ⟨.same (by simp [invOps]), .same (by simp [addOps]), .set ht (by simp [trackOps, eq_comm]) ?_, .same rfl (by simp [listenOps]),
      .same rfl (by simp [workOps]), Or.inl (by simp [setTrack])⟩
    simp only [krank, hp, WPc.rank]; omega
  | tNil k t ht hp hf =>
    refine ⟨.same (by simp [invOps]), .same (by simp [addOps]), .set ht (by simp [trackOps, eq_comm]) ?_, .same rfl (by simp [listenOps]),
      .same rfl (by simp [workOps]), Or.inl (by simp [setTrack])⟩
    simp only [krank, hp, WPc.rank]; omega
  | tKill k t e ht hp hk =>
    refine ⟨.same (by simp [invOps]), .same (by simp [addOps]), .set ht (by simp [trackOps, eq_comm]) ?_, .same rfl (by simp [listenOps]),
      .same rfl (by simp [workOps]), Or.inl (by simp [setTrack])⟩
    simp only [krank, hp, WPc.rank]; omega
  | tClose k t ht hp =>
    refine ⟨.same (by simp [invOps]), .same (by simp [addOps]), .set ht (by simp [trackOps, eq_comm]) ?_, .same rfl (by simp [listenOps]),
      .same rfl (by simp [workOps]), Or.inl (by simp [setTrack])⟩
    simp only [krank, hp, WPc.rank]; omega
  | kDying k t ht hp hd =>
    refine ⟨.same (by simp [invOps]), .same (by simp [addOps]), .set ht (by simp [trackOps, eq_comm]) ?_, .same rfl (by simp [listenOps]),
      .same rfl (by simp [workOps]), Or.inl (by simp [setTrack, emit])⟩
    simp only [krank, hp, KPc.rank]; omega
  | tExit k t ht hp =>
    obtain ⟨h1, h2, h3, h4, h5, h6⟩ := wgDone_same (s.setTrack k { t with waiter := .done })
    refine ⟨?_, ?_, ?_, .same h5 (by simp [listenOps]), ?_, Or.inl (by rw [h3]; simp [setTrack])⟩
    · rw [h1]; exact .same (by simp [invOps])
    · rw [h2]; exact .same (by simp [addOps])
    · rw [h3]
      refine .set ht (by simp [trackOps, eq_comm]) ?_
      simp only [krank, hp, WPc.rank]; omega
    · rcases wgDone_work (s.setTrack k { t with waiter := .done }) with h | ⟨h, h'⟩
      · exact .same h (by simp [workOps])
      · exact .go (by rw [h', show s.work = .asleep from h]; decide) (by rw [show s.work = .asleep from h]; nofun)
  | kWaitRet k t ht hp hf =>
    obtain ⟨h1, h2, h3, h4, h5, h6⟩ := wgDone_same (s.setTrack k { t with killer := .done })
    refine ⟨?_, ?_, ?_, .same h5 (by simp [listenOps]), ?_, Or.inl (by rw [h3]; simp [setTrack])⟩
    · rw [h1]; exact .same (by simp [invOps])
    · rw [h2]; exact .same (by simp [addOps])
    · rw [h3]
      refine .set ht (by simp [trackOps, eq_comm]) ?_
      simp only [krank, hp, KPc.rank]; omega
    · rcases wgDone_work (s.setTrack k { t with killer := .done }) with h | ⟨h, h'⟩
      · exact .same h (by simp [workOps])
      · exact .go (by rw [h', show s.work = .asleep from h]; decide) (by rw [show s.work = .asleep from h]; nofun)
  | kClosed k t ht hp hcl =>
    obtain ⟨h1, h2, h3, h4, h5, h6⟩ := wgDone_same (s.setTrack k { t with killer := .done })
    refine ⟨?_, ?_, ?_, .same h5 (by simp [listenOps]), ?_, Or.inl (by rw [h3]; simp [setTrack])⟩
    · rw [h1]; exact .same (by simp [invOps])
    · rw [h2]; exact .same (by simp [addOps])
    · rw [h3]
      refine .set ht (by simp [trackOps, eq_comm]) ?_
      simp only [krank, hp, KPc.rank]; omega
    · rcases wgDone_work (s.setTrack k { t with killer := .done }) with h | ⟨h, h'⟩
      · exact .same h (by simp [workOps])
      · exact .go (by rw [h', show s.work = .asleep from h]; decide) (by rw [show s.work = .asleep from h]; nofun)

/-! ## Executions -/

/-- An infinite execution of a new catacomb and everything that uses it. It contains no panic, since that ends it. -/
structure Run (own : Nat) where
  st : Nat → State
  op : Nat → Op
  start : st 0 = init
  next : ∀ k, step own (st k) (op k) = some (st (k + 1))

/-- No step of the catacomb's goroutines or of calls in progress that can be taken again and again is passed over for ever. -/
def Run.Fair {own : Nat} (r : Run own) : Prop :=
  ∀ op, op.internal = true → InfOften (fun k => (step own (r.st k) op).isSome = true) → InfOften (fun k => r.op k = op)

def Run.hist {own : Nat} (r : Run own) (k : Nat) : List Ev := (r.st k).hist

variable {own : Nat} {r : Run own}

theorem Run.reach (r : Run own) (k : Nat) : Reach own (r.st k) := by
  induction k with
  | zero => rw [r.start]; exact .init
  | succ k ih => exact ih.step _ (r.next k)

theorem Run.alive (r : Run own) (k : Nat) : (r.st k).crashed = false := (step_T (r.next k)).1

theorem Run.parts (r : Run own) (k : Nat) : Step (r.st k) (r.st (k + 1)) (r.op k) := (step_T (r.next k)).2.parts (r.alive _)

theorem Run.hist_grows (r : Run own) (k : Nat) : r.hist (k + 1) = r.hist k ∨ ∃ e, r.hist (k + 1) = e :: r.hist k ∧ EvOk own e (r.hist k) :=
  ((step_T (r.next k)).2.hist (r.reach k).shape (r.reach k).hinv (r.alive k)).1

theorem Run.hist_mono (r : Run own) {n k : Nat} (h : n ≤ k) {e : Ev} (he : e ∈ r.hist n) : e ∈ r.hist k :=
  kept (P := fun k => e ∈ r.hist k) he (fun k _ hk => by
    rcases r.hist_grows k with h | ⟨x, h, _⟩
    · rw [h]; exact hk
    · rw [h]; exact List.mem_cons_of_mem _ hk) k h

theorem Run.dying_mono (r : Run own) {n k : Nat} (h : n ≤ k) (hd : Dying (r.hist n)) : Dying (r.hist k) := by
  obtain ⟨e, he, hk⟩ := hd
  exact ⟨e, r.hist_mono h he, hk⟩

theorem Run.fin_mono (r : Run own) {n k : Nat} (h : n ≤ k) {w : Nat} {x : Option Err} (hd : finishedH (r.hist n) w = some x) :
    finishedH (r.hist k) w = some x :=
  kept (P := fun k => finishedH (r.hist k) w = some x) hd (fun k _ hk => by
    rcases r.hist_grows k with h | ⟨x, h, ho⟩
    · rw [h]; exact hk
    · rw [h]; exact finished_cons ho hk) k h

/-- If none of finitely many steps is taken any more, none of them is possible any more. -/
theorem Run.quiet (hf : r.Fair) {l : List Op} (hl : ∀ op ∈ l, op.internal = true) {m : Nat} (hn : ∀ k, m ≤ k → r.op k ∉ l) :
    ∃ m', m ≤ m' ∧ ∀ k, m' ≤ k → ∀ op ∈ l, step own (r.st k) op = none := by
  have : ¬ InfOften (fun k => ∃ op ∈ l, (step own (r.st k) op).isSome = true) := by
    intro h
    obtain ⟨op, hm, h⟩ := InfOften.of_list l h
    obtain ⟨k, hk, ho⟩ := hf op (hl op hm) h m
    exact hn k hk (ho ▸ hm)
  obtain ⟨m', h⟩ := not_infOften this
  refine ⟨max m m', Nat.le_max_left _ _, fun k hk op hm => ?_⟩
  cases hs : step own (r.st k) op with
  | none => rfl
  | some x => exact absurd ⟨op, hm, by rw [hs]; rfl⟩ (h k (by omega))

/-- What goes on only finitely often stays as it is from some moment on. -/
theorem Moves.settle {α : Type} {rank : α → Nat} {l : Nat → List α} {mine : Nat → Nat → Prop}
    (h : ∀ k, Moves rank (mine k) (l k) (l (k + 1))) {n i : Nat} {x : α} (hx : (l n)[i]? = some x) :
    ∃ m y, n ≤ m ∧ ∀ k, m ≤ k → (l k)[i]? = some y ∧ ¬ mine k i := by
  have all : ∀ k, n ≤ k → ∃ y, (l k)[i]? = some y := kept ⟨x, hx⟩ (fun k _ ⟨y, hy⟩ => by
    obtain ⟨z, hz, _⟩ := h k i y hy
    exact ⟨z, hz⟩)
  obtain ⟨m, hm, hc⟩ := settles (f := fun k => ((l k)[i]?.map rank).getD 0) (n := n) (fun k hk => by
    obtain ⟨y, hy⟩ := all k hk
    obtain ⟨z, hz, ⟨_, rfl⟩ | ⟨_, hr⟩⟩ := h k i y hy
    · simp only [hy, hz]; exact Nat.le_refl _
    · simp only [hy, hz, Option.map_some, Option.getD_some]; omega)
  obtain ⟨y, hy⟩ := all m hm
  have nm : ∀ k, m ≤ k → ∀ z, (l k)[i]? = some z → ¬ mine k i ∧ (l (k + 1))[i]? = some z := by
    intro k hk z hz
    obtain ⟨u, hu, ⟨h1, rfl⟩ | ⟨_, hr⟩⟩ := h k i z hz
    · exact ⟨h1, hu⟩
    · have h1 := hc k hk
      have h2 := hc (k + 1) (by omega)
      simp only [hz, hu, Option.map_some, Option.getD_some] at h1 h2
      omega
  have same : ∀ k, m ≤ k → (l k)[i]? = some y := kept hy (fun k hk hy => (nm k hk y hy).2)
  exact ⟨m, y, hm, fun k hk => ⟨same k hk, (nm k hk y (same k hk)).1⟩⟩

/-! ## Invoke -/

theorem Run.inv_rests (hf : r.Fair) {n i : Nat} {v : InvCall} (hv : (r.st n).invs[i]? = some v) :
    ∃ m v', n ≤ m ∧ ∀ k, m ≤ k → (r.st k).invs[i]? = some v' ∧
      ((∃ x, v'.pc = .returned x) ∨ ∃ e w ws, v'.pc = .failWait e w ws ∧ (r.st k).fin.get? w = none) := by
  obtain ⟨m, v', hm, h⟩ := Moves.settle (l := fun k => (r.st k).invs) (mine := fun k i => r.op k ∈ invOps i) (fun k => (r.parts k).inv) hv
  obtain ⟨m', hm', hq⟩ := Run.quiet hf (l := invOps i) (by simp [invOps, Op.internal]) (fun k hk => (h k hk).2)
  refine ⟨m', v', by omega, fun k hk => ⟨(h k (by omega)).1, quiet_inv (r.reach k).shape (r.alive k) (hq k hk) (h k (by omega)).1⟩⟩

/-- Every Invoke call returns, or has Kill()ed a worker that never finishes. -/
theorem Run.invoke (hf : r.Fair) {n i : Nat} {p : Plan} (hc : .callInvoke i p ∈ r.hist n) :
    (∃ k x, .invokeRet i x ∈ r.hist k) ∨
    ∃ m w, .killI i w ∈ r.hist m ∧ ∀ k, finishedH (r.hist k) w = none := by
  obtain ⟨v, hv, rfl⟩ := (r.reach n).hinv.invs.all i p hc
  obtain ⟨m, v', hm, h⟩ := Run.inv_rests hf hv
  obtain ⟨h1, h2⟩ := h m (Nat.le_refl _)
  have hI := ((r.reach m).hinv.invs.ok i v' h1).pc
  rcases h2 with ⟨x, hx⟩ | ⟨e, w, ws, hx, _⟩
  · rw [hx] at hI
    exact Or.inl ⟨m, x, hI⟩
  · rw [hx] at hI
    refine Or.inr ⟨m, w, hI.2.2.2.2.1, fun k => ?_⟩
    cases hk : finishedH (r.hist k) w with
    | none => rfl
    | some z =>
      obtain ⟨h3, h4⟩ := h (max m k) (Nat.le_max_left _ _)
      have h5 := r.fin_mono (Nat.le_max_right m k) hk
      rcases h4 with ⟨x, hx'⟩ | ⟨e', w', ws', hx', hf'⟩
      · rw [hx] at hx'; cases hx'
      · rw [hx] at hx'; cases hx'
        rw [(r.reach _).hinv.fin] at hf'
        exact absurd (hf'.symm.trans h5) (by simp)

/-- After an Invoke call has got past the used check, the two goroutines come to be. -/
theorem Run.started (hf : r.Fair) {n i : Nat} (ho : .claimed i ∈ r.hist n) :
    ∃ m, n ≤ m ∧ ∀ k, m ≤ k → (r.st k).listener ≠ .none ∧ (r.st k).work ≠ .none ∧ ∃ v x, (r.st k).invs[i]? = some v ∧ v.pc = .returned x := by
  obtain ⟨v, hv, _⟩ := (r.reach n).shape.own i (((r.reach n).hinv.invs.own i).2 ho)
  obtain ⟨m, v', hm, h⟩ := Run.inv_rests hf hv
  refine ⟨m, hm, fun k hk => ?_⟩
  obtain ⟨u, hu, ha, hph⟩ := (r.reach k).shape.own i (((r.reach k).hinv.invs.own i).2 (r.hist_mono (by omega) ho))
  obtain ⟨h1, h2⟩ := h k hk
  rw [h1] at hu; cases hu
  rcases h2 with ⟨x, hx⟩ | ⟨e, w, ws, hx, _⟩
  · rw [hx] at hph
    exact ⟨hph.1, hph.2, v', x, h1, hx⟩
  · rw [hx] at ha; cases ha

/-! ## The listen goroutine -/

/-- As long as the listen goroutine is there, it is again and again ready to receive. -/
theorem Run.listens (hf : r.Fair) {n : Nat} (h : ∀ k, n ≤ k → (r.st k).listener ≠ .none ∧ (r.st k).listener ≠ .done) :
    InfOften (fun k => (r.st k).listener = .select) := by
  refine Classical.byContradiction fun hx => ?_
  obtain ⟨m, hm⟩ := not_infOften hx
  have ad : ∀ k, max n m ≤ k → ∃ c w, (r.st k).listener = .adding c w := by
    intro k hk
    cases hl : (r.st k).listener with
    | none => exact absurd hl (h k (by omega)).1
    | done => exact absurd hl (h k (by omega)).2
    | select => exact absurd hl (hm k (by omega))
    | adding c w => exact ⟨c, w, rfl⟩
  have en : InfOften (fun k => (step own (r.st k) .lAdd).isSome = true) := infOften_of_from (max n m) (fun k hk => by
    obtain ⟨c, w, hl⟩ := ad k hk
    simp only [step, r.alive k, Bool.false_eq_true, if_false, Op.inv?, Op.add?, Op.track?, stepMain, hl, Option.isSome_some])
  obtain ⟨k, hk, ho⟩ := hf .lAdd rfl en (max n m)
  cases (r.parts k).lst with
  | same _ h1 => rw [ho] at h1; simp [listenOps] at h1
  | add _ h' _ => exact hm (k + 1) (by omega) h'
  | stop _ _ ho' => rw [ho] at ho'; cases ho'
  | recv _ _ ho' => rw [ho] at ho'; obtain ⟨c, ho'⟩ := ho'; cases ho'
  | start _ ho' _ => rw [ho] at ho'; obtain ⟨c, ho'⟩ := ho'; cases ho'

/-- When the catacomb is dying, the listen goroutine ends, however many Add calls there are. -/
theorem Run.listen_ends (hf : r.Fair) {n i : Nat} (ho : .claimed i ∈ r.hist n) (hd : Dying (r.hist n)) :
    ∃ m, n ≤ m ∧ ∀ k, m ≤ k → (r.st k).listener = .done := by
  obtain ⟨m, hm, hs⟩ := Run.started hf ho
  have keep : ∀ k, m ≤ k → (r.st k).listener = .done → (r.st (k + 1)).listener = .done := by
    intro k hk hl
    cases (r.parts k).lst with
    | same h _ => rw [h]; exact hl
    | add h _ _ => obtain ⟨c, w, h⟩ := h; rw [hl] at h; cases h
    | stop h _ _ => rw [hl] at h; cases h
    | recv h _ _ => rw [hl] at h; cases h
    | start _ _ hi =>
      obtain ⟨j, v, j', hv, hp⟩ := hi
      have := (r.reach k).shape.phase hv (by rw [hp]; rfl)
      rw [hp, PhaseOk, hl] at this
      cases this.1
  by_cases hx : ∃ k, m ≤ k ∧ (r.st k).listener = .done
  · obtain ⟨k, hk, hl⟩ := hx
    exact ⟨k, by omega, kept hl (fun j hj => keep j (by omega))⟩
  · exfalso
    have inf := Run.listens hf (n := m) (fun k hk => ⟨(hs k hk).1, fun hl => hx ⟨k, hk, hl⟩⟩)
    have en : InfOften (fun k => (step own (r.st k) .lDying).isSome = true) := inf.mono_from n (fun k hk hl => by
      have hdy : (r.st k).dying = true := (r.reach k).hinv.tomb.dying.2 (r.dying_mono hk hd)
      simp only [step, r.alive k, Bool.false_eq_true, if_false, Op.inv?, Op.add?, Op.track?, stepMain, hl, hdy, if_true, Option.isSome_some])
    obtain ⟨k, hk, ho⟩ := hf .lDying rfl en m
    cases (r.parts k).lst with
    | same _ h1 => rw [ho] at h1; simp [listenOps] at h1
    | add _ _ ho' => rw [ho] at ho'; cases ho'
    | stop _ h' _ => exact hx ⟨k + 1, by omega, h'⟩
    | recv _ _ ho' => rw [ho] at ho'; obtain ⟨c, ho'⟩ := ho'; cases ho'
    | start _ ho' _ => rw [ho] at ho'; obtain ⟨c, ho'⟩ := ho'; cases ho'

/-! ## Add -/

/-- Every Add call returns, or has Kill()ed its worker, which never finishes; or the catacomb never dies and had not been
Invoke()d when Add was called. -/
theorem Run.adds (hf : r.Fair) {n c w : Nat} (hc : .callAdd c w ∈ r.hist n) :
    (∃ k x, .addRet c x ∈ r.hist k) ∨
    (∃ m, .killA c w ∈ r.hist m ∧ ∀ k, finishedH (r.hist k) w = none) ∨
    (∀ k, ¬ Dying (r.hist k)) ∧ ∃ m post pre, r.hist m = post ++ .callAdd c w :: pre ∧ ∀ i, .claimed i ∉ pre := by
  obtain ⟨a, ha, rfl⟩ := (r.reach n).hinv.adds.all c w hc
  obtain ⟨m0, a', hm0, h⟩ := Moves.settle (l := fun k => (r.st k).adds) (mine := fun k c => r.op k ∈ addOps c) (fun k => (r.parts k).add) ha
  obtain ⟨m, hm, hq⟩ := Run.quiet hf (l := addOps c) (by simp [addOps, Op.internal]) (fun k hk => (h k hk).2)
  have hw : a'.w = a.w := by
    have h1 := ((r.reach m).hinv.adds.ok c a' (h m hm).1).call
    obtain ⟨b, h2, h3⟩ := (r.reach m).hinv.adds.all c a.w (r.hist_mono (by omega) hc)
    rw [(h m hm).1] at h2; cases h2; exact h3
  have hA : ∀ k, m ≤ k → AddH (r.hist k) c a' := fun k hk => (r.reach k).hinv.adds.ok c a' (h k (by omega)).1
  have hQ : ∀ k, m ≤ k → _ := fun k hk => quiet_add' (r.alive k) (hq k hk) (h k (by omega)).1
  rcases hQ m (Nat.le_refl _) with ⟨x, hx⟩ | ⟨hp, _⟩ | ⟨hp, _⟩
  · exact Or.inl ⟨m, x, (hA m (Nat.le_refl _)).done x hx⟩
  · refine Or.inr (Or.inl ⟨m, hw ▸ (hA m (Nat.le_refl _)).stop hp, fun k => ?_⟩)
    cases hk : finishedH (r.hist k) a.w with
    | none => rfl
    | some z =>
      have h5 := r.fin_mono (Nat.le_max_right m k) hk
      rcases hQ (max m k) (Nat.le_max_left _ _) with ⟨x, hx⟩ | ⟨_, hx⟩ | ⟨hx, _⟩
      · rw [hp] at hx; cases hx
      · rw [(r.reach _).hinv.fin, hw] at hx
        exact absurd (hx.symm.trans h5) (by simp)
      · rw [hp] at hx; cases hx
  · have hS : ∀ k, m ≤ k → (r.st k).dying = false ∧ (a'.chan = false ∨ (r.st k).listener ≠ .select) := by
      intro k hk
      rcases hQ k hk with ⟨x, hx⟩ | ⟨hx, _⟩ | ⟨_, h2⟩
      · rw [hp] at hx; cases hx
      · rw [hp] at hx; cases hx
      · exact h2
    have nd : ∀ k, ¬ Dying (r.hist k) := by
      intro k hd
      have h1 := (r.reach _).hinv.tomb.dying.2 (r.dying_mono (Nat.le_max_right m k) hd)
      exact absurd ((hS (max m k) (Nat.le_max_left _ _)).1.symm.trans h1) (by simp)
    refine Or.inr (Or.inr ⟨nd, m, ?_⟩)
    cases hch : a'.chan with
    | false => rw [← hw]; exact (hA m (Nat.le_refl _)).chan hch
    | true =>
      exfalso
      obtain ⟨i, ho⟩ := Option.ne_none_iff_exists'.1 ((r.reach m).chan c a' (h m hm).1 hch)
      obtain ⟨m1, hm1, hst⟩ := Run.started hf (((r.reach m).hinv.invs.own i).1 ho)
      have inf := Run.listens hf (n := m1) (fun k hk => ⟨(hst k hk).1, fun hl => by
        have := (r.reach k).shape.lst hl
        exact nd k ((r.reach k).hinv.tomb.dying.1 this)⟩)
      obtain ⟨k, hk, hl⟩ := inf m
      rcases (hS k hk).2 with h' | h'
      · rw [hch] at h'; cases h'
      · exact h' hl

/-! ## Tracked workers -/

theorem Run.track_rests (hf : r.Fair) {n i : Nat} {t : Track} (ht : (r.st n).tracks[i]? = some t) :
    ∃ m t', n ≤ m ∧ ∀ k, m ≤ k → (r.st k).tracks[i]? = some t' ∧ ((t'.waiter = .done ∧ t'.killer = .done) ∨
      ((r.st k).fin.get? t'.w = none ∧ ((t'.killer = .stop ∧ (r.st k).dying = true) ∨ (t'.killer = .select ∧ (r.st k).dying = false)))) := by
  obtain ⟨m, t', hm, h⟩ := Moves.settle (l := fun k => (r.st k).tracks) (mine := fun k i => r.op k ∈ trackOps i) (fun k => (r.parts k).track) ht
  obtain ⟨m', hm', hq⟩ := Run.quiet hf (l := trackOps i) (by simp [trackOps, Op.internal]) (fun k hk => (h k hk).2)
  exact ⟨m', t', by omega, fun k hk => ⟨(h k (by omega)).1, quiet_track (r.reach k).shape (r.alive k) (hq k hk) (h k (by omega)).1⟩⟩

theorem Run.track_w (r : Run own) {n k g w : Nat} {src : Src} (hc : .tracked g w src ∈ r.hist n) (hk : n ≤ k) {t : Track}
    (ht : (r.st k).tracks[g]? = some t) : t.w = w := by
  obtain ⟨t', h1, h2⟩ := (r.reach k).hinv.tracks.all g w src (r.hist_mono hk hc)
  rw [ht] at h1; cases h1; exact h2

/-- The error of a tracked worker reaches the catacomb. -/
theorem Run.reports (hf : r.Fair) {n g w : Nat} {src : Src} {e : Err} (hc : .tracked g w src ∈ r.hist n)
    (he : finishedH (r.hist n) w = some (some e)) : ∃ k, .workerKill g e ∈ r.hist k := by
  obtain ⟨t, ht, _⟩ := (r.reach n).hinv.tracks.all g w src hc
  obtain ⟨m, t', hm, h⟩ := Run.track_rests hf ht
  obtain ⟨h1, h2⟩ := h m (Nat.le_refl _)
  have hw := r.track_w hc hm h1
  have hfin := r.fin_mono hm he
  rcases h2 with ⟨h2, _⟩ | ⟨h2, _⟩
  · obtain ⟨x, h3, h4⟩ := ((r.reach m).hinv.tracks.ok g t' h1).killed (by rw [h2]; nofun) (by intro e; rw [h2]; nofun)
    rw [hw] at h3
    have : x = some e := Option.some.inj (h3.symm.trans hfin)
    exact ⟨m, h4 e this⟩
  · rw [(r.reach m).hinv.fin, hw] at h2
    exact absurd (h2.symm.trans hfin) (by simp)

/-- A tracked worker of a dying catacomb is Kill()ed, or finishes by itself. -/
theorem Run.kills (hf : r.Fair) {n g w : Nat} {src : Src} (hc : .tracked g w src ∈ r.hist n) (hd : Dying (r.hist n)) :
    ∃ k, .killT g w ∈ r.hist k ∨ (finishedH (r.hist k) w).isSome = true := by
  obtain ⟨t, ht, _⟩ := (r.reach n).hinv.tracks.all g w src hc
  obtain ⟨m, t', hm, h⟩ := Run.track_rests hf ht
  obtain ⟨h1, h2⟩ := h m (Nat.le_refl _)
  have hw := r.track_w hc hm h1
  have hdy : (r.st m).dying = true := (r.reach m).hinv.tomb.dying.2 (r.dying_mono hm hd)
  rcases h2 with ⟨_, h2⟩ | ⟨_, ⟨h2, _⟩ | ⟨_, h2⟩⟩
  · have := ((r.reach m).shape.tracks g t' h1).killer h2
    rw [(r.reach m).hinv.fin, hw] at this
    exact ⟨m, Or.inr this⟩
  · exact ⟨m, Or.inl (hw ▸ ((r.reach m).hinv.tracks.ok g t' h1).stop h2)⟩
  · rw [hdy] at h2; cases h2

/-! ## Death -/

/-- Finitely many things that each hold from some moment on hold all at once from some moment on. -/
theorem eventually_all {P : Nat → Nat → Prop} (N : Nat) (h : ∀ i, i < N → ∃ m, ∀ k, m ≤ k → P i k) :
    ∃ m, ∀ k, m ≤ k → ∀ i, i < N → P i k := by
  induction N with
  | zero => exact ⟨0, fun _ _ i hi => absurd hi (Nat.not_lt_zero i)⟩
  | succ N ih =>
    obtain ⟨a, ha⟩ := ih (fun i hi => h i (by omega))
    obtain ⟨b, hb⟩ := h N (by omega)
    refine ⟨max a b, fun k hk i hi => ?_⟩
    by_cases hi' : i = N
    · subst hi'; exact hb k (by omega)
    · exact ha k (by omega) i (by omega)

theorem sum_zero {α : Type} {f : α → Nat} {l : List α} (h : ∀ x ∈ l, f x = 0) : (l.map f).sum = 0 := by
  refine Classical.byContradiction fun hx => ?_
  obtain ⟨x, hm, h0⟩ := sum_ne_zero f hx
  exact h0 (h x hm)

/-- When the work func has returned, the catacomb dies, however many Add calls there are, unless a tracked worker that has
been Kill()ed never finishes. -/
theorem Run.dies (hf : r.Fair) {n : Nat} {x : WorkRes} (hx : .workRet x ∈ r.hist n) (hne : .workRet .goexit ∉ r.hist n)
    (hkf : ∀ k g w, .killT g w ∈ r.hist k → ∃ k', (finishedH (r.hist k') w).isSome = true) : ∃ k, .dead ∈ r.hist k := by
  refine Classical.byContradiction fun hnd => ?_
  have nodead : ∀ k, .dead ∉ r.hist k := fun k hk => hnd ⟨k, hk⟩
  have nog : ∀ k, n ≤ k → (r.st k).goexit = false := by
    intro k hk
    have : .workRet .goexit ∉ r.hist k := kept (P := fun k => .workRet .goexit ∉ r.hist k) hne (fun k hk hg => by
      rcases r.hist_grows k with h | ⟨y, h, ho⟩
      · rw [h]; exact hg
      · rw [h]
        intro hm
        rcases List.mem_cons.1 hm with rfl | hm
        · exact ho.2 x (r.hist_mono hk hx)
        · exact hg hm) k hk
    exact Bool.eq_false_iff.2 (fun hy => this ((r.reach k).hinv.work.exit.1 hy))
  have w1 : ∀ k, n ≤ k → (r.st k).work ≠ .none ∧ (r.st k).work ≠ .running := fun k hk =>
    ⟨fun h => (r.reach k).hinv.work.ret (Or.inl h) x (r.hist_mono hk hx), fun h => (r.reach k).hinv.work.ret (Or.inr h) x (r.hist_mono hk hx)⟩
  obtain ⟨m, hm, hc⟩ := settles (f := fun k => (r.st k).work.rank) (n := n) (fun k hk => by
    cases (r.parts k).work with
    | same h _ => simp only [h]; exact Nat.le_refl _
    | start h _ => exact absurd h (w1 (k + 1) (by omega)).2
    | go h _ => exact Nat.le_of_lt h)
  have w2 : ∀ k, m ≤ k → r.op k ∉ workOps := by
    intro k hk
    cases (r.parts k).work with
    | same _ h => exact h
    | start h _ => exact absurd h (w1 (k + 1) (by omega)).2
    | go h _ =>
      have h1 := hc k hk
      have h2 := hc (k + 1) (by omega)
      omega
  obtain ⟨m1, hm1, hq⟩ := Run.quiet hf (l := workOps) (by simp [workOps, Op.internal]) w2
  have asl : ∀ k, m1 ≤ k → (r.st k).work = .asleep := by
    intro k hk
    rcases quiet_work (r.alive k) (hq k hk) with h | h | h | h
    · exact absurd h (w1 k (by omega)).1
    · exact absurd h (w1 k (by omega)).2
    · exact h
    · exact absurd ((r.reach k).hinv.tomb.dead.1 ((r.reach k).shape.dead.2 ⟨h, nog k (by omega)⟩)) (nodead k)
  have hdy : Dying (r.hist m1) := by
    rcases (r.reach m1).shape.over (by rw [asl m1 (Nat.le_refl _)]; rfl) with h | h
    · rw [nog m1 (by omega)] at h; cases h
    · exact (r.reach m1).hinv.tomb.dying.1 h
  obtain ⟨i, ho⟩ : ∃ i, (r.st m1).owner = some i := by
    refine Option.ne_none_iff_exists'.1 fun h => ?_
    exact (w1 m1 (by omega)).1 ((r.reach m1).shape.noOwn h).2.1
  have hcl := ((r.reach m1).hinv.invs.own i).1 ho
  obtain ⟨m2, hm2, hl⟩ := Run.listen_ends hf hcl hdy
  obtain ⟨m3, hm3, hst⟩ := Run.started hf hcl
  obtain ⟨M, hM⟩ : ∃ M, M = max m2 m3 := ⟨_, rfl⟩
  have len : ∀ k, M ≤ k → (r.st k).tracks.length = (r.st M).tracks.length := stays (fun k hk => by
    rcases (r.parts k).len with h | ⟨c, w, h⟩ | ⟨j, v, j', ws, hv, hp⟩
    · exact h
    · rw [hl k (by omega)] at h; cases h
    · exfalso
      have h1 := (r.reach k).shape.act j v hv (by rw [hp]; rfl)
      have h2 := ((r.reach k).hinv.invs.own i).2 (r.hist_mono (by omega) hcl)
      rw [h1] at h2; cases h2
      obtain ⟨_, _, v', y, hv', hp'⟩ := hst k (by omega)
      rw [hv] at hv'; cases hv'
      rw [hp] at hp'; cases hp')
  obtain ⟨m4, h4⟩ := eventually_all (P := fun i k => ∀ t, (r.st k).tracks[i]? = some t → tcount t = 0) (r.st M).tracks.length (fun i hi => by
    obtain ⟨t, ht⟩ : ∃ t, (r.st M).tracks[i]? = some t := ⟨_, List.getElem?_eq_getElem hi⟩
    obtain ⟨m5, t', hm5, h5⟩ := Run.track_rests hf ht
    refine ⟨m5, fun k hk u hu => ?_⟩
    obtain ⟨h6, h7⟩ := h5 k hk
    rw [h6] at hu; cases hu
    rcases h7 with ⟨h7, h8⟩ | ⟨h7, ⟨h8, _⟩ | ⟨_, h8⟩⟩
    · simp [tcount, h7, h8]
    · exfalso
      obtain ⟨k', hk'⟩ := hkf k i _ (((r.reach k).hinv.tracks.ok i _ h6).stop h8)
      obtain ⟨z, hz⟩ := Option.isSome_iff_exists.1 hk'
      have hz' := r.fin_mono (Nat.le_max_right k k') hz
      obtain ⟨h9, h10⟩ := h5 (max k k') (by omega)
      rcases h10 with ⟨_, h10⟩ | ⟨h10, _⟩
      · rw [h8] at h10; cases h10
      · rw [(r.reach _).hinv.fin] at h10
        exact absurd (h10.symm.trans hz') (by simp)
    · have := (r.reach k).hinv.tomb.dying.2 (r.dying_mono (by omega) hdy)
      exact absurd (h8.symm.trans this) (by simp))
  obtain ⟨K, hK⟩ : ∃ K, K = max M m4 := ⟨_, rfl⟩
  refine (r.reach K).shape.asleep (asl K (by omega)) ?_
  rw [(r.reach K).shape.count, hl K (by omega), sum_zero]
  · rfl
  · intro t ht
    obtain ⟨j, hj⟩ := List.mem_iff_getElem?.1 ht
    exact h4 K (by omega) j (by rw [← len K (by omega)]; exact (List.getElem?_eq_some_iff.1 hj).1) t hj

end Verif.Catacomb
