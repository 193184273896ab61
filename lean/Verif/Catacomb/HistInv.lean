import Verif.Catacomb.Shape
import Verif.Spec.Catacomb

/-!
# Catacomb: the state and the history agree, and every event happens when it may
-/

namespace Verif.Catacomb
open State CSpec Verif.Spec

/-! ## Facts about the specification -/

theorem finished_cons {own : Nat} {e : Ev} {h : List Ev} (hk : EvOk own e h) {w : Nat} {r : Option Err}
    (hf : finishedH h w = some r) : finishedH (e :: h) w = some r := by
  cases e with
  | finished w' r' =>
    have hk : finishedH h w' = none := hk
    simp only [finishedH]
    split
    · rename_i he; subst he; rw [hk] at hf; cases hf
    · exact hf
  | _ => exact hf

theorem finished_isSome {own : Nat} {e : Ev} {h : List Ev} (hk : EvOk own e h) {w : Nat} (hf : (finishedH h w).isSome = true) :
    (finishedH (e :: h) w).isSome = true := by
  obtain ⟨r, hr⟩ := Option.isSome_iff_exists.1 hf
  rw [finished_cons hk hr]; rfl

theorem Dying.cons {e : Ev} {h : List Ev} (hd : Dying h) : Dying (e :: h) := by
  obtain ⟨x, hx, hy⟩ := hd; exact ⟨x, List.mem_cons_of_mem _ hx, hy⟩

theorem Refused.cons {e : Ev} {h : List Ev} {i : Nat} {p : Plan} (hd : Refused h i p) : Refused (e :: h) i p :=
  hd.imp (fun x => x) (fun ⟨j, h1, h2⟩ => ⟨j, h1, List.mem_cons_of_mem _ h2⟩)

theorem asDying_eq (e : Err) : e.asDying = (dyings e).head? := by
  induction e with
  | catDying c => rfl
  | wrap t e ih => simp only [Err.asDying, ih, dyings, Err.tree, List.filterMap_cons]
  | join a b iha ihb =>
    simp only [Err.asDying, iha, ihb, dyings, Err.tree, List.filterMap_cons, List.filterMap_append, List.head?_append]
    cases (List.filterMap (fun x => match x with | .catDying c => some c | _ => none) a.tree).head? <;> rfl
  | _ => rfl

theorem firstError_not_dying {own : Nat} {h : List Ev} (hd : ¬ Dying h) : firstError own h = none := by
  induction h with
  | nil => rfl
  | cons e h ih =>
    simp only [firstError, ih (fun hy => hd (Dying.cons hy))]
    cases hk : killOf e with
    | none => rfl
    | some x => exact absurd ⟨e, List.mem_cons_self, by rw [hk]; rfl⟩ hd

/-- What Kill passes to the tomb, in terms of the specification. -/
theorem killArg_eq (own : Nat) (e : Option Err) :
    (OwnDying own e ∧ killArg own e = some .tombDying ∧ effective own e = none) ∨
    (¬ OwnDying own e ∧ killArg own e = effective own e ∧ killArg own e ≠ some .tombDying ∧
      (killArg own e = some .tombStillAlive ↔ e = some .tombStillAlive)) := by
  cases e with
  | none => exact Or.inr ⟨(fun h => h), rfl, nofun, by simp [killArg]⟩
  | some e =>
    by_cases he : e = .tombDying
    · subst he
      exact Or.inr ⟨by simp [OwnDying, dyings, Err.tree], by simp [killArg, effective, Err.asDying], by simp [killArg, Err.asDying],
        by simp [killArg, Err.asDying]⟩
    · cases hd : (dyings e).head? with
      | none =>
        refine Or.inr ⟨by simp [OwnDying, hd], ?_, ?_, ?_⟩ <;> simp [killArg, effective, asDying_eq, he, hd]
      | some c =>
        by_cases hc : c = own
        · subst hc
          exact Or.inl ⟨hd, by simp [killArg, asDying_eq, he, hd], by simp [effective, he, hd]⟩
        · refine Or.inr ⟨by simp [OwnDying, hd, hc], ?_, ?_, ?_⟩
          · simp [killArg, effective, asDying_eq, he, hd, hc, Ne.symm hc]
          · simp [killArg, asDying_eq, he, hd, Ne.symm hc]
          · simp only [killArg, he, Option.some.injEq, if_false, asDying_eq, hd, ne_eq, Ne.symm hc, not_false_eq_true, if_true,
              reduceCtorEq, false_iff]
            intro hx; subst hx; simp [dyings, Err.tree] at hd

/-! ## What an event is about -/

def evTomb : Ev → Bool
  | .kill _ | .workKill _ | .workerKill .. | .dead => true
  | _ => false
def evFin : Ev → Bool
  | .finished .. => true
  | _ => false
def evWork : Ev → Bool
  | .workCall | .workRet _ | .workKill _ => true
  | _ => false
def evList : Ev → Bool
  | .addRet _ none | .tracked _ _ (.add _) => true
  | _ => false
def evTrack : Ev → Option Nat
  | .tracked k .. | .workerKill k _ | .killT k _ => some k
  | _ => none
def evAdd : Ev → Option Nat
  | .callAdd c _ | .addRet c _ | .killA c _ => some c
  | _ => none
def evInv : Ev → Option Nat
  | .callInvoke i _ | .claimed i | .invokeRet i _ | .tracked _ _ (.init i _) => some i
  | _ => none

/-! ## The invariant -/

structure TombH (own : Nat) (t : Tomb) (h : List Ev) : Prop where
  dying : t.dying = true ↔ Dying h
  reason : ∀ r, t.reason = some r → r = firstError own h
  dead : t.dead = true ↔ .dead ∈ h

def FinH (f : AMap (Option Err)) (h : List Ev) : Prop := ∀ w, f.get? w = finishedH h w

structure WorkH (w : GPc) (g : Bool) (h : List Ev) : Prop where
  call : w = .none ↔ .workCall ∉ h
  ret : (w = .none ∨ w = .running) → ∀ r, .workRet r ∉ h
  kill : ∀ e, w = .kill e → ∃ r, .workRet r ∈ h ∧ WorkErr r e
  noKill : w.over = false → ∀ e, .workKill e ∉ h
  killed : w.over = true → g = false → ∃ e, .workKill e ∈ h
  exit : g = true ↔ .workRet .goexit ∈ h
  exitNoKill : g = true → ∀ e, .workKill e ∉ h

structure ListH (l : LPc) (h : List Ev) : Prop where
  cur : ∀ c w, l = .adding c w → .callAdd c w ∈ h ∧ .addRet c none ∈ h ∧ ∀ k w', .tracked k w' (.add c) ∉ h
  all : ∀ c, .addRet c none ∈ h → (∃ k w, .callAdd c w ∈ h ∧ .tracked k w (.add c) ∈ h) ∨ ∃ w, l = .adding c w
  tr : ∀ k w c, .tracked k w (.add c) ∈ h → .addRet c none ∈ h

structure TrackH (h : List Ev) (k : Nat) (t : Track) : Prop where
  tr : ∃ src, .tracked k t.w src ∈ h
  noKill : (t.waiter = .wait ∨ ∃ e, t.waiter = .kill e) → ∀ e, .workerKill k e ∉ h
  killed : t.waiter ≠ .wait → (∀ e, t.waiter ≠ .kill e) → ∃ r, finishedH h t.w = some r ∧ ∀ e, r = some e → .workerKill k e ∈ h
  sel : t.killer = .select → .killT k t.w ∉ h
  stop : t.killer = .stop → .killT k t.w ∈ h

structure TracksH (l : List Track) (h : List Ev) : Prop where
  ok : ∀ (k : Nat) t, l[k]? = some t → TrackH h k t
  all : ∀ k w src, .tracked k w src ∈ h → ∃ t, l[k]? = some t ∧ t.w = w
  fresh : ∀ e ∈ h, ∀ k, evTrack e = some k → k < l.length

structure AddH (h : List Ev) (c : Nat) (a : AddCall) : Prop where
  call : .callAdd c a.w ∈ h
  ret : (∀ r, a.pc ≠ .returned r) → ∀ r, .addRet c r ∉ h
  sel : a.pc = .select → .killA c a.w ∉ h
  stop : a.pc = .stop → .killA c a.w ∈ h
  done : ∀ r, a.pc = .returned r → .addRet c r ∈ h
  chan : a.chan = false → ∃ post pre, h = post ++ .callAdd c a.w :: pre ∧ ∀ i, .claimed i ∉ pre

structure AddsH (l : List AddCall) (h : List Ev) : Prop where
  ok : ∀ (c : Nat) a, l[c]? = some a → AddH h c a
  all : ∀ c w, .callAdd c w ∈ h → ∃ a, l[c]? = some a ∧ a.w = w
  fresh : ∀ e ∈ h, ∀ c, evAdd e = some c → c < l.length

/-- Where an Invoke call is agrees with the history. -/
def IPcH (h : List Ev) (i : Nat) (p : Plan) : IPc → Prop
  | .start => .claimed i ∉ h
  | .adding j ws => .claimed i ∈ h ∧ p.init.drop j = ws ∧
      (∀ j' w, j' < j → p.init[j']? = some (some w) → ∃ k, .tracked k w (.init i j') ∈ h) ∧
      ∀ j' k w, j ≤ j' → .tracked k w (.init i j') ∉ h
  | .go => .claimed i ∈ h ∧ ∀ j w, p.init[j]? = some (some w) → ∃ k, .tracked k w (.init i j) ∈ h
  | .ok => .claimed i ∈ h
  | .failing e ws => Refused h i p ∧ ErrFits p e ∧ .claimed i ∉ h ∧ (∀ x ∈ ws, x ∈ p.init) ∧
      ∀ w, some w ∈ p.init → some w ∈ ws ∨ (.killI i w ∈ h ∧ (finishedH h w).isSome = true)
  | .failWait e w ws => Refused h i p ∧ ErrFits p e ∧ .claimed i ∉ h ∧ (∀ x ∈ ws, x ∈ p.init) ∧ .killI i w ∈ h ∧
      ∀ u, some u ∈ p.init → some u ∈ ws ∨ u = w ∨ (.killI i u ∈ h ∧ (finishedH h u).isSome = true)
  | .returned r => .invokeRet i r ∈ h

structure InvH (h : List Ev) (i : Nat) (v : InvCall) : Prop where
  call : .callInvoke i v.plan ∈ h
  ret : (∀ r, v.pc ≠ .returned r) → ∀ r, .invokeRet i r ∉ h
  pc : IPcH h i v.plan v.pc

structure InvsH (l : List InvCall) (o : Option Nat) (h : List Ev) : Prop where
  ok : ∀ (i : Nat) v, l[i]? = some v → InvH h i v
  all : ∀ i p, .callInvoke i p ∈ h → ∃ v, l[i]? = some v ∧ v.plan = p
  own : ∀ i, o = some i ↔ .claimed i ∈ h
  fresh : ∀ e ∈ h, ∀ i, evInv e = some i → i < l.length

structure HInv (own : Nat) (s : State) : Prop where
  tomb : TombH own s.tomb s.hist
  fin : FinH s.fin s.hist
  work : WorkH s.work s.goexit s.hist
  list : ListH s.listener s.hist
  tracks : TracksH s.tracks s.hist
  adds : AddsH s.adds s.hist
  invs : InvsH s.invs s.owner s.hist

/-! ## Events that do not matter to a part -/

theorem fresh_cons {f : Ev → Option Nat} {n n' : Nat} {e : Ev} {h : List Ev} (hx : ∀ e ∈ h, ∀ k, f e = some k → k < n) (hn : n ≤ n')
    (he : ∀ k, f e = some k → k < n') : ∀ x ∈ e :: h, ∀ k, f x = some k → k < n' := by
  intro x hm k hk
  rcases List.mem_cons.1 hm with rfl | hm
  · exact he k hk
  · exact Nat.lt_of_lt_of_le (hx x hm k hk) hn

theorem mem_cons_ne {e x : Ev} {h : List Ev} (hm : x ∈ e :: h) (hne : x ≠ e) : x ∈ h := by
  rcases List.mem_cons.1 hm with hm | hm
  · exact absurd hm hne
  · exact hm

theorem not_mem_cons {e x : Ev} {h : List Ev} (hm : x ∉ h) (hne : x ≠ e) : x ∉ e :: h := fun hx => hm (mem_cons_ne hx hne)

theorem killOf_none {e : Ev} (he : evTomb e = false) : killOf e = none := by
  cases e <;> first | rfl | cases he

theorem TombH.cons {own : Nat} {t : Tomb} {e : Ev} {h : List Ev} (hx : TombH own t h) (he : evTomb e = false) :
    TombH own t (e :: h) := by
  have hk := killOf_none he
  refine ⟨hx.dying.trans ⟨Dying.cons, ?_⟩, ?_, hx.dead.trans ⟨List.mem_cons_of_mem _, ?_⟩⟩
  · rintro ⟨x, h1, h2⟩
    refine ⟨x, mem_cons_ne h1 ?_, h2⟩
    rintro rfl; rw [hk] at h2; cases h2
  · intro r hr
    rw [hx.reason r hr]
    simp only [firstError, hk]
    cases firstError own h <;> rfl
  · intro hm; exact mem_cons_ne hm (by rintro rfl; cases he)

theorem FinH.cons {f : AMap (Option Err)} {e : Ev} {h : List Ev} (hx : FinH f h) (he : evFin e = false) : FinH f (e :: h) := by
  intro w
  rw [hx w]
  cases e <;> first | rfl | cases he

theorem WorkH.cons {w : GPc} {g : Bool} {e : Ev} {h : List Ev} (hx : WorkH w g h) (he : evWork e = false) : WorkH w g (e :: h) := by
  refine ⟨hx.call.trans ⟨fun h1 => not_mem_cons h1 (by rintro rfl; cases he), fun h1 h2 => h1 (List.mem_cons_of_mem _ h2)⟩, ?_, ?_, ?_, ?_,
    hx.exit.trans ⟨List.mem_cons_of_mem _, fun hm => mem_cons_ne hm (by rintro rfl; cases he)⟩, ?_⟩
  · intro hw r; exact not_mem_cons (hx.ret hw r) (by rintro rfl; cases he)
  · intro x hw; obtain ⟨r, h1, h2⟩ := hx.kill x hw; exact ⟨r, List.mem_cons_of_mem _ h1, h2⟩
  · intro hw x; exact not_mem_cons (hx.noKill hw x) (by rintro rfl; cases he)
  · intro hw hg; obtain ⟨x, h1⟩ := hx.killed hw hg; exact ⟨x, List.mem_cons_of_mem _ h1⟩
  · intro hg x; exact not_mem_cons (hx.exitNoKill hg x) (by rintro rfl; cases he)

theorem ListH.cons {l : LPc} {e : Ev} {h : List Ev} (hx : ListH l h) (he : evList e = false) : ListH l (e :: h) := by
  refine ⟨?_, ?_, ?_⟩
  · intro c w hl
    obtain ⟨h1, h2, h3⟩ := hx.cur c w hl
    exact ⟨List.mem_cons_of_mem _ h1, List.mem_cons_of_mem _ h2, fun k w' => not_mem_cons (h3 k w') (by rintro rfl; cases he)⟩
  · intro c hm
    rcases hx.all c (mem_cons_ne hm (by rintro rfl; cases he)) with ⟨k, w, h1, h2⟩ | h1
    · exact Or.inl ⟨k, w, List.mem_cons_of_mem _ h1, List.mem_cons_of_mem _ h2⟩
    · exact Or.inr h1
  · intro k w c hm
    exact List.mem_cons_of_mem _ (hx.tr k w c (mem_cons_ne hm (by rintro rfl; cases he)))

theorem TrackH.cons {own : Nat} {k : Nat} {t : Track} {e : Ev} {h : List Ev} (hk : EvOk own e h) (hx : TrackH h k t)
    (he : evTrack e ≠ some k) : TrackH (e :: h) k t := by
  refine ⟨?_, ?_, ?_, ?_, ?_⟩
  · obtain ⟨src, h1⟩ := hx.tr; exact ⟨src, List.mem_cons_of_mem _ h1⟩
  · intro hw x; exact not_mem_cons (hx.noKill hw x) (by rintro rfl; exact he rfl)
  · intro h1 h2
    obtain ⟨r, h3, h4⟩ := hx.killed h1 h2
    exact ⟨r, finished_cons hk h3, fun x hr => List.mem_cons_of_mem _ (h4 x hr)⟩
  · intro h1; exact not_mem_cons (hx.sel h1) (by rintro rfl; exact he rfl)
  · intro h1; exact List.mem_cons_of_mem _ (hx.stop h1)

theorem TracksH.cons {own : Nat} {l : List Track} {e : Ev} {h : List Ev} (hk : EvOk own e h) (hx : TracksH l h)
    (he : evTrack e = none) : TracksH l (e :: h) := by
  refine ⟨fun k t ht => (hx.ok k t ht).cons hk (by rw [he]; nofun), ?_,
    fresh_cons hx.fresh (Nat.le_refl _) (by rw [he]; nofun)⟩
  intro k w src hm
  exact hx.all k w src (mem_cons_ne hm (by rintro rfl; cases he))

theorem AddH.chanCons {c : Nat} {a : AddCall} {e : Ev} {h : List Ev} (hx : AddH h c a) (ha : a.chan = false) :
    ∃ post pre, e :: h = post ++ .callAdd c a.w :: pre ∧ ∀ i, .claimed i ∉ pre :=
  let ⟨post, pre, h1, h2⟩ := hx.chan ha
  ⟨e :: post, pre, by rw [h1]; rfl, h2⟩

theorem AddH.cons {c : Nat} {a : AddCall} {e : Ev} {h : List Ev} (hx : AddH h c a) (he : evAdd e ≠ some c) : AddH (e :: h) c a := by
  refine ⟨List.mem_cons_of_mem _ hx.call, ?_, ?_, ?_, fun r hr => List.mem_cons_of_mem _ (hx.done r hr), hx.chanCons⟩
  · intro hp r; exact not_mem_cons (hx.ret hp r) (by rintro rfl; exact he rfl)
  · intro hp; exact not_mem_cons (hx.sel hp) (by rintro rfl; exact he rfl)
  · intro hp; exact List.mem_cons_of_mem _ (hx.stop hp)

theorem AddsH.cons {l : List AddCall} {e : Ev} {h : List Ev} (hx : AddsH l h) (he : evAdd e = none) : AddsH l (e :: h) := by
  refine ⟨fun c a ha => (hx.ok c a ha).cons (by rw [he]; nofun), ?_,
    fresh_cons hx.fresh (Nat.le_refl _) (by rw [he]; nofun)⟩
  intro c w hm
  exact hx.all c w (mem_cons_ne hm (by rintro rfl; cases he))

theorem IPcH.cons {own : Nat} {i : Nat} {p : Plan} {pc : IPc} {e : Ev} {h : List Ev} (hk : EvOk own e h) (hx : IPcH h i p pc)
    (he : evInv e ≠ some i) : IPcH (e :: h) i p pc := by
  have mm : ∀ {x : Ev}, x ∈ h → x ∈ e :: h := List.mem_cons_of_mem _
  cases pc with
  | start => exact not_mem_cons hx (by rintro rfl; exact he rfl)
  | adding j ws =>
    obtain ⟨h1, h2, h3, h4⟩ := hx
    refine ⟨mm h1, h2, ?_, ?_⟩
    · intro j' w hj hw; obtain ⟨k, h5⟩ := h3 j' w hj hw; exact ⟨k, mm h5⟩
    · intro j' k w hj; exact not_mem_cons (h4 j' k w hj) (by rintro rfl; exact he rfl)
  | go =>
    obtain ⟨h1, h2⟩ := hx
    exact ⟨mm h1, fun j w hj => let ⟨k, h5⟩ := h2 j w hj; ⟨k, mm h5⟩⟩
  | ok => exact mm hx
  | failing x ws =>
    obtain ⟨h1, h2, h3, h4, h5⟩ := hx
    refine ⟨Refused.cons h1, h2, not_mem_cons h3 (by rintro rfl; exact he rfl), h4, ?_⟩
    intro w hw
    exact (h5 w hw).imp (fun x => x) (fun ⟨h6, h7⟩ => ⟨mm h6, finished_isSome hk h7⟩)
  | failWait x w ws =>
    obtain ⟨h1, h2, h3, h4, h5, h6⟩ := hx
    refine ⟨Refused.cons h1, h2, not_mem_cons h3 (by rintro rfl; exact he rfl), h4, mm h5, ?_⟩
    intro u hu
    exact (h6 u hu).imp (fun x => x) (fun x => x.imp (fun x => x) (fun ⟨h6, h7⟩ => ⟨mm h6, finished_isSome hk h7⟩))
  | returned r => exact mm hx

theorem InvH.cons {own : Nat} {i : Nat} {v : InvCall} {e : Ev} {h : List Ev} (hk : EvOk own e h) (hx : InvH h i v)
    (he : evInv e ≠ some i) : InvH (e :: h) i v := by
  refine ⟨List.mem_cons_of_mem _ hx.call, ?_, hx.pc.cons hk he⟩
  intro hp r; exact not_mem_cons (hx.ret hp r) (by rintro rfl; exact he rfl)

theorem InvsH.cons {own : Nat} {l : List InvCall} {o : Option Nat} {e : Ev} {h : List Ev} (hk : EvOk own e h) (hx : InvsH l o h)
    (he : evInv e = none) : InvsH l o (e :: h) := by
  refine ⟨fun i v hv => (hx.ok i v hv).cons hk (by rw [he]; nofun), ?_, ?_,
    fresh_cons hx.fresh (Nat.le_refl _) (by rw [he]; nofun)⟩
  · intro i p hm; exact hx.all i p (mem_cons_ne hm (by rintro rfl; cases he))
  · intro i
    exact (hx.own i).trans ⟨List.mem_cons_of_mem _, fun hm => mem_cons_ne hm (by rintro rfl; cases he)⟩

/-! ## Changes of one call or worker -/

theorem lt_of_get {α : Type} {l : List α} {k : Nat} {x : α} (h : l[k]? = some x) : k < l.length := (List.getElem?_eq_some_iff.1 h).1

theorem InvsH.set {l : List InvCall} {o : Option Nat} {h : List Ev} (hx : InvsH l o h) {i : Nat} {v v' : InvCall}
    (hv : l[i]? = some v) (hp : v'.plan = v.plan) (hi : InvH h i v') : InvsH (l.set i v') o h := by
  refine ⟨?_, ?_, hx.own, by simpa using hx.fresh⟩
  · intro j u hu
    rcases get_set hu with ⟨rfl, rfl⟩ | ⟨_, hu⟩
    · exact hi
    · exact hx.ok j u hu
  · intro j p hm
    obtain ⟨u, h1, h2⟩ := hx.all j p hm
    by_cases hj : j = i
    · subst hj; rw [hv] at h1; cases h1; exact ⟨v', get_set_self hv, hp.trans h2⟩
    · exact ⟨u, by rw [get_set_ne hj]; exact h1, h2⟩

/-- With an event about this call. -/
theorem InvsH.setCons {own : Nat} {l : List InvCall} {o : Option Nat} {h : List Ev} (hx : InvsH l o h) {i : Nat} {v v' : InvCall}
    {e : Ev} (hk : EvOk own e h) (hv : l[i]? = some v) (hp : v'.plan = v.plan) (hi : InvH (e :: h) i v')
    (he : ∀ j, evInv e = some j → j = i) (hc : ∀ i p, e ≠ .callInvoke i p) (hcl : ∀ j, e ≠ .claimed j) : InvsH (l.set i v') o (e :: h) := by
  refine ⟨?_, ?_, ?_, fresh_cons hx.fresh (by simp) (fun k hk => by rw [he k hk]; simpa using lt_of_get hv)⟩
  · intro j u hu
    rcases get_set hu with ⟨rfl, rfl⟩ | ⟨hj, hu⟩
    · exact hi
    · exact (hx.ok j u hu).cons hk (fun hy => hj (he j hy))
  · intro j p hm
    obtain ⟨u, h1, h2⟩ := hx.all j p (mem_cons_ne hm (hc j p).symm)
    by_cases hj : j = i
    · subst hj; rw [hv] at h1; cases h1; exact ⟨v', get_set_self hv, hp.trans h2⟩
    · exact ⟨u, by rw [get_set_ne hj]; exact h1, h2⟩
  · intro j
    exact (hx.own j).trans ⟨List.mem_cons_of_mem _, fun hm => mem_cons_ne hm (hcl j).symm⟩

theorem AddsH.setCons {l : List AddCall} {h : List Ev} (hx : AddsH l h) {c : Nat} {a a' : AddCall}
    {e : Ev} (hv : l[c]? = some a) (hp : a'.w = a.w) (hi : AddH (e :: h) c a')
    (he : evAdd e = some c) (hc : ∀ i p, e ≠ .callAdd i p) : AddsH (l.set c a') (e :: h) := by
  refine ⟨?_, ?_, fresh_cons hx.fresh (by simp) (fun k hk => by rw [he] at hk; cases hk; simpa using lt_of_get hv)⟩
  · intro j u hu
    rcases get_set hu with ⟨rfl, rfl⟩ | ⟨hj, hu⟩
    · exact hi
    · exact (hx.ok j u hu).cons (fun hy => hj (by rw [he] at hy; cases hy; rfl))
  · intro j p hm
    obtain ⟨u, h1, h2⟩ := hx.all j p (mem_cons_ne hm (hc j p).symm)
    by_cases hj : j = c
    · subst hj; rw [hv] at h1; cases h1; exact ⟨a', get_set_self hv, hp.trans h2⟩
    · exact ⟨u, by rw [get_set_ne hj]; exact h1, h2⟩

theorem TracksH.set {l : List Track} {h : List Ev} (hx : TracksH l h) {k : Nat} {t t' : Track}
    (hv : l[k]? = some t) (hp : t'.w = t.w) (hi : TrackH h k t') : TracksH (l.set k t') h := by
  refine ⟨?_, ?_, by simpa using hx.fresh⟩
  · intro j u hu
    rcases get_set hu with ⟨rfl, rfl⟩ | ⟨_, hu⟩
    · exact hi
    · exact hx.ok j u hu
  · intro j p src hm
    obtain ⟨u, h1, h2⟩ := hx.all j p src hm
    by_cases hj : j = k
    · subst hj; rw [hv] at h1; cases h1; exact ⟨t', get_set_self hv, hp.trans h2⟩
    · exact ⟨u, by rw [get_set_ne hj]; exact h1, h2⟩

theorem TracksH.setCons {own : Nat} {l : List Track} {h : List Ev} (hx : TracksH l h) {k : Nat} {t t' : Track}
    {e : Ev} (hk : EvOk own e h) (hv : l[k]? = some t) (hp : t'.w = t.w) (hi : TrackH (e :: h) k t')
    (he : evTrack e = some k) (hc : ∀ i p src, e ≠ .tracked i p src) : TracksH (l.set k t') (e :: h) := by
  refine ⟨?_, ?_, fresh_cons hx.fresh (by simp) (fun k hk => by rw [he] at hk; cases hk; simpa using lt_of_get hv)⟩
  · intro j u hu
    rcases get_set hu with ⟨rfl, rfl⟩ | ⟨hj, hu⟩
    · exact hi
    · exact (hx.ok j u hu).cons hk (fun hy => hj (by rw [he] at hy; cases hy; rfl))
  · intro j p src hm
    obtain ⟨u, h1, h2⟩ := hx.all j p src (mem_cons_ne hm (hc j p src).symm)
    by_cases hj : j = k
    · subst hj; rw [hv] at h1; cases h1; exact ⟨t', get_set_self hv, hp.trans h2⟩
    · exact ⟨u, by rw [get_set_ne hj]; exact h1, h2⟩

/-- A new tracked worker. -/
theorem TracksH.add {own : Nat} {l : List Track} {h : List Ev} {w : Nat} {src : Src} (hx : TracksH l h)
    (hk : EvOk own (.tracked l.length w src) h) : TracksH (l ++ [Track.mk w .wait .select]) (.tracked l.length w src :: h) := by
  refine ⟨?_, ?_, fresh_cons hx.fresh (by simp) (fun k hk => by cases hk; simp)⟩
  · intro j u hu
    rcases get_append hu with hu | ⟨rfl, rfl⟩
    · refine (hx.ok j u hu).cons hk ?_
      intro hy
      have := lt_of_get hu
      cases hy; omega
    · refine ⟨⟨src, List.mem_cons_self⟩, ?_, fun h1 => absurd rfl h1, ?_, nofun⟩
      · intro _ e hm
        exact Nat.lt_irrefl _ (hx.fresh _ (mem_cons_ne hm nofun) _ rfl)
      · intro _ hm
        exact Nat.lt_irrefl _ (hx.fresh _ (mem_cons_ne hm nofun) _ rfl)
  · intro j p src' hm
    rcases List.mem_cons.1 hm with hm | hm
    · cases hm; exact ⟨⟨w, .wait, .select⟩, by simp, rfl⟩
    · obtain ⟨t, h1, h2⟩ := hx.all j p src' hm
      exact ⟨t, get_append_old h1, h2⟩

theorem AddsH.add {l : List AddCall} {h : List Ev} {w : Nat} {ch : Bool} (hx : AddsH l h) (hch : ch = false → ∀ i, .claimed i ∉ h) :
    AddsH (l ++ [AddCall.mk w ch .select]) (.callAdd l.length w :: h) := by
  refine ⟨?_, ?_, fresh_cons hx.fresh (by simp) (fun k hk => by cases hk; simp)⟩
  · intro j u hu
    rcases get_append hu with hu | ⟨rfl, rfl⟩
    · refine (hx.ok j u hu).cons ?_
      intro hy
      have := lt_of_get hu
      cases hy; omega
    · refine ⟨List.mem_cons_self, ?_, ?_, nofun, nofun, fun hc => ⟨[], h, rfl, hch hc⟩⟩
      · intro _ e hm
        exact Nat.lt_irrefl _ (hx.fresh _ (mem_cons_ne hm nofun) _ rfl)
      · intro _ hm
        exact Nat.lt_irrefl _ (hx.fresh _ (mem_cons_ne hm nofun) _ rfl)
  · intro j p hm
    rcases List.mem_cons.1 hm with hm | hm
    · cases hm; exact ⟨⟨w, ch, .select⟩, by simp, rfl⟩
    · obtain ⟨t, h1, h2⟩ := hx.all j p hm
      exact ⟨t, get_append_old h1, h2⟩

theorem InvsH.add {own : Nat} {l : List InvCall} {o : Option Nat} {h : List Ev} {p : Plan} (hx : InvsH l o h)
    (hk : EvOk own (.callInvoke l.length p) h) : InvsH (l ++ [InvCall.mk p .start]) o (.callInvoke l.length p :: h) := by
  refine ⟨?_, ?_, ?_, fresh_cons hx.fresh (by simp) (fun k hk => by cases hk; simp)⟩
  · intro j u hu
    rcases get_append hu with hu | ⟨rfl, rfl⟩
    · refine (hx.ok j u hu).cons hk ?_
      intro hy
      have := lt_of_get hu
      cases hy; omega
    · refine ⟨List.mem_cons_self, ?_, ?_⟩
      · intro _ e hm
        exact Nat.lt_irrefl _ (hx.fresh _ (mem_cons_ne hm nofun) _ rfl)
      · intro hm
        exact Nat.lt_irrefl _ (hx.fresh _ (mem_cons_ne hm nofun) _ rfl)
  · intro j q hm
    rcases List.mem_cons.1 hm with hm | hm
    · cases hm; exact ⟨⟨p, .start⟩, by simp, rfl⟩
    · obtain ⟨t, h1, h2⟩ := hx.all j q hm
      exact ⟨t, get_append_old h1, h2⟩
  · intro i
    exact (hx.own i).trans ⟨List.mem_cons_of_mem _, fun hm => mem_cons_ne hm nofun⟩

/-! ## Kill -/

theorem kill_ok {own : Nat} {t : Tomb} {h : List Ev} {e : Option Err} {ev : Ev} (hx : TombH own t h) (hev : killOf ev = some e)
    (hd : ev ≠ .dead) (hk : (t.kill (killArg own e)).panicked = false) :
    TombH own (t.kill (killArg own e)) (ev :: h) ∧ e ≠ some .tombStillAlive ∧ (OwnDying own e → Dying h) := by
  have hdy : Dying (ev :: h) := ⟨ev, List.mem_cons_self, by rw [hev]; rfl⟩
  have hdead : (t.kill (killArg own e)).dead = true ↔ .dead ∈ ev :: h := by
    rw [Tomb.kill_dead]
    exact hx.dead.trans ⟨List.mem_cons_of_mem _, fun hm => mem_cons_ne hm hd.symm⟩
  have hdying := Tomb_kill_dying hk
  rcases killArg_eq own e with ⟨h1, h2, h3⟩ | ⟨h1, h2, h3, h4⟩
  · rw [h2] at hk hdying hdead ⊢
    have hr : t.reason ≠ none := by
      intro hr; simp [Tomb.kill, hr] at hk
    have ht : t.kill (some .tombDying) = t := by simp [Tomb.kill, hr]
    rw [ht] at hdying hdead ⊢
    refine ⟨⟨⟨fun _ => hdy, fun _ => hdying⟩, ?_, hdead⟩, ?_, fun _ => hx.dying.1 hdying⟩
    · intro r hr
      have := hx.reason r hr
      simp only [firstError, hev, h3, ← this]
      cases r <;> rfl
    · rintro rfl; simp [OwnDying, dyings, Err.tree] at h1
  · have hne : e ≠ some .tombStillAlive := by
      intro he
      rw [h4.2 he] at hk; simp [Tomb.kill] at hk
    have ho : Tomb.Ordinary (killArg own e) := ⟨fun hy => hne (h4.1 hy), h3⟩
    refine ⟨⟨⟨fun _ => hdy, fun _ => hdying⟩, ?_, hdead⟩, hne, fun hy => absurd hy h1⟩
    intro r hr
    rw [Tomb.kill_reason _ ho] at hr
    simp only [firstError, hev, ← h2]
    cases hR : t.reason with
    | none =>
      rw [hR] at hr
      have hnd : ¬ Dying h := by
        intro hy
        have := hx.dying.2 hy
        simp [Tomb.dying, hR] at this
      rw [firstError_not_dying hnd]
      simpa using hr.symm
    | some x =>
      rw [hR] at hr
      rw [← hx.reason x hR]
      cases x <;> simpa using hr.symm

theorem kill_panics {own : Nat} {t : Tomb} {h : List Ev} {e : Option Err} (hx : TombH own t h) (hp : t.panicked = false)
    (hk : (t.kill (killArg own e)).panicked = true) :
    (t.kill (killArg own e)).reason = t.reason ∧ (e = some .tombStillAlive ∨ (OwnDying own e ∧ ¬ Dying h)) := by
  rcases killArg_eq own e with ⟨h1, h2, h3⟩ | ⟨h1, h2, h3, h4⟩
  · rw [h2] at hk ⊢
    by_cases hr : t.reason = none
    · refine ⟨by simp [Tomb.kill, hr], Or.inr ⟨h1, ?_⟩⟩
      intro hy
      have := hx.dying.2 hy
      simp [Tomb.dying, hr] at this
    · simp [Tomb.kill, hr, hp] at hk
  · by_cases he : e = some .tombStillAlive
    · refine ⟨?_, Or.inl he⟩
      rw [h4.2 he]; simp [Tomb.kill]
    · rw [Tomb.kill_panicked _ ⟨fun hy => he (h4.1 hy), h3⟩, hp] at hk; cases hk

theorem TombH.same {own : Nat} {t t' : Tomb} {h : List Ev} (hx : TombH own t h) (h1 : t'.reason = t.reason) (h2 : t'.dead = t.dead) :
    TombH own t' h :=
  ⟨by rw [Tomb.dying, h1]; exact hx.dying, by rw [h1]; exact hx.reason, by rw [h2]; exact hx.dead⟩

/-- Between two places after the work func and Kill. -/
theorem WorkH.move {w w' : GPc} {g : Bool} {h : List Ev} (hx : WorkH w g h) (hw : w.over = true) (hw' : w'.over = true) : WorkH w' g h := by
  refine ⟨⟨?_, ?_⟩, ?_, ?_, ?_, fun _ => hx.killed hw, hx.exit, hx.exitNoKill⟩
  · rintro rfl; cases hw'
  · intro h1; rw [hx.call.2 h1] at hw; cases hw
  · rintro (rfl | rfl) <;> cases hw'
  · rintro e rfl; cases hw'
  · intro h1; rw [hw'] at h1; cases h1

theorem WorkH.wake {w : GPc} {g : Bool} {h : List Ev} {p : Prop} [Decidable p] (hx : WorkH w g h) :
    WorkH (if w = .asleep ∧ p then .woken else w) g h := by
  split
  · rename_i hw
    obtain ⟨rfl, _⟩ := hw
    exact hx.move rfl rfl
  · exact hx

/-! ## Every step -/

/-- No goroutine is counted once the tomb is dead. -/
theorem Shape.not_dead {s : State} (h : Shape s) (hn : s.wg.n ≠ 0) : s.tomb.dead ≠ true := by
  intro hd
  have := (h.dead.1 hd).1
  exact hn (h.waited (by rw [this]; rfl))

theorem Shape.count_pos {s : State} (h : Shape s) (hl : s.listener ≠ .none) (hl' : s.listener ≠ .done) : s.wg.n ≠ 0 := by
  rw [h.count]
  cases hx : s.listener with
  | none => exact absurd hx hl
  | done => exact absurd hx hl'
  | _ => simp [lcount]

theorem Shape.count_track {s : State} (h : Shape s) {k : Nat} {t : Track} (ht : s.tracks[k]? = some t) (hc : tcount t ≠ 0) : s.wg.n ≠ 0 := by
  have := le_sum tcount ht
  rw [h.count]; omega

theorem WorkH.noneDead {own : Nat} {s : State} (hS : Shape s) (hH : HInv own s) (hw : s.work = .none) : .dead ∉ s.hist := by
  intro hm
  have := (hS.dead.1 (hH.tomb.dead.2 hm)).1
  rw [hw] at this; cases this

theorem validate_iff {p : Plan} : p.validate = none ↔ Valid p := by
  refine ⟨fun h => let ⟨h1, h2, h3, h4⟩ := validate_none h; ⟨h1, h2, h3, fun hm => h4 none hm rfl⟩, ?_⟩
  rintro ⟨h1, h2, h3, h4⟩
  simp only [Plan.validate, h1, h2, h3, Bool.not_true, Bool.false_eq_true, if_false]
  exact nilInit_none.2 (fun x hx he => h4 (he ▸ hx))

theorem nilInit_fault {l : List (Option Nat)} {k : Nat} {x : PlanErr} (h : nilInit k l = some x) :
    ∃ i, x = .nilInit (k + i) ∧ l[i]? = some none ∧ ∀ j, j < i → l[j]? ≠ some none := by
  induction l generalizing k with
  | nil => cases h
  | cons a l ih =>
    cases a with
    | none => cases h; exact ⟨0, rfl, rfl, by omega⟩
    | some w =>
      obtain ⟨i, h1, h2, h3⟩ := ih (k := k + 1) h
      refine ⟨i + 1, by rw [h1]; congr 1; omega, h2, fun j hj => ?_⟩
      cases j with
      | zero => nofun
      | succ j => exact h3 j (by omega)

theorem validate_fault {p : Plan} {x : PlanErr} (h : p.validate = some x) : Fault p x := by
  unfold Plan.validate at h
  split at h
  · cases h; simp_all [Fault]
  split at h
  · cases h; simp_all [Fault]
  split at h
  · cases h; simp_all [Fault]
  obtain ⟨i, h1, h2, h3⟩ := nilInit_fault h
  rw [Nat.zero_add] at h1; subst h1
  simp_all [Fault]

theorem Fault.not_valid {p : Plan} {x : PlanErr} (h : Fault p x) : ¬ Valid p := by
  rintro ⟨h1, h2, h3, h4⟩
  cases x with
  | nilInit i => exact h4 (List.mem_of_getElem? h.2.2.2.1)
  | _ => simp_all [Fault]

theorem T.hist {own : Nat} {s s' : State} (hS : Shape s) (hH : HInv own s) (hc : s.crashed = false) {op : Op} (hT : T own s op s') :
    (s'.hist = s.hist ∨ ∃ e, s'.hist = e :: s.hist ∧ EvOk own e s.hist) ∧ HInv own s' := by
  have hpan : s.tomb.panicked = false := by
    simp only [crashed, Bool.or_eq_false_iff] at hc; exact hc.1
  cases hT with
  | callInvoke p =>
    have hk : EvOk own (.callInvoke s.invs.length p) s.hist := by
      intro q hm; exact Nat.lt_irrefl _ (hH.invs.fresh _ hm _ rfl)
    exact ⟨Or.inr ⟨_, rfl, hk⟩, hH.tomb.cons rfl, hH.fin.cons rfl, hH.work.cons rfl, hH.list.cons rfl, hH.tracks.cons hk rfl,
      hH.adds.cons rfl, hH.invs.add hk⟩
  | iInvalid i v e hv hp he =>
    have hI := hH.invs.ok i v hv
    have hpc := hI.pc
    rw [hp] at hpc
    have hnv : ¬ Valid v.plan := fun hy => by rw [validate_iff.2 hy] at he; cases he
    refine ⟨Or.inl rfl, hH.tomb, hH.fin, hH.work, hH.list, hH.tracks, hH.adds, hH.invs.set hv rfl
      ⟨hI.call, fun _ => hI.ret (by rw [hp]; nofun), Or.inl hnv, validate_fault he, hpc, fun _ hx => hx, fun _ hw => Or.inl hw⟩⟩
  | iUsed i v o hv hp he ho =>
    have hI := hH.invs.ok i v hv
    have hpc := hI.pc
    rw [hp] at hpc
    refine ⟨Or.inl rfl, hH.tomb, hH.fin, hH.work, hH.list, hH.tracks, hH.adds, hH.invs.set hv rfl
      ⟨hI.call, fun _ => hI.ret (by rw [hp]; nofun), Or.inr ⟨o, ?_, (hH.invs.own o).1 ho⟩, validate_iff.1 he, hpc,
        fun _ hx => hx, fun _ hw => Or.inl hw⟩⟩
    rintro rfl; exact hpc ((hH.invs.own o).1 ho)
  | iClaim i v hv hp he ho =>
    have hI := hH.invs.ok i v hv
    have hno : ∀ j, .claimed j ∉ s.hist := fun j hm => by
      have := (hH.invs.own j).2 hm
      rw [ho] at this; cases this
    have hk : EvOk own (.claimed i) s.hist := ⟨⟨v.plan, hI.call, validate_iff.1 he⟩, hno⟩
    refine ⟨Or.inr ⟨_, rfl, hk⟩, hH.tomb.cons rfl, hH.fin.cons rfl, hH.work.cons rfl, hH.list.cons rfl, hH.tracks.cons hk rfl,
      hH.adds.cons rfl, ?_, ?_, ?_, ?_⟩
    · intro j u hu
      rcases get_set hu with ⟨rfl, rfl⟩ | ⟨hj, hu⟩
      · refine ⟨List.mem_cons_of_mem _ hI.call, ?_, List.mem_cons_self, List.drop_zero, nofun, ?_⟩
        · intro _ r; exact not_mem_cons (hI.ret (by rw [hp]; nofun) r) nofun
        · intro j' k w _ hm
          obtain ⟨t, ht, _⟩ := hH.tracks.all _ _ _ (mem_cons_ne hm nofun)
          rw [(hS.noOwn ho).2.2] at ht; cases ht
      · exact (hH.invs.ok j u hu).cons hk (by intro hy; cases hy; exact hj rfl)
    · intro j p hm
      obtain ⟨u, h1, h2⟩ := hH.invs.all j p (mem_cons_ne hm nofun)
      by_cases hj : j = i
      · subst hj; rw [hv] at h1; cases h1; exact ⟨_, get_set_self hv, h2⟩
      · exact ⟨u, by rw [← h1]; exact get_set_ne hj, h2⟩
    · intro j
      refine ⟨fun hy => by cases hy; exact List.mem_cons_self, fun hm => ?_⟩
      rcases List.mem_cons.1 hm with hm | hm
      · cases hm; rfl
      · exact absurd hm (hno j)
    · exact fresh_cons hH.invs.fresh (by simp [setInv, emit]) (fun k hk => by cases hk; simpa [setInv, emit] using lt_of_get hv)
  | iAdd i v j w ws hv hp =>
    have hI := hH.invs.ok i v hv
    have hpc := hI.pc
    rw [hp] at hpc
    obtain ⟨h1, h2, h3, h4⟩ := hpc
    have hph := hS.phase hv (by rw [hp]; rfl)
    rw [hp] at hph
    obtain ⟨hl, hw⟩ := hph
    · have hgj : v.plan.init[j]? = some (some w) := by
        have := congrArg (·[0]?) h2
        simpa using this
      have hdrop : v.plan.init.drop (j + 1) = ws := by
        have := congrArg (List.drop 1) h2
        simpa [List.drop_drop] using this
      have hk : EvOk own (.tracked s.tracks.length w (.init i j)) s.hist := by
        refine ⟨?_, ?_, WorkH.noneDead hS hH hw, h1, hH.work.call.1 hw, v.plan, hI.call, hgj⟩
        · intro w' src' hm; exact Nat.lt_irrefl _ (hH.tracks.fresh _ hm _ rfl)
        · intro k' w' hm; exact h4 j k' w' (Nat.le_refl _) hm
      unfold add
      rw [wgAdd_eq (addOk hS (Or.inl hw))]
      refine ⟨Or.inr ⟨_, rfl, hk⟩, hH.tomb.cons rfl, hH.fin.cons rfl, hH.work.cons rfl, hH.list.cons rfl, hH.tracks.add hk,
        hH.adds.cons rfl, hH.invs.setCons hk hv rfl ⟨List.mem_cons_of_mem _ hI.call, ?_, List.mem_cons_of_mem _ h1, hdrop, ?_, ?_⟩ ?_ nofun nofun⟩
      · intro _ r; exact not_mem_cons (hI.ret (by rw [hp]; nofun) r) nofun
      · intro j' w' hj hw'
        rcases Nat.lt_or_ge j' j with hlt | hge
        · obtain ⟨k, hk⟩ := h3 j' w' hlt hw'; exact ⟨k, List.mem_cons_of_mem _ hk⟩
        · have : j' = j := by omega
          subst this
          rw [hgj] at hw'; cases hw'
          exact ⟨_, List.mem_cons_self⟩
      · intro j' k w' hj hm
        exact h4 j' k w' (by omega) (mem_cons_ne hm (by intro hy; injection hy with _ _ hy; injection hy; omega))
      · intro j' hy; injection hy with hy; exact hy.symm
  | iListen i v j hv hp =>
    have hI := hH.invs.ok i v hv
    have hpc := hI.pc
    rw [hp] at hpc
    obtain ⟨h1, h2, h3, h4⟩ := hpc
    have hph := hS.phase hv (by rw [hp]; rfl)
    rw [hp] at hph
    obtain ⟨hl, hw⟩ := hph
    rw [wgAdd_eq (addOk hS (Or.inl hw))]
    refine ⟨Or.inl rfl, hH.tomb, hH.fin, hH.work, ⟨nofun, ?_, hH.list.tr⟩, hH.tracks, hH.adds, hH.invs.set hv rfl
      ⟨hI.call, fun _ => hI.ret (by rw [hp]; nofun), h1, ?_⟩⟩
    · intro c hm
      rcases hH.list.all c hm with hx | ⟨w, hx⟩
      · exact Or.inl hx
      · rw [hl] at hx; cases hx
    · intro j' w hj
      refine h3 j' w ?_ hj
      have h5 : j' < v.plan.init.length := lt_of_get hj
      have h6 := List.drop_eq_nil_iff.1 h2
      omega
  | iGo i v hv hp =>
    have hI := hH.invs.ok i v hv
    have hpc := hI.pc
    rw [hp] at hpc
    obtain ⟨h1, h2⟩ := hpc
    have hph := hS.phase hv (by rw [hp]; rfl)
    rw [hp] at hph
    obtain ⟨hl, hw⟩ := hph
    have hno : .workCall ∉ s.hist := hH.work.call.1 hw
    have hk : EvOk own .workCall s.hist := ⟨hno, i, v.plan, h1, hI.call, h2⟩
    have hgo : s.tomb.go.reason = s.tomb.reason ∧ s.tomb.go.dead = s.tomb.dead := by
      unfold Tomb.go; split <;> exact ⟨rfl, rfl⟩
    refine ⟨Or.inr ⟨_, rfl, hk⟩, (hH.tomb.same hgo.1 hgo.2).cons rfl, hH.fin.cons rfl, ?_, hH.list.cons rfl, hH.tracks.cons hk rfl,
      hH.adds.cons rfl, hH.invs.setCons hk hv rfl ⟨List.mem_cons_of_mem _ hI.call, ?_, List.mem_cons_of_mem _ h1⟩ nofun nofun nofun⟩
    · have hg : s.goexit = false := by
        cases hg : s.goexit with
        | false => rfl
        | true => have := hS.goexit hg; rw [hw] at this; cases this
      refine ⟨⟨nofun, fun hx => absurd List.mem_cons_self hx⟩, ?_, nofun, ?_, nofun,
        hH.work.exit.trans ⟨List.mem_cons_of_mem _, fun hm => mem_cons_ne hm nofun⟩, ?_⟩
      · intro _ r; exact not_mem_cons (hH.work.ret (Or.inl hw) r) nofun
      · intro _ e; exact not_mem_cons (hH.work.noKill (by rw [hw]; rfl) e) nofun
      · intro hx; rw [show s.goexit = true from hx] at hg; cases hg
    · intro _ r; exact not_mem_cons (hI.ret (by rw [hp]; nofun) r) nofun
  | iOk i v hv hp =>
    have hI := hH.invs.ok i v hv
    have hpc := hI.pc
    rw [hp] at hpc
    have hph := hS.phase hv (by rw [hp]; rfl)
    rw [hp] at hph
    obtain ⟨hl, hw⟩ := hph
    have hwc : .workCall ∈ s.hist := Classical.byContradiction fun hx => hw (hH.work.call.2 hx)
    have hk : EvOk own (.invokeRet i none) s.hist := ⟨hpc, hwc, hI.ret (by rw [hp]; nofun)⟩
    exact ⟨Or.inr ⟨_, rfl, hk⟩, hH.tomb.cons rfl, hH.fin.cons rfl, hH.work.cons rfl, hH.list.cons rfl, hH.tracks.cons hk rfl,
      hH.adds.cons rfl, hH.invs.setCons hk hv rfl ⟨List.mem_cons_of_mem _ hI.call, fun hx => absurd rfl (hx none), List.mem_cons_self⟩
        (by intro j hj; injection hj with hj; exact hj.symm) nofun nofun⟩
  | iSkip i v e ws hv hp =>
    have hI := hH.invs.ok i v hv
    have hpc := hI.pc
    rw [hp] at hpc
    obtain ⟨h1, h2, h3, h4, h5⟩ := hpc
    refine ⟨Or.inl rfl, hH.tomb, hH.fin, hH.work, hH.list, hH.tracks, hH.adds, hH.invs.set hv rfl
      ⟨hI.call, fun _ => hI.ret (by rw [hp]; nofun), h1, h2, h3, fun x hx => h4 x (List.mem_cons_of_mem _ hx), ?_⟩⟩
    intro w hw
    exact (h5 w hw).imp (fun hx => by simpa using hx) (fun hx => hx)
  | iKill i v e w ws hv hp =>
    have hI := hH.invs.ok i v hv
    have hpc := hI.pc
    rw [hp] at hpc
    obtain ⟨h1, h2, h3, h4, h5⟩ := hpc
    have hk : EvOk own (.killI i w) s.hist := ⟨hI.ret (by rw [hp]; nofun), v.plan, hI.call, h4 _ List.mem_cons_self, h1, h3⟩
    refine ⟨Or.inr ⟨_, rfl, hk⟩, hH.tomb.cons rfl, hH.fin.cons rfl, hH.work.cons rfl, hH.list.cons rfl, hH.tracks.cons hk rfl,
      hH.adds.cons rfl, hH.invs.setCons hk hv rfl ⟨List.mem_cons_of_mem _ hI.call, ?_, Refused.cons h1, h2, not_mem_cons h3 nofun,
        fun x hx => h4 x (List.mem_cons_of_mem _ hx), List.mem_cons_self, ?_⟩ nofun nofun nofun⟩
    · intro _ r; exact not_mem_cons (hI.ret (by rw [hp]; nofun) r) nofun
    · intro u hu
      rcases h5 u hu with hx | ⟨hx, hy⟩
      · rcases List.mem_cons.1 hx with hx | hx
        · cases hx; exact Or.inr (Or.inl rfl)
        · exact Or.inl hx
      · exact Or.inr (Or.inr ⟨List.mem_cons_of_mem _ hx, finished_isSome hk hy⟩)
  | iWaitRet i v e w ws hv hp hf =>
    have hI := hH.invs.ok i v hv
    have hpc := hI.pc
    rw [hp] at hpc
    obtain ⟨h1, h2, h3, h4, h5, h6⟩ := hpc
    refine ⟨Or.inl rfl, hH.tomb, hH.fin, hH.work, hH.list, hH.tracks, hH.adds, hH.invs.set hv rfl
      ⟨hI.call, fun _ => hI.ret (by rw [hp]; nofun), h1, h2, h3, h4, ?_⟩⟩
    intro u hu
    rcases h6 u hu with hx | rfl | hx
    · exact Or.inl hx
    · exact Or.inr ⟨h5, by rw [← hH.fin]; exact hf⟩
    · exact Or.inr hx
  | iFail i v e hv hp =>
    have hI := hH.invs.ok i v hv
    have hpc := hI.pc
    rw [hp] at hpc
    obtain ⟨h1, h2, h3, h4, h5⟩ := hpc
    have hk : EvOk own (.invokeRet i (some e)) s.hist :=
      ⟨hI.ret (by rw [hp]; nofun), v.plan, hI.call, h1, h2, h3, fun w hw => (h5 w hw).resolve_left nofun⟩
    exact ⟨Or.inr ⟨_, rfl, hk⟩, hH.tomb.cons rfl, hH.fin.cons rfl, hH.work.cons rfl, hH.list.cons rfl, hH.tracks.cons hk rfl,
      hH.adds.cons rfl, hH.invs.setCons hk hv rfl ⟨List.mem_cons_of_mem _ hI.call, fun hx => absurd rfl (hx (some e)), List.mem_cons_self⟩
        (by intro j hj; injection hj with hj; exact hj.symm) nofun nofun⟩
  | callAdd w =>
    have hk : EvOk own (.callAdd s.adds.length w) s.hist := by
      intro q hm; exact Nat.lt_irrefl _ (hH.adds.fresh _ hm _ rfl)
    exact ⟨Or.inr ⟨_, rfl, hk⟩, hH.tomb.cons rfl, hH.fin.cons rfl, hH.work.cons rfl, hH.list.cons rfl, hH.tracks.cons hk rfl,
      hH.adds.add (fun hc i hm => by rw [(hH.invs.own i).2 hm] at hc; cases hc), hH.invs.cons hk rfl⟩
  | aDying c a ha hp hd =>
    have hA := hH.adds.ok c a ha
    have hret := hA.ret (by rw [hp]; nofun)
    have hk : EvOk own (.killA c a.w) s.hist := ⟨hA.call, hH.tomb.dying.1 hd, hret, hA.sel hp⟩
    exact ⟨Or.inr ⟨_, rfl, hk⟩, hH.tomb.cons rfl, hH.fin.cons rfl, hH.work.cons rfl, hH.list.cons rfl, hH.tracks.cons hk rfl,
      hH.adds.setCons ha rfl ⟨List.mem_cons_of_mem _ hA.call, fun _ r => not_mem_cons (hret r) nofun, nofun, fun _ => List.mem_cons_self,
        nofun, hA.chanCons⟩ rfl nofun,
      hH.invs.cons hk rfl⟩
  | aSend c a ha hp hc hl =>
    have hA := hH.adds.ok c a ha
    have hret := hA.ret (by rw [hp]; nofun)
    have hnd : .dead ∉ s.hist := fun hm =>
      hS.not_dead (hS.count_pos (by rw [hl]; nofun) (by rw [hl]; nofun)) (hH.tomb.dead.2 hm)
    have hk : EvOk own (.addRet c none) s.hist := ⟨⟨a.w, hA.call, hA.sel hp⟩, hnd, hret⟩
    refine ⟨Or.inr ⟨_, rfl, hk⟩, hH.tomb.cons rfl, hH.fin.cons rfl, hH.work.cons rfl,
      ⟨?_, ?_, fun k w c' hm => List.mem_cons_of_mem _ (hH.list.tr k w c' (mem_cons_ne hm nofun))⟩, hH.tracks.cons hk rfl,
      hH.adds.setCons ha rfl ⟨List.mem_cons_of_mem _ hA.call, fun hx => absurd rfl (hx none), nofun, nofun, fun _ hx => by cases hx; exact List.mem_cons_self,
        hA.chanCons⟩ rfl nofun,
      hH.invs.cons hk rfl⟩
    · intro c' w' hx
      cases hx
      refine ⟨List.mem_cons_of_mem _ hA.call, List.mem_cons_self, ?_⟩
      intro k w' hm
      exact hret none (hH.list.tr k w' c (mem_cons_ne hm nofun))
    · intro c' hm
      rcases List.mem_cons.1 hm with hm | hm
      · cases hm; exact Or.inr ⟨_, rfl⟩
      · rcases hH.list.all c' hm with ⟨k, w, h1, h2⟩ | ⟨w, hx⟩
        · exact Or.inl ⟨k, w, List.mem_cons_of_mem _ h1, List.mem_cons_of_mem _ h2⟩
        · rw [hl] at hx; cases hx
  | aErr c a e ha hp hf =>
    have hA := hH.adds.ok c a ha
    have hret := hA.ret (by rw [hp]; nofun)
    have hk : EvOk own (.addRet c (some (trace e))) s.hist := ⟨hret, a.w, hA.call, hA.stop hp, Or.inl ⟨e, by rw [← hH.fin]; exact hf, rfl⟩⟩
    exact ⟨Or.inr ⟨_, rfl, hk⟩, hH.tomb.cons rfl, hH.fin.cons rfl, hH.work.cons rfl, hH.list.cons rfl, hH.tracks.cons hk rfl,
      hH.adds.setCons ha rfl ⟨List.mem_cons_of_mem _ hA.call, fun hx => absurd rfl (hx _), nofun, nofun, fun _ hx => by cases hx; exact List.mem_cons_self,
        hA.chanCons⟩ rfl nofun,
      hH.invs.cons hk rfl⟩
  | aNil c a ha hp hf =>
    have hA := hH.adds.ok c a ha
    have hret := hA.ret (by rw [hp]; nofun)
    have hk : EvOk own (.addRet c (some (errDying own s))) s.hist := ⟨hret, a.w, hA.call, hA.stop hp, Or.inr ⟨by rw [← hH.fin]; exact hf, by simp [errDying, hS.stop c a ha hp]⟩⟩
    exact ⟨Or.inr ⟨_, rfl, hk⟩, hH.tomb.cons rfl, hH.fin.cons rfl, hH.work.cons rfl, hH.list.cons rfl, hH.tracks.cons hk rfl,
      hH.adds.setCons ha rfl ⟨List.mem_cons_of_mem _ hA.call, fun hx => absurd rfl (hx _), nofun, nofun, fun _ hx => by cases hx; exact List.mem_cons_self,
        hA.chanCons⟩ rfl nofun,
      hH.invs.cons hk rfl⟩
  | lDying hl hd =>
    rw [wgDone_eq (s := { s with listener := .done }) (hS.count_pos (by rw [hl]; nofun) (by rw [hl]; nofun)) hS.waiters]
    refine ⟨Or.inl rfl, hH.tomb, hH.fin, hH.work.wake, ⟨nofun, ?_, hH.list.tr⟩, hH.tracks, hH.adds, hH.invs⟩
    intro c hm
    rcases hH.list.all c hm with hx | ⟨w, hx⟩
    · exact Or.inl hx
    · rw [hl] at hx; cases hx
  | lAdd c w hl =>
    obtain ⟨h1, h2, h3⟩ := hH.list.cur c w hl
    have hn := hS.count_pos (by rw [hl]; nofun) (by rw [hl]; nofun)
    have hk : EvOk own (.tracked s.tracks.length w (.add c)) s.hist := by
      refine ⟨?_, fun k' w' => h3 k' w', fun hm => hS.not_dead hn (hH.tomb.dead.2 hm), h1, h2⟩
      intro w' src' hm; exact Nat.lt_irrefl _ (hH.tracks.fresh _ hm _ rfl)
    unfold add
    rw [wgAdd_eq (s := { s with listener := .select }) (Or.inr hn)]
    refine ⟨Or.inr ⟨_, rfl, hk⟩, hH.tomb.cons rfl, hH.fin.cons rfl, hH.work.cons rfl, ⟨nofun, ?_, ?_⟩, hH.tracks.add hk,
      hH.adds.cons rfl, hH.invs.cons hk rfl⟩
    · intro c' hm
      rcases hH.list.all c' (mem_cons_ne hm nofun) with ⟨k, w, h1, h2⟩ | ⟨w', hx⟩
      · exact Or.inl ⟨k, w, List.mem_cons_of_mem _ h1, List.mem_cons_of_mem _ h2⟩
      · rw [hl] at hx; cases hx
        exact Or.inl ⟨_, w, List.mem_cons_of_mem _ h1, List.mem_cons_self⟩
    · intro k w' c' hm
      rcases List.mem_cons.1 hm with hm | hm
      · cases hm; exact List.mem_cons_of_mem _ h2
      · exact List.mem_cons_of_mem _ (hH.list.tr k w' c' hm)
  | tErr k t e ht hp hf =>
    have hT' := hH.tracks.ok k t ht
    refine ⟨Or.inl rfl, hH.tomb, hH.fin, hH.work, hH.list, hH.tracks.set ht rfl ⟨hT'.tr, fun _ => hT'.noKill (Or.inl hp), fun _ hx => absurd rfl (hx e), hT'.sel, hT'.stop⟩, hH.adds, hH.invs⟩
  | tNil k t ht hp hf =>
    have hT' := hH.tracks.ok k t ht
    refine ⟨Or.inl rfl, hH.tomb, hH.fin, hH.work, hH.list, hH.tracks.set ht rfl ⟨hT'.tr, (by rintro (hx | ⟨_, hx⟩) <;> cases hx), fun _ _ => ⟨none, by rw [← hH.fin]; exact hf, nofun⟩, hT'.sel, hT'.stop⟩, hH.adds, hH.invs⟩
  | tKill k t e ht hp hk =>
    have hT' := hH.tracks.ok k t ht
    obtain ⟨src, htr⟩ := hT'.tr
    obtain ⟨hD, h2⟩ := kill_ok (ev := .workerKill k e) hH.tomb rfl nofun hk
    have hfin : finishedH s.hist t.w = some (some e) := by rw [← hH.fin]; exact (hS.tracks k t ht).kill e hp
    have hnd : .dead ∉ s.hist := fun hm => hS.not_dead (hS.count_track ht (by simp [tcount, hp])) (hH.tomb.dead.2 hm)
    have hk : EvOk own (.workerKill k e) s.hist := ⟨⟨t.w, src, htr, hfin⟩, hT'.noKill (Or.inr ⟨e, hp⟩), hnd⟩
    refine ⟨Or.inr ⟨_, rfl, hk⟩, hD, hH.fin.cons rfl, hH.work.cons rfl, hH.list.cons rfl,
      hH.tracks.setCons hk ht rfl ⟨⟨src, List.mem_cons_of_mem _ htr⟩, (by rintro (hx | ⟨_, hx⟩) <;> cases hx), ?_,
        fun hx => not_mem_cons (hT'.sel hx) nofun, fun hx => List.mem_cons_of_mem _ (hT'.stop hx)⟩ rfl nofun,
      hH.adds.cons rfl, hH.invs.cons hk rfl⟩
    intro _ _
    refine ⟨some e, finished_cons hk hfin, ?_⟩
    intro e' he; cases he; exact List.mem_cons_self
  | tClose k t ht hp =>
    have hT' := hH.tracks.ok k t ht
    refine ⟨Or.inl rfl, hH.tomb, hH.fin, hH.work, hH.list, hH.tracks.set ht rfl ⟨hT'.tr, (by rintro (hx | ⟨_, hx⟩) <;> cases hx), fun _ _ => hT'.killed (by rw [hp]; nofun) (by rw [hp]; nofun), hT'.sel, hT'.stop⟩, hH.adds, hH.invs⟩
  | tExit k t ht hp =>
    have hT' := hH.tracks.ok k t ht
    rw [wgDone_eq (s := s.setTrack k { t with waiter := .done }) (hS.count_track ht (by simp [tcount, hp])) hS.waiters]
    exact ⟨Or.inl rfl, hH.tomb, hH.fin, hH.work.wake, hH.list, hH.tracks.set ht rfl ⟨hT'.tr, (by rintro (hx | ⟨_, hx⟩) <;> cases hx), fun _ _ => hT'.killed (by rw [hp]; nofun) (by rw [hp]; nofun), hT'.sel, hT'.stop⟩, hH.adds, hH.invs⟩
  | kDying k t ht hp hd =>
    have hT' := hH.tracks.ok k t ht
    have hnd : .dead ∉ s.hist := fun hm => hS.not_dead (hS.count_track ht (by simp [tcount, hp])) (hH.tomb.dead.2 hm)
    have hk : EvOk own (.killT k t.w) s.hist := ⟨hT'.tr, hH.tomb.dying.1 hd, hT'.sel hp, hnd⟩
    obtain ⟨src, htr⟩ := hT'.tr
    refine ⟨Or.inr ⟨_, rfl, hk⟩, hH.tomb.cons rfl, hH.fin.cons rfl, hH.work.cons rfl, hH.list.cons rfl,
      hH.tracks.setCons hk ht rfl ⟨⟨src, List.mem_cons_of_mem _ htr⟩, fun hx e => not_mem_cons (hT'.noKill hx e) nofun, ?_,
        nofun, fun _ => List.mem_cons_self⟩ rfl nofun,
      hH.adds.cons rfl, hH.invs.cons hk rfl⟩
    intro h1 h2
    obtain ⟨r, h3, h4⟩ := hT'.killed h1 h2
    exact ⟨r, finished_cons hk h3, fun x hr => List.mem_cons_of_mem _ (h4 x hr)⟩
  | kWaitRet k t ht hp hf =>
    have hT' := hH.tracks.ok k t ht
    rw [wgDone_eq (s := s.setTrack k { t with killer := .done }) (hS.count_track ht (by simp [tcount, hp])) hS.waiters]
    exact ⟨Or.inl rfl, hH.tomb, hH.fin, hH.work.wake, hH.list, hH.tracks.set ht rfl ⟨hT'.tr, hT'.noKill, hT'.killed, nofun, nofun⟩, hH.adds, hH.invs⟩
  | kClosed k t ht hp hc =>
    have hT' := hH.tracks.ok k t ht
    rw [wgDone_eq (s := s.setTrack k { t with killer := .done }) (hS.count_track ht (by simp [tcount, hp])) hS.waiters]
    exact ⟨Or.inl rfl, hH.tomb, hH.fin, hH.work.wake, hH.list, hH.tracks.set ht rfl ⟨hT'.tr, hT'.noKill, hT'.killed, nofun, nofun⟩, hH.adds, hH.invs⟩
  | workRet r e hw hr =>
    have hnor := hH.work.ret (Or.inr hw)
    have hwc : .workCall ∈ s.hist := Classical.byContradiction fun hx => by
      have := hH.work.call.2 hx; rw [hw] at this; cases this
    have hk : EvOk own (.workRet r) s.hist := ⟨hwc, hnor⟩
    refine ⟨Or.inr ⟨_, rfl, hk⟩, hH.tomb.cons rfl, hH.fin.cons rfl, ?_, hH.list.cons rfl, hH.tracks.cons hk rfl, hH.adds.cons rfl,
      hH.invs.cons hk rfl⟩
    have hg : s.goexit ≠ true := fun hg => by have := hS.goexit hg; rw [hw] at this; cases this
    refine ⟨⟨nofun, fun hx => absurd (List.mem_cons_of_mem _ hwc) hx⟩, (by rintro (hx | hx) <;> cases hx), ?_, ?_, nofun,
      hH.work.exit.trans ⟨List.mem_cons_of_mem _, fun hm => mem_cons_ne hm (by rintro ⟨⟩; cases hr)⟩, fun hx => absurd hx hg⟩
    · intro x hx
      cases hx
      refine ⟨r, List.mem_cons_self, ?_⟩
      cases r with
      | ret e' => cases hr; exact Or.inl rfl
      | panic v => cases hr; exact Or.inr ⟨v, rfl, rfl⟩
      | goexit => cases hr
    · intro _ x; exact not_mem_cons (hH.work.noKill (by rw [hw]; rfl) x) nofun
  | workExit r hw hr =>
    have hnor := hH.work.ret (Or.inr hw)
    have hwc : .workCall ∈ s.hist := Classical.byContradiction fun hx => by
      have := hH.work.call.2 hx; rw [hw] at this; cases this
    have hk : EvOk own (.workRet r) s.hist := ⟨hwc, hnor⟩
    have hrg : r = .goexit := by cases r <;> first | rfl | cases hr
    subst hrg
    refine ⟨Or.inr ⟨_, rfl, hk⟩, hH.tomb.cons rfl, hH.fin.cons rfl, ?_, hH.list.cons rfl, hH.tracks.cons hk rfl, hH.adds.cons rfl,
      hH.invs.cons hk rfl⟩
    refine ⟨⟨nofun, fun hx => absurd (List.mem_cons_of_mem _ hwc) hx⟩, (by rintro (hx | hx) <;> cases hx), nofun, nofun, nofun,
      ⟨fun _ => List.mem_cons_self, fun _ => rfl⟩, fun _ x => not_mem_cons (hH.work.noKill (by rw [hw]; rfl) x) nofun⟩
  | workKill e hw hk =>
    obtain ⟨hD, h2⟩ := kill_ok (ev := .workKill e) hH.tomb rfl nofun hk
    have hwc : .workCall ∈ s.hist := Classical.byContradiction fun hx => by
      have := hH.work.call.2 hx; rw [hw] at this; cases this
    have hk : EvOk own (.workKill e) s.hist := ⟨hH.work.kill e hw, hH.work.noKill (by rw [hw]; rfl)⟩
    have hg : s.goexit ≠ true := fun hg => by have := hS.goexit hg; rw [hw] at this; cases this
    exact ⟨Or.inr ⟨_, rfl, hk⟩, hD, hH.fin.cons rfl, ⟨⟨nofun, fun hx => absurd (List.mem_cons_of_mem _ hwc) hx⟩,
      (by rintro (hx | hx) <;> cases hx), nofun, nofun, fun _ _ => ⟨e, List.mem_cons_self⟩,
      hH.work.exit.trans ⟨List.mem_cons_of_mem _, fun hm => mem_cons_ne hm nofun⟩, fun hx => absurd hx hg⟩, hH.list.cons rfl,
      hH.tracks.cons hk rfl, hH.adds.cons rfl, hH.invs.cons hk rfl⟩
  | wgPass hw hn => exact ⟨Or.inl rfl, hH.tomb, hH.fin, hH.work.move (by rw [hw]; rfl) rfl, hH.list, hH.tracks, hH.adds, hH.invs⟩
  | wgSleep hw hn => exact ⟨Or.inl rfl, hH.tomb, hH.fin, hH.work.move (by rw [hw]; rfl) rfl, hH.list, hH.tracks, hH.adds, hH.invs⟩
  | wgWake hw hn => exact ⟨Or.inl rfl, hH.tomb, hH.fin, hH.work.move (by rw [hw]; rfl) rfl, hH.list, hH.tracks, hH.adds, hH.invs⟩
  | wgReused hw hn => exact ⟨Or.inl rfl, hH.tomb, hH.fin, hH.work, hH.list, hH.tracks, hH.adds, hH.invs⟩
  | goexited hw hg => exact ⟨Or.inl rfl, hH.tomb, hH.fin, hH.work.move (by rw [hw]; rfl) rfl, hH.list, hH.tracks, hH.adds, hH.invs⟩
  | dead hw hg =>
    have hn : s.wg.n = 0 := hS.waited (by rw [hw]; rfl)
    have hdy : s.dying = true := (hS.over (by rw [hw]; rfl)).resolve_left (by rw [hg]; nofun)
    have hl : s.listener = .done := by
      have hcnt := hS.count
      rw [hn] at hcnt
      cases hl : s.listener with
      | done => rfl
      | none =>
        cases ho : s.owner with
        | none => have := (hS.noOwn ho).2.1; rw [hw] at this; cases this
        | some i =>
          obtain ⟨v, _, hva, hph⟩ := hS.own i ho
          cases hp : v.pc with
          | adding j ws => rw [hp] at hph; have := hph.2; rw [hw] at this; cases this
          | go => rw [hp] at hph; exact absurd hl hph.1
          | _ => rw [hp] at hph; exact absurd hl hph.1
      | _ => rw [hl] at hcnt; simp [lcount] at hcnt; omega
    have hnd : .dead ∉ s.hist := fun hm => by
      have := (hS.dead.1 (hH.tomb.dead.2 hm)).1
      rw [hw] at this; cases this
    have hk : EvOk own .dead s.hist := by
      refine ⟨hnd, hH.work.killed (by rw [hw]; rfl) hg, ?_, ?_⟩
      · intro c hm
        refine (hH.list.all c hm).resolve_right ?_
        rintro ⟨w, hx⟩; rw [hl] at hx; cases hx
      · intro k w src hm
        obtain ⟨t, ht, rfl⟩ := hH.tracks.all k w src hm
        have hz : tcount t = 0 := Classical.byContradiction fun hx => hS.count_track ht hx hn
        have hdone : t.waiter = .done := Classical.byContradiction fun hx => by simp [tcount, hx] at hz
        exact (hH.tracks.ok k t ht).killed (by rw [hdone]; nofun) (by rw [hdone]; nofun)
    have hal : s.tomb.alive = 1 := by rw [hS.alive, hw]; simp
    have hfin : s.tomb.finish none = { s.tomb with alive := 0, dead := true } := by
      have hdy' : ({ s.tomb with alive := s.tomb.alive - 1 } : Tomb).dying = true := hdy
      have hkn := Tomb.kill_none_of_dying _ hdy'
      unfold Tomb.finish
      dsimp only
      rw [hkn]
      simp only [hal, Nat.sub_self, true_or, if_true, hpan, Bool.false_eq_true, if_false]
    rw [hfin]
    refine ⟨Or.inr ⟨_, rfl, hk⟩, ⟨?_, ?_, ⟨fun _ => List.mem_cons_self, fun _ => rfl⟩⟩, hH.fin.cons rfl,
      (hH.work.move (by rw [hw]; rfl) rfl).cons rfl, hH.list.cons rfl, hH.tracks.cons hk rfl, hH.adds.cons rfl, hH.invs.cons hk rfl⟩
    · exact ⟨fun hx => Dying.cons (hH.tomb.dying.1 hx), fun _ => hdy⟩
    · intro r hr
      rw [hH.tomb.reason r hr]
      simp only [emit, firstError, killOf]
      cases firstError own s.hist <;> rfl
  | killCall e hk =>
    obtain ⟨h1, h2⟩ := kill_ok (ev := .kill e) hH.tomb rfl nofun hk
    have hk : EvOk own (.kill e) s.hist := h2
    exact ⟨Or.inr ⟨_, rfl, hk⟩, h1, hH.fin.cons rfl, hH.work.cons rfl, hH.list.cons rfl, hH.tracks.cons hk rfl,
      hH.adds.cons rfl, hH.invs.cons hk rfl⟩
  | killPanics who e hw hk =>
    obtain ⟨hr, h2⟩ := kill_panics hH.tomb hpan hk
    have hk : EvOk own (.killPanics who e) s.hist := by
      refine ⟨h2, ?_⟩
      cases who with
      | waiter k =>
        obtain ⟨t, x, ht, hp, rfl⟩ := hw
        obtain ⟨src, htr⟩ := (hH.tracks.ok k t ht).tr
        exact ⟨t.w, src, x, htr, rfl, by rw [← hH.fin]; exact (hS.tracks k t ht).kill x hp⟩
      | work => exact hH.work.kill e hw
      | client => trivial
    exact ⟨Or.inr ⟨_, rfl, hk⟩, (hH.tomb.same hr (Tomb.kill_dead _ _)).cons rfl, hH.fin.cons rfl, hH.work.cons rfl, hH.list.cons rfl,
      hH.tracks.cons hk rfl, hH.adds.cons rfl, hH.invs.cons hk rfl⟩
  | callErrDying =>
    have hk : EvOk own (.errDying (errDying own s)) s.hist := by
      unfold errDying
      split
      · rename_i hd; exact Or.inl ⟨hH.tomb.dying.1 hd, rfl⟩
      · rename_i hd; exact Or.inr ⟨fun hy => hd (hH.tomb.dying.2 hy), rfl⟩
    exact ⟨Or.inr ⟨_, rfl, hk⟩, hH.tomb.cons rfl, hH.fin.cons rfl, hH.work.cons rfl, hH.list.cons rfl, hH.tracks.cons hk rfl,
      hH.adds.cons rfl, hH.invs.cons hk rfl⟩
  | waitCall r hr =>
    have hk : EvOk own (.waitRet r) s.hist := by
      unfold Tomb.wait at hr
      split at hr
      · rename_i hd; exact ⟨hH.tomb.dead.1 hd, hH.tomb.reason r hr⟩
      · cases hr
    exact ⟨Or.inr ⟨_, rfl, hk⟩, hH.tomb.cons rfl, hH.fin.cons rfl, hH.work.cons rfl, hH.list.cons rfl, hH.tracks.cons hk rfl,
      hH.adds.cons rfl, hH.invs.cons hk rfl⟩
  | finish w e hf =>
    have hk : EvOk own (.finished w e) s.hist := by
      have := hH.fin w
      rw [hf] at this
      exact this.symm
    refine ⟨Or.inr ⟨_, rfl, hk⟩, hH.tomb.cons rfl, ?_, hH.work.cons rfl, hH.list.cons rfl, hH.tracks.cons hk rfl,
      hH.adds.cons rfl, hH.invs.cons hk rfl⟩
    intro u
    simp only [emit, finishedH]
    split
    · rename_i hu; subst hu; exact AMap.get?_set_self ..
    · rename_i hu; rw [← hH.fin u]; exact AMap.get?_set_ne _ _ hu

theorem hinv_init (own : Nat) : HInv own init := by
  refine ⟨⟨⟨nofun, ?_⟩, nofun, ⟨nofun, nofun⟩⟩, fun _ => rfl, ⟨⟨fun _ => nofun, fun _ => rfl⟩, fun _ _ => nofun, nofun, fun _ _ => nofun, nofun, ⟨nofun, nofun⟩, nofun⟩,
    ⟨nofun, nofun, nofun⟩, ⟨nofun, nofun, nofun⟩, ⟨nofun, nofun, nofun⟩, ⟨nofun, nofun, fun _ => ⟨nofun, nofun⟩, nofun⟩⟩
  rintro ⟨x, hx, _⟩; cases hx

theorem Reach.hinv {own : Nat} {s : State} (hr : Reach own s) : HInv own s := by
  induction hr with
  | init => exact hinv_init own
  | step op hr hs ih =>
    obtain ⟨hc, hT⟩ := step_T hs
    exact (hT.hist hr.shape ih hc).2

/-- Every event happens when the specification allows it. -/
theorem Reach.events {own : Nat} {s : State} (hr : Reach own s) : AtEvery (EvOk own) s.hist := by
  induction hr with
  | init => trivial
  | step op hr hs ih =>
    obtain ⟨hc, hT⟩ := step_T hs
    rcases (hT.hist hr.shape hr.hinv hc).1 with he | ⟨e, he, hk⟩
    · rw [he]; exact ih
    · rw [he]; exact ⟨hk, ih⟩

end Verif.Catacomb
