import Verif.Props.CatacombHist

/-!
# Catacomb: shutdown completes, and who can be left waiting

`CanStep own s`: one of the catacomb's own goroutines, or a call of one of its methods, can take a step, without anything
happening in the work func or in any worker, and without any new call. Go runs every goroutine that can run, so a state in
which `CanStep` holds does not last, and with `C09_bounded` a state in which it does not hold is reached after finitely many
steps.
-/

namespace Verif.Props
open Verif.Spec Verif.Catacomb Verif.CSpec Cat

variable {own : Nat} {s : State}

/-! ## C09: shutdown completes -/

/-- C09: a dying catacomb that has been Invoke()d and is not yet dead can take a step, or is waiting for the work func, or
for a worker it has Kill()ed. -/
theorem C09_progress (hr : Reach own s) (hc : s.crashed = false) {i : Nat} (ho : .claimed i ∈ s.hist) (hd : Dying s.hist)
    (hnd : .dead ∉ s.hist) (hg : .workRet .goexit ∉ s.hist) :
    CanStep own s ∨ (.workCall ∈ s.hist ∧ ∀ r, .workRet r ∉ s.hist) ∨
      ∃ k w src, .tracked k w src ∈ s.hist ∧ .killT k w ∈ s.hist ∧ finishedH s.hist w = none := by
  have hH := hr.hinv
  rcases hr.progress hc ((hH.invs.own i).2 ho) (hH.tomb.dying.2 hd) (Bool.eq_false_iff.2 (fun hx => hnd (hH.tomb.dead.1 hx)))
    (Bool.eq_false_iff.2 (fun hx => hg (hH.work.exit.1 hx))) with h | h | ⟨k, t, h1, h2, h3⟩
  · exact Or.inl h
  · refine Or.inr (Or.inl ⟨?_, hH.work.ret (Or.inr h)⟩)
    refine Classical.byContradiction fun hx => ?_
    have := hH.work.call.2 hx
    rw [h] at this; cases this
  · obtain ⟨src, ht⟩ := (hH.tracks.ok k t h1).tr
    exact Or.inr (Or.inr ⟨k, t.w, src, ht, (hH.tracks.ok k t h1).stop h2, by rw [← hH.fin]; exact h3⟩)

/-- A sequence of operations. -/
inductive Ops (own : Nat) : State → List Op → State → Prop
  | nil (s : State) : Ops own s [] s
  | cons {s s1 s2 : State} {op : Op} {ops : List Op} : Catacomb.step own s op = some s1 → Ops own s1 ops s2 → Ops own s (op :: ops) s2

/-- C09: from any reachable state, the catacomb takes at most `measure s` steps of its own before the next Invoke or Add
call, however many Kill, Wait and ErrDying calls there are and whatever the work func and the workers do. (One more if that
last step panics.) -/
theorem C09_bounded (hr : Reach own s) {ops : List Op} {s' : State} (h : Ops own s ops s') (hn : ∀ op ∈ ops, op.newCall = false) :
    (ops.filter Op.internal).length ≤ Catacomb.measure s + 1 ∧
      (s'.crashed = false → (ops.filter Op.internal).length + Catacomb.measure s' ≤ Catacomb.measure s) := by
  induction h with
  | nil s => exact ⟨Nat.zero_le _, fun _ => by simp⟩
  | @cons s s1 s2 op ops hs h ih =>
    have hr1 := hr.step op hs
    obtain ⟨h1, h2⟩ := ih hr1 (fun o ho => hn o (List.mem_cons_of_mem _ ho))
    obtain ⟨h3, h4⟩ := (step_T hs).2.measure hr.shape
    have h4 := h4 (hn op List.mem_cons_self)
    by_cases hi : op.internal = true
    · rw [List.filter_cons_of_pos hi, List.length_cons]
      rcases h3 (Or.inl hi) with hc | hlt
      · cases h with
        | nil =>
          refine ⟨by simp, fun hx => ?_⟩
          rw [hc] at hx; cases hx
        | cons hs' _ =>
          have := (step_T hs').1
          rw [hc] at this; cases this
      · exact ⟨by omega, fun hx => by have := h2 hx; omega⟩
    · rw [List.filter_cons_of_neg hi]
      exact ⟨by omega, fun hx => by have := h2 hx; omega⟩

/-- C09: from every reachable state of a dying catacomb there is a way to its death in which user code does nothing but
return from the work func and finish the workers. -/
theorem C09_ends (hr : Reach own s) (hp : Proper own s.hist) {i : Nat} (ho : .claimed i ∈ s.hist) (hd : Dying s.hist)
    (hg : .workRet .goexit ∉ s.hist) : ∃ s', Exec own Benign s s' ∧ .dead ∈ s'.hist := by
  have hH := hr.hinv
  obtain ⟨s', h1, h2⟩ := hr.ends hp ((hH.invs.own i).2 ho) (hH.tomb.dying.2 hd) (Bool.eq_false_iff.2 (fun hx => hg (hH.work.exit.1 hx)))
  have hr' : Reach own s' := by
    clear h2 hH hp ho hd hg
    induction h1 with
    | refl => exact hr
    | step op _ hs _ ih => exact ih (hr.step op hs)
  exact ⟨s', h1, hr'.hinv.tomb.dead.1 h2⟩

/-- A dying catacomb with two workers and a late Add call. -/
example : .claimed 0 ∈ (CDemo.after 7 CDemo.opsLate).hist ∧ Dying (CDemo.after 7 CDemo.opsLate).hist ∧ .dead ∉ (CDemo.after 7 CDemo.opsLate).hist ∧
    .workRet .goexit ∉ (CDemo.after 7 CDemo.opsLate).hist ∧ (CDemo.after 7 CDemo.opsLate).crashed = false ∧
    Catacomb.measure (CDemo.after 7 CDemo.opsLate) = 21 := by
  refine ⟨by decide +kernel, ⟨.workerKill 1 (.user 5), by decide +kernel, rfl⟩, by decide +kernel, by decide +kernel, by decide +kernel, by decide +kernel⟩

/-! ## C60: who can be left waiting -/

/-- C60: when nothing can happen any more without user code, an Add call that has not returned has Kill()ed its worker,
which has not finished; or it was made before any Invoke call had got past the used check, and nothing has killed the
catacomb since. -/
theorem C60_add_blocked (hr : Reach own s) (hc : s.crashed = false) (hq : ¬ CanStep own s) {c w : Nat} (ha : .callAdd c w ∈ s.hist)
    (hn : ∀ r, .addRet c r ∉ s.hist) :
    (.killA c w ∈ s.hist ∧ finishedH s.hist w = none) ∨
      (¬ Dying s.hist ∧ ∃ post pre, s.hist = post ++ .callAdd c w :: pre ∧ ∀ i, .claimed i ∉ pre) := by
  have hH := hr.hinv
  obtain ⟨a, h1, rfl⟩ := hH.adds.all c w ha
  have hA := hH.adds.ok c a h1
  rcases quiet_add hr.shape hc hq h1 (hr.chan c a h1) with ⟨r, h⟩ | ⟨h2, h3⟩ | ⟨h2, h3, h4⟩
  · exact absurd (hA.done r h) (hn r)
  · exact Or.inl ⟨hA.stop h2, by rw [← hH.fin]; exact h3⟩
  · refine Or.inr ⟨fun hx => ?_, hA.chan h4⟩
    have : s.dying = true := hH.tomb.dying.2 hx
    rw [this] at h3; cases h3

/-- C60: and the second case does happen, even after a successful Invoke: the channel the Add call waits on is nil. -/
theorem C60_add_before_invoke : ∃ s, Reach 7 s ∧ .invokeRet 0 none ∈ s.hist ∧ .callAdd 0 2 ∈ s.hist ∧
    (∀ op s', Catacomb.step 7 s op = some s' → op.internal = false) ∧ ∀ r, .addRet 0 r ∉ s.hist := by
  have hst : CDemo.after 7 (.callAdd 2 :: [.callInvoke {}, .iBegin 0, .iListen 0, .iGo 0, .iOk 0]) =
      { wg := { n := 1 }, tomb := ({} : Tomb).go, owner := some 0, listener := .select, work := .running, adds := [AddCall.mk 2 false .select],
        invs := [InvCall.mk {} (.returned none)],
        hist := [.invokeRet 0 none, .workCall, .claimed 0, .callInvoke 0 {}, .callAdd 0 2] } := by decide +kernel
  refine ⟨_, CDemo.after_reach 7 (.callAdd 2 :: [.callInvoke {}, .iBegin 0, .iListen 0, .iGo 0, .iOk 0]), ?_, ?_, ?_, ?_⟩
  · rw [hst]; decide
  · rw [hst]; decide
  · rw [hst]
    intro op s' hs
    cases op with
    | iBegin i | iAdd i | iListen i | iGo i | iOk i | iKill i | iWaitRet i | iFail i =>
      cases i <;> simp [Catacomb.step, State.crashed, Op.inv?, stepInv, Tomb.go] at hs
    | aDying c | aSend c | aWaitRet c =>
      cases c <;> simp [Catacomb.step, State.crashed, Op.inv?, Op.add?, stepAdd, Tomb.go, State.dying, Tomb.dying] at hs
    | tWaitRet k | tKill k | tClose k | tExit k | kDying k | kWaitRet k | kClosed k =>
      simp [Catacomb.step, State.crashed, Op.inv?, Op.add?, Op.track?] at hs
    | lDying | lAdd | workKill | wgWait | wgWake | workEnd =>
      simp [Catacomb.step, State.crashed, Op.inv?, Op.add?, Op.track?, stepMain, Tomb.go, State.dying, Tomb.dying] at hs
    | _ => rfl
  · rw [hst]; simp

/-- C60: when nothing can happen any more without user code, an Invoke call that has not returned is refusing its plan and
has Kill()ed a worker that has not finished. -/
theorem C60_invoke_blocked (hr : Reach own s) (hc : s.crashed = false) (hq : ¬ CanStep own s) {i : Nat} {p : Plan}
    (ha : .callInvoke i p ∈ s.hist) (hn : ∀ r, .invokeRet i r ∉ s.hist) :
    Refused s.hist i p ∧ ∃ w, .killI i w ∈ s.hist ∧ finishedH s.hist w = none := by
  have hH := hr.hinv
  obtain ⟨v, h1, rfl⟩ := hH.invs.all i p ha
  have hI := (hH.invs.ok i v h1).pc
  rcases quiet_inv hr.shape hc (quiet_of hq (by simp [invOps, Op.internal])) h1 with ⟨r, h⟩ | ⟨e, w, ws, h, hf⟩
  · rw [h] at hI; exact absurd hI (hn r)
  · rw [h] at hI
    exact ⟨hI.1, w, hI.2.2.2.2.1, by rw [← hH.fin]; exact hf⟩

/-- C60: Kill and ErrDying never block, and Wait returns as soon as the catacomb is dead. -/
theorem C60_never_block (hr : Reach own s) (hc : s.crashed = false) : (∀ e, ∃ s', Catacomb.step own s (.killCall e) = some s') ∧
    (∃ s', Catacomb.step own s .callErrDying = some s') ∧
    (.dead ∈ s.hist → ∃ s', Catacomb.step own s .waitCall = some s') := by
  refine ⟨fun e => ?_, ?_, fun hd => ?_⟩ <;>
    simp only [Catacomb.step, hc, Bool.false_eq_true, if_false, Op.inv?, Op.add?, Op.track?, stepMain]
  · exact ⟨_, rfl⟩
  · exact ⟨_, rfl⟩
  · have hr1 : s.tomb.reason.isSome = true := by
      obtain ⟨post, pre, hh, hx⟩ := AtEvery.mem hr.events hd
      obtain ⟨e, he⟩ := hx.2.1
      exact hr.hinv.tomb.dying.2 ⟨.workKill e, by rw [hh]; simp [he], rfl⟩
    obtain ⟨x, hx⟩ := Option.isSome_iff_exists.1 hr1
    simp only [Tomb.wait, hr.hinv.tomb.dead.2 hd, hx, if_true]
    exact ⟨_, rfl⟩

/-- An Add call waiting for the worker it has Kill()ed. -/
example : .callAdd 1 3 ∈ (CDemo.after 7 CDemo.opsLate).hist ∧ .killA 1 3 ∈ (CDemo.after 7 CDemo.opsLate).hist ∧
    finishedH (CDemo.after 7 CDemo.opsLate).hist 3 = none := by decide +kernel

/-! ## C73: no goroutine is left behind -/

/-- C73: when nothing can happen any more without user code, the two goroutines of a tracked worker have ended if the worker
has finished, and otherwise are there. -/
theorem C73_tracked (hr : Reach own s) (hc : s.crashed = false) (hq : ¬ CanStep own s) {k w : Nat} {src : Src}
    (hm : .tracked k w src ∈ s.hist) : ∃ t, s.tracks[k]? = some t ∧ t.w = w ∧
      (t.waiter = .done ↔ (finishedH s.hist w).isSome = true) ∧ (t.killer = .done ↔ (finishedH s.hist w).isSome = true) := by
  have hH := hr.hinv
  obtain ⟨t, ht, rfl⟩ := hH.tracks.all k w src hm
  refine ⟨t, ht, rfl, ?_⟩
  have hT := hr.shape.tracks k t ht
  rw [← hH.fin]
  rcases quiet_track hr.shape hc (quiet_of hq (by simp [trackOps, Op.internal])) ht with ⟨h1, h2⟩ | ⟨hf, h⟩
  · have := hT.killer h2
    rw [h1, h2, this]; simp
  · have h1 : t.waiter = .wait := by
      apply Classical.byContradiction
      intro hn
      have := hT.fin hn
      rw [hf] at this; cases this
    rw [hf, h1]
    rcases h with ⟨h, _⟩ | ⟨h, _⟩ <;> rw [h] <;> simp

theorem sum_tcount {l : List Track} {P : Track → Bool} (h : ∀ t ∈ l, tcount t = if P t then 2 else 0) :
    (l.map tcount).sum = 2 * (l.filter P).length := by
  induction l with
  | nil => rfl
  | cons t l ih =>
    have h1 := h t (.head _)
    have h2 := ih (fun t ht => h t (.tail _ ht))
    rw [List.map_cons, List.sum_cons, h1, h2, List.filter_cons]
    cases P t <;> simp
    omega

/-- C73: so at rest the WaitGroup counts the listen goroutine, which is there from Invoke until the catacomb is killed, and
two for every tracked worker that has not finished: nothing is left behind for those that have. -/
theorem C73_count (hr : Reach own s) (hc : s.crashed = false) (hq : ¬ CanStep own s) {i : Nat} (ho : .claimed i ∈ s.hist) :
    s.wg.n = (if s.dying = true then 0 else 1) + 2 * (s.tracks.filter (fun t => (finishedH s.hist t.w).isNone)).length := by
  have hH := hr.hinv
  have hS := hr.shape
  rw [hS.count]
  have h1 : lcount s.listener = if s.dying = true then 0 else 1 := by
    have := (quiet_owner hS hc hq ((hH.invs.own i).2 ho)).1
    rcases quiet_listener hc (quiet_of hq (by simp [listenOps, Op.internal])) with h | ⟨h, hd⟩ | h
    · exact absurd h this
    · rw [h, hd]; rfl
    · rw [h, hS.lst h]; rfl
  rw [h1, sum_tcount]
  intro t ht
  obtain ⟨k, hk⟩ := List.getElem?_of_mem ht
  have hT := hS.tracks k t hk
  unfold tcount
  rw [← hH.fin]
  rcases quiet_track hS hc (quiet_of hq (by simp [trackOps, Op.internal])) hk with ⟨h1, h2⟩ | ⟨hf, h⟩
  · obtain ⟨x, hx⟩ := Option.isSome_iff_exists.1 (hT.killer h2)
    rw [h1, h2, hx]; rfl
  · have h1 : t.waiter ≠ .done := by
      intro hn
      have := hT.fin (by rw [hn]; nofun)
      rw [hf] at this; cases this
    rw [hf, if_neg h1]
    rcases h with ⟨h, _⟩ | ⟨h, _⟩ <;> rw [h] <;> rfl

/-- The operations that may be possible without user code. -/
def CDemo.internalOps (s : State) : List Op :=
  [.lDying, .lAdd, .workKill, .wgWait, .wgWake, .workEnd] ++
  (List.range s.invs.length).flatMap (fun i => [.iBegin i, .iAdd i, .iListen i, .iGo i, .iOk i, .iKill i, .iWaitRet i, .iFail i]) ++
  (List.range s.adds.length).flatMap (fun c => [.aDying c, .aSend c, .aWaitRet c]) ++
  (List.range s.tracks.length).flatMap (fun k => [.tWaitRet k, .tKill k, .tClose k, .tExit k, .kDying k, .kWaitRet k, .kClosed k])

theorem CDemo.not_canStep (h : (CDemo.internalOps s).all (fun op => (Catacomb.step own s op).isNone) = true) : ¬ CanStep own s := by
  rintro ⟨op, s', hi, hs⟩
  have key : op ∈ CDemo.internalOps s := by
    unfold CDemo.internalOps
    have ix : ∀ {α β : Type} {l : List α} {i : Nat} {f : α → Option β} {b : β}, l[i]?.bind f = some b → i < l.length := by
      intro α β l i f b hb
      obtain ⟨a, ha, _⟩ := Option.bind_eq_some_iff.1 hb
      exact (List.getElem?_eq_some_iff.1 ha).1
    unfold Catacomb.step at hs
    split at hs
    · cases hs
    · cases op <;> simp only [Op.internal, Bool.false_eq_true] at hi <;>
        first
          | (simp; done)
          | (have := ix hs; simp [this])
  have := List.all_eq_true.1 h op key
  rw [hs] at this; cases this

/-- Workers 1 and 2 are tracked; 2 has finished without an error and the catacomb has noticed. -/
def opsOneLeft : List Op := CDemo.opsAdded ++ [.finish 2 none, .tWaitRet 1, .tClose 1, .tExit 1, .kClosed 1]

example : ¬ CanStep 7 (CDemo.after 7 opsOneLeft) ∧ (CDemo.after 7 opsOneLeft).crashed = false ∧
    .tracked 1 2 (.add 0) ∈ (CDemo.after 7 opsOneLeft).hist ∧ .claimed 0 ∈ (CDemo.after 7 opsOneLeft).hist ∧
    (CDemo.after 7 opsOneLeft).wg.n = 3 :=
  ⟨CDemo.not_canStep (by decide +kernel), by decide +kernel, by decide +kernel, by decide +kernel, by decide +kernel⟩

end Verif.Props
