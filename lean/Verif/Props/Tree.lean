import Verif.Props.RunnerFair
import Verif.Props.CatacombFair
import Verif.Props.EngineFair

/-!
# Trees of workers

Runners, catacombs and engines are workers themselves, and are run by each other: juju's agents are engines of manifolds
that start runners whose workers are catacombs, and so on. Here a whole tree of them is put together from an infinite
execution of each, `Part`, and from what ties a parent to a child, `Tree`: a child is Kill()ed when its parent calls its
Kill method, and the parent sees that a worker has finished if and only if the child has ended.

C78, C79 and C80 say that each of them stops if its workers do. Put together they say that the whole tree stops.
-/

namespace Verif.Props
open Verif.Spec

/-- One worker of a tree. A leaf is a worker of any other kind: whether it is Kill()ed, and whether it ends. -/
inductive Part
  | runner (p : Runner.Params) (r : Runner.Run p)
  | catacomb (own : Nat) (r : Catacomb.Run own)
  | engine (cfg : Engine.Config) (r : Engine.Run cfg)
  | leaf (killed ended : Prop)

namespace Part

/-- It has been told to stop, or has decided to. -/
def Stopping : Part → Prop
  | .runner _ r => ∃ k, .kill ∈ r.hist k ∨ RSpec.shutH (r.hist k)
  | .catacomb _ r => ∃ k, CSpec.Dying (r.hist k)
  | .engine _ r => ∃ k, .kill ∈ r.hist k
  | .leaf killed _ => killed

/-- It has ended: Wait returns. -/
def Ended : Part → Prop
  | .runner _ r => ∃ k, (Runner.waitResult (r.st k)).isSome = true
  | .catacomb _ r => ∃ k, .dead ∈ r.hist k
  | .engine cfg r => ∃ k, (Engine.waitResult cfg (r.st k)).isSome = true
  | .leaf _ ended => ended

/-- It calls the Kill method of `w`. -/
def Kills : Part → Nat → Prop
  | .runner _ r, w => ∃ k id, .killW id w ∈ r.hist k
  | .catacomb _ r, w => ∃ k, (∃ g, .killT g w ∈ r.hist k) ∨ (∃ c, .killA c w ∈ r.hist k) ∨ ∃ i, .killI i w ∈ r.hist k
  | .engine _ r, w => ∃ k, .killW (.obj w) ∈ r.hist k
  | .leaf _ _, _ => False

/-- `w` is made its worker: by a StartFunc, by a Start func, or by Plan.Init or a call of Add that returns nil. -/
def Took : Part → Nat → Prop
  | .runner _ r, w => ∃ k id g, .startOk id g w ∈ r.hist k
  | .catacomb _ r, w => ∃ k, Accepted (r.hist k) w
  | .engine _ r, w => ∃ k n g, .startOk n g (.obj w) ∈ r.hist k
  | .leaf _ _, _ => False

/-- The Wait method of `w` returns. -/
def Saw : Part → Nat → Prop
  | .runner _ r, w => ∃ k, (RSpec.finishedH (r.hist k) w).isSome = true
  | .catacomb _ r, w => ∃ k, (CSpec.finishedH (r.hist k) w).isSome = true
  | .engine _ r, w => ∃ k e, .finished w e ∈ r.hist k
  | .leaf _ _, _ => False

/-- What is asked of the code around it: no goroutine is passed over for ever, start funcs return, and the work func of a
catacomb returns or panics once the catacomb is dying. (tomb.ErrStillAlive as a fatal error keeps a runner's Wait from
returning, see C16.) -/
def Good : Part → Prop
  | .runner p r => r.Fair ∧ RSpec.StartsReturn r.hist ∧ ∀ k, Tomb.Ordinary (fatalResult p (r.hist k))
  | .catacomb _ r => r.Fair ∧ ((∃ k, CSpec.Dying (r.hist k)) → ∃ k x, .workRet x ∈ r.hist k ∧ x ≠ .goexit)
  | .engine _ r => r.Fair ∧ StartsHeed r.hist
  | .leaf killed ended => killed → ended

end Part

/-- A tree of workers, or any number of them: who they are, and which worker of a parent is which child. -/
structure Tree (I : Type) where
  part : I → Part
  child : I → Nat → I
  /-- nothing is, however indirectly, its own child -/
  wf : WellFounded (fun c i => ∃ w, ((part i).Kills w ∨ (part i).Took w) ∧ child i w = c)
  good : ∀ i, (part i).Good
  /-- calling a worker's Kill method kills it -/
  kill : ∀ i w, (part i).Kills w → (part (child i w)).Stopping
  /-- its Wait method returns when it has ended, and not before -/
  wait : ∀ i w, (part i).Kills w ∨ (part i).Took w → ((part i).Saw w ↔ (part (child i w)).Ended)

namespace Tree
variable {I : Type}

/-- `j` is one of the workers of `i`. -/
def ChildOf (t : Tree I) (j i : I) : Prop := ∃ w, (t.part i).Took w ∧ t.child i w = j

/-- `j` is a worker of `i`, or a worker of one of its workers, and so on. -/
def Below (t : Tree I) : I → I → Prop := Relation.TransGen t.ChildOf

end Tree

/-! ## A tree for the examples

An engine with two workers, a runner with one worker and a catacomb with two. The engine is killed. -/

namespace TDemo

/-- Two manifolds come up; the engine is killed, and exits when the two workers have finished. -/
def opsStop : List Engine.Op := Demo.opsKilled ++
  [ .finish 11 none, .gWaitRet 2, .armStopped 2 200 Demo.noVals none, .finish 10 none, .gWaitRet 0, .armStopped 0 201 Demo.vals01 none ]

def eng : Engine.Run Demo.cfg := Demo.mkRun (ops := opsStop) (x := .kill) (by decide +kernel) (Demo.idles_kill (by decide +kernel))

theorem eng_fair : eng.Fair ∧ eng.DelaysEnd := Demo.mkRun_fair (cfg := Demo.cfg) (ops := opsStop) (by decide +kernel)

def part : Nat → Part
  | 0 => .engine _ eng
  | 1 => .runner _ RDemo.life
  | 2 => .catacomb _ CDemo.life
  | _ => .leaf True True

def child : Nat → Nat → Nat
  | 0, 10 => 1
  | 0, 11 => 2
  | _, _ => 3

def etouch : Engine.Ev → Option Nat
  | .killW (.obj w) => some w
  | .startOk _ _ (.obj w) => some w
  | _ => none

theorem eng_touched {w : Nat} (h : (part 0).Kills w ∨ (part 0).Took w) : w = 10 ∨ w = 11 := by
  have h1 : ∃ k, w ∈ (eng.hist k).filterMap etouch := by
    rcases h with ⟨k, h⟩ | ⟨k, n, g, h⟩ <;> exact ⟨k, List.mem_filterMap.2 ⟨_, h, rfl⟩⟩
  obtain ⟨k, h1⟩ := h1
  have h2 : w ∈ (eng.hist (max k opsStop.length)).filterMap etouch := by
    obtain ⟨e, h3, h4⟩ := List.mem_filterMap.1 h1
    exact List.mem_filterMap.2 ⟨e, eng.hist_mono (Nat.le_max_left _ _) h3, h4⟩
  have h3 := Demo.mkRun_stays (cfg := Demo.cfg) (ops := opsStop) (x := .kill) (h1 := by decide +kernel) (hx := Demo.idles_kill (by decide +kernel))
    (F := fun h => h.filterMap etouch) (fun h => rfl) (Nat.le_max_right k opsStop.length)
  have h4 := Eq.subst (motive := fun l => w ∈ l) h3 h2
  have h5 : ∀ v ∈ (Demo.runSt Demo.cfg opsStop .kill opsStop.length).hist.filterMap etouch, v = 10 ∨ v = 11 := by decide +kernel
  exact h5 w h4

def rtouch : Runner.Ev → Option Nat
  | .killW _ w => some w
  | .startOk _ _ w => some w
  | _ => none

theorem run_touched {w : Nat} (h : (part 1).Kills w ∨ (part 1).Took w) : w = 10 := by
  have h1 : ∃ k, w ∈ (RDemo.life.hist k).filterMap rtouch := by
    rcases h with ⟨k, n, h⟩ | ⟨k, n, g, h⟩ <;> exact ⟨k, List.mem_filterMap.2 ⟨_, h, rfl⟩⟩
  obtain ⟨k, h1⟩ := h1
  have h2 : w ∈ (RDemo.life.hist (max k RDemo.opsLife.length)).filterMap rtouch := by
    obtain ⟨e, h3, h4⟩ := List.mem_filterMap.1 h1
    exact List.mem_filterMap.2 ⟨e, RDemo.life.hist_mono (Nat.le_max_left _ _) h3, h4⟩
  have h3 := RDemo.mkRun_stays (p := RDemo.prm) (ops := RDemo.opsLife) (h1 := by decide +kernel) (hmu := by decide +kernel)
    (F := fun h => h.filterMap rtouch) (fun _ h => rfl) (Nat.le_max_right k RDemo.opsLife.length)
  have h4 := Eq.subst (motive := fun l => w ∈ l) h3 h2
  have h5 : ∀ v ∈ (RDemo.runSt RDemo.prm RDemo.opsLife RDemo.opsLife.length).tab.hist.filterMap rtouch, v = 10 := by decide +kernel
  exact h5 w h4

def ctouch : Catacomb.Ev → List Nat
  | .killT _ w => [w]
  | .killA _ w => [w]
  | .killI _ w => [w]
  | .callInvoke _ p => p.init.filterMap id
  | .callAdd _ w => [w]
  | _ => []

theorem cat_touched {w : Nat} (h : (part 2).Kills w ∨ (part 2).Took w) : w = 1 ∨ w = 2 := by
  have h1 : ∃ k, w ∈ (CDemo.life.hist k).flatMap ctouch := by
    rcases h with ⟨k, ⟨g, h⟩ | ⟨g, h⟩ | ⟨g, h⟩⟩ | ⟨k, ⟨i, p, _, h, hi⟩ | ⟨c, h, _⟩⟩
    · exact ⟨k, List.mem_flatMap.2 ⟨_, h, by simp [ctouch]⟩⟩
    · exact ⟨k, List.mem_flatMap.2 ⟨_, h, by simp [ctouch]⟩⟩
    · exact ⟨k, List.mem_flatMap.2 ⟨_, h, by simp [ctouch]⟩⟩
    · exact ⟨k, List.mem_flatMap.2 ⟨_, h, by simpa [ctouch] using hi⟩⟩
    · exact ⟨k, List.mem_flatMap.2 ⟨_, h, by simp [ctouch]⟩⟩
  obtain ⟨k, h1⟩ := h1
  have h2 : w ∈ (CDemo.life.hist (max k CDemo.opsLife.length)).flatMap ctouch := by
    obtain ⟨e, h3, h4⟩ := List.mem_flatMap.1 h1
    exact List.mem_flatMap.2 ⟨e, CDemo.life.hist_mono (Nat.le_max_left _ _) h3, h4⟩
  have h3 := CDemo.mkRun_stays (own := 7) (ops := CDemo.opsLife) (h1 := by decide +kernel) (hc := by decide +kernel)
    (F := fun h => h.flatMap ctouch) (fun _ h => rfl) (Nat.le_max_right k CDemo.opsLife.length)
  have h4 := Eq.subst (motive := fun l => w ∈ l) h3 h2
  have h5 : ∀ v ∈ (CDemo.runSt 7 CDemo.opsLife CDemo.opsLife.length).hist.flatMap ctouch, v = 1 ∨ v = 2 := by decide +kernel
  exact h5 w h4

theorem ended : ∀ i, (part i).Ended
  | 0 => ⟨opsStop.length, by decide +kernel⟩
  | 1 => ⟨RDemo.opsLife.length, by decide +kernel⟩
  | 2 => ⟨CDemo.opsLife.length, by decide +kernel⟩
  | _ + 3 => trivial

theorem stopping : ∀ i, (part i).Stopping
  | 0 => ⟨opsStop.length, by decide +kernel⟩
  | 1 => ⟨RDemo.opsLife.length, Or.inl (by decide +kernel)⟩
  | 2 => ⟨CDemo.opsLife.length, .workerKill 1 (.user 5), by decide +kernel, rfl⟩
  | _ + 3 => trivial

theorem saw : ∀ i w, (part i).Kills w ∨ (part i).Took w → (part i).Saw w
  | 0, _, h => by
    rcases eng_touched h with rfl | rfl
    · exact ⟨opsStop.length, none, by decide +kernel⟩
    · exact ⟨opsStop.length, none, by decide +kernel⟩
  | 1, _, h => by cases run_touched h; exact ⟨RDemo.opsLife.length, by decide +kernel⟩
  | 2, _, h => by
    rcases cat_touched h with rfl | rfl
    · exact ⟨CDemo.opsLife.length, by decide +kernel⟩
    · exact ⟨CDemo.opsLife.length, by decide +kernel⟩
  | _ + 3, _, h => by rcases h with h | h <;> exact h.elim

theorem no_fatals (k : Nat) : RSpec.fatals RDemo.prm.isFatal (RDemo.life.hist k) = [] := by
  have h3 := RDemo.mkRun_stays (p := RDemo.prm) (ops := RDemo.opsLife) (h1 := by decide +kernel) (hmu := by decide +kernel)
    (F := fun h => RSpec.fatals RDemo.prm.isFatal h) (fun _ h => rfl) (k := max k RDemo.opsLife.length) (Nat.le_max_right _ _)
  have h4 : ∀ j, j < RDemo.opsLife.length → RSpec.fatals RDemo.prm.isFatal (RDemo.life.hist j) = [] := by decide +kernel
  by_cases hk : k < RDemo.opsLife.length
  · exact h4 k hk
  · rw [Nat.max_eq_left (by omega)] at h3
    exact h3.trans (by decide +kernel)

def tree : Tree Nat where
  part := part
  child := child
  wf := by
    refine Subrelation.wf (r := fun c i => 3 - c < 3 - i) ?_ (measure (fun i => 3 - i)).wf
    rintro c i ⟨w, h, rfl⟩
    match i, h with
    | 0, _ => unfold child; split <;> simp
    | 1, _ => simp [child]
    | 2, _ => simp [child]
    | _ + 3, h => rcases h with h | h <;> exact h.elim
  good
    | 0 => ⟨eng_fair.1, Demo.starts_heed (Demo.mkRun_starts (ops := opsStop) (by decide +kernel))⟩
    | 1 => ⟨RDemo.life_fair, RDemo.mkRun_starts (by decide +kernel), fun k => by
        unfold fatalResult; rw [no_fatals]; exact ⟨nofun, nofun⟩⟩
    | 2 => ⟨CDemo.life_fair, fun _ => ⟨CDemo.opsLife.length, .ret (some (.user 6)), by decide +kernel, nofun⟩⟩
    | _ + 3 => fun h => h
  kill := fun i w _ => stopping (child i w)
  wait := fun i w h => ⟨fun _ => ended (child i w), fun _ => saw i w h⟩

end TDemo

variable {I : Type} {t : Tree I}

/-- When the loop of a runner has returned, every worker its StartFuncs produced has finished. -/
theorem runner_exit_finished {p : Runner.Params} {s : Runner.State} (hr : Runner.Reach p s) (he : .exit ∈ s.tab.hist) {id g w : Nat}
    (hw : .startOk id g w ∈ s.tab.hist) : (RSpec.finishedH s.tab.hist w).isSome = true := by
  obtain ⟨post, pre, hh⟩ := List.append_of_mem he
  obtain ⟨_, h2, h3⟩ := C20_exit hr hh
  have hk := runner_evOk hr
  rw [hh] at hw hk ⊢
  rcases List.mem_append.1 hw with hm | hm
  · exact absurd hm ((h3 id).2.2.2 g w)
  · rcases List.mem_cons.1 hm with hm | hm
    · cases hm
    · obtain ⟨r, hr⟩ := Option.isSome_iff_exists.1 (h2 id g w hm)
      have := RSpec.finished_stays (mid := post ++ [Runner.Ev.exit]) (pre := pre) (by simpa using hk) hr
      rw [show post ++ Runner.Ev.exit :: pre = (post ++ [Runner.Ev.exit]) ++ pre by simp, this]; rfl

/-- When an engine has exited, every worker its Start funcs produced has finished. -/
theorem engine_exit_finished {cfg : Engine.Config} {s : Engine.State} (hr : Engine.Reach cfg s) (he : .exit ∈ s.hist) {n : Name}
    {g w : Nat} (hw : .startOk n g (.obj w) ∈ s.hist) : ∃ e, .finished w e ∈ s.hist := by
  have hc := C37_clean_exit hr
  obtain ⟨post, pre, hh⟩ := List.append_of_mem he
  rw [hh] at hw hc ⊢
  rcases List.mem_append.1 hw with hm | hm
  · obtain ⟨a, b, rfl⟩ := List.append_of_mem hm
    rw [List.append_assoc, List.cons_append] at hc
    exact absurd (by simp) (hc.split (e := Engine.Ev.startOk n g (.obj w)))
  · rcases List.mem_cons.1 hm with hm | hm
    · cases hm
    · obtain ⟨e, h⟩ := (hc.split (e := Engine.Ev.exit)).2.2 n g w hm
      exact ⟨e, by simp [h]⟩

/-- C82: a worker of the tree that is told to stop, or decides to, ends. -/
theorem C82_stops (i : I) (h : (t.part i).Stopping) : (t.part i).Ended := by
  induction i using t.wf.induction with
  | _ i ih =>
  have fin : ∀ w, (t.part i).Kills w → (t.part i).Saw w := fun w hk =>
    (t.wait i w (Or.inl hk)).2 (ih _ ⟨w, Or.inl hk, rfl⟩ (t.kill i w hk))
  have hg := t.good i
  revert fin hg h
  generalize t.part i = q
  intro h fin hg
  cases q with
  | runner p r =>
    obtain ⟨k, h⟩ := h
    obtain ⟨hf, hs, ho⟩ := hg
    obtain ⟨m, hm⟩ := C78_shutdown_ends hf hs (fun n id w hk => by
      obtain ⟨j, hj⟩ := fin w ⟨n, id, hk⟩
      obtain ⟨e, he⟩ := Option.isSome_iff_exists.1 hj
      exact ⟨max n j, e, Nat.le_max_left _ _, r.fin_mono (Nat.le_max_right _ _) he⟩) h
    exact ⟨m, by rw [C16_wait_returns (r.reach m) hm (ho m)]; rfl⟩
  | catacomb own r =>
    obtain ⟨k, x, hx, hne⟩ := hg.2 h
    exact C79_dies hg.1 (fun n g w hk => fin w ⟨n, Or.inl ⟨g, hk⟩⟩) hx hne
  | engine cfg r =>
    obtain ⟨k, h⟩ := h
    obtain ⟨m, hm⟩ := C80_killed_exits hg.1 hg.2 (fun n w hk => fin w ⟨n, hk⟩) h
    exact ⟨m, by rw [C38_wait_result (r.reach m), if_pos (show Engine.Ev.exit ∈ (r.st m).hist from hm)]; rfl⟩
  | leaf killed ended => exact hg h

/-- C82: when a worker of the tree has ended, so have all its workers. -/
theorem C82_children_ended {i j : I} (h : (t.part i).Ended) (hb : t.ChildOf j i) : (t.part j).Ended := by
  obtain ⟨w, hw, rfl⟩ := hb
  refine (t.wait i w (Or.inr hw)).1 ?_
  revert hw h
  generalize t.part i = q
  intro h hw
  cases q with
  | runner p r =>
    obtain ⟨k, h⟩ := h
    obtain ⟨n, id, g, hw⟩ := hw
    obtain ⟨x, h⟩ := Option.isSome_iff_exists.1 h
    exact ⟨max k n, runner_exit_finished (r.reach _) (r.hist_mono (Nat.le_max_left k n) (wait_exit (r.reach k) h))
      (r.hist_mono (Nat.le_max_right k n) hw)⟩
  | catacomb own r =>
    obtain ⟨k, h⟩ := h
    obtain ⟨n, hw⟩ := hw
    have hm : ∀ {e}, e ∈ r.hist n → e ∈ r.hist (max k n) := fun h => r.hist_mono (Nat.le_max_right k n) h
    exact ⟨max k n, (C02_dead (r.reach _) (r.hist_mono (Nat.le_max_left k n) h)).2 w (by
      rcases hw with ⟨i, p, h1, h2, h3⟩ | ⟨c, h1, h2⟩
      · exact Or.inl ⟨i, p, hm h1, hm h2, h3⟩
      · exact Or.inr ⟨c, hm h1, hm h2⟩)⟩
  | engine cfg r =>
    obtain ⟨k, h⟩ := h
    obtain ⟨n, a, g, hw⟩ := hw
    rw [C38_wait_result (r.reach k)] at h
    have hx : Engine.Ev.exit ∈ (r.st k).hist := by
      refine Classical.byContradiction (fun hx => ?_)
      rw [if_neg hx] at h; cases h
    exact ⟨max k n, engine_exit_finished (r.reach _) (r.hist_mono (Nat.le_max_left k n) hx) (r.hist_mono (Nat.le_max_right k n) hw)⟩
  | leaf killed ended => exact hw.elim

/-- C82: … and all the workers below it. -/
theorem C82_no_orphans {i j : I} (h : (t.part i).Ended) (hb : t.Below j i) : (t.part j).Ended := by
  induction hb using Relation.TransGen.head_induction_on with
  | single hb => exact C82_children_ended h hb
  | head hb _ ih => exact C82_children_ended ih hb

/-- C82: so a worker of the tree that is told to stop takes everything below it down with it. -/
theorem C82_all_stop {i j : I} (h : (t.part i).Stopping) (hb : t.Below j i) : (t.part j).Ended :=
  C82_no_orphans (C82_stops i h) hb

/-- The engine is told to stop, and one of the workers of its catacomb is below it. -/
example : (TDemo.tree.part 0).Stopping ∧ TDemo.tree.Below 3 0 ∧ TDemo.tree.Below 1 0 :=
  ⟨TDemo.stopping 0,
    .tail (b := 2) (.single (show TDemo.tree.ChildOf 3 2 from
        ⟨1, ⟨CDemo.opsLife.length, Or.inl ⟨0, { init := [some 1] }, by decide +kernel, by decide +kernel, by decide +kernel⟩⟩, rfl⟩))
      ⟨11, ⟨TDemo.opsStop.length, 1, 2, by decide +kernel⟩, rfl⟩,
    .single ⟨10, ⟨TDemo.opsStop.length, 0, 0, by decide +kernel⟩, rfl⟩⟩

/-- C82: a worker of a catacomb that ends with an error takes the catacomb and everything below it down with it. -/
theorem C82_error_spreads {i : I} {own : Nat} {r : Catacomb.Run own} (hi : t.part i = .catacomb own r) {k g w : Nat} {src : Catacomb.Src}
    {e : Err} (hw : .tracked g w src ∈ r.hist k) (he : CSpec.finishedH (r.hist k) w = some (some e)) :
    (t.part i).Ended ∧ ∀ j, t.Below j i → (t.part j).Ended := by
  have hs : (t.part i).Stopping := by
    have hg := t.good i
    rw [hi] at hg ⊢
    obtain ⟨m, hm⟩ := C79_error_reaches hg.1 hw he
    exact ⟨m, _, hm, rfl⟩
  exact ⟨C82_stops i hs, fun j hb => C82_all_stop hs hb⟩

example : TDemo.tree.part 2 = .catacomb 7 CDemo.life ∧ .tracked 1 2 (.add 0) ∈ CDemo.life.hist 10 ∧
    CSpec.finishedH (CDemo.life.hist 10) 2 = some (some (.user 5)) := ⟨rfl, by decide +kernel, by decide +kernel⟩

end Verif.Props
