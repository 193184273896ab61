import Verif.Runner.Model

/-!
# Runner: the transitions of the table, and the steps that make them
-/

namespace Verif.Runner
open Tab State

/-- Events that say nothing about the runner itself. -/
def Ev.quiet : Ev → Bool
  | .callStart .. | .callStop .. | .callWorker .. | .callRemove .. | .cancelled .. | .ret .. | .report .. | .names ..
  | .ctx ..  | .clientKillW .. => true
  | _ => false

/-- What a report says. -/
def QuietOk (t : Tab) : Ev → Prop
  | .report l => ∃ order, IsRangeOrder t.workers order ∧ l = reportLines t order
  | .names l => IsRangeOrder t.workers l
  | .ctx gid _ => ∃ g ∈ t.gs, g.gid = gid ∧ g.pc.inUser = true
  | _ => True

/-- The transitions of the table. -/
inductive T (p : Params) : Tab → Tab → Prop
  | same {t} : T p t t
  | quiet {t} (e : Ev) : e.quiet = true → QuietOk t e → T p t (t.log e)
  | kill {t} : T p t ({ t with tomb := t.tomb.kill none }.log .kill)
  | exit {t} : t.pc = .top → t.isDying = true → (∀ id, t.workers.get? id = none) →
      T p t (({ t with tomb := t.tomb.finish t.finalError }.log .exit).goTo .exited)
  | select {t} : t.pc = .top → ¬ (t.isDying = true ∧ ∀ id, t.workers.get? id = none) → T p t (t.goTo .select)
  | recvDying {t} : t.pc = .select → t.dyingArm = true → t.tomb.dying = true →
      T p t (({ t with isDying := true, dyingArm := false }.log .shutdown).goTo .killAll)
  | recvStart {t} (cid id sf : Nat) : t.pc = .select → T p t (t.goTo (.act (.start cid id sf)))
  | recvStop {t} (cid id : Nat) : t.pc = .select → T p t ((t.log (.ret cid .ok)).goTo (.act (.stop id)))
  | recvStarted {t} (g : G) (w : Nat) : t.pc = .select → g ∈ t.gs → g.pc = .sendStarted w →
      T p t ((t.gto g.gid (.waiting w)).goTo (.act (.started g.gid g.id w)))
  | recvDone {t} (g : G) (e : Option Err) : t.pc = .select → g ∈ t.gs → g.pc = .sendDone e →
      T p t ((t.gto g.gid (.gone e)).goTo (.act (.done g.gid g.id e)))
  | ignored {t} (cid id sf : Nat) : t.pc = .act (.start cid id sf) → t.isDying = true →
      T p t ((t.log (.ignored cid id)).goTo (.reply cid none))
  | refused {t} (cid id sf : Nat) (i : WInfo) : t.pc = .act (.start cid id sf) → t.isDying = false →
      t.workers.get? id = some i → T p t ((t.log (.refused cid id)).goTo (.reply cid (some (.alreadyExists id))))
  | accepted {t} (cid id sf : Nat) (now : Int) : t.pc = .act (.start cid id sf) → t.isDying = false →
      t.workers.get? id = none → T p t ((acceptStart p t cid id sf now).goTo (.reply cid none))
  | stop {t} (id : Name) : t.pc = .act (.stop id) → T p t ((killLocked (t.log (.stopHandled id)) id).goTo .bcast)
  | started {t} (gid : Nat) (id : Name) (w : Nat) : t.pc = .act (.started gid id w) →
      T p t ((setWorker t gid id w).goTo .bcast)
  | done {t} (gid : Nat) (id : Name) (e : Option Err) : t.pc = .act (.done gid id e) →
      T p t (workerDone p t gid id e)
  | killAll {t} (order : List Name) : t.pc = .killAll → IsRangeOrder t.workers order →
      T p t (t.goTo (.killing order))
  | killNext {t} (id : Name) (rest : List Name) : t.pc = .killing (id :: rest) →
      T p t ((killLocked t id).goTo (.killing rest))
  | killDone {t} : t.pc = .killing [] → T p t (t.goTo .bcast)
  | reply {t} (cid : Nat) (r : Option Err) (ret : Ret) : t.pc = .reply cid r → T p t ((t.log (.ret cid ret)).goTo .bcast)
  | bcast {t} : t.pc = .bcast → T p t (t.goTo .top)
  | gDying {t} (g : G) : g ∈ t.gs → g.pc = .delaying → t.tomb.dying = true → T p t (t.gto g.gid (.sendDone none))
  | gTimer {t} (g : G) : g ∈ t.gs → g.pc = .delaying → T p t (t.gto g.gid .ready)
  | gCall {t} (g : G) : g ∈ t.gs → g.pc = .ready → T p t ((t.gto g.gid .starting).log (.startCall g.id g.gid g.sf))
  | gStartOk {t} (g : G) (w : Nat) : g ∈ t.gs → g.pc = .starting →
      T p t ((t.gto g.gid (.sendStarted w)).log (.startOk g.id g.gid w))
  | gStartErr {t} (g : G) (e : Err) : g ∈ t.gs → g.pc = .starting →
      T p t ((t.gto g.gid (.sendDone (some e))).log (.startErr g.id g.gid e))
  | gWaitRet {t} (g : G) (w : Nat) (e : Option Err) : g ∈ t.gs → g.pc = .waiting w → t.finished.get? w = some e →
      T p t (t.gto g.gid (.sendDone e))
  | take {t} (rid cid : Nat) (ret : Ret) : rid ∈ t.tokens →
      T p t ({ t with tokens := t.tokens.erase rid }.log (.ret cid ret))
  | finish {t} (w : Nat) (e : Option Err) : t.finished.get? w = none →
      T p t ({ t with finished := t.finished.set w e }.log (.finished w e))

theorem getG_some {t : Tab} {gid : Nat} {g : G} (h : t.getG gid = some g) : g ∈ t.gs ∧ g.gid = gid := by
  unfold Tab.getG at h
  exact ⟨List.mem_of_find?_eq_some h, by simpa using List.find?_some h⟩

theorem getC_some {s : State} {cid : Nat} {c : Client} (h : s.getC cid = some c) : c ∈ s.clients ∧ c.cid = cid := by
  unfold State.getC at h
  exact ⟨List.mem_of_find?_eq_some h, by simpa using List.find?_some h⟩

theorem keys_isEmpty {α : Type} (m : AMap α) : m.keys.isEmpty = true ↔ ∀ id, m.get? id = none := by
  rw [List.isEmpty_iff]
  constructor
  · intro h id; rw [← AMap.not_mem_keys, h]; simp
  · intro h; apply List.eq_nil_iff_forall_not_mem.2; intro id; exact AMap.not_mem_keys.2 (h id)

theorem tabStep_T {p : Params} {s : State} {op : Op} {t : Tab} (h : tabStep p s op = some t) : T p s.tab t := by
  unfold tabStep at h
  split at h
  · cases h; exact .kill
  · split at h
    · rename_i hpc
      split at h
      · rename_i hc
        cases h
        simp only [Bool.and_eq_true] at hc
        exact .exit hpc hc.1 ((keys_isEmpty _).1 hc.2)
      · rename_i hc
        cases h
        refine .select hpc ?_
        rw [← keys_isEmpty]; simpa [Bool.and_eq_true] using hc
    · cases h
  · split at h
    · rename_i hc; cases h; exact .recvDying hc.1 hc.2.1 hc.2.2
    · cases h
  · split at h
    · rename_i hpc
      split at h
      · rename_i g hg
        obtain ⟨hm, rfl⟩ := getG_some hg
        split at h
        · rename_i w hw; cases h; exact .recvStarted g w hpc hm hw
        · cases h
      · cases h
    · cases h
  · split at h
    · rename_i hpc
      split at h
      · rename_i g hg
        obtain ⟨hm, rfl⟩ := getG_some hg
        split at h
        · rename_i e hw; cases h; exact .recvDone g e hpc hm hw
        · cases h
      · cases h
    · cases h
  · rename_i now
    split at h
    · rename_i m hm
      split at h
      · cases h
        cases m with
        | start cid id sf =>
          simp only [act]
          split
          · rename_i hd; exact .ignored cid id sf hm hd
          · rename_i hd
            split
            · rename_i hk
              obtain ⟨i, hi⟩ := Option.isSome_iff_exists.1 hk
              exact .refused cid id sf i hm (by simpa using hd) hi
            · rename_i hk; exact .accepted cid id sf now hm (by simpa using hd) (by simpa using hk)
        | stop id => exact .stop id hm
        | started gid id w => exact .started gid id w hm
        | done gid id e => exact .done gid id e hm
      · cases h
    · cases h
  · split at h
    · rename_i hc; cases h; exact .killAll _ hc.1 ((isRangeOrder_iff _ _).1 hc.2.2)
    · cases h
  · split at h
    · rename_i hc; cases h; exact .killDone hc
    · rename_i hc; cases h; exact .killNext _ _ hc
    · cases h
  · split at h
    · rename_i g hg
      obtain ⟨hm, rfl⟩ := getG_some hg
      split at h
      · rename_i hc; cases h; exact .gDying g hm hc.1 hc.2
      · cases h
    · cases h
  · split at h
    · rename_i g hg
      obtain ⟨hm, rfl⟩ := getG_some hg
      split at h
      · rename_i hc; cases h; exact .gTimer g hm hc
      · cases h
    · cases h
  · split at h
    · rename_i g hg
      obtain ⟨hm, rfl⟩ := getG_some hg
      split at h
      · rename_i hc; cases h; exact .gCall g hm hc
      · cases h
    · cases h
  · split at h
    · rename_i g hg
      obtain ⟨hm, rfl⟩ := getG_some hg
      split at h
      · rename_i hc; cases h; exact .gStartOk g _ hm hc
      · cases h
    · cases h
  · split at h
    · rename_i g hg
      obtain ⟨hm, rfl⟩ := getG_some hg
      split at h
      · rename_i hc; cases h; exact .gStartErr g _ hm hc
      · cases h
    · cases h
  · split at h
    · rename_i g hg
      obtain ⟨hm, rfl⟩ := getG_some hg
      split at h
      · rename_i hc; cases h; exact .gStartErr g _ hm hc
      · cases h
    · cases h
  · split at h
    · rename_i g hg
      obtain ⟨hm, rfl⟩ := getG_some hg
      split at h
      · rename_i w hw
        split at h
        · rename_i e he; cases h; exact .gWaitRet g w e hm hw he
        · cases h
      · cases h
    · cases h
  · split at h
    · rename_i g hg
      obtain ⟨hm, rfl⟩ := getG_some hg
      split at h
      · rename_i hc; cases h; exact .quiet _ rfl ⟨g, hm, rfl, hc⟩
      · cases h
    · cases h
  · split at h
    · rename_i hc; cases h; exact .finish _ _ (by simpa using hc)
    · cases h
  · split at h
    · rename_i hc; cases h; exact .quiet _ rfl ⟨_, (isRangeOrder_iff _ _).1 hc.2, rfl⟩
    · cases h
  · split at h
    · rename_i hc; cases h; exact .quiet _ rfl ((isRangeOrder_iff _ _).1 hc.2)
    · cases h
  · cases h

@[simp] theorem log_tab (s : State) (e : Ev) : (s.log e).tab = s.tab.log e := rfl
@[simp] theorem mapC_tab (s : State) (c f) : (s.mapC c f).tab = s.tab := rfl
@[simp] theorem mapH_tab (s : State) (c f) : (s.mapH c f).tab = s.tab := rfl
@[simp] theorem cto_tab (s : State) (c f) : (s.cto c f).tab = s.tab := rfl
@[simp] theorem setMu_tab (s : State) (m) : (s.setMu m).tab = s.tab := rfl
@[simp] theorem withTab_tab (s : State) (t) : (s.withTab t).tab = t := rfl
@[simp] theorem broadcast_tab (s : State) : (broadcast s).tab = s.tab := rfl
@[simp] theorem return_tab (s : State) (c r) : (s.return_ c r).tab = s.tab.log (.ret c r) := rfl

theorem afterInfo_T {p : Params} (s : State) (c : Client) (id : Name) (r : Found) :
    T p s.tab (afterInfo s c id r).tab := by
  unfold afterInfo
  split
  · exact .quiet _ rfl (by first | trivial | rfl)
  · split
    · exact .same
    · exact .quiet _ rfl (by first | trivial | rfl)

theorem clientStep_T {p : Params} {s s' : State} {c : Client} {op : Op} (h : clientStep s c op = some s') :
    T p s.tab s'.tab := by
  unfold clientStep at h
  split at h
  · cases h; exact .quiet _ rfl (by first | trivial | rfl)
  · split at h
    · rename_i hpc
      split at h
      · cases h; exact .recvStart _ _ _ hpc
      · cases h
    · cases h
  · split at h
    · rename_i hpc
      split at h
      · cases h; exact .recvStop _ _ hpc
      · cases h
    · cases h
  · split at h
    · split at h
      · cases h; exact .quiet _ rfl (by first | trivial | rfl)
      · cases h
    · split at h
      · cases h; exact .quiet _ rfl (by first | trivial | rfl)
      · cases h
    · cases h
  · split at h
    · split at h
      · split at h
        · cases h; exact .same
        · cases h; exact .same
      · cases h
    · cases h
  · split at h
    · cases h
      split
      · exact .quiet _ rfl (by first | trivial | rfl)
      · exact afterInfo_T _ _ _ _
    · cases h
  · split at h
    · cases h; exact .same
    · cases h
  · split at h
    · cases h
      split
      · exact .quiet _ rfl (by first | trivial | rfl)
      · exact afterInfo_T _ _ _ _
    · cases h
  · split at h
    · split at h
      · cases h; exact .quiet _ rfl (by first | trivial | rfl)
      · cases h
    · cases h
  · split at h
    · split at h
      · cases h; exact .same
      · cases h
    · cases h
  · split at h
    · cases h; exact .same
    · cases h
  · split at h
    · cases h; exact .quiet _ rfl (by first | trivial | rfl)
    · cases h
  · split at h
    · cases h; exact .quiet _ rfl (by first | trivial | rfl)
    · cases h
  · split at h
    · split at h
      · cases h; exact .same
      · cases h
    · cases h
  · split at h
    · split at h
      · cases h; exact .quiet _ rfl (by first | trivial | rfl)
      · cases h
    · cases h
  · split at h
    · split at h
      · rename_i hc; cases h; exact .take _ _ _ (by simpa using hc)
      · cases h
    · cases h
  · split at h
    · split at h
      · split at h
        · cases h; exact .same
        · cases h; exact .same
      · cases h
    · cases h
  · split at h
    · split at h
      · cases h; exact .same
      · cases h
    · cases h
  · split at h
    · split at h
      · split at h
        · cases h; exact .same
        · cases h; exact .same
      · cases h
    · cases h
  · cases h

/-- Every step makes a transition of the table. -/
theorem step_T {p : Params} {s s' : State} {op : Op} (h : step p s op = some s') : T p s.tab s'.tab := by
  unfold step at h
  split at h
  · cases h; exact .quiet _ rfl (by first | trivial | rfl)
  · cases h; exact .quiet _ rfl (by first | trivial | rfl)
  · cases h; exact .quiet _ rfl (by first | trivial | rfl)
  · cases h; exact .quiet _ rfl (by first | trivial | rfl)
  · split at h
    · rename_i hp; cases h; exact .reply _ _ _ hp
    · rename_i hp; cases h; exact .reply _ _ _ hp
    · cases h
  · split at h
    · rename_i hp; cases h; exact .bcast hp
    · cases h
  · split at h
    · split at h
      · exact clientStep_T h
      · cases h
    · obtain ⟨t, ht, rfl⟩ := Option.map_eq_some_iff.1 h
      exact tabStep_T ht

/-- Tables of reachable states. -/
inductive ReachT (p : Params) : Tab → Prop
  | init : ReachT p {}
  | step {t t'} : ReachT p t → T p t t' → ReachT p t'

theorem Reach.tab {p : Params} {s : State} (h : Reach p s) : ReachT p s.tab := by
  induction h with
  | init => exact .init
  | step op _ hs ih => exact .step ih (step_T hs)

end Verif.Runner
