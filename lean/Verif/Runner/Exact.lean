import Verif.Runner.Requests
import Verif.Spec.RunnerExact

/-!
# Runner: exactly which histories there are

From left to right: an invariant that ties the position of the run goroutine to what the history says it is in the middle of.
From right to left: an execution that does unseen things as late as possible.
-/

namespace Verif.Runner
open Tab State RSpec Spec

variable {p : Params}

/-! ## What is due -/

/-- What is due follows. -/
theorem burst {T : Choice} : ∀ (l : List Ev) {h : List Ev}, AtEvery (Possible p T) h → dueH p h = l → History p T (l.reverse ++ h)
  | [], _, ha, hd => ⟨ha, hd⟩
  | x :: l, h, ha, hd => by
    have h1 : dueH p (x :: h) = l := by simp only [dueH, hd]
    have h2 : Possible p T x h := by unfold Possible; rw [hd]
    have := burst l (h := x :: h) ⟨h2, ha⟩ h1
    simpa using this

/-- An event with what it causes. -/
theorem hist_next {T : Choice} {h : List Ev} (hh : History p T h) {e : Ev} (hc : Can p T e h) :
    History p T ((caused p e h).reverse ++ e :: h) := by
  refine burst _ ⟨?_, hh.1⟩ ?_
  · unfold Possible; rw [hh.2]; exact hc
  · simp only [dueH, hh.2]

/-- The choices agree where the history depends on them. -/
def Agree (T T' : Choice) (h : List Ev) : Prop :=
  (∀ rid, UsedRid h rid → T.time rid = T'.time rid) ∧ ∀ cid w, .clientKillW cid w ∈ h → T.reg cid = T'.reg cid

theorem Agree.tail {T T' : Choice} {e : Ev} {h : List Ev} (ha : Agree T T' (e :: h)) : Agree T T' h :=
  ⟨fun rid ⟨c, i, f, hm⟩ => ha.1 rid ⟨c, i, f, List.mem_cons_of_mem _ hm⟩, fun c w hm => ha.2 c w (List.mem_cons_of_mem _ hm)⟩

theorem Agree.taken {T T' : Choice} {h : List Ev} (ha : Agree T T' h) {rid : Nat} : Taken T h rid ↔ Taken T' h rid :=
  ⟨fun ⟨c, w, e, h1, h2, h3⟩ => ⟨c, w, e, h1, h2, by rw [← ha.2 c w h1]; exact h3⟩,
   fun ⟨c, w, e, h1, h2, h3⟩ => ⟨c, w, e, h1, h2, by rw [ha.2 c w h1]; exact h3⟩⟩

theorem can_times {T T' : Choice} {e : Ev} {h : List Ev} (ht : Agree T T' (e :: h)) (hc : Can p T e h) : Can p T' e h := by
  cases e
  case report lines =>
    obtain ⟨h1, h2, h3, h4⟩ := hc
    refine ⟨h1, h2, h3, fun l hl => ?_⟩
    obtain ⟨h5, h6, rid, h7, h8⟩ := h4 l hl
    obtain ⟨cid, sf, h9⟩ := known_accepted h7
    exact ⟨h5, h6, rid, h7, by rw [h8, ht.tail.1 rid ⟨cid, _, sf, h9⟩]⟩
  case ret cid r =>
    obtain ⟨h1, call, h2, h3⟩ := hc
    refine ⟨h1, call, h2, ?_⟩
    cases call with
    | remove id =>
      rcases h3 with h3 | ⟨w, e, h4, h5, h6⟩
      · exact .inl h3
      · refine .inr ⟨w, e, h4, h5, ?_⟩
        rw [← ht.tail.2 cid w h4, ← ht.tail.taken]
        exact h6
    | _ => exact h3
  case clientKillW cid w =>
    obtain ⟨id, h1, h2, h3, h4⟩ := hc
    exact ⟨id, h1, h2, h3, by rw [← ht.2 cid w List.mem_cons_self]; exact h4⟩
  all_goals exact hc

theorem hist_times {T T' : Choice} {h : List Ev} (ht : Agree T T' h) (hh : History p T h) : History p T' h := by
  refine ⟨?_, hh.2⟩
  have ha := hh.1
  clear hh
  induction h with
  | nil => trivial
  | cons e h ih =>
    refine ⟨?_, ih ht.tail ha.2⟩
    have h1 := ha.1
    unfold Possible at h1 ⊢
    split
    · rename_i h2; rw [h2] at h1; exact can_times ht h1
    · rename_i h2; rw [h2] at h1; exact h1

/-! ## The invariant -/

def toRet : Option Err → Ret
  | none => .ok
  | some e => .err e

/-- Where the run goroutine is agrees with what the history says it is in the middle of. -/
def PcSim (h : List Ev) : LoopPc → Prop
  | .top | .bcast => Idle h
  | .select | .act (.start ..) | .act (.started ..) | .act (.done ..) => Ready h
  | .act (.stop id) => busyH h = .stop id
  | .killAll => busyH h = .tell []
  | .killing rest => ∃ l, busyH h = .tell l ∧ rest.Nodup ∧ (∀ id ∈ rest, (knownH h id).isSome = true) ∧
      ∀ id, (knownH h id).isSome = true → (id ∈ rest ↔ id ∉ l)
  | .reply cid r => busyH h = .reply cid (toRet r)
  | .exited => busyH h = .exited

/-- How far an attempt is. -/
def GSim (h : List Ev) (pc : LoopPc) (g : G) : Prop :=
  match g.pc with
  | .delaying => Delayed h g.gid
  | .sendStarted _ => (∀ id w, .learned id g.gid w ∉ h) ∧ ∀ id w, pc ≠ .act (.started g.gid id w)
  | .waiting w => .learned g.id g.gid w ∈ h ∨ pc = .act (.started g.gid g.id w)
  | .sendDone _ | .gone _ => (phaseH h g.gid = some .pending → Delayed h g.gid) ∧
      ∀ w, phaseH h g.gid = some (.running w) → .learned g.id g.gid w ∈ h ∨ pc = .act (.started g.gid g.id w)
  | .ready | .starting => True

structure XTab (p : Params) (T : Choice) (t : Tab) : Prop where
  hist : History p T t.hist
  pc : PcSim t.hist t.pc
  arm : t.dyingArm = armH p t.hist
  nG : t.nextG = begins t.hist
  nR : t.nextR = acceptances t.hist
  times : ∀ id i, t.workers.get? id = some i → i.started = T.time i.rid
  gs : ∀ g ∈ t.gs, GSim t.hist t.pc g
  fresh : ∀ gid, t.nextG ≤ gid → ∀ id w, .learned id gid w ∉ t.hist
  actL : ∀ gid id w, t.pc = .act (.started gid id w) → ∀ id' w', .learned id' gid w' ∉ t.hist

theorem XTab.init (T : Choice) : XTab p T {} where
  hist := ⟨trivial, rfl⟩
  pc := .inl rfl
  arm := rfl
  nG := rfl
  nR := rfl
  times := by intro id i h; simp [AMap.empty, AMap.get?] at h
  gs := nofun
  fresh := nofun
  actL := nofun

/-! ## Events that do not matter to the run goroutine -/

structure Calm2 (e : Ev) : Prop where
  busy : ∀ h, busyH (e :: h) = busyH h
  known : ∀ h id, knownH (e :: h) id = knownH h id
  shut : e ≠ .shutdown
  arm : ∀ (p : Params) h, armH p (e :: h) = armH p h
  acc : ∀ h, acceptances (e :: h) = acceptances h
  learned : ∀ id g w, e ≠ .learned id g w

theorem Idle.calm {e : Ev} {h : List Ev} (he : Calm2 e) : Idle (e :: h) ↔ Idle h := by
  unfold Idle; simp only [he.busy, he.known]

theorem shut_calm {e : Ev} {h : List Ev} (he : Calm2 e) : .shutdown ∈ e :: h ↔ .shutdown ∈ h :=
  ⟨fun hm => (List.mem_cons.1 hm).resolve_left (fun hx => he.shut hx.symm), List.mem_cons_of_mem _⟩

theorem Ready.calm {e : Ev} {h : List Ev} (he : Calm2 e) : Ready (e :: h) ↔ Ready h := by
  unfold Ready; simp only [Idle.calm he, shut_calm he, he.known]

theorem PcSim.calm {e : Ev} {h : List Ev} (he : Calm2 e) (pc : LoopPc) : PcSim (e :: h) pc ↔ PcSim h pc := by
  cases pc with
  | act m => cases m <;> simp only [PcSim, Ready.calm he, he.busy]
  | _ => simp only [PcSim, Idle.calm he, Ready.calm he, he.busy, he.known]

theorem GSim.mono {h h' : List Ev} {pc pc' : LoopPc} {g : G} (hg : GSim h pc g) (hs : ∀ x ∈ h, x ∈ h')
    (hl : ∀ id w, .learned id g.gid w ∈ h' → .learned id g.gid w ∈ h) (hp : phaseH h' g.gid = phaseH h g.gid)
    (ha : ∀ w, pc = .act (.started g.gid g.id w) → pc' = pc ∨ .learned g.id g.gid w ∈ h')
    (hb : ∀ id w, pc' = .act (.started g.gid id w) → pc = pc') : GSim h' pc' g := by
  have hd : Delayed h g.gid → Delayed h' g.gid := fun ⟨i, d, f, h1, h2⟩ => ⟨i, d, f, hs _ h1, h2⟩
  have hw : ∀ w, (.learned g.id g.gid w ∈ h ∨ pc = .act (.started g.gid g.id w)) →
      .learned g.id g.gid w ∈ h' ∨ pc' = .act (.started g.gid g.id w) := by
    intro w hx
    rcases hx with hx | hx
    · exact .inl (hs _ hx)
    · rcases ha w hx with h1 | h1
      · exact .inr (h1.trans hx)
      · exact .inl h1
  unfold GSim at hg ⊢
  split at hg
  · exact hd hg
  · exact ⟨fun id w hm => hg.1 id w (hl id w hm), fun id w hm => hg.2 id w ((hb id w hm).trans hm)⟩
  · exact hw _ hg
  · rw [hp]; exact ⟨fun h1 => hd (hg.1 h1), fun w h1 => hw w (hg.2 w h1)⟩
  · rw [hp]; exact ⟨fun h1 => hd (hg.1 h1), fun w h1 => hw w (hg.2 w h1)⟩
  all_goals trivial

/-- A calm event, that causes nothing, while the loop stays where it is. -/
theorem XTab.calm {T : Choice} {t t' : Tab} (h : XTab p T t) {e : Ev} (he : Calm2 e) (hb : ∀ h, begins (e :: h) = begins h)
    (hca : ∀ h, caused p e h = []) (hc : Can p T e t.hist)
    (hh : t'.hist = e :: t.hist) (hpc : t'.pc = t.pc) (harm : t'.dyingArm = t.dyingArm) (hnG : t'.nextG = t.nextG)
    (hnR : t'.nextR = t.nextR) (hw : t'.workers = t.workers) (hgs : ∀ g ∈ t'.gs, GSim t'.hist t'.pc g) : XTab p T t' where
  hist := by
    have := hist_next h.hist hc
    rw [hca] at this
    rw [hh]; exact this
  pc := by rw [hh, hpc]; exact (PcSim.calm he _).2 h.pc
  arm := by rw [hh, harm, he.arm]; exact h.arm
  nG := by rw [hh, hnG, hb]; exact h.nG
  nR := by rw [hh, hnR, he.acc]; exact h.nR
  times := by rw [hw]; exact h.times
  gs := hgs
  fresh := by
    rw [hnG, hh]
    intro gid hg id w hm
    rcases List.mem_cons.1 hm with hm | hm
    · exact he.learned _ _ _ hm.symm
    · exact h.fresh gid hg id w hm
  actL := by
    rw [hpc, hh]
    intro gid id w hp id' w' hm
    rcases List.mem_cons.1 hm with hm | hm
    · exact he.learned _ _ _ hm.symm
    · exact h.actL gid id w hp id' w' hm

/-- An unseen step of the loop. -/
theorem XTab.goTo {T : Choice} {t t' : Tab} (h : XTab p T t) (hh : t'.hist = t.hist) (hpc : PcSim t.hist t'.pc)
    (harm : t'.dyingArm = t.dyingArm) (hnG : t'.nextG = t.nextG) (hnR : t'.nextR = t.nextR) (hw : t'.workers = t.workers)
    (hgs : ∀ g ∈ t'.gs, GSim t.hist t'.pc g)
    (hact : ∀ gid id w, t'.pc = .act (.started gid id w) → ∀ id' w', .learned id' gid w' ∉ t.hist) : XTab p T t' where
  hist := by rw [hh]; exact h.hist
  pc := by rw [hh]; exact hpc
  arm := by rw [hh, harm]; exact h.arm
  nG := by rw [hh, hnG]; exact h.nG
  nR := by rw [hh, hnR]; exact h.nR
  times := by rw [hw]; exact h.times
  gs := by rw [hh]; exact hgs
  fresh := by rw [hnG, hh]; exact h.fresh
  actL := by rw [hh]; exact hact


theorem calm_kill : Calm2 .kill := ⟨fun _ => rfl, fun _ _ => rfl, nofun, fun _ _ => rfl, fun _ => rfl, nofun⟩
theorem calm_startCall (i g f : Nat) : Calm2 (.startCall i g f) := ⟨fun _ => rfl, fun _ _ => rfl, nofun, fun _ _ => rfl, fun _ => rfl, nofun⟩
theorem calm_startOk (i g w : Nat) : Calm2 (.startOk i g w) := ⟨fun _ => rfl, fun _ _ => rfl, nofun, fun _ _ => rfl, fun _ => rfl, nofun⟩
theorem calm_startErr (i g : Nat) (e : Err) : Calm2 (.startErr i g e) :=
  ⟨fun _ => rfl, fun _ _ => rfl, nofun, fun _ _ => rfl, fun _ => rfl, nofun⟩
theorem calm_finished (w : Nat) (e : Option Err) : Calm2 (.finished w e) :=
  ⟨fun _ => rfl, fun _ _ => rfl, nofun, fun _ _ => rfl, fun _ => rfl, nofun⟩
theorem calm_begin (i g f : Nat) (d : Int) : Calm2 (.begin i g d f) :=
  ⟨fun _ => rfl, fun _ _ => rfl, nofun, fun _ _ => rfl, fun _ => rfl, nofun⟩
theorem calm_killW (i w : Nat) : Calm2 (.killW i w) := ⟨fun _ => rfl, fun _ _ => rfl, nofun, fun _ _ => rfl, fun _ => rfl, nofun⟩

theorem known_iff {t : Tab} (hH : HInv p t) (id : Name) : (knownH t.hist id).isSome = true ↔ ∃ i, t.workers.get? id = some i := by
  rw [hH.kn]; cases t.workers.get? id <;> simp

theorem unknown_iff {t : Tab} (hH : HInv p t) (id : Name) : knownH t.hist id = none ↔ t.workers.get? id = none := by
  rw [hH.kn]; cases t.workers.get? id <;> simp

/-- The goroutines that do not move. -/
theorem gs_gto {P : G → Prop} {t : Tab} {g : G} {q : Pc} (h1 : P { g with pc := q }) (h2 : ∀ g' ∈ t.gs, g'.gid ≠ g.gid → P g')
    (hs : Shape p t) (hg : g ∈ t.gs) : ∀ g' ∈ (t.gto g.gid q).gs, P g' := by
  intro g' hm
  simp only [Tab.gto, List.mem_map] at hm
  obtain ⟨x, hx, rfl⟩ := hm
  split
  · rename_i he
    rw [gid_inj hs.gidNd hx hg he]; exact h1
  · rename_i he; exact h2 x hx he

theorem killEvs_eq {t : Tab} (hH : HInv p t) (id : Name) :
    killEvs t id = (if (knownH t.hist id).isSome then Ev.told id :: RSpec.killing t.hist id else []).reverse := by
  unfold killEvs RSpec.killing
  rw [hH.kn, hH.inst]
  cases hi : t.workers.get? id with
  | none => rfl
  | some i => simp only [Option.map_some, Option.isSome_some, if_true, Option.bind_some]; cases i.worker <;> rfl

theorem killEvs_frame (t : Tab) (id : Name) (h : List Ev) :
    armH p (killEvs t id ++ h) = armH p h ∧ begins (killEvs t id ++ h) = begins h ∧ acceptances (killEvs t id ++ h) = acceptances h ∧
    (∀ k, phaseH (killEvs t id ++ h) k = phaseH h k) ∧ (∀ j, knownH (killEvs t id ++ h) j = knownH h j) ∧
    (∀ i g w, .learned i g w ∈ killEvs t id ++ h → .learned i g w ∈ h) := by
  unfold killEvs
  cases t.workers.get? id with
  | none => exact ⟨rfl, rfl, rfl, fun _ => rfl, fun _ => rfl, fun _ _ _ h => h⟩
  | some i =>
    simp only
    cases i.worker with
    | none => exact ⟨rfl, rfl, rfl, fun _ => rfl, fun _ => rfl, fun _ _ _ h => by simpa using h⟩
    | some w => exact ⟨rfl, rfl, rfl, fun _ => rfl, fun _ => rfl, fun _ _ _ h => by simpa using h⟩

theorem killEvs_busy (t : Tab) (id : Name) (h : List Ev) (hb : busyH h = .free) : busyH (killEvs t id ++ h) = .free := by
  unfold killEvs
  cases t.workers.get? id with
  | none => exact hb
  | some i =>
    simp only
    cases i.worker <;> simp [busyH, hb]

theorem killEvs_tell {t : Tab} {id : Name} {h : List Ev} {l : List Name} {i : WInfo} (hi : t.workers.get? id = some i)
    (hb : busyH h = .tell l) : busyH (killEvs t id ++ h) = .tell (id :: l) := by
  unfold killEvs
  rw [hi]
  simp only
  cases i.worker <;> simp [busyH, hb]

theorem killLocked_times {t : Tab} {id j : Name} {i : WInfo} (h : (killLocked t id).workers.get? j = some i) :
    ∃ i', t.workers.get? j = some i' ∧ i.rid = i'.rid ∧ i.started = i'.started := by
  rw [killLocked_get?] at h
  by_cases hj : j = id
  · rw [if_pos hj] at h
    cases hi : t.workers.get? id with
    | none => rw [hi] at h; cases h
    | some i' => rw [hi] at h; cases h; exact ⟨i', by rw [hj, hi], rfl, rfl⟩
  · rw [if_neg hj] at h; exact ⟨i, h, rfl, rfl⟩

theorem XTab.killNext {T : Choice} {t : Tab} (h : XTab p T t) (hH : HInv p t) {id : Name} {rest : List Name}
    (hp : t.pc = .killing (id :: rest)) : XTab p T ((killLocked t id).goTo (.killing rest)) := by
  have hpc := h.pc
  rw [hp] at hpc
  obtain ⟨l, h1, h2, h3, h4⟩ := hpc
  have hk := h3 id List.mem_cons_self
  obtain ⟨i, hi⟩ := (known_iff hH id).1 hk
  obtain ⟨f1, f2, f3, f4, f5, f6⟩ := killEvs_frame (p := p) t id t.hist
  have hh : ((killLocked t id).goTo (.killing rest)).hist = killEvs t id ++ t.hist := killLocked_hist t id
  have hr := killLocked_rest t id
  have hnot : id ∉ l := (h4 id hk).1 List.mem_cons_self
  constructor
  · have := hist_next h.hist (e := .told id) (show Can p T (.told id) t.hist from ⟨l, h1, hnot, hk⟩)
    rw [hh, killEvs_eq hH, if_pos hk, List.reverse_cons, List.append_assoc]
    exact this
  · rw [hh]
    refine ⟨id :: l, killEvs_tell hi h1, (List.nodup_cons.1 h2).2, fun j hj => ?_, fun j hj => ?_⟩
    · rw [f5]; exact h3 j (List.mem_cons_of_mem _ hj)
    · rw [f5] at hj
      have := h4 j hj
      rw [List.mem_cons] at this ⊢
      have hne : j ∈ rest → j ≠ id := fun hm he => (List.nodup_cons.1 h2).1 (he ▸ hm)
      constructor
      · rintro hm (rfl | hx)
        · exact hne hm rfl
        · exact (this.1 (.inr hm)) hx
      · intro hx
        exact (this.2 (fun hm => hx (.inr hm))).resolve_left (fun he => hx (.inl he))
  · rw [hh, f1]; exact hr.dyingArm.trans h.arm
  · rw [hh, f2]; exact hr.nextG.trans h.nG
  · rw [hh, f3]; exact hr.nextR.trans h.nR
  · intro j i' hi'
    obtain ⟨i2, h5, h6, h7⟩ := killLocked_times (show (killLocked t id).workers.get? j = some i' from hi')
    rw [h6, h7]; exact h.times j i2 h5
  · intro g hg
    have hg' : g ∈ t.gs := by rw [← hr.gs]; exact hg
    rw [hh]
    refine (h.gs g hg').mono (fun x hx => List.mem_append_right _ hx) (fun i w hm => f6 _ _ _ hm) (f4 _) (fun w hx => ?_) nofun
    rw [hp] at hx; cases hx
  · rw [hh]; intro gid hg i w hm
    exact h.fresh gid (by rw [← hr.nextG]; exact hg) i w (f6 _ _ _ hm)
  · intro gid i w hx; cases hx

theorem XTab.stop {T : Choice} {t : Tab} (h : XTab p T t) (hH : HInv p t) {id : Name} (hp : t.pc = .act (.stop id)) :
    XTab p T ((killLocked (t.log (.stopHandled id)) id).goTo .bcast) := by
  have hpc := h.pc
  rw [hp] at hpc
  have hpc : busyH t.hist = .stop id := hpc
  have hke : killEvs (t.log (.stopHandled id)) id = killEvs t id := rfl
  have hh : ((killLocked (t.log (.stopHandled id)) id).goTo .bcast).hist = killEvs t id ++ .stopHandled id :: t.hist :=
    (killLocked_hist _ id).trans (by rw [hke]; rfl)
  obtain ⟨f1, f2, f3, f4, f5, f6⟩ := killEvs_frame (p := p) t id (.stopHandled id :: t.hist)
  have hr := killLocked_rest (t.log (.stopHandled id)) id
  constructor
  · have := hist_next h.hist (e := .stopHandled id) (show Can p T (.stopHandled id) t.hist from hpc)
    rw [hh, killEvs_eq hH]
    exact this
  · rw [hh]; exact .inl (killEvs_busy _ _ _ rfl)
  · rw [hh, f1]; exact hr.dyingArm.trans h.arm
  · rw [hh, f2]; exact hr.nextG.trans h.nG
  · rw [hh, f3]; exact hr.nextR.trans h.nR
  · intro j i' hi'
    obtain ⟨i2, h5, h6, h7⟩ := killLocked_times (show (killLocked (t.log (.stopHandled id)) id).workers.get? j = some i' from hi')
    rw [h6, h7]; exact h.times j i2 h5
  · intro g hg
    have hg' : g ∈ t.gs := by have := hr.gs; rw [show (t.log (.stopHandled id)).gs = t.gs from rfl] at this; rw [← this]; exact hg
    rw [hh]
    refine (h.gs g hg').mono (fun x hx => List.mem_append_right _ (List.mem_cons_of_mem _ hx)) (fun i w hm => ?_) (f4 _) (fun w hx => ?_) nofun
    · have := f6 _ _ _ hm; simpa using this
    · rw [hp] at hx; cases hx
  · rw [hh]; intro gid hg i w hm
    have := f6 _ _ _ hm
    exact h.fresh gid (by have := hr.nextG; rw [show (t.log (.stopHandled id)).nextG = t.nextG from rfl] at this; rw [← this]; exact hg) i w (by simpa using this)
  · intro gid i w hx; cases hx

theorem setWorker_eq {t : Tab} {gid : Nat} {id : Name} {w : Nat} {info : WInfo} (hi : t.workers.get? id = some info) :
    (setWorker t gid id w).hist = (if info.stopping = true ∨ t.isDying = true then [Ev.told id, .killW id w] else []).reverse ++ .learned id gid w :: t.hist ∧
    (∀ j i, (setWorker t gid id w).workers.get? j = some i → ∃ i', t.workers.get? j = some i' ∧ i.rid = i'.rid ∧ i.started = i'.started) := by
  have hset : ∀ j i, ((t.setInfo id { info with worker := some w }).log (.learned id gid w)).workers.get? j = some i →
      ∃ i', t.workers.get? j = some i' ∧ i.rid = i'.rid ∧ i.started = i'.started := by
    intro j i hj
    have hj : (t.workers.set id { info with worker := some w }).get? j = some i := hj
    rw [AMap.get?_set] at hj
    split at hj
    · rename_i he; rw [he]; simp only [Option.some.injEq] at hj; subst hj; exact ⟨info, hi, rfl, rfl⟩
    · exact ⟨i, hj, rfl, rfl⟩
  unfold setWorker
  rw [hi]
  simp only
  by_cases hc : info.stopping = true ∨ t.isDying = true
  · rw [if_pos hc, if_pos (by rcases hc with h | h <;> simp [h])]
    constructor
    · rw [killLocked_hist]
      unfold killEvs
      rw [show ((t.setInfo id { info with worker := some w }).log (.learned id gid w)).workers.get? id = some { info with worker := some w } from
        (AMap.get?_set _ _ _ _).trans (if_pos rfl)]
      rfl
    · intro j i hj
      obtain ⟨i1, h1, h2, h3⟩ := killLocked_times hj
      obtain ⟨i2, h4, h5, h6⟩ := hset j i1 h1
      exact ⟨i2, h4, h2.trans h5, h3.trans h6⟩
  · rw [if_neg hc, if_neg (by simpa [not_or, and_comm] using hc)]
    exact ⟨rfl, hset⟩

theorem XTab.started {T : Choice} {t : Tab} (h : XTab p T t) (hr : ReachT p t) {gid : Nat} {id : Name} {w : Nat}
    (hp : t.pc = .act (.started gid id w)) : XTab p T ((setWorker t gid id w).goTo .bcast) := by
  have hH := hr.hinv
  have hS := hr.shape
  have hpc := h.pc
  rw [hp] at hpc
  have hpc : Ready t.hist := hpc
  obtain ⟨g, hg, rfl, rfl⟩ := hS.actStarted gid id w hp
  obtain ⟨info, hi⟩ := Option.isSome_iff_exists.1 ((hS.known g.id).2 (List.mem_map_of_mem hg))
  obtain ⟨e1, e2⟩ := setWorker_eq (gid := g.gid) (w := w) hi
  have hrest := setWorker_rest t g.gid g.id w info hi
  have hopen : openH t.hist g.id = some g.gid := (hH.opn _ _).2 ⟨g, hg, rfl, rfl⟩
  have hph := hr.learn.act _ _ _ hp
  have hl := h.actL _ _ _ hp
  have hcond : (info.stopping = true ∨ t.isDying = true) ↔ (toldH t.hist g.id = true ∨ .shutdown ∈ t.hist) := by
    rw [hH.told _ _ hi, hH.shut]
  have hh : ((setWorker t g.gid g.id w).goTo .bcast).hist = (caused p (.learned g.id g.gid w) t.hist).reverse ++ .learned g.id g.gid w :: t.hist := by
    refine e1.trans ?_
    simp only [caused, hcond]
  have hfr : ∀ l, l = caused p (.learned g.id g.gid w) t.hist → armH p (l.reverse ++ .learned g.id g.gid w :: t.hist) = armH p t.hist ∧
      begins (l.reverse ++ .learned g.id g.gid w :: t.hist) = begins t.hist ∧
      acceptances (l.reverse ++ .learned g.id g.gid w :: t.hist) = acceptances t.hist ∧
      busyH (l.reverse ++ .learned g.id g.gid w :: t.hist) = .free ∧
      (∀ k, phaseH (l.reverse ++ .learned g.id g.gid w :: t.hist) k = phaseH t.hist k) ∧
      ∀ i' g' w', .learned i' g' w' ∈ l.reverse ++ .learned g.id g.gid w :: t.hist → (i' = g.id ∧ g' = g.gid ∧ w' = w) ∨ .learned i' g' w' ∈ t.hist := by
    intro l hl
    subst hl
    simp only [caused]
    split
    · refine ⟨rfl, rfl, rfl, rfl, fun _ => rfl, fun i' g' w' hm => ?_⟩
      simpa using hm
    · refine ⟨rfl, rfl, rfl, rfl, fun _ => rfl, fun i' g' w' hm => ?_⟩
      simpa using hm
  obtain ⟨f1, f2, f3, f4, f5, f6⟩ := hfr _ rfl
  constructor
  · rw [hh]
    exact hist_next h.hist (show Can p T (.learned g.id g.gid w) t.hist from ⟨hpc, hopen, hph, hl _ _⟩)
  · rw [hh]; exact .inl f4
  · rw [hh, f1]; exact hrest.dyingArm.trans h.arm
  · rw [hh, f2]; exact hrest.nextG.trans h.nG
  · rw [hh, f3]; exact hrest.nextR.trans h.nR
  · intro j i' hi'
    obtain ⟨i2, h5, h6, h7⟩ := e2 j i' hi'
    rw [h6, h7]; exact h.times j i2 h5
  · intro g' hg'
    have hg'' : g' ∈ t.gs := by rw [← hrest.gs]; exact hg'
    rw [hh]
    by_cases he : g'.gid = g.gid
    · obtain rfl := gid_inj hS.gidNd hg'' hg he
      have hm : Ev.learned g'.id g'.gid w ∈ (caused p (.learned g'.id g'.gid w) t.hist).reverse ++ .learned g'.id g'.gid w :: t.hist := by simp
      have hw : ∀ w', phaseH t.hist g'.gid = some (.running w') → w' = w := by
        intro w' h1; rw [hph] at h1; cases h1; rfl
      have hpo := hH.ph g' hg
      have hgs := h.gs g' hg
      unfold GSim at hgs ⊢
      unfold PhaseOk at hpo
      split at hgs
      all_goals rename_i hq; simp only [hq] at hpo
      · rw [hph] at hpo; cases hpo
      · exact absurd hp (hgs.2 _ _)
      · rw [hw _ hpo]; exact .inl hm
      · exact ⟨fun h1 => (by rw [f5, hph] at h1; cases h1), fun w' h1 => (by rw [f5] at h1; rw [hw _ h1]; exact .inl hm)⟩
      · exact ⟨fun h1 => (by rw [f5, hph] at h1; cases h1), fun w' h1 => (by rw [f5] at h1; rw [hw _ h1]; exact .inl hm)⟩
      all_goals trivial
    · refine (h.gs g' hg'').mono (fun x hx => List.mem_append_right _ (List.mem_cons_of_mem _ hx)) (fun i w hm => ?_) (f5 _) (fun w' hx => ?_) nofun
      · rcases f6 _ _ _ hm with ⟨_, h1, _⟩ | h1
        · exact absurd h1 he
        · exact h1
      · rw [hp] at hx; injection hx with hx; injection hx with hx; exact absurd hx.symm he
  · rw [hh]; intro gid hg2 i w' hm
    have hge : t.nextG ≤ gid := by rw [← hrest.nextG]; exact hg2
    rcases f6 _ _ _ hm with ⟨_, h1, _⟩ | h1
    · have := hS.gidLt g hg; omega
    · exact h.fresh gid hge i w' h1
  · intro gid i w hx; cases hx

theorem fate_again {info : WInfo} {e : Option Err} (hn : info.stopping = true ↔ info.start = none) (ha : again p e = true)
    (hs : info.stopping = false) : ∃ sf, info.start = some sf ∧ fate p info e = .restart sf := by
  cases hst : info.start with
  | none => rw [hn.2 hst] at hs; cases hs
  | some sf =>
    refine ⟨sf, rfl, ?_⟩
    cases e with
    | none => cases ha
    | some err =>
      simp only [again, Bool.and_eq_true, Bool.not_eq_true'] at ha
      simp [fate, lastFate, hst, ha.1, ha.2]

theorem fate_over {info : WInfo} {e : Option Err} (hn : info.stopping = true ↔ info.start = none)
    (ha : ¬ (again p e = true ∧ info.stopping = false)) :
    (fatal p e = false ∧ fate p info e = .remove) ∨ ∃ err, e = some err ∧ fatal p e = true ∧ fate p info e = .fatal err := by
  cases e with
  | none =>
    refine .inl ⟨rfl, ?_⟩
    cases hs : info.stopping with
    | false => simp [fate, hs]
    | true => simp [fate, hs, lastFate, hn.1 hs]
  | some err =>
    cases hf : p.isFatal err with
    | true => exact .inr ⟨err, rfl, hf, by simp [fate, hf]⟩
    | false =>
      refine .inl ⟨hf, ?_⟩
      cases hr : p.shouldRestart err with
      | false => simp [fate, hf, hr]
      | true =>
        cases hs : info.stopping with
        | false => exact absurd ⟨by simp [again, hf, hr], hs⟩ ha
        | true => simp [fate, hf, hr, lastFate, hn.1 hs]

theorem XTab.done {T : Choice} {t : Tab} (h : XTab p T t) (hr : ReachT p t) {gid : Nat} {id : Name} {e : Option Err}
    (hp : t.pc = .act (.done gid id e)) : XTab p T (workerDone p t gid id e) ∧
    (workerDone p t gid id e).hist = (caused p (.ended id gid e) t.hist).reverse ++ .ended id gid e :: t.hist := by
  have hH := hr.hinv
  have hS := hr.shape
  have hpc := h.pc
  rw [hp] at hpc
  have hpc : Ready t.hist := hpc
  obtain ⟨g, hg, rfl, rfl, hgone⟩ := hS.actDone gid id e hp
  obtain ⟨info, hi⟩ := Option.isSome_iff_exists.1 ((hS.known g.id).2 (List.mem_map_of_mem hg))
  have hopen : openH t.hist g.id = some g.gid := (hH.opn _ _).2 ⟨g, hg, rfl, rfl⟩
  have htold := hH.told _ _ hi
  have hkn : knownH t.hist g.id = some info.rid := by rw [hH.kn, hi]; rfl
  have hcan : Can p T (.ended g.id g.gid e) t.hist := by
    refine ⟨hpc, hopen, ?_⟩
    have h1 := hH.ph g hg
    have h2 := h.gs g hg
    unfold PhaseOk at h1
    unfold GSim at h2
    rw [hgone] at h1 h2
    rcases h1 with ⟨h1, h3, h4⟩ | ⟨err, h1, h3⟩ | ⟨w, h1, h3⟩
    · exact .inl ⟨h1, h2.1 h1, h4, h3⟩
    · exact .inr (.inl ⟨err, h1, h3⟩)
    · refine .inr (.inr ⟨w, h1, ?_, h3⟩)
      rcases h2.2 w h1 with h5 | h5
      · exact h5
      · rw [hp] at h5; cases h5
  -- what is the same in all cases
  have key : ∀ (t' : Tab) (l : List Ev), caused p (.ended g.id g.gid e) t.hist = l → t'.hist = l.reverse ++ .ended g.id g.gid e :: t.hist →
      PcSim t'.hist t'.pc → t'.dyingArm = t.dyingArm → armH p t'.hist = armH p t.hist → t'.nextG = begins t'.hist →
      t'.nextR = t.nextR → acceptances t'.hist = acceptances t.hist →
      (∀ j i, t'.workers.get? j = some i → ∃ i', t.workers.get? j = some i' ∧ i.rid = i'.rid ∧ i.started = i'.started) →
      (∀ g' ∈ t'.gs, (g' ∈ t.gs ∧ g'.gid ≠ g.gid ∧ phaseH t'.hist g'.gid = phaseH t.hist g'.gid) ∨ GSim t'.hist t'.pc g') →
      (∀ i' g' w', .learned i' g' w' ∉ l) → t.nextG ≤ t'.nextG → (∀ m, t'.pc ≠ .act m) → XTab p T t' ∧
      t'.hist = (caused p (.ended g.id g.gid e) t.hist).reverse ++ .ended g.id g.gid e :: t.hist := by
    intro t' l hl hh h1 h2 h3 h4 h5 h6 h7 h8 h9 h10 h11
    have hlr : ∀ i' g' w', .learned i' g' w' ∈ t'.hist → .learned i' g' w' ∈ t.hist := by
      intro i' g' w' hm
      rw [hh] at hm
      simp only [List.mem_append, List.mem_reverse, List.mem_cons, reduceCtorEq, false_or] at hm
      exact hm.resolve_left (h9 _ _ _)
    have hsub : ∀ x ∈ t.hist, x ∈ t'.hist := fun x hx => by rw [hh]; exact List.mem_append_right _ (List.mem_cons_of_mem _ hx)
    refine ⟨?_, by rw [hh, hl]⟩
    refine ⟨?_, h1, by rw [h2, h3]; exact h.arm, h4, by rw [h5, h6]; exact h.nR, fun j i hj => ?_, fun g' hg' => ?_, fun k hk i w hm => ?_,
      fun k i w hm => absurd hm (h11 _)⟩
    · rw [hh, ← hl]; exact hist_next h.hist hcan
    · obtain ⟨i', a, b, c⟩ := h7 j i hj; rw [b, c]; exact h.times j i' a
    · rcases h8 g' hg' with ⟨a, b, c⟩ | a
      · refine (h.gs g' a).mono hsub (fun i w hm => hlr _ _ _ hm) c (fun w hx => ?_) (fun i w hx => absurd hx (h11 _))
        rw [hp] at hx; cases hx
      · exact a
    · exact h.fresh k (Nat.le_trans h10 hk) i w (hlr _ _ _ hm)
  have hdrop : ∀ g' ∈ (dropG t g.gid).gs, g' ∈ t.gs ∧ g'.gid ≠ g.gid := fun g' hg' => mem_dropG.1 hg'
  have herase : ∀ j i, (t.workers.erase g.id).get? j = some i → ∃ i', t.workers.get? j = some i' ∧ i.rid = i'.rid ∧ i.started = i'.started := by
    intro j i hj
    rw [AMap.get?_erase] at hj
    split at hj
    · cases hj
    · exact ⟨i, hj, rfl, rfl⟩
  unfold workerDone
  rw [hi]
  simp only
  by_cases ha : again p e = true ∧ info.stopping = false
  · obtain ⟨sf, h1, h2⟩ := fate_again (p := p) (hS.noStart _ _ hi) ha.1 ha.2
    rw [h2]
    simp only
    have hsf := hH.sf _ _ hi sf h1
    refine key _ [.begin g.id (begins t.hist) p.restartDelay sf] ?_ ?_ (.inl rfl) rfl rfl ?_ rfl rfl ?_ ?_ (by simp) ?_ nofun
    · simp only [caused, htold, ha, hsf, and_self, if_true]
    · simp only [spawn, Tab.setInfo, Tab.log, Tab.goTo, dropG, hS.delay _ _ hi, h.nG]; rfl
    · simp only [spawn, Tab.setInfo, Tab.log, Tab.goTo, dropG, begins, h.nG]
    · intro j i hj
      simp only [spawn, Tab.setInfo, Tab.log, Tab.goTo, dropG, AMap.get?_set] at hj
      split at hj
      · rename_i he; simp only [Option.some.injEq] at hj; subst hj; rw [he]; exact ⟨info, hi, rfl, rfl⟩
      · exact ⟨i, hj, rfl, rfl⟩
    · intro g' hg'
      simp only [spawn, Tab.setInfo, Tab.log, Tab.goTo, List.mem_cons] at hg'
      rcases hg' with rfl | hg'
      · refine .inr ?_
        unfold GSim
        simp only
        by_cases hd : 0 < info.restartDelay
        · rw [if_pos hd]; exact ⟨g.id, info.restartDelay, sf, List.mem_cons_self, hd⟩
        · rw [if_neg hd]; trivial
      · obtain ⟨a, b⟩ := hdrop g' hg'
        refine .inl ⟨a, b, ?_⟩
        have : g'.gid ≠ t.nextG := Nat.ne_of_lt (hS.gidLt g' a)
        simp [spawn, Tab.setInfo, Tab.log, Tab.goTo, dropG, phaseH, this, b]
    · simp only [spawn, Tab.setInfo, Tab.log, Tab.goTo, dropG]; omega
  · have hca : ¬ (again p e = true ∧ toldH t.hist g.id = false) := by rw [htold]; exact ha
    have hgs : ∀ (h' : List Ev) (pc : LoopPc), (∀ k, k ≠ g.gid → phaseH h' k = phaseH t.hist k) → ∀ g' ∈ (dropG t g.gid).gs,
        (g' ∈ t.gs ∧ g'.gid ≠ g.gid ∧ phaseH h' g'.gid = phaseH t.hist g'.gid) ∨ GSim h' pc g' := by
      intro h' pc hx g' hg'
      obtain ⟨a, b⟩ := hdrop g' hg'
      exact .inl ⟨a, b, hx _ b⟩
    rcases fate_over (p := p) (hS.noStart _ _ hi) ha with ⟨h1, h2⟩ | ⟨err, he, h1, h2⟩
    · rw [h2]
      simp only
      refine key _ [.removed g.id info.rid] ?_ rfl (.inl rfl) rfl rfl h.nG rfl rfl herase ?_ (by simp) (Nat.le_refl _) nofun
      · simp only [caused, if_neg hca, hkn, h1]; rfl
      · exact hgs _ _ (fun k hk => by simp [phaseH, removeWorker, Tab.log, Tab.goTo, hk, dropG])
    · rw [h2]
      simp only
      unfold beginShutdown
      by_cases hd : t.isDying = true
      · rw [if_pos (show (removeWorker (noteFatal p ((dropG t g.gid).log (.ended g.id g.gid e)) err) g.id info.rid).isDying = true from hd)]
        refine key _ [.removed g.id info.rid] ?_ rfl (.inl rfl) rfl rfl h.nG rfl rfl herase ?_ (by simp) (Nat.le_refl _) nofun
        · simp only [caused, if_neg hca, hkn]
          rw [if_neg (fun hx => hx.2 (hH.shut.1 hd))]
        · exact hgs _ _ (fun k hk => by simp [phaseH, removeWorker, noteFatal, Tab.log, Tab.goTo, hk, dropG])
      · rw [if_neg (show ¬ (removeWorker (noteFatal p ((dropG t g.gid).log (.ended g.id g.gid e)) err) g.id info.rid).isDying = true from hd)]
        have hcs : caused p (.ended g.id g.gid e) t.hist = [.removed g.id info.rid, .shutdown] := by
          simp only [caused, if_neg hca, hkn]
          rw [if_pos ⟨h1, fun hx => hd (hH.shut.2 hx)⟩]
        refine key _ [.removed g.id info.rid, .shutdown] hcs rfl rfl rfl ?_ h.nG rfl rfl herase ?_ (by simp) (Nat.le_refl _) nofun
        · show armH p (.shutdown :: .removed g.id info.rid :: .ended g.id g.gid e :: t.hist) = _
          have hdue : dueH p (.removed g.id info.rid :: .ended g.id g.gid e :: t.hist) = [.shutdown] := by
            simp only [dueH, h.hist.2, hcs]
          simp only [armH, hdue]; simp
        · exact hgs _ _ (fun k hk => by simp [phaseH, removeWorker, noteFatal, Tab.log, Tab.goTo, hk, dropG])

theorem XTab.accepted {T : Choice} {t : Tab} (h : XTab p T t) (hr : ReachT p t) {cid : Nat} {id : Name} {sf : Nat} {now : Int}
    (hp : t.pc = .act (.start cid id sf)) (hask : Asks t.hist cid id sf) (hd : t.isDying = false) (hk : t.workers.get? id = none) :
    XTab p { T with time := fun r => if r = t.nextR then now else T.time r } ((acceptStart p t cid id sf now).goTo (.reply cid none)) := by
  have hH := hr.hinv
  have hS := hr.shape
  have hpc := h.pc
  rw [hp] at hpc
  have hpc : Ready t.hist := hpc
  have hT : Agree T { T with time := fun r => if r = t.nextR then now else T.time r } t.hist := by
    refine ⟨fun rid hu => ?_, fun _ _ _ => rfl⟩
    have := UsedRid_lt hr rid hu
    simp only
    rw [if_neg (by omega)]
  have hcan : Can p { T with time := fun r => if r = t.nextR then now else T.time r } (.accepted cid id t.nextR sf) t.hist :=
    ⟨hpc, hask, (unknown_iff hH id).2 hk, (fun hx => by rw [hH.shut.2 hx] at hd; cases hd), h.nR⟩
  have hh : ((acceptStart p t cid id sf now).goTo (.reply cid none)).hist = .begin id t.nextG 0 sf :: .accepted cid id t.nextR sf :: t.hist := rfl
  have hl : ∀ i g w, .learned i g w ∈ ((acceptStart p t cid id sf now).goTo (.reply cid none)).hist → .learned i g w ∈ t.hist := by
    intro i g w hm; rw [hh] at hm; simpa using hm
  constructor
  · have := hist_next (hist_times hT h.hist) hcan
    rw [hh, h.nG]; exact this
  · rfl
  · exact h.arm
  · rw [hh]; simp only [begins]; rw [← h.nG]; rfl
  · rw [hh]; simp only [acceptances]; rw [← h.nR]; rfl
  · intro j i hj
    have hj : (t.workers.set id { rid := t.nextR, start := some sf, restartDelay := p.restartDelay, started := now }).get? j = some i := hj
    rw [AMap.get?_set] at hj
    split at hj
    · cases hj; simp
    · have := hS.ridLt j i hj
      show _ = if i.rid = t.nextR then now else T.time i.rid
      rw [if_neg (by omega)]; exact h.times j i hj
  · intro g hg
    have hg : g = { gid := t.nextG, id := id, delay := 0, sf := sf, ctx := some cid, pc := .ready } ∨ g ∈ t.gs := List.mem_cons.1 hg
    rcases hg with rfl | hg
    · trivial
    · refine (h.gs g hg).mono (fun x hx => List.mem_cons_of_mem _ (List.mem_cons_of_mem _ hx)) (fun i w hm => hl _ _ _ hm) ?_ (fun w hx => ?_) nofun
      · have : g.gid ≠ t.nextG := Nat.ne_of_lt (hS.gidLt g hg)
        rw [hh]; simp [phaseH, this]
      · rw [hp] at hx; cases hx
  · intro gid hg i w hm
    exact h.fresh gid (Nat.le_trans (Nat.le_succ _) hg) i w (hl _ _ _ hm)
  · intro gid i w hx; cases hx

/-- One event that causes nothing, and what it does to the loop. -/
theorem XTab.one {T : Choice} {t t' : Tab} (h : XTab p T t) {e : Ev} (hca : caused p e t.hist = []) (hc : Can p T e t.hist)
    (hh : t'.hist = e :: t.hist) (hpc : PcSim t'.hist t'.pc) (harm : t'.dyingArm = armH p t'.hist)
    (hb : begins (e :: t.hist) = begins t.hist) (ha : acceptances (e :: t.hist) = acceptances t.hist) (hnG : t'.nextG = t.nextG)
    (hnR : t'.nextR = t.nextR) (hw : t'.workers = t.workers) (hgs : t'.gs = t.gs) (hph : ∀ k, phaseH (e :: t.hist) k = phaseH t.hist k)
    (hle : ∀ i g w, e ≠ .learned i g w) (hact : ∀ gid id w, t.pc = .act (.started gid id w) → t'.pc = t.pc)
    (hact' : ∀ gid id w, t'.pc = .act (.started gid id w) → t.pc = t'.pc) : XTab p T t' := by
  have hl : ∀ i g w, .learned i g w ∈ t'.hist → .learned i g w ∈ t.hist := by
    intro i g w hm
    rw [hh] at hm
    exact (List.mem_cons.1 hm).resolve_left (fun hx => hle _ _ _ hx.symm)
  constructor
  · have := hist_next h.hist hc
    rw [hca] at this
    rw [hh]; exact this
  · exact hpc
  · exact harm
  · rw [hh, hb, hnG]; exact h.nG
  · rw [hh, ha, hnR]; exact h.nR
  · rw [hw]; exact h.times
  · rw [hgs]
    intro g hg
    refine (h.gs g hg).mono (fun x hx => by rw [hh]; exact List.mem_cons_of_mem _ hx) (fun i w hm => hl _ _ _ hm) (by rw [hh]; exact hph _)
      (fun w hx => .inl (hact _ _ _ hx)) (fun i w hx => hact' _ _ _ hx)
  · intro gid hg i w hm; exact h.fresh gid (by rw [← hnG]; exact hg) i w (hl _ _ _ hm)
  · intro gid i w hx i' w' hm
    exact h.actL gid i w ((hact' _ _ _ hx).trans hx) i' w' (hl _ _ _ hm)

theorem aliveTomb_dying {b : Bool} (h : (aliveTomb b).dying = true) : b = true := by
  cases b
  · simp [aliveTomb, Tomb.dying] at h
  · rfl

/-- A worker the runner has learned of is running, or its attempt is over. -/
theorem learned_phase {h : List Ev} (hk : AtEvery (EvOk p) h) {i g w : Nat} (hm : .learned i g w ∈ h) :
    (∃ w', phaseH h g = some (.running w')) ∨ phaseH h g = some .over := by
  induction h with
  | nil => cases hm
  | cons e h ih =>
    have he := hk.1
    rcases List.mem_cons.1 hm with hm | hm
    · subst hm; exact .inl ⟨w, he.2⟩
    · have ih := ih hk.2 hm
      cases e <;> simp only [phaseH] <;> try exact ih
      all_goals
        split
        · rename_i hx
          subst hx
          first
          | exact .inr rfl
          | (exfalso
             have hq := he.2.2.2.2.1
             rcases ih with ⟨_, h1⟩ | h1 <;> rw [hq] at h1 <;> cases h1)
          | (exfalso
             have hq := he.2.1
             rcases ih with ⟨_, h1⟩ | h1 <;> rw [hq] at h1 <;> cases h1)
          | (exfalso
             have hq := he.2
             rcases ih with ⟨_, h1⟩ | h1 <;> rw [hq] at h1 <;> cases h1)
        · exact ih

/-- The transitions of the table that are not steps of client calls, and that are not only looked at by clients. -/
inductive TL (p : Params) : Tab → Tab → Prop
  | kill {t} : TL p t ({ t with tomb := t.tomb.kill none }.log .kill)
  | exit {t} : t.pc = .top → t.isDying = true → (∀ id, t.workers.get? id = none) →
      TL p t (({ t with tomb := t.tomb.finish t.finalError }.log .exit).goTo .exited)
  | select {t} : t.pc = .top → ¬ (t.isDying = true ∧ ∀ id, t.workers.get? id = none) → TL p t (t.goTo .select)
  | recvDying {t} : t.pc = .select → t.dyingArm = true → t.tomb.dying = true →
      TL p t (({ t with isDying := true, dyingArm := false }.log .shutdown).goTo .killAll)
  | recvStart {t} (cid id sf : Nat) : t.pc = .select → TL p t (t.goTo (.act (.start cid id sf)))
  | recvStarted {t} (g : G) (w : Nat) : t.pc = .select → g ∈ t.gs → g.pc = .sendStarted w →
      TL p t ((t.gto g.gid (.waiting w)).goTo (.act (.started g.gid g.id w)))
  | recvDone {t} (g : G) (e : Option Err) : t.pc = .select → g ∈ t.gs → g.pc = .sendDone e →
      TL p t ((t.gto g.gid (.gone e)).goTo (.act (.done g.gid g.id e)))
  | ignored {t} (cid id sf : Nat) : t.pc = .act (.start cid id sf) → t.isDying = true →
      TL p t ((t.log (.ignored cid id)).goTo (.reply cid none))
  | refused {t} (cid id sf : Nat) (i : WInfo) : t.pc = .act (.start cid id sf) → t.isDying = false →
      t.workers.get? id = some i → TL p t ((t.log (.refused cid id)).goTo (.reply cid (some (.alreadyExists id))))
  | accepted {t} (cid id sf : Nat) (now : Int) : t.pc = .act (.start cid id sf) → t.isDying = false →
      t.workers.get? id = none → TL p t ((acceptStart p t cid id sf now).goTo (.reply cid none))
  | stop {t} (id : Name) : t.pc = .act (.stop id) → TL p t ((killLocked (t.log (.stopHandled id)) id).goTo .bcast)
  | started {t} (gid : Nat) (id : Name) (w : Nat) : t.pc = .act (.started gid id w) →
      TL p t ((setWorker t gid id w).goTo .bcast)
  | done {t} (gid : Nat) (id : Name) (e : Option Err) : t.pc = .act (.done gid id e) →
      TL p t (workerDone p t gid id e)
  | killAll {t} (order : List Name) : t.pc = .killAll → IsRangeOrder t.workers order →
      TL p t (t.goTo (.killing order))
  | killNext {t} (id : Name) (rest : List Name) : t.pc = .killing (id :: rest) →
      TL p t ((killLocked t id).goTo (.killing rest))
  | killDone {t} : t.pc = .killing [] → TL p t (t.goTo .bcast)
  | bcast {t} : t.pc = .bcast → TL p t (t.goTo .top)
  | gDying {t} (g : G) : g ∈ t.gs → g.pc = .delaying → t.tomb.dying = true → TL p t (t.gto g.gid (.sendDone none))
  | gTimer {t} (g : G) : g ∈ t.gs → g.pc = .delaying → TL p t (t.gto g.gid .ready)
  | gCall {t} (g : G) : g ∈ t.gs → g.pc = .ready → TL p t ((t.gto g.gid .starting).log (.startCall g.id g.gid g.sf))
  | gStartOk {t} (g : G) (w : Nat) : g ∈ t.gs → g.pc = .starting →
      TL p t ((t.gto g.gid (.sendStarted w)).log (.startOk g.id g.gid w))
  | gStartErr {t} (g : G) (e : Err) : g ∈ t.gs → g.pc = .starting →
      TL p t ((t.gto g.gid (.sendDone (some e))).log (.startErr g.id g.gid e))
  | gWaitRet {t} (g : G) (w : Nat) (e : Option Err) : g ∈ t.gs → g.pc = .waiting w → t.finished.get? w = some e →
      TL p t (t.gto g.gid (.sendDone e))
  | finish {t} (w : Nat) (e : Option Err) : t.finished.get? w = none →
      TL p t ({ t with finished := t.finished.set w e }.log (.finished w e))

theorem muFree_loop {s : State} (h : s.muFree = true) : s.tab.pc.locked = false := by
  simp only [State.muFree, Bool.and_eq_true, Bool.not_eq_true'] at h
  exact h.2

theorem tabStep_TL {s : State} {op : Op} {t : Tab} (h : tabStep p s op = some t) :
    (∃ e, t = s.tab.log e ∧ QuietOk s.tab e ∧ ((∃ g b, e = .ctx g b) ∨ (s.tab.pc.locked = false ∧ ((∃ l, e = .report l) ∨ ∃ l, e = .names l)))) ∨
    TL p s.tab t := by
  unfold tabStep at h
  split at h
  · cases h; exact .inr (.kill)
  · split at h
    · rename_i hpc
      split at h
      · rename_i hc
        cases h
        simp only [Bool.and_eq_true] at hc
        exact .inr (.exit hpc hc.1 ((keys_isEmpty _).1 hc.2))
      · rename_i hc
        cases h
        refine .inr (.select hpc ?_)
        rw [← keys_isEmpty]; simpa [Bool.and_eq_true] using hc
    · cases h
  · split at h
    · rename_i hc; cases h; exact .inr (.recvDying hc.1 hc.2.1 hc.2.2)
    · cases h
  · split at h
    · rename_i hpc
      split at h
      · rename_i g hg
        obtain ⟨hm, rfl⟩ := getG_some hg
        split at h
        · rename_i w hw; cases h; exact .inr (.recvStarted g w hpc hm hw)
        · cases h
      · cases h
    · cases h
  · split at h
    · rename_i hpc
      split at h
      · rename_i g hg
        obtain ⟨hm, rfl⟩ := getG_some hg
        split at h
        · rename_i e hw; cases h; exact .inr (.recvDone g e hpc hm hw)
        · cases h
      · cases h
    · cases h
  · rename_i now
    split at h
    · rename_i m hm
      split at h
      · cases h
        cases m with
        | start cid id sf =>
          simp only [act]
          split
          · rename_i hd; exact .inr (.ignored cid id sf hm hd)
          · rename_i hd
            split
            · rename_i hk
              obtain ⟨i, hi⟩ := Option.isSome_iff_exists.1 hk
              exact .inr (.refused cid id sf i hm (by simpa using hd) hi)
            · rename_i hk; exact .inr (.accepted cid id sf now hm (by simpa using hd) (by simpa using hk))
        | stop id => exact .inr (.stop id hm)
        | started gid id w => exact .inr (.started gid id w hm)
        | done gid id e => exact .inr (.done gid id e hm)
      · cases h
    · cases h
  · split at h
    · rename_i hc; cases h; exact .inr (.killAll _ hc.1 ((isRangeOrder_iff _ _).1 hc.2.2))
    · cases h
  · split at h
    · rename_i hc; cases h; exact .inr (.killDone hc)
    · rename_i hc; cases h; exact .inr (.killNext _ _ hc)
    · cases h
  · split at h
    · rename_i g hg
      obtain ⟨hm, rfl⟩ := getG_some hg
      split at h
      · rename_i hc; cases h; exact .inr (.gDying g hm hc.1 hc.2)
      · cases h
    · cases h
  · split at h
    · rename_i g hg
      obtain ⟨hm, rfl⟩ := getG_some hg
      split at h
      · rename_i hc; cases h; exact .inr (.gTimer g hm hc)
      · cases h
    · cases h
  · split at h
    · rename_i g hg
      obtain ⟨hm, rfl⟩ := getG_some hg
      split at h
      · rename_i hc; cases h; exact .inr (.gCall g hm hc)
      · cases h
    · cases h
  · split at h
    · rename_i g hg
      obtain ⟨hm, rfl⟩ := getG_some hg
      split at h
      · rename_i hc; cases h; exact .inr (.gStartOk g _ hm hc)
      · cases h
    · cases h
  · split at h
    · rename_i g hg
      obtain ⟨hm, rfl⟩ := getG_some hg
      split at h
      · rename_i hc; cases h; exact .inr (.gStartErr g _ hm hc)
      · cases h
    · cases h
  · split at h
    · rename_i g hg
      obtain ⟨hm, rfl⟩ := getG_some hg
      split at h
      · rename_i hc; cases h; exact .inr (.gStartErr g _ hm hc)
      · cases h
    · cases h
  · split at h
    · rename_i g hg
      obtain ⟨hm, rfl⟩ := getG_some hg
      split at h
      · rename_i w hw
        split at h
        · rename_i e he; cases h; exact .inr (.gWaitRet g w e hm hw he)
        · cases h
      · cases h
    · cases h
  · split at h
    · rename_i g hg
      obtain ⟨hm, rfl⟩ := getG_some hg
      split at h
      · rename_i hc; cases h; exact .inl ⟨_, rfl, ⟨g, hm, rfl, hc⟩, .inl ⟨_, _, rfl⟩⟩
      · cases h
    · cases h
  · split at h
    · rename_i hc; cases h; exact .inr (.finish _ _ (by simpa using hc))
    · cases h
  · split at h
    · rename_i hc; cases h; exact .inl ⟨_, rfl, ⟨_, (isRangeOrder_iff _ _).1 hc.2, rfl⟩, .inr ⟨muFree_loop hc.1, .inl ⟨_, rfl⟩⟩⟩
    · cases h
  · split at h
    · rename_i hc; cases h; exact .inl ⟨_, rfl, (isRangeOrder_iff _ _).1 hc.2, .inr ⟨muFree_loop hc.1, .inr ⟨_, rfl⟩⟩⟩
    · cases h
  · cases h

theorem XTab.tstep {T : Choice} {t t' : Tab} (h : XTab p T t) (hr : ReachT p t) (hT : TL p t t')
    (hask : ∀ cid id sf, t.pc = .act (.start cid id sf) → Asks t.hist cid id sf) :
    ∃ T', T'.reg = T.reg ∧ XTab p T' t' := by
  have hH := hr.hinv
  have hS := hr.shape
  have hX := h.pc
  -- goroutines that stay where they are
  have hsame : ∀ (pc' : LoopPc), (∀ gid id w, t.pc ≠ .act (.started gid id w)) → (∀ gid id w, pc' ≠ .act (.started gid id w)) →
      ∀ g ∈ t.gs, GSim t.hist pc' g := fun pc' h1 h2 g hg =>
    (h.gs g hg).mono (fun x hx => hx) (fun _ _ hm => hm) rfl (fun w hx => absurd hx (h1 _ _ _)) (fun i w hx => absurd hx (h2 _ _ _))
  have hcalmg : ∀ (e : Ev) (g : G) , g ∈ t.gs → (∀ i g w, e ≠ .learned i g w) → phaseH (e :: t.hist) g.gid = phaseH t.hist g.gid →
      GSim (e :: t.hist) t.pc g := by
    intro e g hg hx hy
    refine (h.gs g hg).mono (fun x hx => List.mem_cons_of_mem _ hx) (fun i w hm => ?_) hy (fun w hx => .inl rfl) (fun i w hx => rfl)
    exact (List.mem_cons.1 hm).resolve_left (fun hz => hx _ _ _ hz.symm)
  cases hT with
  | kill =>
    refine ⟨T, rfl, h.calm calm_kill (fun _ => rfl) (fun _ => rfl) (show Can p T .kill t.hist from trivial) rfl rfl rfl rfl rfl rfl ?_⟩
    exact fun g hg => hcalmg .kill g hg nofun rfl
  | exit hpc hd hk =>
    rw [hpc] at hX
    refine ⟨T, rfl, h.one (e := .exit) rfl ⟨hX, hH.shut.1 hd, fun id => (unknown_iff hH id).2 (hk id)⟩ rfl rfl h.arm rfl rfl rfl rfl rfl rfl
      (fun _ => rfl) nofun (fun _ _ _ hx => ?_) nofun⟩
    rw [hpc] at hx; cases hx
  | select hpc hn =>
    rw [hpc] at hX
    refine ⟨T, rfl, h.goTo rfl (show Ready t.hist from ⟨hX, fun hx => hn ⟨hH.shut.2 hx.1, fun id => (unknown_iff hH id).1 (hx.2 id)⟩⟩)
      rfl rfl rfl rfl (hsame _ (by rw [hpc]; nofun) nofun) nofun⟩
  | recvDying hpc ha hd =>
    rw [hpc] at hX
    have hkill : .kill ∈ t.hist := by
      rw [hH.tomb (by rw [hpc]; nofun)] at hd
      simpa using aliveTomb_dying hd
    refine ⟨T, rfl, h.one (e := .shutdown) rfl ⟨hX, hkill, by rw [← h.arm]; exact ha⟩ rfl rfl ?_ rfl rfl rfl rfl rfl rfl
      (fun _ => rfl) nofun (fun _ _ _ hx => ?_) nofun⟩
    · show false = armH p (.shutdown :: t.hist)
      simp [armH, h.hist.2]
    · rw [hpc] at hx; cases hx
  | recvStart cid id sf hpc =>
    rw [hpc] at hX
    exact ⟨T, rfl, h.goTo rfl hX rfl rfl rfl rfl (hsame _ (by rw [hpc]; nofun) nofun) nofun⟩
  | recvStarted g w hpc hg hgp =>
    rw [hpc] at hX
    have hg0 := h.gs g hg
    unfold GSim at hg0
    rw [hgp] at hg0
    refine ⟨T, rfl, h.goTo rfl hX rfl rfl rfl rfl ?_ ?_⟩
    · refine gs_gto (P := GSim t.hist _) ?_ ?_ hS hg
      · exact .inr rfl
      · intro g' hg' hne
        refine (h.gs g' hg').mono (fun x hx => hx) (fun _ _ hm => hm) rfl (fun w hx => by rw [hpc] at hx; cases hx) (fun i w hx => ?_)
        injection hx with hx; injection hx with hx; exact absurd hx.symm hne
    · intro gid id w' hx i' w''
      injection hx with hx; injection hx with hx
      subst hx; exact hg0.1 i' w''
  | recvDone g e hpc hg hgp =>
    rw [hpc] at hX
    have hg0 := h.gs g hg
    unfold GSim at hg0
    rw [hgp, hpc] at hg0
    refine ⟨T, rfl, h.goTo rfl hX rfl rfl rfl rfl ?_ nofun⟩
    refine gs_gto (P := GSim t.hist _) ?_ (fun g' hg' _ => hsame _ (by rw [hpc]; nofun) (fun _ _ _ hx => by cases hx) g' hg') hS hg
    refine ⟨hg0.1, fun w hw => ?_⟩
    rcases hg0.2 w hw with h1 | h1
    · exact .inl h1
    · cases h1
  | ignored cid id sf hpc hd =>
    rw [hpc] at hX
    refine ⟨T, rfl, h.one (e := .ignored cid id) rfl ⟨hX, ⟨sf, hask _ _ _ hpc⟩, hH.shut.1 hd⟩ rfl rfl h.arm rfl rfl rfl rfl rfl rfl
      (fun _ => rfl) nofun (fun _ _ _ hx => ?_) nofun⟩
    rw [hpc] at hx; cases hx
  | refused cid id sf i hpc hd hi =>
    rw [hpc] at hX
    refine ⟨T, rfl, h.one (e := .refused cid id) rfl ⟨hX, ⟨sf, hask _ _ _ hpc⟩, (known_iff hH id).2 ⟨i, hi⟩, fun hx => ?_⟩ rfl rfl h.arm rfl rfl rfl rfl rfl rfl
      (fun _ => rfl) nofun (fun _ _ _ hx => ?_) nofun⟩
    · rw [hH.shut.2 hx] at hd; cases hd
    · rw [hpc] at hx; cases hx
  | accepted cid id sf now hpc hd hi => exact ⟨{ T with time := fun r => if r = t.nextR then now else T.time r }, rfl, h.accepted hr hpc (hask _ _ _ hpc) hd hi⟩
  | stop id hpc => exact ⟨T, rfl, h.stop hH hpc⟩
  | started gid id w hpc => exact ⟨T, rfl, h.started hr hpc⟩
  | done gid id e hpc => exact ⟨T, rfl, (h.done hr hpc).1⟩
  | killAll order hpc ho =>
    rw [hpc] at hX
    have hX : busyH t.hist = .tell [] := hX
    refine ⟨T, rfl, h.goTo rfl ?_ rfl rfl rfl rfl (hsame _ (by rw [hpc]; nofun) nofun) nofun⟩
    have hmem : ∀ id, id ∈ order ↔ (knownH t.hist id).isSome = true := by
      intro id
      rw [ho.2, known_iff hH, AMap.mem_keys_iff, Option.isSome_iff_exists]
    exact ⟨[], hX, ho.1, fun id hm => (hmem id).1 hm, fun id hk => ⟨fun _ => by simp, fun _ => (hmem id).2 hk⟩⟩
  | killNext id rest hpc => exact ⟨T, rfl, h.killNext hH hpc⟩
  | killDone hpc =>
    rw [hpc] at hX
    obtain ⟨l, h1, h2, h3, h4⟩ := hX
    refine ⟨T, rfl, h.goTo rfl (.inr ⟨l, h1, fun id hk => ?_⟩) rfl rfl rfl rfl (hsame _ (by rw [hpc]; nofun) nofun) nofun⟩
    rcases Decidable.em (id ∈ l) with hx | hx
    · exact hx
    · cases (h4 id hk).2 hx
  | bcast hpc =>
    rw [hpc] at hX
    exact ⟨T, rfl, h.goTo rfl hX rfl rfl rfl rfl (hsame _ (by rw [hpc]; nofun) nofun) nofun⟩
  | gDying g hg hgp _ =>
    have hg0 := h.gs g hg
    have hp0 := hH.ph g hg
    unfold GSim at hg0
    unfold PhaseOk at hp0
    rw [hgp] at hg0 hp0
    refine ⟨T, rfl, h.goTo rfl hX rfl rfl rfl rfl ?_ h.actL⟩
    refine gs_gto (P := GSim t.hist t.pc) ?_ (fun g' hg' _ => h.gs g' hg') hS hg
    exact ⟨fun _ => hg0, fun w hw => by have hw : phaseH t.hist g.gid = some (.running w) := hw; rw [hp0] at hw; cases hw⟩
  | gTimer g hg hgp =>
    refine ⟨T, rfl, h.goTo rfl hX rfl rfl rfl rfl ?_ h.actL⟩
    exact gs_gto (P := GSim t.hist t.pc) trivial (fun g' hg' _ => h.gs g' hg') hS hg
  | gCall g hg hgp =>
    have hp0 := hH.ph g hg
    unfold PhaseOk at hp0
    rw [hgp] at hp0
    refine ⟨T, rfl, h.calm (calm_startCall g.id g.gid g.sf) (fun _ => rfl) (fun _ => rfl)
      ⟨(hH.opn _ _).2 ⟨g, hg, rfl, rfl⟩, hp0, hH.gsf g hg⟩ rfl rfl rfl rfl rfl rfl ?_⟩
    refine gs_gto (P := GSim _ t.pc) trivial (fun g' hg' hne => ?_) hS hg
    exact hcalmg _ g' hg' nofun (by simp [phaseH, hne])
  | gStartOk g w hg hgp =>
    have hp0 := hH.ph g hg
    unfold PhaseOk at hp0
    rw [hgp] at hp0
    refine ⟨T, rfl, h.calm (calm_startOk g.id g.gid w) (fun _ => rfl) (fun _ => rfl)
      ⟨(hH.opn _ _).2 ⟨g, hg, rfl, rfl⟩, hp0⟩ rfl rfl rfl rfl rfl rfl ?_⟩
    refine gs_gto (P := GSim _ t.pc) ⟨fun i w' hm => ?_, fun i w' hx => ?_⟩ (fun g' hg' hne => ?_) hS hg
    · have hm : .learned i g.gid w' ∈ t.hist := by
        rcases List.mem_cons.1 hm with hm | hm
        · cases hm
        · exact hm
      rcases learned_phase hr.evOk hm with ⟨w'', h1⟩ | h1
      · rw [show phaseH t.hist g.gid = some .calling from hp0] at h1; cases h1
      · rw [show phaseH t.hist g.gid = some .calling from hp0] at h1; cases h1
    · have := hr.learn.act _ _ _ hx
      rw [show phaseH t.hist g.gid = some .calling from hp0] at this
      cases this
    · exact hcalmg _ g' hg' nofun (by simp [phaseH, hne])
  | gStartErr g e hg hgp =>
    have hp0 := hH.ph g hg
    unfold PhaseOk at hp0
    rw [hgp] at hp0
    refine ⟨T, rfl, h.calm (calm_startErr g.id g.gid e) (fun _ => rfl) (fun _ => rfl)
      ⟨(hH.opn _ _).2 ⟨g, hg, rfl, rfl⟩, hp0⟩ rfl rfl rfl rfl rfl rfl ?_⟩
    refine gs_gto (P := GSim _ t.pc) ⟨fun hx => ?_, fun w hx => ?_⟩ (fun g' hg' hne => ?_) hS hg
    · simp [phaseH, Tab.log] at hx
    · simp [phaseH, Tab.log] at hx
    · exact hcalmg _ g' hg' nofun (by simp [phaseH, hne])
  | gWaitRet g w e hg hgp hf =>
    have hg0 := h.gs g hg
    have hp0 := hH.ph g hg
    unfold GSim at hg0
    unfold PhaseOk at hp0
    rw [hgp] at hg0 hp0
    refine ⟨T, rfl, h.goTo rfl hX rfl rfl rfl rfl ?_ h.actL⟩
    refine gs_gto (P := GSim t.hist t.pc) ?_ (fun g' hg' _ => h.gs g' hg') hS hg
    refine ⟨fun hx => ?_, fun w' hx => ?_⟩
    · rw [show phaseH t.hist g.gid = some (.running w) from hp0] at hx; cases hx
    · rw [show phaseH t.hist g.gid = some (.running w) from hp0] at hx
      injection hx with hx; injection hx with hx; subst hx; exact hg0
  | finish w e hf =>
    refine ⟨T, rfl, h.calm (calm_finished w e) (fun _ => rfl) (fun _ => rfl) (show finishedH t.hist w = none by rw [← hH.fin]; exact hf) rfl rfl rfl rfl rfl rfl ?_⟩
    exact fun g hg => hcalmg _ g hg nofun rfl

/-! ## What clients see -/

/-- What a step of a client call does to the runner. -/
inductive CStep (s s' : State) (c : Client) : Prop
  | same : s'.tab = s.tab → CStep s s' c
  | start (id sf : Nat) : s.tab.pc = .select → c.pc = .startSend id sf → s'.tab = s.tab.goTo (.act (.start c.cid id sf)) → CStep s s' c
  | stop (id : Name) : s.tab.pc = .select → c.pc = .stopSend id →
      s'.tab = (s.tab.log (.ret c.cid .ok)).goTo (.act (.stop id)) → CStep s s' c
  | canc : s'.tab = s.tab.log (.cancelled c.cid) → CStep s s' c
  | killW (w rid : Nat) : c.pc = .removeKill w rid → s'.tab = s.tab.log (.clientKillW c.cid w) → CStep s s' c
  | ret (r : Ret) (tk : List Nat) : c.pc ≠ .startReply → s'.tab = { s.tab with tokens := tk }.log (.ret c.cid r) → r ≠ .ok →
      (∀ id sf, c.pc = .startSend id sf → c.cancelled = true ∨ s.tab.tomb.dead = true) →
      (∀ id, c.pc = .stopSend id → s.tab.tomb.dead = true) → CStep s s' c

theorem afterInfo_cstep (s : State) (c : Client) (id : Name) (r : Found) (hp : c.pc ≠ .startReply) (hp1 : ∀ id sf, c.pc ≠ .startSend id sf)
    (hp2 : ∀ id, c.pc ≠ .stopSend id) : CStep s (afterInfo s c id r) c := by
  unfold afterInfo
  split
  · exact .ret _ s.tab.tokens hp rfl nofun (fun _ _ hx => absurd hx (hp1 _ _)) (fun _ hx => absurd hx (hp2 _))
  · split
    · exact .same rfl
    · exact .ret _ s.tab.tokens hp rfl nofun (fun _ _ hx => absurd hx (hp1 _ _)) (fun _ hx => absurd hx (hp2 _))

theorem clientStep_cstep {s s' : State} {c : Client} {op : Op} (hop : op.cid? = some c.cid) (h : clientStep s c op = some s') :
    CStep s s' c ∧ s'.nextC = s.nextC := by
  cases op <;> simp only [Op.cid?, Option.some.injEq, reduceCtorEq] at hop <;> try (subst hop)
  case cancel => simp only [clientStep, Option.some.injEq] at h; subst h; exact ⟨.canc rfl, rfl⟩
  case recvStart =>
    simp only [clientStep] at h
    split at h
    · rename_i hp
      split at h
      · rename_i hc; simp only [Option.some.injEq] at h; subst h; exact ⟨.start _ _ hp hc rfl, rfl⟩
      · cases h
    · cases h
  case recvStop =>
    simp only [clientStep] at h
    split at h
    · rename_i hp
      split at h
      · rename_i hc; simp only [Option.some.injEq] at h; subst h; exact ⟨.stop _ hp hc rfl, rfl⟩
      · cases h
    · cases h
  case cDead =>
    simp only [clientStep] at h
    split at h
    · rename_i hc
      split at h
      · rename_i hd
        simp only [Option.some.injEq] at h; subst h
        exact ⟨.ret _ s.tab.tokens (by rw [hc]; nofun) rfl nofun (fun _ _ _ => hd) (by rw [hc]; nofun), rfl⟩
      · cases h
    · rename_i hc
      split at h
      · rename_i hd
        simp only [Option.some.injEq] at h; subst h
        exact ⟨.ret _ s.tab.tokens (by rw [hc]; nofun) rfl nofun (by rw [hc]; nofun) (fun _ _ => hd), rfl⟩
      · cases h
    · cases h
  case cLock =>
    simp only [clientStep] at h
    repeat' split at h
    all_goals first | (simp only [Option.some.injEq] at h; subst h; exact ⟨.same rfl, rfl⟩) | cases h
  case cImmediate =>
    simp only [clientStep] at h
    split at h
    · rename_i hc
      have hne : c.pc ≠ .startReply := by rw [hc]; nofun
      simp only [Option.some.injEq] at h; subst h
      split
      · exact ⟨.ret _ s.tab.tokens hne rfl nofun (by rw [hc]; nofun) (by rw [hc]; nofun), rfl⟩
      · refine ⟨afterInfo_cstep _ _ _ _ hne (by rw [hc]; nofun) (by rw [hc]; nofun), ?_⟩
        unfold afterInfo; split
        · rfl
        · split <;> rfl
    · cases h
  case cRecv =>
    simp only [clientStep] at h
    split at h
    · simp only [Option.some.injEq] at h; subst h; exact ⟨.same rfl, rfl⟩
    · cases h
  case cGotWc =>
    simp only [clientStep] at h
    split at h
    · rename_i hc
      have hne : c.pc ≠ .startReply := by rw [hc]; nofun
      simp only [Option.some.injEq] at h; subst h
      split
      · exact ⟨.ret _ s.tab.tokens hne rfl nofun (by rw [hc]; nofun) (by rw [hc]; nofun), rfl⟩
      · refine ⟨afterInfo_cstep _ _ _ _ hne (by rw [hc]; nofun) (by rw [hc]; nofun), ?_⟩
        unfold afterInfo; split
        · rfl
        · split <;> rfl
    · cases h
  case cDying =>
    simp only [clientStep] at h
    split at h
    · rename_i hc
      split at h
      · simp only [Option.some.injEq] at h; subst h; exact ⟨.ret _ s.tab.tokens (by rw [hc]; nofun) rfl nofun (by rw [hc]; nofun) (by rw [hc]; nofun), rfl⟩
      · cases h
    · cases h
  case cBcast =>
    simp only [clientStep] at h
    split at h
    · rename_i hc; simp only [Option.some.injEq] at h; subst h; exact ⟨.ret _ s.tab.tokens (by rw [hc]; nofun) rfl nofun (by rw [hc]; nofun) (by rw [hc]; nofun), rfl⟩
    · cases h
  case cKill =>
    simp only [clientStep] at h
    split at h
    · rename_i hc; simp only [Option.some.injEq] at h; subst h; exact ⟨.killW _ _ hc rfl, rfl⟩
    · cases h
  case cRemoveAbort =>
    simp only [clientStep] at h
    split at h
    · rename_i hc
      split at h
      · simp only [Option.some.injEq] at h; subst h; exact ⟨.ret _ s.tab.tokens (by rw [hc]; nofun) rfl nofun (by rw [hc]; nofun) (by rw [hc]; nofun), rfl⟩
      · cases h
    · cases h
  case cRemoved =>
    simp only [clientStep] at h
    split at h
    · rename_i hc
      split at h
      · simp only [Option.some.injEq] at h; subst h; exact ⟨.ret _ _ (by rw [hc]; nofun) rfl nofun (by rw [hc]; nofun) (by rw [hc]; nofun), rfl⟩
      · cases h
    · cases h
  all_goals
    simp only [clientStep] at h
    repeat' split at h
    all_goals first | (simp only [Option.some.injEq] at h; subst h; exact ⟨.same rfl, rfl⟩) | cases h

theorem calls_append {es h : List Ev} (he : ∀ e ∈ es, evCall e = none) : calls (es ++ h) = calls h := by
  induction es with
  | nil => rfl
  | cons e es ih =>
    have h1 := he e List.mem_cons_self
    have h2 := ih (fun x hx => he x (List.mem_cons_of_mem _ hx))
    cases e <;> first | exact h2 | cases h1

/-- An event that only clients look at. -/
theorem XTab.look {T : Choice} {t t' : Tab} (h : XTab p T t) {e : Ev} (he : Calm2 e) (hb : ∀ h, begins (e :: h) = begins h)
    (hca : ∀ h, caused p e h = []) (hph : ∀ h k, phaseH (e :: h) k = phaseH h k) (hc : Can p T e t.hist) (ht : t' = t.log e) : XTab p T t' := by
  subst ht
  exact h.one (hca _) hc rfl ((PcSim.calm he _).2 h.pc) ((h.arm).trans (he.arm p _).symm) (hb _) (he.acc _) rfl rfl rfl rfl (hph _) he.learned
    (fun _ _ _ _ => rfl) (fun _ _ _ _ => rfl)

theorem calm_cancelled (c : Nat) : Calm2 (.cancelled c) := ⟨fun _ => rfl, fun _ _ => rfl, nofun, fun _ _ => rfl, fun _ => rfl, nofun⟩
theorem calm_clientKillW (c w : Nat) : Calm2 (.clientKillW c w) := ⟨fun _ => rfl, fun _ _ => rfl, nofun, fun _ _ => rfl, fun _ => rfl, nofun⟩
theorem calm_ctx (g : Nat) (b : Bool) : Calm2 (.ctx g b) := ⟨fun _ => rfl, fun _ _ => rfl, nofun, fun _ _ => rfl, fun _ => rfl, nofun⟩
theorem calm_report (l : List Line) : Calm2 (.report l) := ⟨fun _ => rfl, fun _ _ => rfl, nofun, fun _ _ => rfl, fun _ => rfl, nofun⟩
theorem calm_names (l : List Name) : Calm2 (.names l) := ⟨fun _ => rfl, fun _ _ => rfl, nofun, fun _ _ => rfl, fun _ => rfl, nofun⟩
theorem calm_callStart (c i f : Nat) : Calm2 (.callStart c i f) := ⟨fun _ => rfl, fun _ _ => rfl, nofun, fun _ _ => rfl, fun _ => rfl, nofun⟩
theorem calm_callStop (c i : Nat) : Calm2 (.callStop c i) := ⟨fun _ => rfl, fun _ _ => rfl, nofun, fun _ _ => rfl, fun _ => rfl, nofun⟩
theorem calm_callWorker (c i : Nat) : Calm2 (.callWorker c i) := ⟨fun _ => rfl, fun _ _ => rfl, nofun, fun _ _ => rfl, fun _ => rfl, nofun⟩
theorem calm_callRemove (c i : Nat) : Calm2 (.callRemove c i) := ⟨fun _ => rfl, fun _ _ => rfl, nofun, fun _ _ => rfl, fun _ => rfl, nofun⟩

/-- The run goroutine answers a call only where it does. -/
theorem PcSim.reply {h : List Ev} {pc : LoopPc} (hs : PcSim h pc) {cid : Nat} {r : Ret} (hb : busyH h = .reply cid r) : ∃ r', pc = .reply cid r' := by
  have hi : ¬ Idle h := by
    rintro (h1 | ⟨l, h1, _⟩) <;> rw [hb] at h1 <;> cases h1
  cases pc with
  | act m =>
    cases m with
    | stop id => have hs : busyH h = .stop id := hs; rw [hb] at hs; cases hs
    | _ => exact absurd hs.1 hi
  | reply c r' =>
    have hs : busyH h = .reply c (toRet r') := hs
    rw [hb] at hs; injection hs with h1; subst h1; exact ⟨r', rfl⟩
  | killAll => have hs : busyH h = .tell [] := hs; rw [hb] at hs; cases hs
  | killing rest => obtain ⟨l, h1, _⟩ := hs; rw [hb] at h1; cases h1
  | exited => have hs : busyH h = .exited := hs; rw [hb] at hs; cases hs
  | select => exact absurd hs.1 hi
  | _ => exact absurd hs hi

theorem PcSim.unlocked {h : List Ev} {pc : LoopPc} (hs : PcSim h pc) (hl : pc.locked = false) : ¬ Locked h := by
  rintro ⟨l, h1, h2, id, h3, h4⟩
  have hi : ¬ Idle h := by
    rintro (h5 | ⟨l', h5, h6⟩)
    · rw [h1] at h5; cases h5
    · rw [h1] at h5; cases h5; exact h4 (h6 id h3)
  cases pc with
  | act m =>
    cases m with
    | stop id => have hs : busyH h = .stop id := hs; rw [h1] at hs; cases hs
    | _ => exact hi hs.1
  | reply c r' => have hs : busyH h = .reply c (toRet r') := hs; rw [h1] at hs; cases hs
  | killAll => have hs : busyH h = .tell [] := hs; rw [h1] at hs; cases hs; exact h2 rfl
  | killing rest => cases hl
  | exited => have hs : busyH h = .exited := hs; rw [h1] at hs; cases hs
  | select => exact hi hs.1
  | _ => exact hi hs

/-- A call returns, and it is not the run goroutine that answers it. -/
theorem busy_ret {h : List Ev} {cid : Nat} {r : Ret} (hn : ∀ r', busyH h ≠ .reply cid r') (hr : r ≠ .ok) : busyH (.ret cid r :: h) = busyH h := by
  simp only [busyH]
  cases hb : busyH h with
  | reply c r' =>
    simp only
    rw [if_neg (fun hx => hn r' (by rw [hx]; exact hb))]
  | _ =>
    simp only
    split
    · exact absurd rfl hr
    · rfl

theorem idle_ret {h : List Ev} {cid : Nat} {r : Ret} (hb : busyH (.ret cid r :: h) = busyH h) : Idle (.ret cid r :: h) ↔ Idle h := by
  unfold Idle; rw [hb]; rfl

theorem pc_ret {h : List Ev} {cid : Nat} {r : Ret} (hb : busyH (.ret cid r :: h) = busyH h) (pc : LoopPc) : PcSim (.ret cid r :: h) pc ↔ PcSim h pc := by
  have hR : Ready (.ret cid r :: h) ↔ Ready h := by
    unfold Ready; rw [idle_ret hb]; simp [knownH]
  have hk : ∀ id, knownH (.ret cid r :: h) id = knownH h id := fun _ => rfl
  cases pc with
  | act m => cases m <;> simp only [PcSim, hR, hb]
  | _ => simp only [PcSim, hR, idle_ret hb, hb, hk]

/-- The request that is being handled. -/
theorem asks_of {s : State} (hr : Reach p s) {cid id sf : Nat} (hp : s.tab.pc = .act (.start cid id sf)) : Asks s.tab.hist cid id sf := by
  obtain ⟨c, hc, rfl, hcp⟩ := hr.cinv.reply cid (.inl ⟨id, sf, hp⟩)
  have hok := hr.cinv.ok c hc
  have h1 := hok.pc
  unfold PcOk at h1
  rw [hcp] at h1
  obtain ⟨id', sf', h2, h3⟩ := h1
  refine ⟨?_, hok.ret (by rw [hcp]; nofun), hr.rinv.act _ ⟨id, sf, hp⟩⟩
  rcases h3 with h3 | ⟨h3, _⟩ | ⟨h3, _⟩
  · rw [hp] at h3; cases h3; exact h2
  · rw [hp] at h3; cases h3
  · rw [hp] at h3; cases h3

theorem tomb_dead_kill (t : Tomb) : (t.kill none).dead = t.dead := Tomb.kill_dead t none

/-- Whether the runner is dead. -/
theorem ReachT.deadH {t : Tab} (hr : ReachT p t) : t.tomb.dead = RSpec.deadH p t.hist := by
  induction hr with
  | init => rfl
  | @step t t' hr hT ih =>
    have hk : ∀ id h, RSpec.deadH p (killEvs t id ++ h) = RSpec.deadH p h := by
      intro id h
      unfold killEvs
      cases t.workers.get? id with
      | none => rfl
      | some i => simp only; cases i.worker <;> rfl
    have hlog : ∀ t'' id, t''.tomb = t.tomb → killEvs t'' id = killEvs t id → (killLocked t'' id).tomb.dead = t.tomb.dead := by
      intro t'' id h1 _; rw [(killLocked_rest t'' id).tomb, h1]
    cases hT with
    | kill => exact (tomb_dead_kill t.tomb).trans ih
    | quiet e he hq =>
      refine ih.trans ?_
      show _ = RSpec.deadH p (e :: t.hist)
      cases e <;> first | rfl | cases he
    | exit hpc hd hw =>
      have ht := hr.hinv.tomb (by simp [hpc])
      have hf := hr.hinv.final
      show (t.tomb.finish t.finalError).dead = RSpec.dies p t.hist
      unfold RSpec.dies
      rw [← hf, ht]
      generalize t.finalError = f
      generalize t.hist.contains .kill = k
      by_cases h1 : f = some .tombStillAlive
      · subst h1; cases k <;> decide
      · by_cases h2 : f = some .tombDying
        · subst h2; cases k <;> decide
        · split
          · exact absurd rfl h1
          · exact absurd rfl h2
          · cases k <;> simp [aliveTomb, Tomb.finish, Tomb.kill, h1, h2]
    | stop id hpc =>
      show (killLocked (t.log (.stopHandled id)) id).tomb.dead = RSpec.deadH p (killLocked (t.log (.stopHandled id)) id).hist
      rw [(killLocked_rest _ id).tomb, killLocked_hist]
      exact ih.trans (show RSpec.deadH p t.hist = RSpec.deadH p (killEvs t id ++ .stopHandled id :: t.hist) by rw [hk]; rfl)
    | killNext id rest hpc =>
      show (killLocked t id).tomb.dead = RSpec.deadH p (killLocked t id).hist
      rw [(killLocked_rest _ id).tomb, killLocked_hist, hk]
      exact ih
    | started gid id w hpc =>
      obtain ⟨g, hg, rfl, rfl⟩ := hr.shape.actStarted gid id w hpc
      obtain ⟨info, hi⟩ := Option.isSome_iff_exists.1 ((hr.shape.known g.id).2 (List.mem_map_of_mem hg))
      show (setWorker t g.gid g.id w).tomb.dead = RSpec.deadH p (setWorker t g.gid g.id w).hist
      rw [(setWorker_rest t g.gid g.id w info hi).tomb, (setWorker_eq hi).1]
      refine ih.trans ?_
      split <;> rfl
    | done gid id e hpc =>
      obtain ⟨g, hg, rfl, rfl, hgone⟩ := hr.shape.actDone gid id e hpc
      obtain ⟨info, hi⟩ := Option.isSome_iff_exists.1 ((hr.shape.known g.id).2 (List.mem_map_of_mem hg))
      unfold workerDone
      rw [hi]
      simp only
      split
      · exact ih
      · unfold beginShutdown; split <;> exact ih
      · exact ih
    | _ => exact ih


end Verif.Runner
