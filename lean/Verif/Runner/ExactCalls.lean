import Verif.Runner.Exact
import Verif.Runner.Tokens

/-!
# Runner: what clients see agrees with the specification of histories
-/

namespace Verif.Runner
open Tab State RSpec Spec

variable {p : Params}

/-! ## Dying -/

/-- Whether the runner is dying. -/
theorem ReachT.dyingH {t : Tab} (hr : ReachT p t) : t.tomb.dying = RSpec.dyingH p t.hist := by
  have hd := hr.deadH
  have hH := hr.hinv
  unfold RSpec.dyingH
  rw [← hd]
  rcases Decidable.em (t.pc = .exited) with hp | hp
  · clear hd hH
    induction hr with
    | init => cases hp
    | @step t t' hr hT ih =>
      have same : t'.tomb = t.tomb → t'.hist.contains .kill = t.hist.contains .kill → t'.pc = t.pc →
          t'.tomb.dying = (t'.hist.contains .kill || t'.tomb.dead) := by
        intro h1 h2 h3
        rw [h1, h2]; exact ih (by rw [← h3]; exact hp)
      cases hT with
      | same => exact same rfl rfl rfl
      | quiet e he hq =>
        refine same rfl ?_ rfl
        show (e :: t.hist).contains .kill = _
        cases e <;> first | rfl | cases he
      | kill =>
        have h1 : (t.tomb.kill none).dying = true := by
          unfold Tomb.kill Tomb.dying; simp only [reduceCtorEq, if_false]; split <;> simp_all
        show (t.tomb.kill none).dying = _
        rw [h1]
        rfl
      | exit hpc hi hw =>
        have ht := hr.hinv.tomb (by simp [hpc])
        show (t.tomb.finish t.finalError).dying = (t.hist.contains .kill || (t.tomb.finish t.finalError).dead)
        rw [ht]
        generalize t.finalError = f
        generalize t.hist.contains .kill = k
        by_cases h1 : f = some .tombStillAlive
        · subst h1; cases k <;> decide
        · by_cases h2 : f = some .tombDying
          · subst h2; cases k <;> decide
          · cases k <;> simp [aliveTomb, Tomb.finish, Tomb.kill, Tomb.dying, h1, h2]
      | gDying | gTimer | gWaitRet => exact same rfl rfl rfl
      | gCall | gStartOk | gStartErr | finish | take => exact same rfl rfl rfl
      | done gid id e hpc =>
        exfalso
        unfold workerDone at hp
        split at hp
        · rw [show _ = LoopPc.act _ from hpc] at hp; cases hp
        · dsimp only at hp
          split at hp
          · cases hp
          · unfold beginShutdown at hp; split at hp <;> cases hp
          · cases hp
      | _ => cases hp
  · rw [hH.tomb hp]
    cases t.hist.contains .kill <;> rfl

theorem T.dying {t t' : Tab} (hT : T p t t') (hd : t.tomb.dying = true) : t'.tomb.dying = true := by
  have hk : ∀ e, (t.tomb.kill e).dying = true := by
    intro e
    unfold Tomb.kill Tomb.dying at *
    split
    · exact hd
    · split
      · split <;> exact hd
      · split <;> simp_all
  cases hT with
  | kill => exact hk _
  | exit h1 h2 h3 =>
    show (t.tomb.finish t.finalError).dying = true
    have h4 : ({ t.tomb with alive := t.tomb.alive - 1 }.kill t.finalError).dying = true := by
      have := hk t.finalError
      unfold Tomb.kill Tomb.dying at *
      split
      · exact hd
      · split
        · split <;> exact hd
        · split <;> simp_all
    unfold Tomb.finish
    dsimp only
    split
    · split
      · exact h4
      · split <;> exact h4
    · exact hd
  | stop id hp => show (killLocked _ id).tomb.dying = true; rw [(killLocked_rest _ id).tomb]; exact hd
  | killNext id rest hp => show (killLocked t id).tomb.dying = true; rw [(killLocked_rest _ id).tomb]; exact hd
  | started gid id w hp =>
    show (setWorker t gid id w).tomb.dying = true
    unfold setWorker
    split
    · exact hd
    · dsimp only
      split
      · rw [(killLocked_rest _ id).tomb]; exact hd
      · exact hd
  | done gid id e hp =>
    unfold workerDone
    split
    · exact hd
    · dsimp only
      split
      · exact hd
      · unfold beginShutdown; split <;> exact hd
      · exact hd
  | _ => exact hd

/-- Once dying, always so. -/
theorem Reach.dyingStays {s s' : State} {op : Op} (hr : Reach p s) (hs : Runner.step p s op = some s') (hd : dyingH p s.tab.hist = true) :
    dyingH p s'.tab.hist = true := by
  rw [← (hr.step op hs).tab.dyingH]
  exact (step_T hs).dying (by rw [hr.tab.dyingH]; exact hd)

/-! ## Looking -/

theorem Sees.mono {h es : List Ev} {cid : Nat} {P : List Ev → Prop} (hs : Sees p h cid P) : Sees p (es ++ h) cid P := During.mono hs

theorem Sees.imp {h : List Ev} {cid : Nat} {P Q : List Ev → Prop} (hs : Sees p h cid P) (hi : ∀ h, P h → Q h) : Sees p h cid Q :=
  During.imp hs (fun _ hx => ⟨hx.1, hi _ hx.2⟩)

theorem Sees.now {h : List Ev} {cid : Nat} {P : List Ev → Prop} (hc : (callH h cid).isSome = true) (hl : CanLook p h) (hp : P h) : Sees p h cid P :=
  During.now hc ⟨hl, hp⟩

/-- What a lookup finds. -/
def foundH (h : List Ev) (id : Name) : Found → Prop
  | .notFound => knownH h id = none
  | .worker w rid => HasW h id w rid

theorem getWorker_foundH {t : Tab} (h : HInv p t) {id : Name} {r : Found} (hg : getWorker t id = some r) : foundH t.hist id r := by
  have := getWorker_ok h hg
  cases r <;> exact this

/-- How far a lookup is. -/
def LPc (p : Params) (T : Choice) (h : List Ev) (c : Client) : Prop :=
  match c.pc with
  | .lock _ => NoKill h c.cid
  | .immediate id r => NoKill h c.cid ∧ Sees p h c.cid (fun h' => foundH h' id r ∧ (dyingH p h' = true → dyingH p h = true))
  | .waiting id | .closing id | .bcasting id => NoKill h c.cid ∧ Waits p h c.cid id
  | .gotWc id r => NoKill h c.cid ∧ Sees p h c.cid (fun h' => foundH h' id r ∧ Waits p h' c.cid id)
  | .removeKill w rid => NoKill h c.cid ∧ T.reg c.cid = rid ∧ ∃ id, callH h c.cid = some (.remove id) ∧ Gets p h c.cid id w rid
  | .removeWait w rid | .removeSelect w rid _ => T.reg c.cid = rid ∧ .clientKillW c.cid w ∈ h
  | .startSend .. | .startReply | .stopSend _ | .returned _ => True

structure LOk (p : Params) (T : Choice) (h : List Ev) (c : Client) : Prop where
  pc : LPc p T h c
  helper : ∀ x, c.helper = some x → Waits p h c.cid x.id ∧
    ∀ r, x.wc = some r → Sees p h c.cid (fun h' => foundH h' x.id r ∧ Waits p h' c.cid x.id)

theorem NoKill.mono {h es : List Ev} {k : Nat} (hn : NoKill h k) (he : ∀ e ∈ es, ∀ w, e ≠ .clientKillW k w) : NoKill (es ++ h) k := by
  intro w hm
  rcases List.mem_append.1 hm with hm | hm
  · exact he _ hm w rfl
  · exact hn w hm

theorem LPc.frame {T T' : Choice} {h es : List Ev} {c : Client} (hl : LPc p T h c) (he : ∀ e ∈ es, evCall e ≠ some c.cid)
    (hk : ∀ e ∈ es, ∀ w, e ≠ .clientKillW c.cid w) (hd : dyingH p h = true → dyingH p (es ++ h) = true) (ht : T'.reg c.cid = T.reg c.cid) :
    LPc p T' (es ++ h) c := by
  unfold LPc at *
  split at hl
  · exact NoKill.mono hl hk
  · exact ⟨NoKill.mono hl.1 hk, Sees.mono (Sees.imp hl.2 (fun _ (hx : _ ∧ (_ → _)) => ⟨hx.1, fun hy => hd (hx.2 hy)⟩))⟩
  · exact ⟨NoKill.mono hl.1 hk, hl.2.mono⟩
  · exact ⟨NoKill.mono hl.1 hk, hl.2.mono⟩
  · exact ⟨NoKill.mono hl.1 hk, hl.2.mono⟩
  · exact ⟨NoKill.mono hl.1 hk, hl.2.mono⟩
  · obtain ⟨h1, h2, id, h3, h4⟩ := hl
    exact ⟨NoKill.mono h1 hk, by rw [ht]; exact h2, id, by rw [callH_append he]; exact h3, h4.mono⟩
  · exact ⟨by rw [ht]; exact hl.1, List.mem_append_right _ hl.2⟩
  · exact ⟨by rw [ht]; exact hl.1, List.mem_append_right _ hl.2⟩
  · trivial
  · trivial
  · trivial
  · trivial

theorem LOk.frame {T T' : Choice} {h es : List Ev} {c : Client} (hl : LOk p T h c) (he : ∀ e ∈ es, evCall e ≠ some c.cid)
    (hk : ∀ e ∈ es, ∀ w, e ≠ .clientKillW c.cid w) (hd : dyingH p h = true → dyingH p (es ++ h) = true) (ht : T'.reg c.cid = T.reg c.cid) :
    LOk p T' (es ++ h) c :=
  ⟨hl.pc.frame he hk hd ht, fun x hx => ⟨(hl.helper x hx).1.mono, fun r hr => ((hl.helper x hx).2 r hr).mono⟩⟩

/-- The helper only matters through these. -/
theorem LOk.same {T : Choice} {h : List Ev} {c c' : Client} (hl : LOk p T h c) (h1 : c'.cid = c.cid) (h2 : c'.pc = c.pc)
    (h3 : ∀ x', c'.helper = some x' → ∃ x, c.helper = some x ∧ x'.id = x.id ∧ (x'.wc = x.wc ∨ x'.wc = none)) : LOk p T h c' := by
  refine ⟨?_, ?_⟩
  · have := hl.pc
    unfold LPc at *
    rw [h1, h2]; exact this
  · intro x' hx'
    obtain ⟨x, h4, h5, h6⟩ := h3 x' hx'
    obtain ⟨h7, h8⟩ := hl.helper x h4
    rw [h1, h5]
    refine ⟨h7, fun r hr => ?_⟩
    rcases h6 with h6 | h6
    · rw [h6] at hr; exact h8 r hr
    · rw [h6] at hr; cases hr

/-! ## Values in `done` channels -/

/-- There is a value if and only if the registration has been removed and nobody has received it. -/
structure TokInv (T : Choice) (t : Tab) : Prop where
  iff : ∀ rid, rid ∈ t.tokens ↔ (∃ id, .removed id rid ∈ t.hist) ∧ ¬ Taken T t.hist rid
  taken : ∀ rid, Taken T t.hist rid → ∃ id, .removed id rid ∈ t.hist

theorem TokInv.agree {T T' : Choice} {t : Tab} (h : TokInv T t) (ha : Agree T T' t.hist) : TokInv T' t :=
  ⟨fun rid => by rw [h.iff, ha.taken], fun rid hx => h.taken rid (ha.taken.2 hx)⟩

theorem TokInv.quiet {T : Choice} {t t' : Tab} (h : TokInv T t) {es : List Ev} (hr : ∀ e ∈ es, ∀ id rid, e ≠ .removed id rid)
    (hx : ∀ e ∈ es, ∀ cid x, e ≠ .ret cid (.result x)) (hk : ∀ e ∈ es, ∀ cid w, e = .clientKillW cid w → ∀ r, .ret cid r ∉ t.hist)
    (h1 : t'.tokens = t.tokens) (h2 : t'.hist = es ++ t.hist) : TokInv T t' := by
  have hrm : ∀ id rid, .removed id rid ∈ t'.hist ↔ .removed id rid ∈ t.hist := by
    intro id rid
    rw [h2, List.mem_append]
    exact ⟨fun hm => hm.resolve_left (fun hm => hr _ hm _ _ rfl), .inr⟩
  have htk : ∀ rid, Taken T t'.hist rid ↔ Taken T t.hist rid := by
    intro rid
    constructor
    · rintro ⟨cid, w, e, h3, h4, h5⟩
      rw [h2, List.mem_append] at h3 h4
      have h4 := h4.resolve_left (fun hm => hx _ hm _ _ rfl)
      exact ⟨cid, w, e, h3.resolve_left (fun hm => hk _ hm _ _ rfl _ h4), h4, h5⟩
    · rintro ⟨cid, w, e, h3, h4, h5⟩
      exact ⟨cid, w, e, by rw [h2]; exact List.mem_append_right _ h3, by rw [h2]; exact List.mem_append_right _ h4, h5⟩
  exact ⟨fun rid => by rw [h1, htk, h.iff]; simp only [hrm], fun rid hx => by simp only [hrm]; exact h.taken rid ((htk rid).1 hx)⟩

/-- What a step of the runner does to the values in the channels. -/
theorem TL.tok {t t' : Tab} (hr : ReachT p t) (hT : TL p t t') :
    (t'.tokens = t.tokens ∧ ∀ id rid, .removed id rid ∈ t'.hist ↔ .removed id rid ∈ t.hist) ∨
    ∃ id rid, knownH t.hist id = some rid ∧ t'.tokens = rid :: t.tokens ∧
      ∀ id' rid', .removed id' rid' ∈ t'.hist ↔ (id' = id ∧ rid' = rid) ∨ .removed id' rid' ∈ t.hist := by
  have kill : ∀ (t : Tab) (j : Name), (killLocked t j).tokens = t.tokens ∧
      ∀ id rid, .removed id rid ∈ (killLocked t j).hist ↔ .removed id rid ∈ t.hist := by
    intro t j
    refine ⟨(killLocked_rest _ _).tokens, fun id rid => ?_⟩
    rw [killLocked_hist, List.mem_append]
    refine ⟨fun hm => hm.resolve_left (fun hm => ?_), .inr⟩
    rcases mem_killEvs hm with h | ⟨w, h⟩ <;> cases h
  cases hT with
  | stop j hp =>
    obtain ⟨h1, h2⟩ := kill (t.log (.stopHandled j)) j
    refine .inl ⟨h1, fun id rid => (h2 id rid).trans ?_⟩
    show _ ∈ _ :: _ ↔ _
    simp
  | killNext j rest hp =>
    obtain ⟨h1, h2⟩ := kill t j
    exact .inl ⟨h1, h2⟩
  | started gid id w hp =>
    obtain ⟨g, hg, rfl, rfl⟩ := hr.shape.actStarted gid id w hp
    obtain ⟨info, hi⟩ := Option.isSome_iff_exists.1 ((hr.shape.known g.id).2 (List.mem_map_of_mem hg))
    refine .inl ⟨(setWorker_rest t g.gid g.id w info hi).tokens, fun id rid => ?_⟩
    show _ ∈ (setWorker t g.gid g.id w).hist ↔ _
    rw [(setWorker_eq hi).1]
    split <;> simp
  | done gid id e hp =>
    obtain ⟨g, hg, rfl, rfl, hgone⟩ := hr.shape.actDone gid id e hp
    obtain ⟨info, hi⟩ := Option.isSome_iff_exists.1 ((hr.shape.known g.id).2 (List.mem_map_of_mem hg))
    have hk : knownH t.hist g.id = some info.rid := by rw [hr.hinv.kn, hi]; rfl
    unfold workerDone
    rw [hi]
    simp only
    split
    · exact .inr ⟨g.id, info.rid, hk, rfl, fun id' rid' => by show _ ∈ _ :: _ :: _ ↔ _; simp [dropG]⟩
    · unfold beginShutdown
      split
      · exact .inr ⟨g.id, info.rid, hk, rfl, fun id' rid' => by show _ ∈ _ :: _ :: _ ↔ _; simp [dropG]⟩
      · exact .inr ⟨g.id, info.rid, hk, rfl, fun id' rid' => by show _ ∈ _ :: _ :: _ :: _ ↔ _; simp [dropG]⟩
    · exact .inl ⟨rfl, fun id' rid' => by show _ ∈ _ :: _ :: _ ↔ _; simp [dropG]⟩
  | accepted cid id sf now hp hd hk =>
    exact .inl ⟨rfl, fun id' rid' => by show _ ∈ _ :: _ :: _ ↔ _; simp⟩
  | kill | exit | recvDying | ignored | refused | gCall | gStartOk | gStartErr | finish =>
    exact .inl ⟨rfl, fun id' rid' => by show _ ∈ _ :: _ ↔ _; simp [Tab.gto]⟩
  | _ => exact .inl ⟨rfl, fun _ _ => Iff.rfl⟩

theorem TokInv.tab {T : Choice} {t t' : Tab} (h : TokInv T t) (hr : ReachT p t) (hT : TL p t t') (hh : ∃ es, t'.hist = es ++ t.hist ∧ ∀ e ∈ es, evCid e = none) :
    TokInv T t' := by
  obtain ⟨es, h1, h2⟩ := hh
  have htk : ∀ rid, Taken T t'.hist rid ↔ Taken T t.hist rid := by
    intro rid
    constructor
    · rintro ⟨cid, w, e, h3, h4, h5⟩
      rw [h1, List.mem_append] at h3 h4
      exact ⟨cid, w, e, h3.resolve_left (fun hm => by cases h2 _ hm), h4.resolve_left (fun hm => by cases h2 _ hm), h5⟩
    · rintro ⟨cid, w, e, h3, h4, h5⟩
      exact ⟨cid, w, e, by rw [h1]; exact List.mem_append_right _ h3, by rw [h1]; exact List.mem_append_right _ h4, h5⟩
  rcases hT.tok hr with ⟨h3, h4⟩ | ⟨id, rid, h3, h4, h5⟩
  · exact ⟨fun rid => by rw [h3, htk, h.iff]; simp only [h4], fun rid hx => by simp only [h4]; exact h.taken rid ((htk rid).1 hx)⟩
  · have hnt : ¬ Taken T t.hist rid := by
      intro hx
      obtain ⟨id', hm⟩ := h.taken rid hx
      exact removed_unknown hr.evOk hm id h3
    refine ⟨fun r => ?_, fun r hx => ?_⟩
    · rw [h4, htk, List.mem_cons, h.iff]
      simp only [h5]
      constructor
      · rintro (rfl | ⟨⟨i, hi⟩, hn⟩)
        · exact ⟨⟨id, .inl ⟨rfl, rfl⟩⟩, hnt⟩
        · exact ⟨⟨i, .inr hi⟩, hn⟩
      · rintro ⟨⟨i, ⟨_, rfl⟩ | hi⟩, hn⟩
        · exact .inl rfl
        · exact .inr ⟨⟨i, hi⟩, hn⟩
    · simp only [h5]
      obtain ⟨i, hi⟩ := h.taken r ((htk r).1 hx)
      exact ⟨i, .inr hi⟩

theorem callH_stays {h : List Ev} {k : Nat} (hc : (callH h k).isSome = true) (e : Ev) : (callH (e :: h) k).isSome = true := by
  cases e <;> simp only [callH] <;> first | exact hc | (split <;> first | rfl | exact hc)

theorem ret_called {h : List Ev} (hk : AtEvery RetOk h) {k : Nat} {r : Ret} (hm : .ret k r ∈ h) : (callH h k).isSome = true := by
  induction h with
  | nil => cases hm
  | cons e h ih =>
    rcases List.mem_cons.1 hm with rfl | hm
    · obtain ⟨_, call, h1, _⟩ := hk.1
      exact callH_stays (by rw [h1]; rfl) _
    · exact callH_stays (ih hk.2 hm) _

theorem Reach.called {s : State} (hr : Reach p s) (c : Client) (hc : c ∈ s.clients) : (callH s.tab.hist c.cid).isSome = true := by
  have hok := (hr.cinv.ok c hc).pc
  unfold PcOk at hok
  split at hok
  · rw [hok]; rfl
  · obtain ⟨_, _, hx, _⟩ := hok; rw [hx]; rfl
  · rw [hok]; rfl
  · rw [hok]; rfl
  · rw [hok.1]; rfl
  · rw [hok.1]; rfl
  · rw [hok.1]; rfl
  · rw [hok.1]; rfl
  · rw [hok.1]; rfl
  · obtain ⟨i, hx, _⟩ := hok; rw [hx]; rfl
  · obtain ⟨i, hx, _⟩ := hok; rw [hx]; rfl
  · obtain ⟨i, hx, _⟩ := hok; rw [hx]; rfl
  · exact ret_called hr.cinv.rets hok


/-! ## The invariant -/

structure XInv (p : Params) (T : Choice) (s : State) : Prop where
  tab : XTab p T s.tab
  nC : s.nextC = calls s.tab.hist
  cl : ∀ c ∈ s.clients, LOk p T s.tab.hist c
  tok : TokInv T s.tab

theorem XTab.agree {T T' : Choice} {t : Tab} (h : XTab p T t) (ha : Agree T T' t.hist) (ht : T'.time = T.time) : XTab p T' t :=
  ⟨hist_times ha h.hist, h.pc, h.arm, h.nG, h.nR, fun id i hi => by rw [ht]; exact h.times id i hi, h.gs, h.fresh, h.actL⟩

/-- The invariant holds after a step; what has been fixed stays. -/
inductive XNext (p : Params) (T : Choice) (s s' : State) : Prop
  | mk (T' : Choice) (inv : XInv p T' s') (reg : ∀ cid w, .clientKillW cid w ∈ s.tab.hist → T'.reg cid = T.reg cid)

/-- The helper is another only in what does not matter. -/
def HSame (c c' : Client) : Prop :=
  ∀ x', c'.helper = some x' → ∃ x, c.helper = some x ∧ x'.id = x.id ∧ (x'.wc = x.wc ∨ x'.wc = none)

theorem HSame.refl (c : Client) : HSame c c := fun x hx => ⟨x, hx, rfl, .inl rfl⟩

theorem HSame.map {c c' : Client} {f : Helper → Helper} (hc : c'.helper = c.helper.map f) (h1 : ∀ x, (f x).id = x.id)
    (h2 : ∀ x, (f x).wc = x.wc ∨ (f x).wc = none) : HSame c c' := by
  intro x' hx'
  rw [hc] at hx'
  obtain ⟨x, h3, rfl⟩ := Option.map_eq_some_iff.1 hx'
  exact ⟨x, h3, h1 x, h2 x⟩

theorem LOk.helperMono {T : Choice} {h es : List Ev} {c c' : Client} (hl : LOk p T h c) (h1 : c'.cid = c.cid) (h2 : HSame c c') {T' : Choice}
    (hp : LPc p T' (es ++ h) c') : LOk p T' (es ++ h) c' := by
  refine ⟨hp, fun x' hx' => ?_⟩
  obtain ⟨x, h4, h5, h6⟩ := h2 x' hx'
  obtain ⟨h7, h8⟩ := hl.helper x h4
  rw [h1, h5]
  refine ⟨h7.mono, fun r hr => ?_⟩
  rcases h6 with h6 | h6
  · rw [h6] at hr; exact (h8 r hr).mono
  · rw [h6] at hr; cases hr

/-- A step of one client. -/
theorem XInv.move {T T' : Choice} {s s' : State} {c : Client} {es : List Ev} (h : XInv p T s) (hx : XTab p T' s'.tab) (ht : TokInv T' s'.tab)
    (hn : s'.nextC = s.nextC) (hh : s'.tab.hist = es ++ s.tab.hist)
    (he : ∀ e ∈ es, evCall e = none ∧ ∀ k w, e = .clientKillW k w → k = c.cid)
    (hd : dyingH p s.tab.hist = true → dyingH p s'.tab.hist = true) (hT : ∀ k, k ≠ c.cid → T'.reg k = T.reg k)
    (hcl : ∀ x' ∈ s'.clients, ∃ x ∈ s.clients, x'.cid = x.cid ∧ (x.cid = c.cid → LOk p T' s'.tab.hist x') ∧
      (x.cid ≠ c.cid → x'.pc = x.pc ∧ HSame x x')) : XInv p T' s' := by
  refine ⟨hx, ?_, fun x' hx' => ?_, ht⟩
  · rw [hn, hh, calls_append (fun e hm => (he e hm).1)]; exact h.nC
  · obtain ⟨x, h1, h2, h3, h4⟩ := hcl x' hx'
    rcases Decidable.em (x.cid = c.cid) with hc | hc
    · exact h3 hc
    · obtain ⟨h5, h6⟩ := h4 hc
      rw [hh] at hd ⊢
      exact ((h.cl x h1).frame (fun e hm => by rw [(he e hm).1]; nofun) (fun e hm w hy => hc ((he e hm).2 _ _ hy)) hd (hT _ hc)).same h2 h5 h6

/-- A change of one client only. -/
theorem mapC_cl {s : State} {c : Client} (hnd : (s.clients.map Client.cid).Nodup) (hc : c ∈ s.clients) {P : Client → Prop} {f : Client → Client}
    (hf : (f c).cid = c.cid) (hP : P (f c)) {l : List Client} (hl : l = (s.mapC c.cid f).clients) :
    ∀ x' ∈ l, ∃ x ∈ s.clients, x'.cid = x.cid ∧ (x.cid = c.cid → P x') ∧ (x.cid ≠ c.cid → x'.pc = x.pc ∧ HSame x x') := by
  subst hl
  intro x' hx'
  obtain ⟨x, h1, rfl⟩ := List.mem_map.1 hx'
  refine ⟨x, h1, ?_⟩
  rcases Decidable.em (x.cid = c.cid) with hx | hx
  · have := cid_inj hnd h1 hc hx
    subst this
    simp only [if_true]
    exact ⟨hf, fun _ => hP, fun hy => absurd rfl hy⟩
  · simp only [if_neg hx]
    exact ⟨trivial, fun hy => absurd hy hx, fun _ => ⟨trivial, .refl x⟩⟩

/-- A step of one client that nobody can see. -/
theorem XInv.hidden {T : Choice} {s s' : State} {c : Client} {f : Client → Client} (h : XInv p T s) (hr : Reach p s) (hc : c ∈ s.clients)
    (ht : s'.tab = s.tab) (hn : s'.nextC = s.nextC) (hcl : s'.clients = (s.mapC c.cid f).clients) (hf : (f c).cid = c.cid)
    (hl : LOk p T s.tab.hist (f c)) : XInv p T s' :=
  h.move (c := c) (es := []) (by rw [ht]; exact h.tab) (by rw [ht]; exact h.tok) hn (by rw [ht]; rfl) nofun (by rw [ht]; exact id) (fun _ _ => rfl)
    (mapC_cl hr.cinv.nd hc (P := fun x' => LOk p T s'.tab.hist x') hf (by rw [ht]; exact hl) hcl)

theorem dyingH_cons {e : Ev} {h : List Ev} (hd : dyingH p h = true) (hn : e ≠ .exit) : dyingH p (e :: h) = true := by
  unfold RSpec.dyingH at *
  rw [Bool.or_eq_true, List.contains_iff_mem] at *
  rcases hd with hd | hd
  · exact .inl (List.mem_cons_of_mem _ hd)
  · refine .inr ?_
    cases e <;> first | exact hd | exact absurd rfl hn

theorem TokInv.look {T : Choice} {t t' : Tab} (h : TokInv T t) {e : Ev} (hr : ∀ id rid, e ≠ .removed id rid) (hx : ∀ cid x, e ≠ .ret cid (.result x))
    (hk : ∀ cid w, e = .clientKillW cid w → ∀ r, .ret cid r ∉ t.hist) (h1 : t'.tokens = t.tokens) (h2 : t'.hist = e :: t.hist) : TokInv T t' := by
  refine h.quiet (es := [e]) ?_ ?_ ?_ h1 h2
  · intro e' hm; rw [List.mem_singleton.1 hm]; exact hr
  · intro e' hm; rw [List.mem_singleton.1 hm]; exact hx
  · intro e' hm; rw [List.mem_singleton.1 hm]; exact hk

/-- A call returns, and it is not the run goroutine that answers it. -/
theorem XInv.ret {T : Choice} {s s' : State} {c : Client} {r : Ret} {tk : List Nat} (h : XInv p T s) (hr : Reach p s) (hc : c ∈ s.clients)
    (hcp : c.pc ≠ .startReply) (hne : r ≠ .ok) (hnr : ∀ r, c.pc ≠ .returned r)
    (ha : ∃ call, callH s.tab.hist c.cid = some call ∧ Answer p T s.tab.hist c.cid r call) (ht : s'.tab = { s.tab with tokens := tk }.log (.ret c.cid r))
    (hn : s'.nextC = s.nextC) (htok : TokInv T s'.tab)
    (hcl : ∀ x' ∈ s'.clients, ∃ x ∈ s.clients, x'.cid = x.cid ∧ HSame x x' ∧ (x.cid = c.cid → ∃ r, x'.pc = .returned r) ∧ (x.cid ≠ c.cid → x'.pc = x.pc)) :
    XInv p T s' := by
  have hX := h.tab.pc
  have hb : busyH (.ret c.cid r :: s.tab.hist) = busyH s.tab.hist := by
    refine busy_ret (fun r' hx => ?_) hne
    obtain ⟨r2, hp⟩ := hX.reply hx
    obtain ⟨c', hc', h1, h2⟩ := hr.cinv.reply c.cid (.inr ⟨r2, hp⟩)
    rw [cid_inj hr.cinv.nd hc' hc h1] at h2
    exact hcp h2
  have hcan : Can p T (.ret c.cid r) s.tab.hist := ⟨(hr.cinv.ok c hc).ret hnr, ha⟩
  refine h.move (c := c) (es := [.ret c.cid r]) ?_ htok hn (by rw [ht]; rfl) ?_ ?_ (fun _ _ => rfl) ?_
  · rw [ht]
    exact h.tab.one (e := .ret c.cid r) rfl hcan rfl ((pc_ret hb _).2 hX) h.tab.arm rfl rfl rfl rfl rfl rfl (fun _ => rfl) nofun (fun _ _ _ _ => rfl) (fun _ _ _ _ => rfl)
  · intro e hm; rw [List.mem_singleton.1 hm]; exact ⟨rfl, nofun⟩
  · intro hd; rw [ht]; exact dyingH_cons hd nofun
  · intro x' hx'
    obtain ⟨x, h1, h2, h3, h4, h5⟩ := hcl x' hx'
    refine ⟨x, h1, h2, fun hx => ?_, fun hx => ⟨h5 hx, h3⟩⟩
    rw [ht]
    refine (h.cl x h1).helperMono (es := [.ret c.cid r]) h2 h3 ?_
    obtain ⟨r', hp⟩ := h4 hx
    unfold LPc
    rw [hp]
    trivial

theorem cto_cl {s : State} {cid : Nat} {r : Ret} {l : List Client} (hl : l = (s.cto cid (.returned r)).clients) :
    ∀ x' ∈ l, ∃ x ∈ s.clients, x'.cid = x.cid ∧ HSame x x' ∧ (x.cid = cid → ∃ r, x'.pc = .returned r) ∧ (x.cid ≠ cid → x'.pc = x.pc) := by
  subst hl
  intro x' hx'
  obtain ⟨x, h1, rfl⟩ := List.mem_map.1 hx'
  refine ⟨x, h1, ?_⟩
  rcases Decidable.em (x.cid = cid) with hx | hx
  · simp only [if_pos hx]
    exact ⟨trivial, .refl x, fun _ => ⟨_, rfl⟩, fun hy => absurd hx hy⟩
  · simp only [if_neg hx]
    exact ⟨trivial, .refl x, fun hy => absurd hy hx, fun _ => trivial⟩

/-- A lookup returns without having got a worker to stop. -/
theorem XInv.retLook {T : Choice} {s s' : State} {c : Client} {r : Ret} {id : Name} (h : XInv p T s) (hr : Reach p s) (hc : c ∈ s.clients)
    (hcp : c.pc ≠ .startReply) (hnr : ∀ r, c.pc ≠ .returned r) (hca : callH s.tab.hist c.cid = some (lookupCall c id)) (hnk : NoKill s.tab.hist c.cid)
    (ha : NoWorker p s.tab.hist c.cid id r ∨ (c.remove = false ∧ Answer p T s.tab.hist c.cid r (.worker id)))
    (ht : s'.tab = s.tab.log (.ret c.cid r)) (hn : s'.nextC = s.nextC)
    (hcl : ∀ x' ∈ s'.clients, ∃ x ∈ s.clients, x'.cid = x.cid ∧ HSame x x' ∧ (x.cid = c.cid → ∃ r, x'.pc = .returned r) ∧ (x.cid ≠ c.cid → x'.pc = x.pc)) :
    XInv p T s' := by
  have hans : Answer p T s.tab.hist c.cid r (lookupCall c id) := by
    rcases ha with ha | ⟨h1, ha⟩
    · unfold lookupCall
      split
      · exact .inl ⟨hnk, ha⟩
      · exact .inl ha
    · unfold lookupCall
      rw [h1]
      exact ha
  have hre : r ≠ .ok ∧ ∀ x, r ≠ .result x := by
    have key : NoWorker p s.tab.hist c.cid id r → r ≠ .ok ∧ ∀ x, r ≠ .result x := by
      rintro (⟨rfl, _⟩ | ⟨rfl, _⟩ | ⟨rfl, _⟩) <;> exact ⟨nofun, nofun⟩
    rcases ha with ha | ⟨_, ha | ⟨w, rid, rfl, _⟩⟩
    · exact key ha
    · exact key ha
    · exact ⟨nofun, nofun⟩
  refine h.ret (tk := s.tab.tokens) hr hc hcp hre.1 hnr ⟨_, hca, hans⟩ ht hn ?_ hcl
  rw [ht]
  refine h.tok.look (e := .ret c.cid r) nofun ?_ nofun rfl rfl
  intro k x hx
  injection hx with _ hx
  exact hre.2 x hx

/-- What the caller of workerInfo does. -/
theorem XInv.after {T : Choice} {s : State} {c : Client} {id : Name} {r : Found} (h : XInv p T s) (hr : Reach p s) (hc : c ∈ s.clients)
    (hcp : c.pc ≠ .startReply) (hnr : ∀ r, c.pc ≠ .returned r) (hca : callH s.tab.hist c.cid = some (lookupCall c id)) (hnk : NoKill s.tab.hist c.cid)
    (hnf : r = .notFound → dyingH p s.tab.hist = false ∧ Sees p s.tab.hist c.cid (fun h' => knownH h' id = none))
    (hw : ∀ w rid, r = .worker w rid → Gets p s.tab.hist c.cid id w rid ∧
      ((dyingH p s.tab.hist = false ∧ Sees p s.tab.hist c.cid (fun h' => HasW h' id w rid)) ∨
        Sees p s.tab.hist c.cid (fun h' => HasW h' id w rid ∧ Waits p h' c.cid id))) : XNext p T s (afterInfo s c id r) := by
  unfold afterInfo
  split
  · obtain ⟨h1, h2⟩ := hnf rfl
    exact ⟨T, h.retLook hr hc hcp hnr hca hnk (.inl (.inl ⟨rfl, h1, h2⟩)) rfl rfl (cto_cl rfl), fun _ _ _ => rfl⟩
  · rename_i w rid
    obtain ⟨h1, h2⟩ := hw w rid rfl
    split
    · rename_i hrem
      have hag : Agree T { T with reg := fun k => if k = c.cid then rid else T.reg k } s.tab.hist := by
        refine ⟨fun _ _ => rfl, fun k w' hm => ?_⟩
        simp only
        rw [if_neg (fun (hx : k = c.cid) => hnk w' (hx ▸ hm))]
      refine ⟨{ T with reg := fun k => if k = c.cid then rid else T.reg k }, ?_, fun k w' hm => if_neg (fun (hx : k = c.cid) => hnk w' (hx ▸ hm))⟩
      refine h.move (c := c) (es := []) (h.tab.agree hag rfl) (h.tok.agree hag) rfl rfl nofun (fun hd => hd) (fun k hk => if_neg hk) ?_
      refine mapC_cl (f := fun c => { c with pc := .removeKill w rid }) hr.cinv.nd hc
        (P := fun x' => LOk p { T with reg := fun k => if k = c.cid then rid else T.reg k } s.tab.hist x') rfl ?_ rfl
      refine (h.cl c hc).helperMono (es := []) (c' := { c with pc := .removeKill w rid }) rfl (HSame.refl c) ⟨hnk, if_pos rfl, id, ?_, h1⟩
      show callH s.tab.hist c.cid = _
      rw [hca]; unfold lookupCall; rw [if_pos hrem]
    · rename_i hrem
      exact ⟨T, h.retLook hr hc hcp hnr hca hnk (.inr ⟨by simpa using hrem, .inr ⟨w, rid, rfl, h2⟩⟩) rfl rfl (cto_cl rfl), fun _ _ _ => rfl⟩

theorem XInv.canLook {T : Choice} {s : State} (h : XInv p T s) (hm : s.muFree = true) : CanLook p s.tab.hist :=
  ⟨h.tab.hist.2, h.tab.pc.unlocked (muFree_loop hm)⟩

theorem XInv.at {T : Choice} {s : State} {c : Client} (h : XInv p T s) (hc : c ∈ s.clients) {q : CPc} (hq : c.pc = q) :
    LPc p T s.tab.hist { c with pc := q } := by
  subst hq; exact (h.cl c hc).pc

theorem Reach.pcOk {s : State} {c : Client} (h : Reach p s) (hc : c ∈ s.clients) {q : CPc} (hq : c.pc = q) : PcOk s.tab { c with pc := q } := by
  subst hq; exact (h.cinv.ok c hc).pc

theorem XInv.client {T : Choice} {s s' : State} {c : Client} {op : Op} (h : XInv p T s) (hr : Reach p s) (hc : c ∈ s.clients)
    (hop : op.cid? = some c.cid) (hs : clientStep s c op = some s') : XNext p T s s' := by
  have hX := h.tab.pc
  have hok := hr.cinv.ok c hc
  have hlok := h.cl c hc
  have hdy : s.tab.dying = dyingH p s.tab.hist := hr.tab.dyingH
  cases op <;> simp only [Op.cid?, Option.some.injEq, reduceCtorEq] at hop <;> try (subst hop)
  case cancel =>
    simp only [clientStep, Option.some.injEq] at hs; subst hs
    refine ⟨T, h.move (c := c) (es := [.cancelled c.cid]) ?_ ?_ rfl rfl ?_ (fun hd => dyingH_cons hd nofun) (fun _ _ => rfl) ?_, fun _ _ _ => rfl⟩
    · exact h.tab.look (calm_cancelled c.cid) (fun _ => rfl) (fun _ => rfl) (fun _ _ => rfl) (hr.called c hc) rfl
    · exact h.tok.look (e := .cancelled c.cid) nofun nofun nofun rfl rfl
    · intro e hm; rw [List.mem_singleton.1 hm]; exact ⟨rfl, nofun⟩
    · refine mapC_cl (f := fun c => { c with cancelled := true }) hr.cinv.nd hc (P := fun x' => LOk p T (.cancelled c.cid :: s.tab.hist) x') rfl ?_ rfl
      refine hlok.helperMono (es := [.cancelled c.cid]) (c' := { c with cancelled := true }) rfl (HSame.refl c) ?_
      have := hlok.pc.frame (T' := T) (es := [.cancelled c.cid]) ?_ ?_ (fun hd => dyingH_cons hd nofun) rfl
      · exact this
      · intro e hm; rw [List.mem_singleton.1 hm]; nofun
      · intro e hm; rw [List.mem_singleton.1 hm]; nofun
  case recvStart =>
    simp only [clientStep] at hs
    split at hs
    · rename_i hp
      split at hs
      · rename_i id sf hcp
        simp only [Option.some.injEq] at hs; subst hs
        rw [hp] at hX
        refine ⟨T, h.move (c := c) (es := []) ?_ ⟨h.tok.iff, h.tok.taken⟩ rfl rfl nofun (fun hd => hd) (fun _ _ => rfl) ?_, fun _ _ _ => rfl⟩
        · refine h.tab.goTo (t' := s.tab.goTo (.act (.start c.cid id sf))) rfl hX rfl rfl rfl rfl (fun g hg => ?_) nofun
          exact (h.tab.gs g hg).mono (fun x hx => hx) (fun _ _ hm => hm) rfl (fun w hx => by rw [hp] at hx; cases hx) nofun
        · refine mapC_cl (f := fun c => { c with pc := .startReply }) hr.cinv.nd hc (P := fun x' => LOk p T s.tab.hist x') rfl ?_ rfl
          exact hlok.helperMono (es := []) (c' := { c with pc := .startReply }) rfl (HSame.refl c) trivial
      · cases hs
    · cases hs
  case recvStop =>
    simp only [clientStep] at hs
    split at hs
    · rename_i hp
      split at hs
      · rename_i id hcp
        simp only [Option.some.injEq] at hs; subst hs
        rw [hp] at hX
        have hX : Ready s.tab.hist := hX
        have h1 : callH s.tab.hist c.cid = some (.stop id) := hr.pcOk hc hcp
        refine ⟨T, h.move (c := c) (es := [.ret c.cid .ok]) ?_ ?_ rfl rfl ?_ (fun hd => dyingH_cons hd nofun) (fun _ _ => rfl) ?_, fun _ _ _ => rfl⟩
        · refine h.tab.one (t' := (s.tab.log (.ret c.cid .ok)).goTo (.act (.stop id))) (e := .ret c.cid .ok) rfl
            ⟨hok.ret (by rw [hcp]; nofun), _, h1, .inl ⟨rfl, hX⟩⟩ rfl ?_ h.tab.arm rfl rfl rfl rfl rfl rfl
            (fun _ => rfl) nofun (fun _ _ _ hx => by rw [hp] at hx; cases hx) nofun
          show busyH (.ret c.cid .ok :: s.tab.hist) = .stop id
          simp only [busyH, h1]
          rcases hX.1 with hb | ⟨l, hb, _⟩ <;> rw [hb]
        · exact h.tok.look (e := .ret c.cid .ok) nofun nofun nofun rfl rfl
        · intro e hm; rw [List.mem_singleton.1 hm]; exact ⟨rfl, nofun⟩
        · refine mapC_cl (f := fun c => { c with pc := .returned .ok }) hr.cinv.nd hc (P := fun x' => LOk p T (.ret c.cid .ok :: s.tab.hist) x') rfl ?_ rfl
          exact hlok.helperMono (es := [.ret c.cid .ok]) (c' := { c with pc := .returned .ok }) rfl (HSame.refl c) trivial
      · cases hs
    · cases hs
  case cDead =>
    simp only [clientStep] at hs
    have htok : TokInv T (s.tab.log (.ret c.cid (.err .runnerDead))) := h.tok.look (e := .ret c.cid (.err .runnerDead)) nofun nofun nofun rfl rfl
    split at hs
    · rename_i id sf hcp
      split at hs
      · rename_i hd
        simp only [Option.some.injEq] at hs; subst hs
        have h1 : callH s.tab.hist c.cid = some (.start id sf) := hr.pcOk hc hcp
        refine ⟨T, h.ret (r := .err .runnerDead) (tk := s.tab.tokens) hr hc (by rw [hcp]; nofun) nofun (by rw [hcp]; nofun) ⟨_, h1, .inr ⟨hr.rinv.send c hc ⟨id, sf, hcp⟩, rfl, ?_⟩⟩
          rfl rfl htok (cto_cl rfl), fun _ _ _ => rfl⟩
        rcases hd with h8 | h8
        · exact .inl (hok.canc h8)
        · exact .inr (by rw [← hr.tab.deadH]; exact h8)
      · cases hs
    · rename_i id hcp
      split at hs
      · rename_i hd
        simp only [Option.some.injEq] at hs; subst hs
        have h1 : callH s.tab.hist c.cid = some (.stop id) := hr.pcOk hc hcp
        exact ⟨T, h.ret (r := .err .runnerDead) (tk := s.tab.tokens) hr hc (by rw [hcp]; nofun) nofun (by rw [hcp]; nofun)
          ⟨_, h1, .inr ⟨rfl, by rw [← hr.tab.deadH]; exact hd⟩⟩ rfl rfl htok (cto_cl rfl), fun _ _ _ => rfl⟩
      · cases hs
    · cases hs
  case cLock =>
    simp only [clientStep] at hs
    split at hs
    · rename_i id hcp
      have hnk : NoKill s.tab.hist c.cid := h.at hc hcp
      split at hs
      · rename_i hmu
        have hl := h.canLook hmu
        have hca := hr.called c hc
        split at hs
        · rename_i r hg
          simp only [Option.some.injEq] at hs; subst hs
          refine ⟨T, h.hidden (f := fun c => { c with pc := .immediate id r }) hr hc rfl rfl rfl rfl ?_, fun _ _ _ => rfl⟩
          refine hlok.helperMono (es := []) (c' := { c with pc := .immediate id r }) rfl (HSame.refl c) ⟨hnk, ?_⟩
          exact Sees.now hca hl ⟨getWorker_foundH hr.tab.hinv hg, fun hd => hd⟩
        · rename_i hg
          simp only [Option.some.injEq] at hs; subst hs
          have hw : Waits p s.tab.hist c.cid id := Sees.now hca hl (getWorker_wait hr.tab.hinv hg)
          refine ⟨T, h.hidden (f := fun c => { c with pc := .waiting id, helper := some { id := id } }) hr hc rfl rfl rfl rfl ⟨⟨hnk, hw⟩, ?_⟩, fun _ _ _ => rfl⟩
          intro x hx
          simp only [Option.some.injEq] at hx
          subst hx
          exact ⟨hw, nofun⟩
      · cases hs
    · cases hs
  case cImmediate =>
    simp only [clientStep] at hs
    split at hs
    · rename_i id r hcp
      simp only [Option.some.injEq] at hs; subst hs
      obtain ⟨hnk, hse⟩ : NoKill s.tab.hist c.cid ∧ Sees p s.tab.hist c.cid (fun h' => foundH h' id r ∧ (dyingH p h' = true → dyingH p s.tab.hist = true)) :=
        h.at hc hcp
      have hca : callH s.tab.hist c.cid = some (lookupCall c id) := (hr.pcOk hc hcp).1
      split
      · rename_i hd
        refine ⟨T, h.retLook hr hc (by rw [hcp]; nofun) (by rw [hcp]; nofun) hca hnk (.inl (.inr (.inl ⟨rfl, ?_, Sees.imp hse (fun _ _ => trivial)⟩))) rfl rfl (cto_cl rfl), fun _ _ _ => rfl⟩
        rw [← hdy]; exact hd
      · rename_i hd
        rw [hdy, Bool.not_eq_true] at hd
        refine h.after hr hc (by rw [hcp]; nofun) (by rw [hcp]; nofun) hca hnk ?_ ?_
        · rintro rfl
          exact ⟨hd, Sees.imp hse (fun _ hx => hx.1)⟩
        · rintro w rid rfl
          refine ⟨Sees.imp hse (fun h' hx => ⟨hx.1, .inl ?_⟩), .inl ⟨hd, Sees.imp hse (fun _ hx => hx.1)⟩⟩
          cases hy : dyingH p h' with
          | false => rfl
          | true => rw [hx.2 hy] at hd; cases hd
    · cases hs
  case cRecv =>
    simp only [clientStep] at hs
    split at hs
    · rename_i id r hcp hw
      simp only [Option.some.injEq] at hs; subst hs
      obtain ⟨hnk, hwt⟩ : NoKill s.tab.hist c.cid ∧ Waits p s.tab.hist c.cid id := h.at hc hcp
      obtain ⟨x, hx, hxw⟩ := Option.bind_eq_some_iff.1 hw
      obtain ⟨x', hx', hid, _⟩ := hr.minv.waits c hc id hcp
      rw [hx] at hx'
      cases hx'
      have h1 := (hlok.helper x hx).2 r hxw
      rw [hid] at h1
      refine ⟨T, h.hidden (f := fun c => { c with pc := .gotWc id r, helper := c.helper.map (fun h => { h with wc := none }) }) hr hc rfl rfl rfl rfl ?_, fun _ _ _ => rfl⟩
      refine hlok.helperMono (es := []) (c' := { c with pc := .gotWc id r, helper := c.helper.map (fun h => { h with wc := none }) }) rfl
        (HSame.map rfl (fun _ => rfl) (fun _ => .inr rfl)) ⟨hnk, h1⟩
    · cases hs
  case cGotWc =>
    simp only [clientStep] at hs
    split at hs
    · rename_i id r hcp
      simp only [Option.some.injEq] at hs; subst hs
      obtain ⟨hnk, hse⟩ : NoKill s.tab.hist c.cid ∧ Sees p s.tab.hist c.cid (fun h' => foundH h' id r ∧ Waits p h' c.cid id) := h.at hc hcp
      have hca : callH s.tab.hist c.cid = some (lookupCall c id) := (hr.pcOk hc hcp).1
      split
      · rename_i hd
        refine ⟨T, h.retLook hr hc (by rw [hcp]; nofun) (by rw [hcp]; nofun) hca hnk (.inl (.inr (.inl ⟨rfl, ?_, Sees.imp hse (fun _ _ => trivial)⟩))) rfl rfl (cto_cl rfl), fun _ _ _ => rfl⟩
        rw [← hdy]; exact hd.2
      · rename_i hd
        refine h.after hr hc (by rw [hcp]; nofun) (by rw [hcp]; nofun) hca hnk ?_ ?_
        · rintro rfl
          refine ⟨?_, Sees.imp hse (fun _ hx => hx.1)⟩
          rw [← hdy]
          cases hy : s.tab.dying with
          | false => rfl
          | true => exact absurd ⟨rfl, hy⟩ hd
        · rintro w rid rfl
          exact ⟨Sees.imp hse (fun h' hx => ⟨hx.1, .inr hx.2⟩), .inr hse⟩
    · cases hs
  case cDying =>
    simp only [clientStep] at hs
    split at hs
    · rename_i id hcp
      split at hs
      · rename_i hd
        simp only [Option.some.injEq] at hs; subst hs
        obtain ⟨hnk, hwt⟩ : NoKill s.tab.hist c.cid ∧ Waits p s.tab.hist c.cid id := h.at hc hcp
        have hca : callH s.tab.hist c.cid = some (lookupCall c id) := (hr.pcOk hc hcp).1
        refine ⟨T, h.retLook hr hc (by rw [hcp]; nofun) (by rw [hcp]; nofun) hca hnk (.inl (.inr (.inl ⟨rfl, ?_, Sees.imp hwt (fun _ _ => trivial)⟩))) rfl rfl (cto_cl rfl), fun _ _ _ => rfl⟩
        rw [← hdy]; exact hd
      · cases hs
    · cases hs
  case cAbort =>
    simp only [clientStep] at hs
    split at hs
    · rename_i id hcp
      split at hs
      · simp only [Option.some.injEq] at hs; subst hs
        exact ⟨T, h.hidden (f := fun c => { c with pc := .closing id }) hr hc rfl rfl rfl rfl
          (hlok.helperMono (es := []) (c' := { c with pc := .closing id }) rfl (HSame.refl c) (show NoKill s.tab.hist c.cid ∧ Waits p s.tab.hist c.cid id from h.at hc hcp)), fun _ _ _ => rfl⟩
      · cases hs
    · cases hs
  case cClose =>
    simp only [clientStep] at hs
    split at hs
    · rename_i id hcp
      simp only [Option.some.injEq] at hs; subst hs
      exact ⟨T, h.hidden (f := fun c => { c with pc := .bcasting id, helper := c.helper.map (fun h => { h with stopped := true }) }) hr hc rfl rfl rfl rfl
        (hlok.helperMono (es := []) (c' := { c with pc := .bcasting id, helper := c.helper.map (fun h => { h with stopped := true }) }) rfl
          (HSame.map rfl (fun _ => rfl) (fun _ => .inl rfl)) (h.at hc hcp)), fun _ _ _ => rfl⟩
    · cases hs
  case cBcast =>
    simp only [clientStep] at hs
    split at hs
    · rename_i id hcp
      simp only [Option.some.injEq] at hs; subst hs
      obtain ⟨hnk, hwt⟩ : NoKill s.tab.hist c.cid ∧ Waits p s.tab.hist c.cid id := h.at hc hcp
      obtain ⟨hca, hcan⟩ : callH s.tab.hist c.cid = some (lookupCall c id) ∧ Ev.cancelled c.cid ∈ s.tab.hist := hr.pcOk hc hcp
      refine ⟨T, h.retLook hr hc (by rw [hcp]; nofun) (by rw [hcp]; nofun) hca hnk (.inl (.inr (.inr ⟨rfl, hcan, hwt⟩))) rfl rfl ?_, fun _ _ _ => rfl⟩
      intro x' hx'
      obtain ⟨y, h1, h2, h3, h4, h5⟩ := cto_cl rfl x' hx'
      obtain ⟨x, h6, rfl⟩ := List.mem_map.1 h1
      refine ⟨x, h6, h2, ?_, h4, h5⟩
      intro z hz
      obtain ⟨z', h7, h8, h9⟩ := h3 z hz
      obtain ⟨z'', h10, rfl⟩ := Option.map_eq_some_iff.1 h7
      refine ⟨z'', h10, ?_, ?_⟩
      · rw [h8]; unfold Helper.wake; split <;> rfl
      · rcases h9 with h9 | h9
        · left; rw [h9]; unfold Helper.wake; split <;> rfl
        · exact .inr h9
    · cases hs
  case cKill =>
    simp only [clientStep] at hs
    split at hs
    · rename_i w rid hcp
      simp only [Option.some.injEq] at hs; subst hs
      obtain ⟨hnk, hrg, id, hca, hg⟩ : NoKill s.tab.hist c.cid ∧ T.reg c.cid = rid ∧ ∃ id, callH s.tab.hist c.cid = some (.remove id) ∧ Gets p s.tab.hist c.cid id w rid :=
        h.at hc hcp
      have hret := hok.ret (by rw [hcp]; nofun)
      refine ⟨T, h.move (c := c) (es := [.clientKillW c.cid w]) ?_ ?_ rfl rfl ?_ (fun hd => dyingH_cons hd nofun) (fun _ _ => rfl) ?_, fun _ _ _ => rfl⟩
      · exact h.tab.look (calm_clientKillW c.cid w) (fun _ => rfl) (fun _ => rfl) (fun _ _ => rfl) ⟨id, hca, hret, hnk, by rw [hrg]; exact hg⟩ rfl
      · refine h.tok.look (e := .clientKillW c.cid w) nofun nofun ?_ rfl rfl
        intro k w' hx
        cases hx
        exact hret
      · intro e hm; rw [List.mem_singleton.1 hm]; exact ⟨rfl, fun k w' hx => by cases hx; rfl⟩
      · refine mapC_cl (f := fun c => { c with pc := .removeWait w rid }) hr.cinv.nd hc (P := fun x' => LOk p T (.clientKillW c.cid w :: s.tab.hist) x') rfl ?_ rfl
        exact hlok.helperMono (es := [.clientKillW c.cid w]) (c' := { c with pc := .removeWait w rid }) rfl (HSame.refl c) ⟨hrg, List.mem_cons_self⟩
    · cases hs
  case cWaitRet =>
    simp only [clientStep] at hs
    split at hs
    · rename_i w rid hcp
      split at hs
      · rename_i e hf
        simp only [Option.some.injEq] at hs; subst hs
        exact ⟨T, h.hidden (f := fun c => { c with pc := .removeSelect w rid e }) hr hc rfl rfl rfl rfl
          (hlok.helperMono (es := []) (c' := { c with pc := .removeSelect w rid e }) rfl (HSame.refl c)
            (show T.reg c.cid = rid ∧ Ev.clientKillW c.cid w ∈ s.tab.hist from h.at hc hcp)), fun _ _ _ => rfl⟩
      · cases hs
    · cases hs
  case cRemoveAbort =>
    simp only [clientStep] at hs
    split at hs
    · rename_i w rid e hcp
      split at hs
      · rename_i hcn
        simp only [Option.some.injEq] at hs; subst hs
        obtain ⟨id, hca, _, hk, hfin, _⟩ := (show ∃ id, _ from hr.pcOk hc hcp)
        refine ⟨T, h.ret (r := .err .runnerAborted) (tk := s.tab.tokens) hr hc (by rw [hcp]; nofun) nofun (by rw [hcp]; nofun)
          ⟨_, hca, .inr ⟨w, e, hk, hfin, .inl ⟨rfl, hok.canc hcn⟩⟩⟩ rfl rfl (h.tok.look (e := .ret c.cid (.err .runnerAborted)) nofun nofun nofun rfl rfl) (cto_cl rfl), fun _ _ _ => rfl⟩
      · cases hs
    · cases hs
  case cRemoved =>
    simp only [clientStep] at hs
    split at hs
    · rename_i w rid e hcp
      split at hs
      · rename_i htk
        simp only [Option.some.injEq] at hs; subst hs
        obtain ⟨id, hca, hfo, hk, hfin, _⟩ := (show ∃ id, _ from hr.pcOk hc hcp)
        obtain ⟨hrg, hkw⟩ : T.reg c.cid = rid ∧ Ev.clientKillW c.cid w ∈ s.tab.hist := h.at hc hcp
        have hret := hok.ret (by rw [hcp]; nofun)
        have hin : rid ∈ s.tab.tokens := by simpa using htk
        obtain ⟨⟨id', hrm⟩, hnt⟩ := (h.tok.iff rid).1 hin
        have hid : id' = id := by
          obtain ⟨_, _, ha1⟩ := removed_accepted hr.tab.evOk hrm
          obtain ⟨mid, pre, hh, _, _, hkn⟩ := (show During _ _ _ from hfo)
          obtain ⟨_, _, ha2⟩ := known_accepted hkn
          exact accepted_inj hr.tab.evOk ha1 (by rw [hh]; exact List.mem_append_right _ ha2)
        subst hid
        refine ⟨T, h.ret (r := .result e) (tk := s.tab.tokens.erase rid) hr hc (by rw [hcp]; nofun) nofun (by rw [hcp]; nofun)
          ⟨_, hca, .inr ⟨w, e, hk, hfin, .inr ⟨rfl, by rw [hrg]; exact hrm, by rw [hrg]; exact hnt⟩⟩⟩ rfl rfl ?_ (cto_cl rfl), fun _ _ _ => rfl⟩
        have htaken : ∀ r, Taken T (.ret c.cid (.result e) :: s.tab.hist) r ↔ r = rid ∨ Taken T s.tab.hist r := by
          intro r
          constructor
          · rintro ⟨k, w', e', h1, h2, h3⟩
            rcases List.mem_cons.1 h1 with h1 | h1
            · cases h1
            rcases List.mem_cons.1 h2 with h2 | h2
            · cases h2; exact .inl (h3.symm.trans hrg)
            · exact .inr ⟨k, w', e', h1, h2, h3⟩
          · rintro (rfl | ⟨k, w', e', h1, h2, h3⟩)
            · exact ⟨c.cid, w, e, List.mem_cons_of_mem _ hkw, List.mem_cons_self, hrg⟩
            · exact ⟨k, w', e', List.mem_cons_of_mem _ h1, List.mem_cons_of_mem _ h2, h3⟩
        have hrmm : ∀ i r, .removed i r ∈ Ev.ret c.cid (.result e) :: s.tab.hist ↔ .removed i r ∈ s.tab.hist := by
          intro i r; simp
        refine ⟨fun r => ?_, fun r hx => ?_⟩
        · show r ∈ s.tab.tokens.erase rid ↔ (∃ i, .removed i r ∈ Ev.ret c.cid (.result e) :: s.tab.hist) ∧ ¬ Taken T (.ret c.cid (.result e) :: s.tab.hist) r
          simp only [hrmm, htaken]
          rw [hr.tab.shape.tokNd.mem_erase_iff, h.tok.iff]
          constructor
          · rintro ⟨h1, h2, h3⟩
            exact ⟨h2, fun hx => hx.elim h1 h3⟩
          · rintro ⟨h2, h3⟩
            exact ⟨fun hx => h3 (.inl hx), h2, fun hx => h3 (.inr hx)⟩
        · rcases (htaken r).1 hx with rfl | hx
          · exact ⟨_, List.mem_cons_of_mem _ hrm⟩
          · obtain ⟨i, hi⟩ := h.tok.taken r hx
            exact ⟨i, List.mem_cons_of_mem _ hi⟩
      · cases hs
    · cases hs
  case hCheck =>
    simp only [clientStep] at hs
    split at hs
    · rename_i x hx
      split at hs
      · split at hs
        · simp only [Option.some.injEq] at hs; subst hs
          exact ⟨T, h.hidden (f := fun c => { c with helper := c.helper.map (fun h => { h with pc := .done }) }) hr hc rfl rfl rfl rfl
            (hlok.same rfl rfl (HSame.map rfl (fun _ => rfl) (fun _ => .inl rfl))), fun _ _ _ => rfl⟩
        · simp only [Option.some.injEq] at hs; subst hs
          exact ⟨T, h.hidden (f := fun c => { c with helper := c.helper.map (fun h => { h with pc := .enter }) }) hr hc rfl rfl rfl rfl
            (hlok.same rfl rfl (HSame.map rfl (fun _ => rfl) (fun _ => .inl rfl))), fun _ _ _ => rfl⟩
      · cases hs
    · cases hs
  case hEnter =>
    simp only [clientStep] at hs
    split at hs
    · rename_i x hx
      split at hs
      · simp only [Option.some.injEq] at hs; subst hs
        exact ⟨T, h.hidden (f := fun c => { c with helper := c.helper.map (fun h => { h with pc := .sleep }) }) hr hc rfl rfl rfl rfl
          (hlok.same rfl rfl (HSame.map rfl (fun _ => rfl) (fun _ => .inl rfl))), fun _ _ _ => rfl⟩
      · cases hs
    · cases hs
  case hWake =>
    simp only [clientStep] at hs
    split at hs
    · rename_i x hx
      split at hs
      · rename_i hmu
        split at hs
        · rename_i r hg
          simp only [Option.some.injEq] at hs; subst hs
          refine ⟨T, h.hidden (f := fun c => { c with helper := c.helper.map (fun h => { h with pc := .done, wc := some r }) }) hr hc rfl rfl rfl rfl ⟨hlok.pc, ?_⟩, fun _ _ _ => rfl⟩
          intro y hy
          have hy : c.helper.map (fun h : Helper => { h with pc := .done, wc := some r }) = some y := hy
          rw [hx] at hy
          simp only [Option.map_some, Option.some.injEq] at hy
          subst hy
          have hwt := (hlok.helper x hx).1
          refine ⟨hwt, fun r' hr' => ?_⟩
          simp only [Option.some.injEq] at hr'
          subst hr'
          exact Sees.now (hr.called c hc) (h.canLook hmu.2) ⟨getWorker_foundH hr.tab.hinv hg, hwt⟩
        · simp only [Option.some.injEq] at hs; subst hs
          exact ⟨T, h.hidden (f := fun c => { c with helper := c.helper.map (fun h => { h with pc := .check }) }) hr hc rfl rfl rfl rfl
            (hlok.same rfl rfl (HSame.map rfl (fun _ => rfl) (fun _ => .inl rfl))), fun _ _ _ => rfl⟩
      · cases hs
    · cases hs

theorem XInv.new {T : Choice} {s : State} (h : XInv p T s) (hr : Reach p s) {c : Client} {e : Ev} (he : Calm2 e) (hb : ∀ h, begins (e :: h) = begins h)
    (hca : ∀ h, caused p e h = []) (hph : ∀ h k, phaseH (e :: h) k = phaseH h k) (hc : Can p T e s.tab.hist)
    (hn : calls (e :: s.tab.hist) = calls s.tab.hist + 1) (hev : evCall e = some s.nextC)
    (hcp : (∃ id sf, c.pc = .startSend id sf) ∨ (∃ id, c.pc = .stopSend id) ∨ ∃ id, c.pc = .lock id) (hh : c.helper = none) : XInv p T (newClient s c e) := by
  have hk : ∀ k w, e ≠ .clientKillW k w := by intro k w hx; subst hx; cases hev
  refine ⟨h.tab.look he hb hca hph hc rfl, by show s.nextC + 1 = calls (e :: s.tab.hist); rw [hn, h.nC], ?_, ?_⟩
  · intro x hx
    rcases List.mem_cons.1 hx with rfl | hx
    · refine ⟨?_, fun y hy => ?_⟩
      · unfold LPc
        rcases hcp with ⟨id, sf, hp⟩ | ⟨id, hp⟩ | ⟨id, hp⟩
        · simp only [hp]
        · simp only [hp]
        · simp only [hp]
          intro w hm
          rcases List.mem_cons.1 hm with hm | hm
          · exact hk _ _ hm.symm
          · exact Nat.lt_irrefl _ (hr.cinv.evLt _ hm _ rfl)
      · simp only [hh] at hy; cases hy
    · refine (h.cl x hx).frame (es := [e]) (T' := T) ?_ ?_ ?_ rfl
      · intro e' hm
        rw [List.mem_singleton.1 hm, hev]
        intro hy
        injection hy with hy
        have := hr.cinv.lt x hx
        omega
      · intro e' hm w; rw [List.mem_singleton.1 hm]; exact hk _ w
      · intro hd; exact dyingH_cons hd (by rintro rfl; cases hev)
  · refine h.tok.look (e := e) ?_ ?_ (fun k w hx => absurd hx (hk k w)) rfl rfl
    · rintro _ _ rfl; cases hev
    · rintro _ _ rfl; cases hev

theorem TokInv.reg {T T' : Choice} {t : Tab} (h : TokInv T t) (ht : T'.reg = T.reg) : TokInv T' t := by
  have hk : ∀ rid, Taken T' t.hist rid ↔ Taken T t.hist rid := by intro rid; unfold Taken; rw [ht]
  exact ⟨fun rid => by rw [h.iff, hk], fun rid hx => h.taken rid ((hk rid).1 hx)⟩

/-- A step of the runner, with what it does to clients. -/
theorem XInv.runner {T : Choice} {s s' : State} (h : XInv p T s) (hr : Reach p s) (hT : TL p s.tab s'.tab)
    (he : ∃ es, s'.tab.hist = es ++ s.tab.hist ∧ ∀ e ∈ es, evCid e = none) (hd : dyingH p s.tab.hist = true → dyingH p s'.tab.hist = true)
    (hn : s'.nextC = s.nextC) (hcl : ∀ x' ∈ s'.clients, ∃ x ∈ s.clients, x'.cid = x.cid ∧ x'.pc = x.pc ∧ HSame x x') : XNext p T s s' := by
  obtain ⟨T', hreg, hx⟩ := h.tab.tstep hr.tab hT (fun _ _ _ => asks_of hr)
  refine ⟨T', ⟨hx, ?_, ?_, (h.tok.tab hr.tab hT he).reg hreg⟩, fun _ _ _ => by rw [hreg]⟩
  · obtain ⟨es, h4, h5⟩ := he
    rw [hn, h4, calls_append (fun e he => ?_)]
    · exact h.nC
    · have := h5 e he; cases e <;> first | rfl | cases this
  · intro x' hx'
    obtain ⟨es, h4, h5⟩ := he
    obtain ⟨x, h1, h2, h3, h6⟩ := hcl x' hx'
    rw [h4] at hd ⊢
    refine ((h.cl x h1).frame (T' := T') ?_ ?_ hd (by rw [hreg])).same h2 h3 h6
    · intro e hm hy
      have := h5 e hm
      cases e <;> first | (cases this; done) | (cases hy; done)
    · rintro e hm w rfl
      cases h5 _ hm

theorem XInv.looked {T : Choice} {s s' : State} {e : Ev} (h : XInv p T s) (hr : Reach p s) (hr' : Reach p s') (hs : s' = s.withTab (s.tab.log e))
    (hq : QuietOk s.tab e) (he : (∃ g b, e = .ctx g b) ∨ (s.tab.pc.locked = false ∧ ((∃ l, e = .report l) ∨ ∃ l, e = .names l))) :
    XInv p T s' := by
  subst hs
  have rest : evCid e = none → e ≠ .exit → (∀ id rid, e ≠ .removed id rid) → XTab p T (s.tab.log e) → XInv p T (s.withTab (s.tab.log e)) := by
    intro h1 h2 h3 hx
    refine ⟨hx, ?_, fun x hx => ?_, ?_⟩
    · show s.nextC = calls (e :: s.tab.hist)
      rw [h.nC]
      cases e <;> first | rfl | cases h1
    · refine (h.cl x hx).frame (es := [e]) (T' := T) ?_ ?_ (fun hd => dyingH_cons hd h2) rfl
      · intro e' hm; rw [List.mem_singleton.1 hm]; cases e <;> first | (cases h1; done) | nofun
      · intro e' hm w; rw [List.mem_singleton.1 hm]; rintro rfl; cases h1
    · refine h.tok.look (e := e) h3 ?_ ?_ rfl rfl
      · rintro _ _ rfl; cases h1
      · rintro _ _ rfl; cases h1
  rcases he with ⟨g, b, rfl⟩ | ⟨hl, ⟨l, rfl⟩ | ⟨l, rfl⟩⟩
  · exact rest rfl nofun nofun (h.tab.look (calm_ctx g b) (fun _ => rfl) (fun _ => rfl) (fun _ _ => rfl) hr'.rinv.req.1 rfl)
  · have hev := hr'.tab.evOk.1
    refine rest rfl nofun nofun (h.tab.look (calm_report l) (fun _ => rfl) (fun _ => rfl) (fun _ _ => rfl) ⟨h.tab.pc.unlocked hl, hev.1, hev.2.1, fun x hx => ?_⟩ rfl)
    refine ⟨(hev.2.2 x hx).1, (hev.2.2 x hx).2, ?_⟩
    obtain ⟨order, _, rfl⟩ := hq
    obtain ⟨info, h1, h2⟩ := mem_reportLines hx
    refine ⟨info.rid, by rw [hr.tab.hinv.kn, h1]; rfl, ?_⟩
    rw [h2, ← h.tab.times _ _ h1]
    rfl
  · have hev := hr'.tab.evOk.1
    exact rest rfl nofun nofun (h.tab.look (calm_names l) (fun _ => rfl) (fun _ => rfl) (fun _ _ => rfl) ⟨h.tab.pc.unlocked hl, hev.1, hev.2⟩ rfl)

theorem XInv.step {T : Choice} {s s' : State} {op : Op} (h : XInv p T s) (hr : Reach p s) (hs : Runner.step p s op = some s') :
    XNext p T s s' := by
  have hr' := hr.step op hs
  have hdy := hr.dyingStays hs
  have hX := h.tab.pc
  unfold Runner.step at hs
  split at hs
  · cases hs; exact ⟨T, h.new hr (calm_callStart _ _ _) (fun _ => rfl) (fun _ => rfl) (fun _ _ => rfl) h.nC rfl rfl (.inl ⟨_, _, rfl⟩) rfl, fun _ _ _ => rfl⟩
  · cases hs; exact ⟨T, h.new hr (calm_callStop _ _) (fun _ => rfl) (fun _ => rfl) (fun _ _ => rfl) h.nC rfl rfl (.inr (.inl ⟨_, rfl⟩)) rfl, fun _ _ _ => rfl⟩
  · cases hs; exact ⟨T, h.new hr (calm_callWorker _ _) (fun _ => rfl) (fun _ => rfl) (fun _ _ => rfl) h.nC rfl rfl (.inr (.inr ⟨_, rfl⟩)) rfl, fun _ _ _ => rfl⟩
  · cases hs; exact ⟨T, h.new hr (calm_callRemove _ _) (fun _ => rfl) (fun _ => rfl) (fun _ _ => rfl) h.nC rfl rfl (.inr (.inr ⟨_, rfl⟩)) rfl, fun _ _ _ => rfl⟩
  · have key : ∀ cid r, s.tab.pc = .reply cid r → s' = (s.cto cid (.returned (toRet r))).withTab ((s.tab.log (.ret cid (toRet r))).goTo .bcast) →
        XNext p T s s' := by
      intro cid r hp he
      rw [hp] at hX
      have hX : busyH s.tab.hist = .reply cid (toRet r) := hX
      obtain ⟨c, hc, rfl, hcp⟩ := hr.cinv.reply cid (.inr ⟨r, hp⟩)
      have hok := hr.cinv.ok c hc
      have h1 := hok.pc
      unfold PcOk at h1
      rw [hcp] at h1
      obtain ⟨id', sf', h2, h3⟩ := h1
      subst he
      refine ⟨T, h.move (c := c) (es := [.ret c.cid (toRet r)]) ?_ ?_ rfl rfl ?_ hdy (fun _ _ => rfl) ?_, fun _ _ _ => rfl⟩
      · refine h.tab.one (t' := (s.tab.log (.ret c.cid (toRet r))).goTo .bcast) (e := .ret c.cid (toRet r)) rfl ⟨hok.ret (by rw [hcp]; nofun), _, h2, .inl hX⟩
          rfl ?_ h.tab.arm rfl rfl rfl rfl rfl rfl (fun _ => rfl) nofun (fun _ _ _ hx => by rw [hp] at hx; cases hx) nofun
        refine .inl ?_
        show busyH (.ret c.cid (toRet r) :: s.tab.hist) = .free
        simp only [busyH, hX, if_true]
      · refine h.tok.look (e := .ret c.cid (toRet r)) nofun ?_ nofun rfl rfl
        intro k x hx
        cases r <;> cases hx
      · intro e hm; rw [List.mem_singleton.1 hm]; exact ⟨rfl, nofun⟩
      · refine mapC_cl (f := fun c => { c with pc := .returned (toRet r) }) hr.cinv.nd hc
          (P := fun x' => LOk p T (.ret c.cid (toRet r) :: s.tab.hist) x') rfl ?_ rfl
        exact (h.cl c hc).helperMono (es := [.ret c.cid (toRet r)]) (c' := { c with pc := .returned (toRet r) }) rfl (HSame.refl c) trivial
    split at hs
    · rename_i cid hp; cases hs; exact key cid none hp rfl
    · rename_i cid e hp; cases hs; exact key cid (some e) hp rfl
    · cases hs
  · split at hs
    · rename_i hp
      cases hs
      refine h.runner hr (s' := (broadcast s).withTab (s.tab.goTo .top)) (TL.bcast hp) ⟨[], rfl, nofun⟩ hdy rfl ?_
      intro x' hx'
      obtain ⟨x, h1, rfl⟩ := List.mem_map.1 hx'
      refine ⟨x, h1, rfl, rfl, HSame.map rfl (fun y => ?_) (fun y => .inl ?_)⟩ <;> (unfold Helper.wake; split <;> rfl)
    · cases hs
  · split at hs
    · rename_i hop
      split at hs
      · rename_i c hg
        obtain ⟨hc, rfl⟩ := getC_some hg
        exact h.client hr hc hop hs
      · cases hs
    · obtain ⟨t, ht, rfl⟩ := Option.map_eq_some_iff.1 hs
      rcases tabStep_TL ht with ⟨e, h1, h2, h3⟩ | hT
      · exact ⟨T, h.looked hr hr' (by rw [h1]) h2 h3, fun _ _ _ => rfl⟩
      · exact h.runner hr (s' := s.withTab t) hT (tabStep_move ht).es hdy rfl (fun x hx => ⟨x, hx, rfl, rfl, .refl x⟩)

theorem Reach.xinv {s : State} (hr : Reach p s) : ∃ T, XInv p T s := by
  induction hr with
  | init =>
    refine ⟨⟨fun _ => 0, fun _ => 0⟩, XTab.init _, rfl, nofun, fun rid => ⟨nofun, ?_⟩, ?_⟩
    · rintro ⟨⟨_, hm⟩, _⟩; cases hm
    · rintro rid ⟨_, _, _, hm, _⟩; cases hm
  | step op hr hs ih =>
    obtain ⟨T, h⟩ := ih
    obtain ⟨T', h', _⟩ := h.step hr hs
    exact ⟨T', h'⟩

end Verif.Runner
