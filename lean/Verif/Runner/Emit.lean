import Verif.Runner.HistInv

/-!
# Runner: which events are recorded when, and what follows them
-/

namespace Verif.Runner
open Tab RSpec Spec

theorem killLocked_nodup {t : Tab} (id : Name) (h : t.workers.NodupKeys) : (killLocked t id).workers.NodupKeys := by
  unfold killLocked
  split
  · exact h
  · simp only
    split <;> exact h.set _ _

/-- The table has each id once. -/
theorem ReachT.nodupKeys {p : Params} {t : Tab} (hr : ReachT p t) : t.workers.NodupKeys := by
  induction hr with
  | init => exact AMap.nodupKeys_empty
  | @step t t' hr hT ih =>
    cases hT with
    | accepted cid id sf now hpc hd hi => exact ih.set _ _
    | stop id hpc => exact killLocked_nodup _ ih
    | started gid id w hpc =>
      show (setWorker t gid id w).workers.NodupKeys
      unfold setWorker
      split
      · exact ih
      · simp only
        split
        · exact killLocked_nodup _ (ih.set _ _)
        · exact ih.set _ _
    | done gid id e hpc =>
      unfold workerDone
      split
      · exact ih
      · simp only
        split
        · exact ih.erase _
        · unfold beginShutdown; split <;> exact ih.erase _
        · exact ih.set _ _
    | killNext id rest hpc => exact killLocked_nodup id ih
    | _ => exact ih

theorem mem_reportLines {t : Tab} {order : List Name} {l : Line} (h : l ∈ reportLines t order) :
    ∃ info, t.workers.get? l.id = some info ∧ l = lineOf l.id info := by
  obtain ⟨id, _, h⟩ := List.mem_filterMap.1 h
  obtain ⟨info, hi, rfl⟩ := Option.map_eq_some_iff.1 h
  exact ⟨info, hi, rfl⟩

theorem reportLines_ids {t : Tab} {order : List Name} (h : IsRangeOrder t.workers order) :
    (reportLines t order).map Line.id = order := by
  have key : ∀ l : List Name, (∀ id ∈ l, (t.workers.get? id).isSome = true) → (reportLines t l).map Line.id = l := by
    intro l
    induction l with
    | nil => intro _; rfl
    | cons id l ih =>
      intro hl
      obtain ⟨info, hi⟩ := Option.isSome_iff_exists.1 (hl id (.head _))
      unfold reportLines
      rw [List.filterMap_cons_some (by rw [hi]; rfl), List.map_cons]
      exact congrArg _ (ih (fun x hx => hl x (.tail _ hx)))
  exact key order (fun id hid => (AMap.mem_keys_iff _ _).1 ((h.2 id).1 hid))

theorem lookup_of_mem {α : Type} : ∀ (l : List (Name × α)), (l.map (·.1)).Nodup → ∀ q ∈ l, l.lookup q.1 = some q.2 := by
  intro l
  induction l with
  | nil => intro _ q hq; cases hq
  | cons a l ih =>
    intro hn q hq
    rw [AMap.lookup_cons']
    rw [List.map_cons, List.nodup_cons] at hn
    rcases List.mem_cons.1 hq with rfl | hq
    · simp
    · have : q.1 ≠ a.1 := fun h => hn.1 (List.mem_map.2 ⟨q, hq, h⟩)
      rw [if_neg this]; exact ih hn.2 q hq

theorem evOk_quiet {p : Params} {t : Tab} (hr : ReachT p t) {e : Ev} (h : e.quiet = true) (hq : QuietOk t e) :
    EvOk p e t.hist := by
  have hk : ∀ id, id ∈ t.workers.keys ↔ (knownH t.hist id).isSome = true := by
    intro id; rw [AMap.mem_keys_iff, hr.hinv.kn]; cases t.workers.get? id <;> simp
  cases e with
  | names l => exact ⟨hq.1, fun id => (hq.2 id).trans (hk id)⟩
  | report l =>
    obtain ⟨order, ho, rfl⟩ := hq
    refine ⟨by rw [reportLines_ids ho]; exact ho.1, by rw [reportLines_ids ho]; exact fun id => (ho.2 id).trans (hk id), ?_⟩
    intro l hl
    obtain ⟨info, hg, he⟩ := mem_reportLines hl
    have hi : instH t.hist l.id = info.worker := by rw [hr.hinv.inst, hg]; rfl
    have hst : l.status = info.status := by rw [he]; rfl
    have hne : l.nested = info.worker.isSome := by rw [he]; rfl
    rw [hst, hne, hi]
    refine ⟨?_, rfl⟩
    unfold WInfo.status
    cases hs : info.stopping with
    | true => simp [hr.shape.stopped _ _ hg hs]
    | false => cases info.worker <;> simp
  | _ => first | trivial | (cases h; done)

theorem after_mono (p : Params) (e : Ev) (pre post fs : List Ev) (h : After p e pre post) :
    After p e pre (fs ++ post) := by
  cases e with
  | accepted cid id rid sf => obtain ⟨l, g, rfl⟩ := h; exact ⟨fs ++ l, g, by simp⟩
  | learned id g w => intro hx; obtain ⟨l, rfl⟩ := h hx; exact ⟨fs ++ l, by simp⟩
  | stopHandled id => intro hx; obtain ⟨l, rfl⟩ := h hx; exact ⟨fs ++ l, by simp⟩
  | told id => intro w hx; obtain ⟨l, rfl⟩ := h w hx; exact ⟨fs ++ l, by simp⟩
  | ended id g e =>
    obtain ⟨h1, h2, h3⟩ := h
    refine ⟨fun hx => ?_, fun hx => ?_, fun err he hf hx => ?_⟩
    · obtain ⟨l, g', sf, hs, rfl⟩ := h1 hx; exact ⟨fs ++ l, g', sf, hs, by simp⟩
    · obtain ⟨l, rid, hs, rfl⟩ := h2 hx; exact ⟨fs ++ l, rid, hs, by simp⟩
    · obtain ⟨l, rid, rfl⟩ := h3 err he hf hx; exact ⟨fs ++ l, rid, by simp⟩
  | _ => trivial

/-- The new events of a transition and their properties. -/
def Emits (p : Params) (t t' : Tab) : Prop :=
  ∃ es, t'.hist = es ++ t.hist ∧ AtNew (EvOk p) es t.hist ∧ FollowNew (After p) es t.hist

theorem Emits.none {p : Params} {t t' : Tab} (h : t'.hist = t.hist) : Emits p t t' :=
  ⟨[], h, trivial, followNew_nil⟩

theorem Emits.one {p : Params} {t t' : Tab} (e : Ev) (h : t'.hist = e :: t.hist) (h1 : EvOk p e t.hist)
    (h2 : After p e t.hist []) : Emits p t t' :=
  ⟨[e], h, ⟨h1, trivial⟩, followNew_cons h2 (fun post e rest hx => by cases post <;> cases hx)⟩

/-- The events of killWorkerLocked. -/
def killEvs (t : Tab) (id : Name) : List Ev :=
  match t.workers.get? id with
  | none => []
  | some info => match info.worker with
    | some w => [.killW id w, .told id]
    | none => [.told id]

theorem killLocked_hist (t : Tab) (id : Name) : (killLocked t id).hist = killEvs t id ++ t.hist := by
  unfold killLocked killEvs
  cases t.workers.get? id with
  | none => rfl
  | some info => simp only; cases info.worker <;> rfl

theorem killEvs_ok {p : Params} {t : Tab} (h : HInv p t) (id : Name)
    (hr : shutH t.hist ∨ toldH t.hist id = true ∨ t.hist.head? = some (.stopHandled id)) :
    AtNew (EvOk p) (killEvs t id) t.hist := by
  unfold killEvs
  cases hi : t.workers.get? id with
  | none => trivial
  | some info =>
    have hk : (knownH t.hist id).isSome = true := by rw [h.kn, hi]; rfl
    simp only
    cases hw : info.worker with
    | none => exact ⟨⟨hk, hr⟩, trivial⟩
    | some w =>
      refine ⟨⟨rfl, ?_⟩, ⟨hk, hr⟩, trivial⟩
      show instH t.hist id = some w
      rw [h.inst, hi]; exact hw

theorem killEvs_after {p : Params} {t : Tab} (h : HInv p t) (id : Name) :
    FollowNew (After p) (killEvs t id) t.hist := by
  unfold killEvs
  cases hi : t.workers.get? id with
  | none => exact followNew_nil
  | some info =>
    have hin : instH t.hist id = info.worker := by rw [h.inst, hi]; rfl
    simp only
    cases hw : info.worker with
    | none =>
      refine followNew_cons ?_ (fun post e rest hx => by cases post <;> cases hx)
      intro w hw'
      have hw' : instH t.hist id = some w := hw'
      rw [hin, hw] at hw'; cases hw'
    | some w =>
      refine followNew_cons trivial ?_
      intro post e rest hx
      cases post with
      | nil =>
        cases hx
        intro w' hw'
        have hw' : instH t.hist id = some w' := hw'
        rw [hin, hw] at hw'; cases hw'
        exact ⟨[], rfl⟩
      | cons b post => cases post <;> cases hx

theorem mem_killEvs {t : Tab} {id : Name} {e : Ev} (h : e ∈ killEvs t id) : e = .told id ∨ ∃ w, e = .killW id w := by
  unfold killEvs at h
  split at h
  · cases h
  · split at h
    · simp only [List.mem_cons, List.not_mem_nil, or_false] at h
      rcases h with rfl | rfl
      · exact Or.inr ⟨_, rfl⟩
      · exact Or.inl rfl
    · simp only [List.mem_cons, List.not_mem_nil, or_false] at h
      exact Or.inl h

theorem FollowNew.append {α : Type} {R : α → List α → List α → Prop} {fs es h : List α}
    (mono : ∀ e pre post fs, R e pre post → R e pre (fs ++ post))
    (h1 : FollowNew R fs (es ++ h)) (h2 : FollowNew R es h) : FollowNew R (fs ++ es) h := by
  intro post e rest heq
  rcases List.append_eq_append_iff.1 heq with ⟨as, rfl, hh⟩ | ⟨bs, hb, hh⟩
  · exact mono _ _ _ _ (h2 as e rest hh)
  · cases bs with
    | nil =>
      have := mono e (rest ++ h) [] post (h2 [] e rest (by simpa using hh.symm))
      simpa using this
    | cons b bs =>
      simp only [List.cons_append, List.cons.injEq] at hh
      obtain ⟨rfl, rfl⟩ := hh
      have := h1 post e bs hb
      rw [← List.append_assoc] at this; exact this

/-- A transition after another. -/
theorem Emits.trans {p : Params} {t t' t'' : Tab} (h : Emits p t t') (k : Emits p t' t'') : Emits p t t'' := by
  obtain ⟨es, h1, h2, h3⟩ := h
  obtain ⟨fs, k1, k2, k3⟩ := k
  rw [h1] at k1 k2 k3
  exact ⟨fs ++ es, by rw [k1, List.append_assoc], k2.append h2, FollowNew.append (after_mono p) k3 h3⟩

theorem Emits.killLocked {p : Params} {t : Tab} (h : HInv p t) (id : Name)
    (hr : shutH t.hist ∨ toldH t.hist id = true ∨ t.hist.head? = some (.stopHandled id)) :
    Emits p t (killLocked t id) :=
  ⟨killEvs t id, killLocked_hist t id, killEvs_ok h id hr, killEvs_after h id⟩

theorem Emits.goTo {p : Params} {t t' : Tab} (h : Emits p t t') (pc : LoopPc) : Emits p t (t'.goTo pc) := h

theorem UsedRid_lt {p : Params} {t : Tab} (h : ReachT p t) : ∀ rid, UsedRid t.hist rid → rid < t.nextR := by
  have key : ∀ t, ReachT p t → ∀ c id rid sf, Ev.accepted c id rid sf ∈ t.hist → rid < t.nextR := by
    intro t h
    induction h with
    | init => intro c id rid sf hm; cases hm
    | @step t t' hr hT ih =>
      have hsame : (∀ c id rid sf, Ev.accepted c id rid sf ∈ t'.hist → Ev.accepted c id rid sf ∈ t.hist) →
          t'.nextR = t.nextR → ∀ c id rid sf, Ev.accepted c id rid sf ∈ t'.hist → rid < t'.nextR := by
        intro h1 h2 c id rid sf hm; rw [h2]; exact ih c id rid sf (h1 c id rid sf hm)
      have hs := hr.shape
      cases hT with
      | same => exact ih
      | quiet e he hq =>
        refine hsame (fun c id rid sf hm => ?_) rfl
        rcases List.mem_cons.1 hm with rfl | hm
        · cases he
        · exact hm
      | accepted cid id sf now hpc hd hi =>
        intro c id' rid sf' hm
        show rid < t.nextR + 1
        have hm : Ev.accepted c id' rid sf' ∈ Ev.begin id t.nextG 0 sf :: .accepted cid id t.nextR sf :: t.hist := hm
        simp only [List.mem_cons, reduceCtorEq, Ev.accepted.injEq, false_or] at hm
        rcases hm with ⟨_, _, rfl, _⟩ | hm
        · omega
        · have := ih _ _ _ _ hm; omega
      | stop id hpc =>
        refine hsame (fun c id' rid sf hm => ?_) (killLocked_rest _ _).nextR
        have hm : Ev.accepted c id' rid sf ∈ (killLocked (t.log (.stopHandled id)) id).hist := hm
        rw [killLocked_hist, List.mem_append] at hm
        rcases hm with hm | hm
        · rcases mem_killEvs hm with hx | ⟨_, hx⟩ <;> cases hx
        · exact (mem_cons_ne (by nofun)).1 hm
      | started gid id w hpc =>
        obtain ⟨g, hg, rfl, rfl⟩ := hs.actStarted _ _ _ hpc
        obtain ⟨info, hi⟩ := Option.isSome_iff_exists.1 ((hs.known g.id).2 (List.mem_map.2 ⟨g, hg, rfl⟩))
        refine hsame (fun c id' rid sf hm => ?_) (setWorker_rest t g.gid g.id w info hi).nextR
        have hm : Ev.accepted c id' rid sf ∈ (setWorker t g.gid g.id w).hist := hm
        unfold setWorker at hm; rw [hi] at hm; simp only at hm
        split at hm
        · rw [killLocked_hist, List.mem_append] at hm
          rcases hm with hm | hm
          · rcases mem_killEvs hm with hx | ⟨_, hx⟩ <;> cases hx
          · exact (mem_cons_ne (by nofun)).1 hm
        · exact (mem_cons_ne (by nofun)).1 hm
      | done gid id e hpc =>
        obtain ⟨g, hg, rfl, rfl, hgp⟩ := hs.actDone _ _ _ hpc
        obtain ⟨info, hi⟩ := Option.isSome_iff_exists.1 ((hs.known g.id).2 (List.mem_map.2 ⟨g, hg, rfl⟩))
        have hb : ∀ t : Tab, (beginShutdown t).nextR = t.nextR := by
          intro t; unfold beginShutdown; split <;> rfl
        refine hsame (fun c id' rid sf hm => ?_) ?_
        · unfold workerDone at hm; rw [hi] at hm; simp only at hm
          split at hm
          · simpa [removeWorker, Tab.goTo, Tab.log, dropG] using hm
          · unfold beginShutdown at hm
            split at hm <;> simpa [removeWorker, Tab.goTo, Tab.log, dropG, noteFatal] using hm
          · simpa [spawn, Tab.setInfo, Tab.goTo, Tab.log, dropG] using hm
        · unfold workerDone; rw [hi]; simp only
          split
          · rfl
          · rw [hb]; rfl
          · rfl
      | killNext id rest hpc =>
        refine hsame (fun c id' rid sf hm => ?_) (killLocked_rest _ _).nextR
        have hm : Ev.accepted c id' rid sf ∈ (killLocked t id).hist := hm
        rw [killLocked_hist, List.mem_append] at hm
        rcases hm with hm | hm
        · rcases mem_killEvs hm with hx | ⟨_, hx⟩ <;> cases hx
        · exact hm
      | _ => exact hsame (fun c id rid sf hm => by first | exact hm | exact (mem_cons_ne (by nofun)).1 hm) rfl
  intro rid ⟨c, id, sf, hm⟩
  exact key t h c id rid sf hm

/-- Attempts whose worker the runner has yet to learn of, or has learned of. -/
structure Learn (t : Tab) : Prop where
  act : ∀ gid id w, t.pc = .act (.started gid id w) → phaseH t.hist gid = some (.running w)
  waiting : ∀ g ∈ t.gs, ∀ w, g.pc = .waiting w →
    Ev.learned g.id g.gid w ∈ t.hist ∨ t.pc = .act (.started g.gid g.id w)

theorem step_emits {p : Params} {t t' : Tab} (hr : ReachT p t)
    (hl : ∀ g w, g ∈ t.gs → t.pc = .act (.started g.gid g.id w) → phaseH t.hist g.gid = some (.running w)) (hT : T p t t') : Emits p t t' := by
  have h := hr.hinv
  have hs := hr.shape
  have hopn : ∀ g ∈ t.gs, openH t.hist g.id = some g.gid := fun g hg => (h.opn _ _).2 ⟨g, hg, rfl, rfl⟩
  have hkn : ∀ g ∈ t.gs, (knownH t.hist g.id).isSome = true := by
    intro g hg
    rw [h.kn, Option.isSome_map]; exact (hs.known g.id).2 (List.mem_map.2 ⟨g, hg, rfl⟩)
  cases hT with
  | same => exact .none rfl
  | quiet e he hq => exact .one e rfl (evOk_quiet hr he hq) (by cases e <;> first | trivial | cases he)
  | kill => exact .one .kill rfl trivial trivial
  | exit hpc hd hw =>
    refine .one .exit rfl ⟨h.shut.1 hd, fun id => ⟨by rw [h.kn, hw]; rfl, ?_⟩⟩ trivial
    cases ho : openH t.hist id with
    | none => rfl
    | some k =>
      obtain ⟨g, hg, rfl, _⟩ := (h.opn id k).1 ho
      have := (hs.known g.id).2 (List.mem_map.2 ⟨g, hg, rfl⟩)
      rw [hw] at this; cases this
  | select hpc hn => exact .none rfl
  | recvDying hpc ha hd =>
    refine .one .shutdown rfl (Or.inl ?_) trivial
    rw [h.tomb (by rw [hpc]; nofun)] at hd
    by_cases hc : t.hist.contains .kill = true
    · simpa using hc
    · rw [aliveTomb, if_neg hc] at hd; cases hd
  | recvStart cid id sf hpc => exact .none rfl
  | recvStop cid id hpc => exact .one (.ret cid .ok) rfl trivial trivial
  | recvStarted g w hpc hg hgp => exact .none rfl
  | recvDone g e hpc hg hgp => exact .none rfl
  | ignored cid id sf hpc hd => exact .one (.ignored cid id) rfl ⟨h.shut.1 hd, fun hx => by rw [h.exit.2 hx] at hpc; cases hpc⟩ trivial
  | refused cid id sf i hpc hd hi =>
    refine .one (.refused cid id) rfl ⟨by rw [h.kn, hi]; rfl, fun hx => ?_⟩ trivial
    rw [h.shut.2 hx] at hd; cases hd
  | accepted cid id sf now hpc hd hi =>
    have hno : openH t.hist id = none := by
      cases ho : openH t.hist id with
      | none => rfl
      | some k =>
        obtain ⟨g, hg, rfl, _⟩ := (h.opn id k).1 ho
        have := (hs.known g.id).2 (List.mem_map.2 ⟨g, hg, rfl⟩)
        rw [hi] at this; cases this
    have hns : ¬ shutH t.hist := fun hx => by rw [h.shut.2 hx] at hd; cases hd
    refine ⟨[.begin id t.nextG 0 sf, .accepted cid id t.nextR sf], rfl, ⟨⟨?_, ?_, ?_, ?_, ?_, ?_, ?_⟩, ⟨?_, ?_, hno, hns, ?_⟩, trivial⟩, ?_⟩
    · simp [knownH]
    · exact hno
    · simp [toldH]
    · intro hx; exact hns ((mem_cons_ne (by nofun)).1 hx)
    · exact h.fresh _ (Nat.le_refl _)
    · simp [sfH]
    · exact Or.inl ⟨cid, t.nextR, rfl, rfl⟩
    · show knownH t.hist id = none; rw [h.kn, hi]; rfl
    · show instH t.hist id = none; rw [h.inst, hi]; rfl
    · intro hx; have := UsedRid_lt hr _ hx; omega
    · refine followNew_cons trivial ?_
      intro post e rest hx
      cases post with
      | nil => cases hx; exact ⟨[], t.nextG, rfl⟩
      | cons b post => cases post <;> cases hx
  | stop id hpc =>
    refine Emits.goTo ?_ _
    have hne : Ev.exit ∉ t.hist := fun hx => by rw [h.exit.2 hx] at hpc; cases hpc
    have hin := h.inst id
    have hk := h.kn id
    cases hi : t.workers.get? id with
    | none =>
      refine ⟨[.stopHandled id], ?_, ⟨hne, trivial⟩, follow1 ?_⟩
      · rw [killLocked_hist]; simp only [killEvs, Tab.log, hi]; rfl
      · intro hx; rw [hk, hi] at hx; cases hx
    | some info =>
      rw [hi] at hin hk
      cases hw : info.worker with
      | none =>
        refine ⟨[.told id, .stopHandled id], ?_, ⟨⟨?_, Or.inr (Or.inr rfl)⟩, hne, trivial⟩, follow2 ?_ ?_⟩
        · rw [killLocked_hist]; simp only [killEvs, Tab.log, hi, hw]; rfl
        · show (knownH t.hist id).isSome = true; rw [hk]; rfl
        · intro w hx
          have hx : instH t.hist id = some w := hx
          rw [hin] at hx; simp [hw] at hx
        · intro _; exact ⟨[], rfl⟩
      | some w =>
        refine ⟨[.killW id w, .told id, .stopHandled id], ?_, ⟨⟨rfl, ?_⟩, ⟨?_, Or.inr (Or.inr rfl)⟩, hne, trivial⟩,
          follow3 trivial ?_ ?_⟩
        · rw [killLocked_hist]; simp only [killEvs, Tab.log, hi, hw]; rfl
        · show instH t.hist id = some w; rw [hin]; exact hw
        · show (knownH t.hist id).isSome = true; rw [hk]; rfl
        · intro w' hx
          have hx : instH t.hist id = some w' := hx
          rw [hin] at hx; simp only [Option.bind_some, hw, Option.some.injEq] at hx
          subst hx; exact ⟨[], rfl⟩
        · intro _; exact ⟨[.killW id w], rfl⟩
  | started gid id w hpc =>
    obtain ⟨g, hg, rfl, rfl⟩ := hs.actStarted _ _ _ hpc
    obtain ⟨info, hi⟩ := Option.isSome_iff_exists.1 ((hs.known g.id).2 (List.mem_map.2 ⟨g, hg, rfl⟩))
    have hph := h.ph g hg
    refine Emits.goTo ?_ _
    have hto := h.told _ _ hi
    have hlearn : openH t.hist g.id = some g.gid ∧ phaseH t.hist g.gid = some (.running w) := ⟨hopn g hg, hl g w hg hpc⟩
    by_cases hd : (t.isDying || info.stopping) = true
    · refine ⟨[.killW g.id w, .told g.id, .learned g.id g.gid w], ?_,
        ⟨⟨rfl, ?_⟩, ⟨hkn g hg, ?_⟩, hlearn, trivial⟩, follow3 trivial ?_ ?_⟩
      · unfold setWorker; rw [hi]; simp only; rw [if_pos hd, killLocked_hist]
        simp only [killEvs, Tab.log, Tab.setInfo, AMap.get?_set_self]; rfl
      · simp [instH]
      · simp only [Bool.or_eq_true] at hd
        rcases hd with hd | hd
        · left; exact List.mem_cons_of_mem _ (h.shut.1 hd)
        · right; left; show toldH t.hist g.id = true; rw [hto]; exact hd
      · intro w' hx
        have hx : (if g.id = g.id then some w else instH t.hist g.id) = some w' := hx
        rw [if_pos rfl] at hx; cases hx; exact ⟨[], rfl⟩
      · intro _; exact ⟨[], rfl⟩
    · refine ⟨[.learned g.id g.gid w], ?_, ⟨hlearn, trivial⟩, follow1 ?_⟩
      · unfold setWorker; rw [hi]; simp only; rw [if_neg hd]; rfl
      · simp only [Bool.or_eq_true, not_or, Bool.not_eq_true] at hd
        intro hx
        rcases hx with hx | hx
        · rw [hto, hd.2] at hx; cases hx
        · rw [h.shut.2 hx] at hd; cases hd.1
  | done gid id e hpc =>
    obtain ⟨g, hg, rfl, rfl, hgp⟩ := hs.actDone _ _ _ hpc
    obtain ⟨info, hi⟩ := Option.isSome_iff_exists.1 ((hs.known g.id).2 (List.mem_map.2 ⟨g, hg, rfl⟩))
    have hto := h.told _ _ hi
    have hrid : knownH t.hist g.id = some info.rid := by rw [h.kn, hi]; rfl
    have hend : EvOk p (.ended g.id g.gid e) t.hist := by
      refine ⟨hkn g hg, hopn g hg, ?_⟩
      have hph := h.ph g hg
      unfold PhaseOk at hph; rw [hgp] at hph; exact hph
    have hrem : EvOk p (.removed g.id info.rid) (.ended g.id g.gid e :: t.hist) :=
      ⟨hrid, by simp [openH], g.gid, e, rfl⟩
    have hdying : t.isDying = true → info.stopping = true := fun hd =>
      (hs.dying hd).resolve_left (by rw [hpc]; nofun) _ _ hi
    unfold workerDone
    rw [hi]
    simp only
    rcases fate_cases p info e with ⟨hf, hn⟩ | ⟨err, rfl, hfat, hf⟩ | ⟨sf, hf, hst, hn, hnone⟩
    · rw [hf]
      refine ⟨[.removed g.id info.rid, .ended g.id g.gid e], rfl, ⟨hrem, hend, trivial⟩, follow2 trivial ⟨?_, ?_, ?_⟩⟩
      · rintro ⟨⟨err, rfl, hff, hfr⟩, hx⟩
        rw [hto] at hx
        have : info.start ≠ none := by rw [Ne, ← hs.noStart _ _ hi, hx]; simp
        obtain ⟨sf, hsf⟩ := Option.ne_none_iff_exists'.1 this
        simp [fate, lastFate, hff, hfr, hsf] at hf
      · intro _; exact ⟨[], _, hrid, rfl⟩
      · intro err he hff; rw [hn err he] at hff; cases hff
    · rw [hf]
      simp only
      have hnr : ¬ (Restartable p (some err) ∧ toldH t.hist g.id = false) := by
        rintro ⟨⟨err', he, hff, _⟩, _⟩; cases he; rw [hfat] at hff; cases hff
      unfold beginShutdown
      split
      · rename_i hd
        refine ⟨[.removed g.id info.rid, .ended g.id g.gid (some err)], rfl, ⟨hrem, hend, trivial⟩,
          follow2 trivial ⟨fun hx => absurd hx hnr, fun _ => ⟨[], _, hrid, rfl⟩, ?_⟩⟩
        intro _ _ _ hx; exact absurd (h.shut.1 hd) hx
      · rename_i hd
        have hns : ¬ shutH (.removed g.id info.rid :: .ended g.id g.gid (some err) :: t.hist) := by
          intro hx
          exact hd (h.shut.2 ((mem_cons_ne (by nofun)).1 ((mem_cons_ne (by nofun)).1 hx)))
        refine ⟨[.shutdown, .removed g.id info.rid, .ended g.id g.gid (some err)], rfl,
          ⟨Or.inr ⟨hns, _, _, _, _, _, rfl, hfat⟩, hrem, hend, trivial⟩,
          follow3 trivial trivial ⟨fun hx => absurd hx hnr, fun _ => ⟨[.shutdown], _, hrid, rfl⟩, ?_⟩⟩
        intro _ _ _ _; exact ⟨[], _, rfl⟩
    · rw [hf]
      simp only
      have hns : info.stopping = false := by
        cases hx : info.stopping with
        | false => rfl
        | true => rw [(hs.noStart _ _ hi).1 hx] at hst; cases hst
      have hes : ∃ err, e = some err := by
        cases e with
        | none => rw [hnone rfl] at hns; cases hns
        | some err => exact ⟨err, rfl⟩
      obtain ⟨err, rfl⟩ := hes
      have hrs : Restartable p (some err) := ⟨err, rfl, hn err rfl⟩
      have htf : toldH t.hist g.id = false := by rw [hto]; exact hns
      have hsf := h.sf _ _ hi sf hst
      refine ⟨[.begin g.id t.nextG info.restartDelay sf, .ended g.id g.gid (some err)], rfl,
        ⟨⟨hkn g hg, by simp [openH], htf, ?_, ?_, hsf, Or.inr ⟨g.gid, some err, rfl, hrs, hs.delay _ _ hi⟩⟩, hend, trivial⟩,
        follow2 trivial ⟨?_, ?_, ?_⟩⟩
      · intro hx
        have := hdying (h.shut.2 ((mem_cons_ne (by nofun)).1 hx))
        rw [hns] at this; cases this
      · have hlt := hs.gidLt g hg
        show (if t.nextG = g.gid then _ else phaseH t.hist t.nextG) = none
        rw [if_neg (by omega)]; exact h.fresh _ (Nat.le_refl _)
      · intro _; exact ⟨[], t.nextG, sf, hsf, by rw [← hs.delay _ _ hi]; rfl⟩
      · intro hx; exact absurd ⟨hrs, htf⟩ hx
      · intro err' he hff; cases he; rw [(hn err rfl).1] at hff; cases hff
  | killAll order hpc ho => exact .none rfl
  | killNext id rest hpc => exact (Emits.killLocked h id (Or.inl (h.shut.1 (hs.killing (by rw [hpc]; rfl))))).goTo _
  | killDone hpc => exact .none rfl
  | reply cid r ret hpc => exact .one (.ret cid ret) rfl trivial trivial
  | bcast hpc => exact .none rfl
  | gDying g hg hp hd => exact .none rfl
  | gTimer g hg hp => exact .none rfl
  | gCall g hg hp =>
    have hph := h.ph g hg
    unfold PhaseOk at hph; rw [hp] at hph
    exact .one (.startCall g.id g.gid g.sf) rfl ⟨hopn g hg, hph, h.gsf g hg⟩ trivial
  | gStartOk g w hg hp =>
    have hph := h.ph g hg
    unfold PhaseOk at hph; rw [hp] at hph
    exact .one (.startOk g.id g.gid w) rfl ⟨hopn g hg, hph⟩ trivial
  | gStartErr g e hg hp =>
    have hph := h.ph g hg
    unfold PhaseOk at hph; rw [hp] at hph
    exact .one (.startErr g.id g.gid e) rfl ⟨hopn g hg, hph⟩ trivial
  | gWaitRet g w e hg hp hf => exact .none rfl
  | take rid cid ret hm => exact .one (.ret cid ret) rfl trivial trivial
  | finish w e hf => exact .one (.finished w e) rfl (by show finishedH t.hist w = none; rw [← h.fin]; exact hf) trivial

theorem Learn.hl {p : Params} {t : Tab} (h : Learn t) (_ : ReachT p t) :
    ∀ g w, g ∈ t.gs → t.pc = .act (.started g.gid g.id w) → phaseH t.hist g.gid = some (.running w) :=
  fun g w _ hp => h.act g.gid g.id w hp

/-- The history only grows. -/
theorem T.grows {p : Params} {t t' : Tab} (hr : ReachT p t) (hl : Learn t) (hT : T p t t') :
    ∃ es, t'.hist = es ++ t.hist := by
  obtain ⟨es, h, _⟩ := step_emits hr (hl.hl hr) hT
  exact ⟨es, h⟩

theorem Learn.frame {t t' : Tab} (h : Learn t) (hpc : t'.pc = t.pc)
    (hph : ∀ k w, phaseH t.hist k = some (.running w) → phaseH t'.hist k = some (.running w))
    (hgs : ∀ g ∈ t'.gs, ∀ w, g.pc = .waiting w → g ∈ t.gs) (hm : ∀ e ∈ t.hist, e ∈ t'.hist) : Learn t' := by
  constructor
  · intro gid id w hp; rw [hpc] at hp; exact hph _ _ (h.act gid id w hp)
  · intro g hg w hw
    rcases h.waiting g (hgs g hg w hw) w hw with hx | hx
    · exact Or.inl (hm _ hx)
    · rw [hpc]; exact Or.inr hx

theorem Learn.move {t t' : Tab} (h : Learn t) (hpc : ∀ gid id w, t.pc ≠ .act (.started gid id w))
    (hpc' : ∀ gid id w, t'.pc ≠ .act (.started gid id w))
    (hgs : ∀ g ∈ t'.gs, ∀ w, g.pc = .waiting w → g ∈ t.gs) (hm : ∀ e ∈ t.hist, e ∈ t'.hist) : Learn t' := by
  constructor
  · intro gid id w hp; exact absurd hp (hpc' _ _ _)
  · intro g hg w hw
    rcases h.waiting g (hgs g hg w hw) w hw with hx | hx
    · exact Or.inl (hm _ hx)
    · exact absurd hx (hpc _ _ _)

theorem gto_waiting {t : Tab} {gid : Nat} {pc : Pc} (h : ∀ w, pc ≠ .waiting w) :
    ∀ g ∈ (t.gto gid pc).gs, ∀ w, g.pc = .waiting w → g ∈ t.gs := by
  intro g hg w hw
  rcases mem_gto.1 hg with ⟨g0, _, _, rfl⟩ | ⟨hg, _⟩
  · exact absurd hw (h w)
  · exact hg

theorem ReachT.learn {p : Params} {t : Tab} (h : ReachT p t) : Learn t := by
  induction h with
  | init => constructor <;> intros <;> simp_all
  | @step t t' hr hT ih =>
    obtain ⟨es, hes⟩ := T.grows hr ih hT
    have hm : ∀ e ∈ t.hist, e ∈ t'.hist := by intro e he; rw [hes]; exact List.mem_append_right _ he
    have hs := hr.shape
    have hh := hr.hinv
    have same : ∀ g ∈ t.gs, ∀ w, g.pc = Pc.waiting w → g ∈ t.gs := fun g hg _ _ => hg
    have phne : ∀ (g : G) (e : Ev), (∀ w, phaseH t.hist g.gid ≠ some (.running w)) →
        (∀ k, k ≠ g.gid → phaseH (e :: t.hist) k = phaseH t.hist k) →
        ∀ k w, phaseH t.hist k = some (.running w) → phaseH (e :: t.hist) k = some (.running w) := by
      intro g e hn hk k w hw
      rw [hk]
      · exact hw
      · rintro rfl; exact hn w hw
    cases hT with
    | same => exact ih
    | quiet e he hq =>
      exact ih.frame rfl (fun k w hx => by rw [show phaseH (t.log e).hist k = phaseH t.hist k from (Neutral.of_quiet he).ph _ _]; exact hx) same hm
    | kill => exact ih.frame rfl (fun k w hx => hx) same hm
    | exit hpc hd hw => exact ih.move (by simp [hpc]) (by simp [Tab.goTo]) same hm
    | select hpc hn => exact ih.move (by simp [hpc]) (by simp [Tab.goTo]) same hm
    | recvDying hpc ha hd => exact ih.move (by simp [hpc]) (by simp [Tab.goTo]) same hm
    | recvStart cid id sf hpc => exact ih.move (by simp [hpc]) (by simp [Tab.goTo]) same hm
    | recvStop cid id hpc => exact ih.move (by simp [hpc]) (by simp [Tab.goTo]) same hm
    | recvStarted g w hpc hg hgp =>
      have hph := hh.ph g hg
      unfold PhaseOk at hph; rw [hgp] at hph
      constructor
      · intro gid id w' hp
        simp only [Tab.goTo, LoopPc.act.injEq, Msg.started.injEq] at hp
        obtain ⟨rfl, rfl, rfl⟩ := hp; exact hph
      · intro g' hg' w' hw'
        rcases mem_gto.1 hg' with ⟨g0, hg0, heq, rfl⟩ | ⟨hg', hne⟩
        · right
          cases hw'
          rw [gid_inj hs.gidNd hg0 hg heq]; rfl
        · rcases ih.waiting g' hg' w' hw' with hx | hx
          · exact Or.inl hx
          · rw [hpc] at hx; cases hx
    | recvDone g e hpc hg hgp =>
      exact ih.move (by simp [hpc]) (by simp [Tab.goTo]) (gto_waiting (by simp)) hm
    | ignored cid id sf hpc hd => exact ih.move (by simp [hpc]) (by simp [Tab.goTo]) same hm
    | refused cid id sf i hpc hd hi => exact ih.move (by simp [hpc]) (by simp [Tab.goTo]) same hm
    | accepted cid id sf now hpc hd hi =>
      refine ih.move (by simp [hpc]) (by simp [Tab.goTo]) ?_ hm
      intro g hg w hw
      rcases List.mem_cons.1 hg with rfl | hg
      · simp at hw
      · exact hg
    | stop id hpc =>
      refine ih.move (by simp [hpc]) (by simp [Tab.goTo]) ?_ hm
      intro g hg w hw
      have hg : g ∈ (killLocked (t.log (.stopHandled id)) id).gs := hg
      rw [(killLocked_rest _ _).gs] at hg; exact hg
    | started gid id w hpc =>
      obtain ⟨g, hg, rfl, rfl⟩ := hs.actStarted _ _ _ hpc
      obtain ⟨info, hi⟩ := Option.isSome_iff_exists.1 ((hs.known g.id).2 (List.mem_map.2 ⟨g, hg, rfl⟩))
      have hl : Ev.learned g.id g.gid w ∈ (setWorker t g.gid g.id w).hist := by
        unfold setWorker; rw [hi]; simp only
        split
        · rw [killLocked_hist]; exact List.mem_append_right _ List.mem_cons_self
        · exact List.mem_cons_self
      constructor
      · intro gid id w hp; cases hp
      · intro g' hg' w' hw'
        have hg' : g' ∈ (setWorker t g.gid g.id w).gs := hg'
        rw [(setWorker_rest t g.gid g.id w info hi).gs] at hg'
        rcases ih.waiting g' hg' w' hw' with hx | hx
        · exact Or.inl (hm _ hx)
        · rw [hpc] at hx
          simp only [LoopPc.act.injEq, Msg.started.injEq] at hx
          obtain ⟨h1, h2, rfl⟩ := hx
          left; rw [← h1, ← h2]; exact hl
    | done gid id e hpc =>
      obtain ⟨g, hg, rfl, rfl, hgp⟩ := hs.actDone _ _ _ hpc
      obtain ⟨info, hi⟩ := Option.isSome_iff_exists.1 ((hs.known g.id).2 (List.mem_map.2 ⟨g, hg, rfl⟩))
      have hb : ∀ t : Tab, (beginShutdown t).gs = t.gs ∧ ∀ gid id w, (beginShutdown t).pc ≠ .act (.started gid id w) := by
        intro t; unfold beginShutdown; split <;> exact ⟨rfl, by simp [Tab.goTo]⟩
      refine ih.move (by simp [hpc]) ?_ ?_ hm
      · unfold workerDone; rw [hi]; simp only
        split
        · simp [Tab.goTo]
        · exact (hb _).2
        · simp [Tab.goTo]
      · intro g' hg' w hw
        unfold workerDone at hg'; rw [hi] at hg'; simp only at hg'
        split at hg'
        · exact (mem_dropG.1 hg').1
        · rw [(hb _).1] at hg'; exact (mem_dropG.1 hg').1
        · rcases List.mem_cons.1 hg' with rfl | hg'
          · simp only at hw; split at hw <;> cases hw
          · exact (mem_dropG.1 hg').1
    | killAll order hpc ho => exact ih.move (by simp [hpc]) (by simp [Tab.goTo]) same hm
    | killNext id rest hpc =>
      refine ih.move (by simp [hpc]) (by simp [Tab.goTo]) ?_ hm
      intro g hg w hw
      have hg : g ∈ (killLocked t id).gs := hg
      rw [(killLocked_rest _ _).gs] at hg; exact hg
    | killDone hpc => exact ih.move (by simp [hpc]) (by simp [Tab.goTo]) same hm
    | reply cid r ret hpc => exact ih.move (by simp [hpc]) (by simp [Tab.goTo]) same hm
    | bcast hpc => exact ih.move (by simp [hpc]) (by simp [Tab.goTo]) same hm
    | gDying g hg hp hd => exact ih.frame rfl (fun k w hx => hx) (gto_waiting (by simp)) hm
    | gTimer g hg hp => exact ih.frame rfl (fun k w hx => hx) (gto_waiting (by simp)) hm
    | gCall g hg hp =>
      have hph := hh.ph g hg
      unfold PhaseOk at hph; rw [hp] at hph
      simp only at hph
      exact ih.frame rfl (phne g _ (by rw [hph]; nofun) (by intro k hk; simp [phaseH, hk])) (gto_waiting (by simp)) hm
    | gStartOk g w hg hp =>
      have hph := hh.ph g hg
      unfold PhaseOk at hph; rw [hp] at hph
      simp only at hph
      exact ih.frame rfl (phne g _ (by rw [hph]; nofun) (by intro k hk; simp [phaseH, hk])) (gto_waiting (by simp)) hm
    | gStartErr g e hg hp =>
      have hph := hh.ph g hg
      unfold PhaseOk at hph; rw [hp] at hph
      simp only at hph
      exact ih.frame rfl (phne g _ (by rw [hph]; nofun) (by intro k hk; simp [phaseH, hk])) (gto_waiting (by simp)) hm
    | gWaitRet g w e hg hp hf => exact ih.frame rfl (fun k w hx => hx) (gto_waiting (by simp)) hm
    | take rid cid ret hmem => exact ih.frame rfl (fun k w hx => hx) same hm
    | finish w e hf => exact ih.frame rfl (fun k w hx => hx) same hm

theorem ReachT.emits {p : Params} {t t' : Tab} (hr : ReachT p t) (hT : T p t t') : Emits p t t' :=
  step_emits hr (hr.learn.hl hr) hT

/-- Every event happens only when it may. -/
theorem ReachT.evOk {p : Params} {t : Tab} (hr : ReachT p t) : AtEvery (EvOk p) t.hist := by
  induction hr with
  | init => trivial
  | step hr hT ih =>
    obtain ⟨es, h, h1, _⟩ := hr.emits hT
    rw [h]; exact AtEvery.append h1 ih

/-- Every event is followed by what it has to be followed by. -/
theorem ReachT.after {p : Params} {t : Tab} (hr : ReachT p t) : Followed (After p) t.hist := by
  induction hr with
  | init => intro post e pre heq; cases post <;> cases heq
  | step hr hT ih =>
    obtain ⟨es, h, _, h2⟩ := hr.emits hT
    rw [h]; exact Followed.append (after_mono p) h2 ih

end Verif.Runner
