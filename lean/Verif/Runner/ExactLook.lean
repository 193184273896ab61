import Verif.Runner.ExactCalls

/-!
# Runner: steps of lookups that nobody can see
-/

namespace Verif.Runner
open Tab State RSpec Spec

variable {p : Params} {T : Choice}

/-! ## Sleepers are woken -/

/-- Whoever sleeps in the step has slept before, or goes to sleep because there is no worker. -/
theorem clientStep_asleep {s s' : State} {c : Client} {op : Op} (hr : Reach p s) (hc : c ∈ s.clients) (hop : op.cid? = some c.cid)
    (h : clientStep s c op = some s') : ∀ c' ∈ s'.clients, ∀ x', c'.helper = some x' → x'.pc = .sleep →
      (∃ c ∈ s.clients, ∃ x, c.helper = some x ∧ x.pc = .sleep ∧ x'.id = x.id) ∨ getWorker s.tab x'.id = none := by
  have same : ∀ (s1 : State) (f : Client → Client), s1.clients = s.clients →
      (∀ x', (f c).helper = some x' → x'.pc = .sleep → (∃ x, c.helper = some x ∧ x.pc = .sleep ∧ x'.id = x.id) ∨ getWorker s.tab x'.id = none) →
      ∀ c' ∈ (s1.mapC c.cid f).clients, ∀ x', c'.helper = some x' → x'.pc = .sleep →
      (∃ c ∈ s.clients, ∃ x, c.helper = some x ∧ x.pc = .sleep ∧ x'.id = x.id) ∨ getWorker s.tab x'.id = none := by
    intro s1 f hs1 hf c' hc' x' hx' hp
    obtain ⟨y, hy, rfl⟩ := List.mem_map.1 hc'
    rw [hs1] at hy
    split at hx'
    · rename_i he
      have := cid_inj hr.cinv.nd hy hc he
      subst this
      rcases hf x' hx' hp with ⟨x, h1, h2, h3⟩ | h1
      · exact .inl ⟨y, hy, x, h1, h2, h3⟩
      · exact .inr h1
    · exact .inl ⟨y, hy, x', hx', hp, rfl⟩
  have keep : ∀ x', c.helper = some x' → x'.pc = .sleep → (∃ x, c.helper = some x ∧ x.pc = .sleep ∧ x'.id = x.id) ∨ getWorker s.tab x'.id = none :=
    fun x' hx hp => .inl ⟨x', hx, hp, rfl⟩
  have after : ∀ (id : Name) (r : Found), ∀ c' ∈ (afterInfo s c id r).clients, ∀ x', c'.helper = some x' → x'.pc = .sleep →
      (∃ c ∈ s.clients, ∃ x, c.helper = some x ∧ x.pc = .sleep ∧ x'.id = x.id) ∨ getWorker s.tab x'.id = none := by
    intro id r
    unfold afterInfo
    split
    · exact same s (fun c => { c with pc := .returned (.err (.notFound id)) }) rfl keep
    · rename_i w rid
      split
      · exact same s (fun c => { c with pc := .removeKill w rid }) rfl keep
      · exact same s (fun c => { c with pc := .returned (.worker w) }) rfl keep
  have hmap : ∀ (f : Helper → Helper), (∀ x, c.helper = some x → (f x).pc = .sleep → (x.pc = .sleep ∧ (f x).id = x.id) ∨ getWorker s.tab (f x).id = none) →
      ∀ x', (c.helper.map f) = some x' → x'.pc = .sleep → (∃ x, c.helper = some x ∧ x.pc = .sleep ∧ x'.id = x.id) ∨ getWorker s.tab x'.id = none := by
    intro f hf x' hx' hp
    obtain ⟨x, h1, rfl⟩ := Option.map_eq_some_iff.1 hx'
    rcases hf x h1 hp with ⟨h2, h3⟩ | h2
    · exact .inl ⟨x, h1, h2, h3⟩
    · exact .inr h2
  cases op <;> simp only [Op.cid?, Option.some.injEq, reduceCtorEq] at hop <;> try (subst hop)
  all_goals simp only [clientStep] at h
  case cancel => cases h; exact same s (fun c => { c with cancelled := true }) rfl keep
  case recvStart =>
    split at h
    · split at h
      · cases h; exact same s (fun c => { c with pc := .startReply }) rfl keep
      · cases h
    · cases h
  case recvStop =>
    split at h
    · split at h
      · cases h; exact same s (fun c => { c with pc := .returned .ok }) rfl keep
      · cases h
    · cases h
  case cDead =>
    split at h
    · split at h
      · cases h; exact same s (fun c => { c with pc := .returned (.err .runnerDead) }) rfl keep
      · cases h
    · split at h
      · cases h; exact same s (fun c => { c with pc := .returned (.err .runnerDead) }) rfl keep
      · cases h
    · cases h
  case cLock =>
    split at h
    · rename_i id _
      split at h
      · split at h
        · rename_i r _
          cases h; exact same s (fun c => { c with pc := .immediate id r }) rfl keep
        · cases h
          refine same s (fun c => { c with pc := .waiting id, helper := some { id := id } }) rfl ?_
          intro x' hx' hp
          cases hx'; cases hp
      · cases h
    · cases h
  case cImmediate =>
    split at h
    · cases h
      split
      · exact same s (fun c => { c with pc := .returned (.err .runnerDead) }) rfl keep
      · exact after _ _
    · cases h
  case cRecv =>
    split at h
    · rename_i id r _ _
      cases h
      exact same s (fun c => { c with pc := .gotWc id r, helper := c.helper.map (fun h => { h with wc := none }) }) rfl
        (hmap _ (fun x _ hp => .inl ⟨hp, rfl⟩))
    · cases h
  case cGotWc =>
    split at h
    · cases h
      split
      · exact same s (fun c => { c with pc := .returned (.err .runnerDead) }) rfl keep
      · exact after _ _
    · cases h
  case cDying =>
    split at h
    · split at h
      · cases h; exact same s (fun c => { c with pc := .returned (.err .runnerDead) }) rfl keep
      · cases h
    · cases h
  case cAbort =>
    split at h
    · rename_i id _
      split at h
      · cases h; exact same s (fun c => { c with pc := .closing id }) rfl keep
      · cases h
    · cases h
  case cClose =>
    split at h
    · rename_i id _
      cases h
      exact same s (fun c => { c with pc := .bcasting id, helper := c.helper.map (fun h => { h with stopped := true }) }) rfl
        (hmap _ (fun x _ hp => .inl ⟨hp, rfl⟩))
    · cases h
  case cBcast =>
    split at h
    · cases h
      intro c' hc' x' hx' hp
      exfalso
      obtain ⟨y, hy, rfl⟩ := List.mem_map.1 hc'
      obtain ⟨z, hz, rfl⟩ := List.mem_map.1 hy
      have hx' : z.helper.map Helper.wake = some x' := by
        split at hx' <;> exact hx'
      obtain ⟨x, h1, rfl⟩ := Option.map_eq_some_iff.1 hx'
      rcases x.wake_cases with ⟨h2, h3⟩ | ⟨h2, h3⟩
      · rw [h3] at hp; cases hp
      · rw [h3] at hp; exact h2 hp
    · cases h
  case cKill =>
    split at h
    · rename_i w rid _
      cases h; exact same s (fun c => { c with pc := .removeWait w rid }) rfl keep
    · cases h
  case cWaitRet =>
    split at h
    · rename_i w rid _
      split at h
      · rename_i e _
        cases h; exact same s (fun c => { c with pc := .removeSelect w rid e }) rfl keep
      · cases h
    · cases h
  case cRemoveAbort =>
    split at h
    · split at h
      · cases h; exact same s (fun c => { c with pc := .returned (.err .runnerAborted) }) rfl keep
      · cases h
    · cases h
  case cRemoved =>
    split at h
    · rename_i w rid e _
      split at h
      · cases h; exact same s (fun c => { c with pc := .returned (.result e) }) rfl keep
      · cases h
    · cases h
  case hCheck =>
    split at h
    · split at h
      · split at h
        · cases h
          exact same s (fun c => { c with helper := c.helper.map (fun h => { h with pc := .done }) }) rfl (hmap _ (fun x _ hp => nomatch hp))
        · cases h
          exact same s (fun c => { c with helper := c.helper.map (fun h => { h with pc := .enter }) }) rfl (hmap _ (fun x _ hp => nomatch hp))
      · cases h
    · cases h
  case hEnter =>
    split at h
    · rename_i y hy
      split at h
      · rename_i hp
        cases h
        refine same s (fun c => { c with helper := c.helper.map (fun h => { h with pc := .sleep }) }) rfl (hmap _ (fun x hx _ => .inr ?_))
        rw [hy] at hx; cases hx
        exact (hr.minv.holder c hc y hy (.inr hp)).2
      · cases h
    · cases h
  case hWake =>
    split at h
    · split at h
      · split at h
        · rename_i r _
          cases h
          exact same s (fun c => { c with helper := c.helper.map (fun h => { h with pc := .done, wc := some r }) }) rfl (hmap _ (fun x _ hp => nomatch hp))
        · cases h
          exact same s (fun c => { c with helper := c.helper.map (fun h => { h with pc := .check }) }) rfl (hmap _ (fun x _ hp => nomatch hp))
      · cases h
    · cases h

/-- When a worker becomes available, a broadcast is next. -/
theorem TL.appears {t t' : Tab} (hT : TL p t t') {id : Name} {w r : Nat} (hg : getWorker t' id = some (.worker w r)) :
    (∃ w r, getWorker t id = some (.worker w r)) ∨ t'.pc = .bcast := by
  have same : t'.workers = t.workers → (∃ w r, getWorker t id = some (.worker w r)) ∨ t'.pc = .bcast :=
    fun hw => .inl ⟨w, r, by rw [← getWorker_eq hw]; exact hg⟩
  have inv : ∀ {t : Tab} {w r : Nat}, getWorker t id = some (.worker w r) ↔ ∃ i, t.workers.get? id = some i ∧ i.worker = some w ∧ i.rid = r := by
    intro t w r
    unfold getWorker
    cases h : t.workers.get? id with
    | none => simp
    | some i => cases h2 : i.worker <;> simp [h2]
  cases hT with
  | accepted cid id' sf now hp hd hk =>
    obtain ⟨i, h1, h2, h3⟩ := inv.1 hg
    have h1 : (t.workers.set id' _).get? id = some i := h1
    rw [AMap.get?_set] at h1
    split at h1
    · cases h1; cases h2
    · exact .inl ⟨w, r, inv.2 ⟨i, h1, h2, h3⟩⟩
  | stop => exact .inr rfl
  | started => exact .inr rfl
  | killNext id' rest hp =>
    obtain ⟨i, h1, h2, h3⟩ := inv.1 hg
    have h1 : (killLocked t id').workers.get? id = some i := h1
    rw [killLocked_get?] at h1
    split at h1
    · rename_i he
      obtain ⟨i', h4, rfl⟩ := Option.map_eq_some_iff.1 h1
      rw [← he] at h4
      cases h2
    · exact .inl ⟨w, r, inv.2 ⟨i, h1, h2, h3⟩⟩
  | done gid id' e hp =>
    unfold workerDone at hg ⊢
    split at hg
    · exact .inl ⟨w, r, hg⟩
    · rename_i info hi
      simp only at hg ⊢
      split at hg
      · exact .inr rfl
      · rename_i err hf
        obtain ⟨i, h1, h2, h3⟩ := inv.1 hg
        have h1 : (t.workers.erase id').get? id = some i := by
          unfold beginShutdown at h1
          split at h1 <;> exact h1
        rw [AMap.get?_erase] at h1
        split at h1
        · cases h1
        · exact .inl ⟨w, r, inv.2 ⟨i, h1, h2, h3⟩⟩
      · exact .inr rfl
  | _ => exact same rfl

theorem tabStep_bcast {s : State} {op : Op} {t : Tab} (h : tabStep p s op = some t) (hp : s.tab.pc = .bcast) : t.pc = .bcast := by
  cases op <;> simp only [tabStep, hp, reduceCtorEq, if_false, false_and] at h <;> first
    | (cases h; done)
    | (cases h; first | exact hp | rfl)
    | (split at h <;> first | (cases h; done) | (cases h; first | exact hp | rfl) | (split at h <;> first | (cases h; done) | (cases h; first | exact hp | rfl) |
        (split at h <;> first | (cases h; done) | (cases h; first | exact hp | rfl))))

/-- Nobody sleeps while there is a worker, unless a broadcast is next. -/
def WInv (s : State) : Prop :=
  ∀ c ∈ s.clients, ∀ x, c.helper = some x → x.pc = .sleep → ∀ w r, getWorker s.tab x.id = some (.worker w r) → s.tab.pc = .bcast

theorem WInv.step {s s' : State} {op : Op} (h : WInv s) (hr : Reach p s) (hs : Runner.step p s op = some s') : WInv s' := by
  have quiet : ∀ t : Tab, t.workers = s.tab.workers → (s.tab.pc = .bcast → t.pc = .bcast) → ∀ c ∈ s.clients, ∀ x, c.helper = some x → x.pc = .sleep →
      ∀ w r, getWorker t x.id = some (.worker w r) → t.pc = .bcast := by
    intro t h1 h2 c hc x hx hp w r hg
    rw [getWorker_eq h1] at hg
    exact h2 (h c hc x hx hp w r hg)
  have new : ∀ (c : Client) (e : Ev), c.helper = none → WInv (newClient s c e) := by
    intro c e hn c' hc' x hx hp w r hg
    rcases List.mem_cons.1 hc' with rfl | hc'
    · simp only [hn] at hx; cases hx
    · exact quiet (s.tab.log e) rfl (fun hb => hb) c' hc' x hx hp w r hg
  unfold Runner.step at hs
  split at hs
  · cases hs; exact new _ _ rfl
  · cases hs; exact new _ _ rfl
  · cases hs; exact new _ _ rfl
  · cases hs; exact new _ _ rfl
  · split at hs
    · cases hs; exact fun _ _ _ _ _ _ _ _ => rfl
    · cases hs; exact fun _ _ _ _ _ _ _ _ => rfl
    · cases hs
  · split at hs
    · cases hs
      intro c' hc' x hx hp
      exfalso
      obtain ⟨z, hz, rfl⟩ := List.mem_map.1 hc'
      obtain ⟨y, h1, rfl⟩ := Option.map_eq_some_iff.1 hx
      rcases y.wake_cases with ⟨h2, h3⟩ | ⟨h2, h3⟩
      · rw [h3] at hp; cases hp
      · rw [h3] at hp; exact h2 hp
    · cases hs
  · split at hs
    · rename_i hop
      split at hs
      · rename_i c hg
        obtain ⟨hc, rfl⟩ := getC_some hg
        have hws : s'.tab.workers = s.tab.workers ∧ (s.tab.pc = .bcast → s'.tab.pc = .bcast) := by
          rcases (clientStep_cstep hop hs).1 with h1 | ⟨_, _, h1, _, h2⟩ | ⟨_, h1, _, h2⟩ | h1 | ⟨_, _, _, h1⟩ | ⟨_, _, _, h1, _⟩
          · rw [h1]; exact ⟨rfl, fun hb => hb⟩
          · rw [h2]; exact ⟨rfl, fun hb => by rw [h1] at hb; cases hb⟩
          · rw [h2]; exact ⟨rfl, fun hb => by rw [h1] at hb; cases hb⟩
          · rw [h1]; exact ⟨rfl, fun hb => hb⟩
          · rw [h1]; exact ⟨rfl, fun hb => hb⟩
          · rw [h1]; exact ⟨rfl, fun hb => hb⟩
        intro c' hc' x hx hp w r hg'
        rw [getWorker_eq hws.1] at hg'
        rcases clientStep_asleep hr hc hop hs c' hc' x hx hp with ⟨c2, hc2, x2, h1, h2, h3⟩ | h1
        · rw [h3] at hg'
          exact hws.2 (h c2 hc2 x2 h1 h2 w r hg')
        · rw [h1] at hg'; cases hg'
      · cases hs
    · obtain ⟨t, ht, rfl⟩ := Option.map_eq_some_iff.1 hs
      have hb := tabStep_bcast ht
      rcases tabStep_TL ht with ⟨e, h1, _⟩ | hT
      · subst h1
        exact quiet (s.tab.log e) rfl (fun hb => hb)
      · intro c hc x hx hp w r hg
        rcases hT.appears hg with ⟨w', r', h1⟩ | h1
        · exact hb (h c hc x hx hp w' r' h1)
        · exact h1

theorem Reach.winv {s : State} (hr : Reach p s) : WInv s := by
  induction hr with
  | init => nofun
  | step op hr hs ih => exact ih.step hr hs

theorem getG_at {t : Tab} (hS : Shape p t) {g : G} (hg : g ∈ t.gs) : t.getG g.gid = some g := by
  unfold Tab.getG
  have hs : (t.gs.find? (fun x => x.gid = g.gid)).isSome = true := by
    rw [List.find?_isSome]; exact ⟨g, hg, by simp⟩
  obtain ⟨x, hx⟩ := Option.isSome_iff_exists.1 hs
  rw [hx]
  have h1 := List.find?_some hx
  have h2 := List.mem_of_find?_eq_some hx
  rw [gid_inj hS.gidNd h2 hg (by simpa using h1)]

theorem getC_at {s : State} (hc : CInv s) {c : Client} (hm : c ∈ s.clients) : s.getC c.cid = some c := by
  unfold State.getC
  have hs : (s.clients.find? (fun x => x.cid = c.cid)).isSome = true := by
    rw [List.find?_isSome]; exact ⟨c, hm, by simp⟩
  obtain ⟨x, hx⟩ := Option.isSome_iff_exists.1 hs
  rw [hx]
  have h1 := List.find?_some hx
  have h2 := List.mem_of_find?_eq_some hx
  rw [cid_inj hc.nd h2 hm (by simpa using h1)]

/-! ## Executions in which the registrations that calls find are the chosen ones -/

theorem step_killW {s s' : State} {op : Op} (hs : Runner.step p s op = some s') {cid w : Nat} (hm : .clientKillW cid w ∈ s'.tab.hist) :
    .clientKillW cid w ∈ s.tab.hist ∨ ∃ c ∈ s.clients, c.cid = cid ∧ op = .cKill cid := by
  unfold Runner.step at hs
  split at hs
  · cases hs; exact .inl ((List.mem_cons.1 hm).resolve_left nofun)
  · cases hs; exact .inl ((List.mem_cons.1 hm).resolve_left nofun)
  · cases hs; exact .inl ((List.mem_cons.1 hm).resolve_left nofun)
  · cases hs; exact .inl ((List.mem_cons.1 hm).resolve_left nofun)
  · split at hs
    · cases hs; exact .inl ((List.mem_cons.1 hm).resolve_left nofun)
    · cases hs; exact .inl ((List.mem_cons.1 hm).resolve_left nofun)
    · cases hs
  · split at hs
    · cases hs; exact .inl hm
    · cases hs
  · split at hs
    · rename_i hop
      split at hs
      · rename_i c hg
        obtain ⟨hc, rfl⟩ := getC_some hg
        rcases (clientStep_cstep hop hs).1 with h1 | ⟨_, _, _, _, h1⟩ | ⟨_, _, _, h1⟩ | h1 | ⟨w', rid, h0, h1⟩ | ⟨_, _, _, h1, _⟩
        · rw [h1] at hm; exact .inl hm
        · rw [h1] at hm; exact .inl hm
        · rw [h1] at hm; exact .inl ((List.mem_cons.1 hm).resolve_left nofun)
        · rw [h1] at hm; exact .inl ((List.mem_cons.1 hm).resolve_left nofun)
        · rw [h1] at hm
          rcases List.mem_cons.1 hm with hm | hm
          · cases hm
            refine .inr ⟨c, hc, rfl, ?_⟩
            cases op <;> simp only [Op.cid?, Option.some.injEq, reduceCtorEq] at hop <;> try (subst hop)
            case cKill => rfl
            all_goals
              exfalso
              have hh := congrArg Tab.hist h1
              simp only [clientStep, h0, ite_self, reduceCtorEq] at hs
            case cancel => cases hs; cases hh
            all_goals
              have h2 : s'.tab = s.tab := by
                split at hs
                · split at hs
                  · first
                    | (cases hs; rfl)
                    | (split at hs <;> (cases hs; rfl))
                  · cases hs
                · cases hs
              rw [h2] at hh
              exact absurd hh.symm (List.cons_ne_self _ _)
          · exact .inl hm
        · rw [h1] at hm; exact .inl ((List.mem_cons.1 hm).resolve_left nofun)
      · cases hs
    · obtain ⟨t, ht, rfl⟩ := Option.map_eq_some_iff.1 hs
      obtain ⟨es, h1, h2⟩ := (tabStep_move ht).es
      have hm : .clientKillW cid w ∈ t.hist := hm
      rw [h1, List.mem_append] at hm
      exact .inl (hm.resolve_left (fun hx => by cases h2 _ hx))

/-- An execution in which a call of StopAndRemoveWorker stops the worker of the chosen registration only. -/
inductive RC (p : Params) (T : Choice) : State → Prop
  | init : RC p T init
  | step {s s' : State} (op : Op) : RC p T s → Runner.step p s op = some s' →
      (∀ cid, op = .cKill cid → ∀ c ∈ s.clients, c.cid = cid → ∃ w, c.pc = .removeKill w (T.reg cid)) → RC p T s'

theorem RC.reach {s : State} (h : RC p T s) : Reach p s := by
  induction h with
  | init => exact .init
  | step op _ hs _ ih => exact ih.step op hs

theorem RC.tab {s : State} (h : RC p T s) : ReachT p s.tab := h.reach.tab
theorem RC.cinv {s : State} (h : RC p T s) : CInv s := h.reach.cinv
theorem RC.minv {s : State} (h : RC p T s) : MInv s := h.reach.minv
theorem RC.rinv {s : State} (h : RC p T s) : RInv s := h.reach.rinv

/-- A step of the table. -/
theorem RC.tabOp {s : State} (hr : RC p T s) {op : Op} {t : Tab} (ht : tabStep p s op = some t) (hn : op.cid? = none)
    (h1 : ∀ a b, op ≠ .callStart a b) (h2 : ∀ a, op ≠ .callStop a) (h3 : ∀ a, op ≠ .callWorker a) (h4 : ∀ a, op ≠ .callRemove a)
    (h5 : op ≠ .reply) (h6 : op ≠ .bcast) : RC p T (s.withTab t) := by
  refine .step op hr ?_ (fun cid hx => by subst hx; cases hn)
  cases op <;> first
    | (exact absurd rfl h5) | (exact absurd rfl h6) | (exact absurd rfl (h1 _ _)) | (exact absurd rfl (h2 _)) | (exact absurd rfl (h3 _))
    | (exact absurd rfl (h4 _)) | (cases hn; done) | (simp only [Runner.step, Op.cid?, ht, Option.map_some])

theorem RC.clientOp {s s' : State} (hr : RC p T s) {op : Op} {c : Client} (hm : c ∈ s.clients) (hn : op.cid? = some c.cid)
    (ht : clientStep s c op = some s') (hk : op ≠ .cKill c.cid) : RC p T s' := by
  refine .step op hr ?_ (fun cid hx => by subst hx; injection hn with hn; subst hn; exact absurd rfl hk)
  have := getC_at hr.cinv hm
  cases op <;> first
    | (cases hn; done) | (simp only [Op.cid?, Option.some.injEq] at hn; subst hn; simp only [Runner.step, Op.cid?, this, ht])


theorem RC.inv {s : State} (h : RC p T s) : ∃ T', XInv p T' s ∧ ∀ cid w, .clientKillW cid w ∈ s.tab.hist → T'.reg cid = T.reg cid := by
  induction h with
  | init =>
    obtain ⟨T', h⟩ := (Reach.init (p := p)).xinv
    exact ⟨T', h, nofun⟩
  | @step s s' op hr hs hk ih =>
    obtain ⟨T0, h0, hreg⟩ := ih
    obtain ⟨T', h', hreg'⟩ := h0.step hr.reach hs
    refine ⟨T', h', fun cid w hm => ?_⟩
    rcases step_killW hs hm with hm | ⟨c, hc, rfl, rfl⟩
    · rw [hreg' _ _ hm, hreg _ _ hm]
    · obtain ⟨w', hp⟩ := hk _ rfl c hc rfl
      simp only [Runner.step, Op.cid?, getC_at hr.cinv hc, clientStep, hp, Option.some.injEq] at hs
      subst hs
      have hm' : { c with pc := .removeWait w' (T.reg c.cid) } ∈ ((s.cto c.cid (.removeWait w' (T.reg c.cid))).log (.clientKillW c.cid w')).clients :=
        List.mem_map.2 ⟨c, hc, if_pos rfl⟩
      exact (h'.cl _ hm').pc.1

theorem RC.xinv {s : State} (h : RC p T s) : ∃ T', XInv p T' s := let ⟨T', h', _⟩ := h.inv; ⟨T', h'⟩

theorem RC.tok {s : State} (h : RC p T s) : TokInv T s.tab := by
  obtain ⟨T', h', hreg⟩ := h.inv
  have hk : ∀ rid, Taken T s.tab.hist rid ↔ Taken T' s.tab.hist rid := by
    intro rid
    constructor
    · rintro ⟨cid, w, e, h1, h2, h3⟩; exact ⟨cid, w, e, h1, h2, by rw [hreg _ _ h1]; exact h3⟩
    · rintro ⟨cid, w, e, h1, h2, h3⟩; exact ⟨cid, w, e, h1, h2, by rw [← hreg _ _ h1]; exact h3⟩
  exact ⟨fun rid => by rw [hk]; exact h'.tok.iff rid, fun rid hx => h'.tok.taken rid ((hk rid).1 hx)⟩

theorem RC.clientKill {s : State} (hr : RC p T s) {c : Client} (hm : c ∈ s.clients) {w : Nat} (hp : c.pc = .removeKill w (T.reg c.cid)) :
    RC p T ((s.cto c.cid (.removeWait w (T.reg c.cid))).log (.clientKillW c.cid w)) := by
  refine .step (.cKill c.cid) hr ?_ (fun cid hx c' hc' he => ?_)
  · simp only [Runner.step, Op.cid?, getC_at hr.cinv hm, clientStep, hp]
  · cases hx
    have := cid_inj hr.cinv.nd hc' hm he
    subst this
    exact ⟨w, hp⟩

/-! ## How far a lookup is -/

inductive Stat
  /-- it has not looked -/
  | lock
  /-- it has found this at once -/
  | imm (r : Found)
  /-- it waits -/
  | wait
  /-- it has waited and has got a worker -/
  | got (w rid : Nat)
  /-- it has got a worker to stop -/
  | kill (w : Nat)

def atStat (T : Choice) (cid : Nat) (id : Name) : Stat → CPc
  | .lock => .lock id
  | .imm r => .immediate id r
  | .wait => .waiting id
  | .got w rid => .gotWc id (.worker w rid)
  | .kill w => .removeKill w (T.reg cid)

/-- A step of one client that nobody sees. -/
structure One (p : Params) (T : Choice) (s s' : State) (c c' : Client) : Prop where
  reach : RC p T s'
  tab : s'.tab = s.tab
  mem : c' ∈ s'.clients
  cid : c'.cid = c.cid
  rem : c'.remove = c.remove
  cl : ∀ x ∈ s'.clients, x = c' ∨ (x ∈ s.clients ∧ x.cid ≠ c.cid)

theorem One.trans {s s' s'' : State} {c c' c'' : Client} (h1 : One p T s s' c c') (h2 : One p T s' s'' c' c'') : One p T s s'' c c'' := by
  refine ⟨h2.reach, h2.tab.trans h1.tab, h2.mem, h2.cid.trans h1.cid, h2.rem.trans h1.rem, fun x hx => ?_⟩
  rcases h2.cl x hx with h3 | ⟨h3, h4⟩
  · exact .inl h3
  · rcases h1.cl x h3 with rfl | h5
    · exact absurd rfl h4
    · exact .inr h5

theorem One.of {s s' : State} {c : Client} {op : Op} (hr : RC p T s) (hc : c ∈ s.clients) (hn : op.cid? = some c.cid) (hs : clientStep s c op = some s')
    (hk : op ≠ .cKill c.cid) (f : Client → Client) (h1 : s'.tab = s.tab) (h2 : s'.clients = (s.mapC c.cid f).clients) (hf : (f c).cid = c.cid)
    (hrem : (f c).remove = c.remove) : One p T s s' c (f c) := by
  refine ⟨hr.clientOp hc hn hs hk, h1, ?_, hf, hrem, fun x hx => ?_⟩
  · rw [h2]; exact List.mem_map.2 ⟨c, hc, if_pos rfl⟩
  · rw [h2] at hx
    obtain ⟨y, hy, rfl⟩ := List.mem_map.1 hx
    split
    · rename_i he
      exact .inl (by rw [cid_inj hr.cinv.nd hy hc he])
    · rename_i he
      exact .inr ⟨hy, he⟩

theorem foundH_getWorker {t : Tab} (h : HInv p t) {id : Name} {r : Found} (hf : foundH t.hist id r) : getWorker t id = some r := by
  have h1 := h.kn id
  have h2 := h.inst id
  unfold getWorker
  cases hg : t.workers.get? id with
  | none =>
    rw [hg] at h1 h2
    cases r with
    | notFound => rfl
    | worker w rid => rw [hf.2] at h1; cases h1
  | some i =>
    rw [hg] at h1 h2
    cases r with
    | notFound => rw [show knownH t.hist id = none from hf] at h1; cases h1
    | worker w rid =>
      have h2 : instH t.hist id = i.worker := h2
      have h1 : knownH t.hist id = some i.rid := h1
      rw [hf.1] at h2
      rw [hf.2] at h1
      cases h1
      simp only [← h2]

theorem wait_getWorker {t : Tab} (h : HInv p t) {id : Name} (hw : (knownH t.hist id).isSome = true ∧ instH t.hist id = none) : getWorker t id = none := by
  have h2 := h.inst id
  obtain ⟨i, hi⟩ := (known_iff h id).1 hw.1
  rw [hi, hw.2] at h2
  exact getWorker_none.2 ⟨i, hi, h2.symm⟩

section
variable {s : State} {c : Client} {id : Name}

theorem look_imm (hr : RC p T s) (hc : c ∈ s.clients) (hp : c.pc = .lock id) (hmu : s.muFree = true) {r : Found} (hf : foundH s.tab.hist id r) :
    ∃ s' c', One p T s s' c c' ∧ s'.mu = none ∧ c'.pc = .immediate id r := by
  refine ⟨_, _, One.of (op := .cLock c.cid) (s' := s.cto c.cid (.immediate id r)) hr hc rfl ?_ nofun (fun c => { c with pc := .immediate id r }) rfl rfl rfl rfl,
    mu_of_free hmu, rfl⟩
  simp only [clientStep, hp, hmu, if_true, foundH_getWorker hr.tab.hinv hf]

theorem look_wait (hr : RC p T s) (hc : c ∈ s.clients) (hp : c.pc = .lock id) (hmu : s.muFree = true)
    (hw : (knownH s.tab.hist id).isSome = true ∧ instH s.tab.hist id = none) :
    ∃ s' c', One p T s s' c c' ∧ s'.mu = none ∧ c'.pc = .waiting id ∧ ∀ x, c'.helper = some x → x.wc = none := by
  have o1 := One.of (op := .cLock c.cid)
    (s' := (s.mapC c.cid (fun c => { c with pc := .waiting id, helper := some { id := id } })).setMu (some c.cid)) hr hc rfl
    (by simp only [clientStep, hp, hmu, if_true, wait_getWorker hr.tab.hinv hw]) nofun
    (fun c => { c with pc := .waiting id, helper := some { id := id } }) rfl rfl rfl rfl
  have o2 := One.of (op := .hCheck c.cid)
    (s' := ((s.mapC c.cid (fun c => { c with pc := .waiting id, helper := some { id := id } })).setMu (some c.cid)).mapH c.cid
      (fun h => { h with pc := .enter })) o1.reach o1.mem rfl (by simp only [clientStep, if_true, Bool.false_eq_true, if_false]) nofun
    (fun c => { c with helper := c.helper.map (fun h => { h with pc := .enter }) }) rfl rfl rfl rfl
  have o3 := One.of (op := .hEnter c.cid)
    (s' := ((((s.mapC c.cid (fun c => { c with pc := .waiting id, helper := some { id := id } })).setMu (some c.cid)).mapH c.cid
      (fun h => { h with pc := .enter })).mapH c.cid (fun h => { h with pc := .sleep })).setMu none) o2.reach o2.mem rfl (by simp only [clientStep, Option.map_some, if_true]) nofun
    (fun c => { c with helper := c.helper.map (fun h => { h with pc := .sleep }) }) rfl rfl rfl rfl
  refine ⟨_, _, (o1.trans o2).trans o3, rfl, rfl, ?_⟩
  intro x hx
  have hx : some { id := id, pc := .sleep : Helper } = some x := hx
  cases hx; rfl

theorem imm_kill (hr : RC p T s) (hc : c ∈ s.clients) {w rid : Nat} (hp : c.pc = .immediate id (.worker w rid)) (hd : dyingH p s.tab.hist = false)
    (hrem : c.remove = true) : ∃ s' c', One p T s s' c c' ∧ s'.mu = s.mu ∧ c'.pc = .removeKill w rid := by
  refine ⟨_, _, One.of (op := .cImmediate c.cid) (s' := s.cto c.cid (.removeKill w rid)) hr hc rfl ?_ nofun (fun c => { c with pc := .removeKill w rid }) rfl rfl rfl rfl,
    rfl, rfl⟩
  have hd : s.tab.dying = false := (hr.tab.dyingH).trans hd
  simp only [clientStep, hp, hd, afterInfo, hrem, if_true, Bool.false_eq_true, if_false]

theorem got_kill (hr : RC p T s) (hc : c ∈ s.clients) {w rid : Nat} (hp : c.pc = .gotWc id (.worker w rid)) (hrem : c.remove = true) :
    ∃ s' c', One p T s s' c c' ∧ s'.mu = s.mu ∧ c'.pc = .removeKill w rid := by
  refine ⟨_, _, One.of (op := .cGotWc c.cid) (s' := s.cto c.cid (.removeKill w rid)) hr hc rfl ?_ nofun (fun c => { c with pc := .removeKill w rid }) rfl rfl rfl rfl,
    rfl, rfl⟩
  simp only [clientStep, hp, afterInfo, hrem, if_true, reduceCtorEq, false_and, if_false]

theorem wait_got (hr : RC p T s) (hc : c ∈ s.clients) (hp : c.pc = .waiting id) (hmu : s.muFree = true) (hb : s.tab.pc ≠ .bcast)
    (hwc : ∀ x, c.helper = some x → x.wc = none) {w rid : Nat} (hf : HasW s.tab.hist id w rid) :
    ∃ s' c', One p T s s' c c' ∧ s'.mu = none ∧ c'.pc = .gotWc id (.worker w rid) := by
  obtain ⟨x, hx, hid, hst, hdone⟩ := hr.minv.waits c hc id hp
  have hg : getWorker s.tab x.id = some (.worker w rid) := by rw [hid]; exact foundH_getWorker (r := .worker w rid) hr.tab.hinv hf
  have hpc : x.pc = .woken := by
    cases hxp : x.pc with
    | woken => rfl
    | check => have := (hr.minv.holder c hc x hx (.inl hxp)).2; rw [hg] at this; cases this
    | enter => have := (hr.minv.holder c hc x hx (.inr hxp)).2; rw [hg] at this; cases this
    | sleep => exact absurd (hr.reach.winv c hc x hx hxp w rid hg) hb
    | done => have := hdone hxp; rw [hwc x hx] at this; cases this
  have o1 := One.of (op := .hWake c.cid) (s' := s.mapH c.cid (fun h => { h with pc := .done, wc := some (.worker w rid) })) hr hc rfl
    (by simp only [clientStep, hx, hpc, hmu, hg, true_and, if_true]) nofun
    (fun c => { c with helper := c.helper.map (fun h => { h with pc := .done, wc := some (.worker w rid) }) }) rfl rfl rfl rfl
  have o2 := One.of (op := .cRecv c.cid)
    (s' := (s.mapH c.cid (fun h => { h with pc := .done, wc := some (.worker w rid) })).mapC c.cid
      (fun c => { c with pc := .gotWc id (.worker w rid), helper := c.helper.map (fun h => { h with wc := none }) })) o1.reach o1.mem rfl
    (by simp only [clientStep, hx, hp, Option.map_some, Option.bind_some]) nofun
    (fun c => { c with pc := .gotWc id (.worker w rid), helper := c.helper.map (fun h => { h with wc := none }) }) rfl rfl rfl rfl
  exact ⟨_, _, o1.trans o2, mu_of_free hmu, rfl⟩

end

/-- What a lookup can do now. -/
inductive Adv (p : Params) (T : Choice) (h : List Ev) (cid : Nat) (id : Name) : Stat → Stat → Prop
  | imm (r : Found) : foundH h id r → Adv p T h cid id .lock (.imm r)
  | wait : (knownH h id).isSome = true ∧ instH h id = none → Adv p T h cid id .lock .wait
  | kill (w : Nat) : callH h cid = some (.remove id) → HasW h id w (T.reg cid) → dyingH p h = false → Adv p T h cid id .lock (.kill w)
  | got (w rid : Nat) : HasW h id w rid → Adv p T h cid id .wait (.got w rid)
  | gotKill (w : Nat) : callH h cid = some (.remove id) → HasW h id w (T.reg cid) → Adv p T h cid id .wait (.kill w)

theorem Adv.step {s : State} {c : Client} {id : Name} {x y : Stat} (ha : Adv p T s.tab.hist c.cid id x y) (hr : RC p T s) (hc : c ∈ s.clients)
    (hca : callH s.tab.hist c.cid = some (lookupCall c id)) (hp : c.pc = atStat T c.cid id x) (hwc : x = .wait → ∀ x, c.helper = some x → x.wc = none)
    (hmu : s.muFree = true) (hb : s.tab.pc ≠ .bcast) :
    ∃ s' c', One p T s s' c c' ∧ s'.mu = none ∧ c'.pc = atStat T c.cid id y ∧ (y = .wait → ∀ x, c'.helper = some x → x.wc = none) := by
  have hrem : callH s.tab.hist c.cid = some (.remove id) → c.remove = true := by
    intro h1
    rw [hca] at h1
    unfold lookupCall at h1
    split at h1
    · rename_i h2; exact h2
    · cases h1
  cases ha with
  | imm r h1 =>
    obtain ⟨s', c', o, h2, h3⟩ := look_imm hr hc hp hmu h1
    exact ⟨s', c', o, h2, h3, nofun⟩
  | wait h1 =>
    obtain ⟨s', c', o, h2, h3, h4⟩ := look_wait hr hc hp hmu h1
    exact ⟨s', c', o, h2, h3, fun _ => h4⟩
  | kill w h1 h2 h3 =>
    obtain ⟨s', c', o, h4, h5⟩ := look_imm hr hc hp hmu (r := .worker w (T.reg c.cid)) h2
    obtain ⟨s2, c2, o2, h6, h7⟩ := imm_kill o.reach o.mem h5 (by rw [o.tab]; exact h3) (by rw [o.rem]; exact hrem h1)
    exact ⟨s2, c2, o.trans o2, h6.trans h4, h7, nofun⟩
  | got w rid h1 =>
    obtain ⟨s', c', o, h2, h3⟩ := wait_got hr hc hp hmu hb (hwc rfl) h1
    exact ⟨s', c', o, h2, h3, nofun⟩
  | gotKill w h1 h2 =>
    obtain ⟨s', c', o, h4, h5⟩ := wait_got hr hc hp hmu hb (hwc rfl) h2
    obtain ⟨s2, c2, o2, h6, h7⟩ := got_kill o.reach o.mem h5 (by rw [o.rem]; exact hrem h1)
    exact ⟨s2, c2, o.trans o2, h6.trans h4, h7, nofun⟩

end Verif.Runner
