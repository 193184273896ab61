import Verif.Runner.ExactPlan

/-!
# Runner: an execution for every possible history

The execution does what is not seen as late as it can. `Canon` says where everything is then.
-/

namespace Verif.Runner
open Tab State RSpec Spec

variable {p : Params} {T : Choice}

/-- Those that are still to be told. -/
def RestOk (h : List Ev) (rest : List Name) : Prop :=
  ∀ l, busyH h = .tell l → rest.Nodup ∧ ∀ id, id ∈ rest ↔ ((knownH h id).isSome = true ∧ id ∉ l)

theorem Idle.rest {h : List Ev} (hi : Idle h) : RestOk h [] := by
  intro l hl
  rcases hi with h1 | ⟨l', h1, h2⟩
  · rw [hl] at h1; cases h1
  · rw [hl] at h1; cases h1
    exact ⟨.nil, fun id => ⟨nofun, fun hx => absurd (h2 id hx.1) hx.2⟩⟩

def LCanon (h : List Ev) (rest : List Name) : LoopPc → Prop
  | .top | .killAll | .reply .. | .act (.stop _) | .exited => True
  | .killing r => r = rest ∧ r ≠ [] ∧ busyH h ≠ .tell []
  | .bcast | .select | .act (.start ..) | .act (.started ..) | .act (.done ..) => False

def GCanon (h : List Ev) (g : G) : Prop :=
  (∀ e, g.pc = .sendDone e → ∃ err, phaseH h g.gid = some (.failed err)) ∧ (g.pc = .ready → ¬ Delayed h g.gid)

/-- Where a client is. Lookups are as far as `st` says. -/
inductive CCanon (T : Choice) (st : Nat → Stat) (pc : LoopPc) (c : Client) : Prop
  | send (id sf : Nat) : c.pc = .startSend id sf → CCanon T st pc c
  | stop (id : Name) : c.pc = .stopSend id → CCanon T st pc c
  | ret (r : Ret) : c.pc = .returned r → CCanon T st pc c
  | reply (r : Option Err) : c.pc = .startReply → pc = .reply c.cid r → CCanon T st pc c
  | look (id : Name) : c.pc = atStat T c.cid id (st c.cid) → (st c.cid = .wait → ∀ x, c.helper = some x → x.wc = none) → CCanon T st pc c
  | kill (w : Nat) : c.pc = .removeWait w (T.reg c.cid) → CCanon T st pc c

structure Canon (p : Params) (T : Choice) (rest : List Name) (st : Nat → Stat) (s : State) : Prop where
  reach : RC p T s
  mu : s.mu = none
  cl : ∀ c ∈ s.clients, CCanon T st s.tab.pc c
  pc : LCanon s.tab.hist rest s.tab.pc
  gs : ∀ g ∈ s.tab.gs, GCanon s.tab.hist g
  times : ∀ id i, s.tab.workers.get? id = some i → i.started = T.time i.rid

theorem Canon.init (rest : List Name) (st : Nat → Stat) : Canon p T rest st init := by
  refine ⟨.init, rfl, nofun, trivial, nofun, ?_⟩
  intro id i h; simp [Runner.init, AMap.empty, AMap.get?] at h

theorem CCanon.any {st : Nat → Stat} {pc : LoopPc} {c : Client} (hc : CCanon T st pc c) (hp : ∀ c r, pc ≠ .reply c r) (pc' : LoopPc) : CCanon T st pc' c := by
  cases hc with
  | send id sf h => exact .send id sf h
  | stop id h => exact .stop id h
  | ret r h => exact .ret r h
  | reply r h h' => exact absurd h' (hp _ _)
  | look id h h' => exact .look id h h'
  | kill w h => exact .kill w h

theorem CCanon.same {st st' : Nat → Stat} {pc : LoopPc} {c c' : Client} (hc : CCanon T st pc c) (h1 : c'.cid = c.cid) (h2 : c'.pc = c.pc) (h3 : st' c.cid = st c.cid)
    (h4 : ∀ x', c'.helper = some x' → ∃ x, c.helper = some x ∧ x'.wc = x.wc) : CCanon T st' pc c' := by
  cases hc with
  | send id sf h => exact .send id sf (h2.trans h)
  | stop id h => exact .stop id (h2.trans h)
  | ret r h => exact .ret r (h2.trans h)
  | reply r h h' => exact .reply r (h2.trans h) (by rw [h1]; exact h')
  | look id h h' =>
    refine .look id (by rw [h2, h1, h3]; exact h) (fun hw x' hx' => ?_)
    obtain ⟨x, h5, h6⟩ := h4 x' hx'
    rw [h6]
    exact h' (by rw [← h3, ← h1]; exact hw) x h5
  | kill w h => exact .kill w (by rw [h2, h1]; exact h)

theorem CCanon.wake {st : Nat → Stat} {pc : LoopPc} {c : Client} (hc : CCanon T st pc c) : CCanon T st pc { c with helper := c.helper.map Helper.wake } := by
  refine hc.same rfl rfl rfl (fun x' hx' => ?_)
  obtain ⟨x, h1, rfl⟩ := Option.map_eq_some_iff.1 hx'
  refine ⟨x, h1, ?_⟩
  rcases x.wake_cases with ⟨_, h2⟩ | ⟨_, h2⟩ <;> rw [h2]

theorem GCanon.mono {h h' : List Ev} {g : G} (hg : GCanon h g) (hp : phaseH h' g.gid = phaseH h g.gid) (hd : Delayed h' g.gid → Delayed h g.gid) :
    GCanon h' g := ⟨fun e he => by rw [hp]; exact hg.1 e he, fun hr hx => hg.2 hr (hd hx)⟩

theorem delayed_cons {e : Ev} {h : List Ev} {k : Nat} (he : ∀ id d sf, e ≠ .begin id k d sf) (hd : Delayed (e :: h) k) : Delayed h k := by
  obtain ⟨id, d, sf, hm, h0⟩ := hd
  rcases List.mem_cons.1 hm with hm | hm
  · exact absurd hm.symm (he _ _ _)
  · exact ⟨id, d, sf, hm, h0⟩

theorem GCanon.cons {e : Ev} {h : List Ev} {g : G} (hg : GCanon h g) (hp : phaseH (e :: h) g.gid = phaseH h g.gid)
    (he : ∀ id d sf, e ≠ .begin id g.gid d sf) : GCanon (e :: h) g := hg.mono hp (delayed_cons he)

theorem stop_hist {t : Tab} (hH : HInv p t) (id : Name) :
    (killLocked (t.log (.stopHandled id)) id).hist = (caused p (.stopHandled id) t.hist).reverse ++ .stopHandled id :: t.hist := by
  rw [killLocked_hist, show killEvs (t.log (.stopHandled id)) id = killEvs t id from rfl, killEvs_eq hH]
  rfl

theorem told_hist {t : Tab} (hH : HInv p t) {id : Name} (hk : (knownH t.hist id).isSome = true) :
    (killLocked t id).hist = (caused p (.told id) t.hist).reverse ++ .told id :: t.hist := by
  rw [killLocked_hist, killEvs_eq hH, if_pos hk, List.reverse_cons, List.append_assoc]
  rfl

theorem learned_hist {t : Tab} (hH : HInv p t) {gid : Nat} {id : Name} {w : Nat} {info : WInfo} (hi : t.workers.get? id = some info) :
    (setWorker t gid id w).hist = (caused p (.learned id gid w) t.hist).reverse ++ .learned id gid w :: t.hist := by
  rw [(setWorker_eq (gid := gid) (w := w) hi).1]
  have : (info.stopping = true ∨ t.isDying = true) ↔ (toldH t.hist id = true ∨ .shutdown ∈ t.hist) := by rw [hH.told _ _ hi, hH.shut]
  simp only [caused, this]

/-! ## Steps -/

/-- An attempt that has begun has a phase. -/
theorem begin_phase {h : List Ev} (hk : AtEvery (EvOk p) h) {id g : Nat} {d : Int} {sf : Nat} (hm : .begin id g d sf ∈ h) : phaseH h g ≠ none := by
  induction h with
  | nil => cases hm
  | cons e h ih =>
    rcases List.mem_cons.1 hm with rfl | hm
    · simp [phaseH]
    · have ih := ih hk.2 hm
      cases e <;> simp only [phaseH] <;> first | exact ih | (split <;> first | exact ih | nofun)

theorem callH_event {h : List Ev} {k : Nat} {c : Call} (hc : callH h k = some c) : ∃ e ∈ h, evCid e = some k := by
  apply Classical.byContradiction
  intro hx
  rw [callH_none (fun e he hk => hx ⟨e, he, by cases e <;> first | exact hk | cases hk⟩)] at hc
  cases hc

/-- Everybody is woken. -/
theorem RC.settle {s : State} {st : Nat → Stat} (hr : RC p T s) (hp : s.tab.pc = .bcast) (hcl : ∀ c ∈ s.clients, CCanon T st s.tab.pc c) :
    ∃ s', RC p T s' ∧ s'.tab = s.tab.goTo .top ∧ s'.mu = s.mu ∧ ∀ c ∈ s'.clients, CCanon T st .top c := by
  refine ⟨(broadcast s).withTab (s.tab.goTo .top), .step .bcast hr ?_ nofun, rfl, rfl, ?_⟩
  · simp only [Runner.step, hp, if_true]
  · intro c hc
    obtain ⟨x, h1, rfl⟩ := List.mem_map.1 hc
    exact ((hcl x h1).any (by rw [hp]; nofun) _).wake

theorem RC.select {s : State} (hr : RC p T s) (hp : s.tab.pc = .top) (hR : ¬ (.shutdown ∈ s.tab.hist ∧ ∀ id, knownH s.tab.hist id = none)) :
    RC p T (s.withTab (s.tab.goTo .select)) := by
  have hH := hr.tab.hinv
  refine hr.tabOp (op := .loopTop) ?_ rfl nofun nofun nofun nofun nofun nofun
  simp only [tabStep, hp, if_true]
  rw [if_neg]
  rw [Bool.and_eq_true, keys_isEmpty]
  exact fun hx => hR ⟨hH.shut.1 hx.1, fun id => (unknown_iff hH id).2 (hx.2 id)⟩

/-- In the middle of nothing. -/
theorem Canon.idle {s : State} {rest : List Name} {st : Nat → Stat} (hc : Canon p T rest st s) (hI : Idle s.tab.hist) (hro : RestOk s.tab.hist rest) :
    s.tab.pc = .top ∨ (s.tab.pc = .killAll ∧ .shutdown ∈ s.tab.hist ∧ ∀ id, knownH s.tab.hist id = none) := by
  obtain ⟨T', hx⟩ := hc.reach.xinv
  have hX := hx.tab.pc
  have hp := hc.pc
  cases hpc : s.tab.pc with
  | top => exact .inl rfl
  | bcast => rw [hpc] at hp; cases hp
  | select => rw [hpc] at hp; cases hp
  | act m =>
    rw [hpc] at hp hX
    cases m with
    | stop id =>
      have hX : busyH s.tab.hist = .stop id := hX
      rcases hI with h1 | ⟨l, h1, _⟩ <;> rw [hX] at h1 <;> cases h1
    | _ => cases hp
  | reply c r =>
    rw [hpc] at hX
    have hX : busyH s.tab.hist = .reply c (toRet r) := hX
    rcases hI with h1 | ⟨l, h1, _⟩ <;> rw [hX] at h1 <;> cases h1
  | exited =>
    rw [hpc] at hX
    have hX : busyH s.tab.hist = .exited := hX
    rcases hI with h1 | ⟨l, h1, _⟩ <;> rw [hX] at h1 <;> cases h1
  | killAll =>
    rw [hpc] at hX
    have hX : busyH s.tab.hist = .tell [] := hX
    refine .inr (⟨rfl, hc.reach.tab.hinv.shut.1 (hc.reach.tab.shape.killing (by rw [hpc]; rfl)), fun id => ?_⟩)
    rcases hI with h1 | ⟨l, h1, h2⟩
    · rw [hX] at h1; cases h1
    · rw [hX] at h1; cases h1
      cases hk : knownH s.tab.hist id with
      | none => rfl
      | some r => cases h2 id (by rw [hk]; rfl)
  | killing r =>
    rw [hpc] at hX hp
    obtain ⟨h1, h2, h3⟩ := hp
    obtain ⟨l, h4, h5, h6, h7⟩ := hX
    rcases hI with h8 | ⟨l', h8, h9⟩
    · rw [h4] at h8; cases h8
    · rw [h4] at h8; cases h8
      cases r with
      | nil => exact absurd rfl h2
      | cons x r =>
        have hk := h6 x List.mem_cons_self
        exact absurd (h9 x hk) ((h7 x hk).1 List.mem_cons_self)

theorem Canon.toSelect {s : State} {rest : List Name} {st : Nat → Stat} (hc : Canon p T rest st s) (hR : Ready s.tab.hist) (hro : RestOk s.tab.hist rest) :
    RC p T (s.withTab (s.tab.goTo .select)) := by
  rcases hc.idle hR.1 hro with hp | ⟨_, hp⟩
  · exact hc.reach.select hp hR.2
  · exact absurd hp hR.2

theorem Canon.toTop {s : State} {rest : List Name} {st : Nat → Stat} (hc : Canon p T rest st s) (hI : Idle s.tab.hist) (hro : RestOk s.tab.hist rest) :
    ∃ s', RC p T s' ∧ s'.tab = s.tab.goTo .top ∧ s'.mu = none ∧ ∀ c ∈ s'.clients, CCanon T st .top c := by
  rcases hc.idle hI hro with hp | ⟨hp, hs, hk⟩
  · refine ⟨s, hc.reach, ?_, hc.mu, by rw [← hp]; exact hc.cl⟩
    unfold Tab.goTo
    rw [← hp]
  · have h1 : RC p T (s.withTab (s.tab.goTo (.killing []))) := by
      refine hc.reach.tabOp (op := .killAll []) ?_ rfl nofun nofun nofun nofun nofun nofun
      have ho : isRangeOrder s.tab.workers [] = true := by
        rw [isRangeOrder_iff]
        refine ⟨.nil, fun id => ⟨nofun, fun hx => ?_⟩⟩
        rw [AMap.mem_keys_iff, (unknown_iff hc.reach.tab.hinv id).1 (hk id)] at hx
        cases hx
      simp only [tabStep]
      rw [if_pos ⟨hp, hc.mu, ho⟩]
    have h2 : RC p T (s.withTab (s.tab.goTo .bcast)) := by
      refine h1.tabOp (op := .killNext) (t := s.tab.goTo .bcast) ?_ rfl nofun nofun nofun nofun nofun nofun
      rfl
    obtain ⟨s', a1, a2, a3, a4⟩ := h2.settle (s := s.withTab (s.tab.goTo .bcast)) (st := st) rfl
      (fun c hm => (hc.cl c hm).any (by rw [hp]; nofun) _)
    exact ⟨s', a1, a2, a3.trans hc.mu, a4⟩

theorem client_of {s : State} (hr : Reach p s) {cid : Nat} {call : Call} (hc : callH s.tab.hist cid = some call) : ∃ c ∈ s.clients, c.cid = cid := by
  obtain ⟨e, he, hk⟩ := callH_event hc
  exact hr.rinv.all cid (hr.cinv.evLt e he cid hk)

/-- Who looks for a worker. -/
theorem RC.pending {s : State} (hr : RC p T s) {c : Client} (hm : c ∈ s.clients) {id : Name} {x : Stat} (hp : c.pc = atStat T c.cid id x) :
    ∃ id', Pending s.tab.hist c.cid id' ∧ c.pc = atStat T c.cid id' x ∧ ((∀ w, x ≠ .kill w) → callH s.tab.hist c.cid = some (lookupCall c id')) := by
  obtain ⟨T', hx⟩ := hr.xinv
  have hret := (hr.cinv.ok c hm).ret
  have key : ∀ id, (∀ r, c.pc ≠ .returned r) → NoKill s.tab.hist c.cid → callH s.tab.hist c.cid = some (lookupCall c id) → Pending s.tab.hist c.cid id := by
    intro id h1 h2 h3
    refine ⟨hret h1, h2, ?_⟩
    unfold lookupCall at h3
    split at h3
    · exact .inr h3
    · exact .inl h3
  cases x with
  | lock =>
    have h1 : callH s.tab.hist c.cid = some (lookupCall c id) := hr.reach.pcOk hm hp
    have h2 : NoKill s.tab.hist c.cid := hx.at hm hp
    exact ⟨id, key id (by rw [hp]; nofun) h2 h1, hp, fun _ => h1⟩
  | imm r =>
    have h1 := (hr.reach.pcOk hm hp).1
    have h2 := (hx.at hm hp).1
    exact ⟨id, key id (by rw [hp]; nofun) h2 h1, hp, fun _ => h1⟩
  | wait =>
    have h1 := (hr.reach.pcOk hm hp).1
    have h2 := (hx.at hm hp).1
    exact ⟨id, key id (by rw [hp]; nofun) h2 h1, hp, fun _ => h1⟩
  | got w rid =>
    have h1 := (hr.reach.pcOk hm hp).1
    have h2 := (hx.at hm hp).1
    exact ⟨id, key id (by rw [hp]; nofun) h2 h1, hp, fun _ => h1⟩
  | kill w =>
    obtain ⟨id', h1, _⟩ := (show ∃ id, _ from hr.reach.pcOk hm hp)
    have h2 := (hx.at hm hp).1
    exact ⟨id', ⟨hret (by rw [hp]; nofun), h2, .inr h1⟩, hp, fun hn => absurd rfl (hn w)⟩

theorem Canon.looker {s : State} {rest : List Name} {st : Nat → Stat} (hc : Canon p T rest st s) {cid : Nat} {id : Name} (hp : Pending s.tab.hist cid id) :
    ∃ c ∈ s.clients, c.cid = cid ∧ c.pc = atStat T c.cid id (st c.cid) ∧ (st c.cid = .wait → ∀ x, c.helper = some x → x.wc = none) ∧
      ((∀ w, st c.cid ≠ .kill w) → callH s.tab.hist c.cid = some (lookupCall c id)) := by
  obtain ⟨h1, h2, h3⟩ := hp
  obtain ⟨c, hm, rfl⟩ : ∃ c ∈ s.clients, c.cid = cid := by rcases h3 with h3 | h3 <;> exact client_of hc.reach.reach h3
  refine ⟨c, hm, rfl, ?_⟩
  have no : ∀ call, callH s.tab.hist c.cid = some call → (∀ id, call ≠ .worker id) → (∀ id, call ≠ .remove id) → False := by
    intro call hca n1 n2
    rcases h3 with h3 | h3 <;> rw [hca] at h3 <;> injection h3 with h3
    · exact n1 _ h3
    · exact n2 _ h3
  cases hc.cl c hm with
  | send i f hp => exact (no (.start i f) (hc.reach.reach.pcOk hm hp) nofun nofun).elim
  | stop i hp => exact (no (.stop i) (hc.reach.reach.pcOk hm hp) nofun nofun).elim
  | ret r hp => exact absurd (hc.reach.reach.pcOk hm hp) (h1 r)
  | reply r hp _ =>
    obtain ⟨i, f, h4, _⟩ := (show ∃ id, _ from hc.reach.reach.pcOk hm hp)
    exact (no (.start i f) h4 nofun nofun).elim
  | kill w hp =>
    obtain ⟨T', hx⟩ := hc.reach.xinv
    exact absurd (hx.at hm hp).2 (h2 w)
  | look i hp hw =>
    obtain ⟨id', ⟨_, _, h4⟩, h5, h6⟩ := hc.reach.pending hm hp
    have : id' = id := by
      rcases h3 with h3 | h3 <;> rcases h4 with h4 | h4 <;> (rw [h3] at h4; cases h4) <;> rfl
    subst this
    exact ⟨h5, hw, h6⟩

/-- The client of a StartWorker call whose request is undecided. -/
theorem Canon.asker {s : State} {rest : List Name} {st : Nat → Stat} (hc : Canon p T rest st s) {cid id sf : Nat} (hb : ∀ r, s.tab.pc ≠ .reply cid r)
    (ha : callH s.tab.hist cid = some (.start id sf)) (hn : ∀ r, .ret cid r ∉ s.tab.hist) :
    ∃ c ∈ s.clients, c.cid = cid ∧ c.pc = .startSend id sf := by
  have hlt : cid < s.nextC := by
    obtain ⟨e, he, hk⟩ := callH_event ha
    exact hc.reach.cinv.evLt e he cid hk
  obtain ⟨c, hm, rfl⟩ := hc.reach.rinv.all cid hlt
  refine ⟨c, hm, rfl, ?_⟩
  cases hc.cl c hm with
  | send i f hp =>
    rw [show callH s.tab.hist c.cid = some (.start i f) from hc.reach.reach.pcOk hm hp] at ha
    cases ha; exact hp
  | stop i hp =>
    rw [show callH s.tab.hist c.cid = some (.stop i) from hc.reach.reach.pcOk hm hp] at ha
    cases ha
  | ret r hp => exact absurd (hc.reach.reach.pcOk hm hp) (hn r)
  | reply r hp hr => exact absurd hr (hb _)
  | look i hp _ =>
    obtain ⟨_, ⟨_, _, h4⟩, _⟩ := hc.reach.pending hm hp
    rcases h4 with h4 | h4 <;> (rw [ha] at h4; cases h4)
  | kill w hp =>
    obtain ⟨i, h4, _⟩ := (show ∃ id, _ from hc.reach.reach.pcOk hm hp)
    rw [ha] at h4; cases h4

/-! ## One event more -/

/-- There is an execution with the history, with the lookups as far as they can be. -/
def Have (p : Params) (T : Choice) (h : List Ev) : Prop :=
  ∀ rest st, RestOk h rest → StOk p T h st → ∃ s, Canon p T rest st s ∧ s.tab.hist = h

/-- There is one in which lookups have not looked again since the last event. -/
def Moved (p : Params) (T : Choice) (h h' : List Ev) : Prop :=
  ∀ rest st, RestOk h' rest → StOk p T h st → ∃ s, Canon p T rest st s ∧ s.tab.hist = h'

def upd (st : Nat → Stat) (cid : Nat) (x : Stat) : Nat → Stat := fun k => if k = cid then x else st k

theorem upd_self (st : Nat → Stat) (cid : Nat) (x : Stat) : upd st cid x cid = x := if_pos rfl
theorem upd_ne (st : Nat → Stat) {cid k : Nat} (x : Stat) (h : k ≠ cid) : upd st cid x k = st k := if_neg h

theorem StOk.upd {h : List Ev} {st : Nat → Stat} (hs : StOk p T h st) {cid : Nat} {x : Stat} (hx : StOk1 p T h cid x) : StOk p T h (upd st cid x) := by
  intro k
  by_cases hk : k = cid
  · subst hk; rw [upd_self]; exact hx
  · rw [upd_ne _ _ hk]; exact hs k

/-- An event that does not matter to the run goroutine. -/
theorem have_calmX {e : Ev} {h : List Ev} (hv : Have p T h) (hb : busyH (e :: h) = busyH h) (hk : ∀ id, knownH (e :: h) id = knownH h id)
    (hca : caused p e h = []) (X : (Nat → Stat) → Nat → Stat) (hX : ∀ st, StOk p T h st → StOk p T h (X st))
    (hs : ∀ rest st s, RestOk h rest → StOk p T h st → Canon p T rest (X st) s → s.tab.hist = h → ∃ s', RC p T s' ∧ s'.mu = none ∧
      (∀ c ∈ s'.clients, CCanon T st s.tab.pc c) ∧
      s'.tab.pc = s.tab.pc ∧ s'.tab.hist = e :: h ∧ s'.tab.workers = s.tab.workers ∧ ∀ g ∈ s'.tab.gs, GCanon (e :: h) g) :
    Moved p T h ((caused p e h).reverse ++ e :: h) := by
  rw [hca]
  intro rest st hr hst
  have hr : RestOk h rest := by
    intro l hl
    have := hr l (show busyH (e :: h) = .tell l by rw [hb]; exact hl)
    simpa only [List.reverse_nil, List.nil_append, hk] using this
  obtain ⟨s, hc, rfl⟩ := hv rest (X st) hr (hX st hst)
  obtain ⟨s', h1, h2, h3, h4, h5, h6, h7⟩ := hs rest st s hr hst hc rfl
  refine ⟨s', ⟨h1, h2, by rw [h4]; exact h3, ?_, by rw [h5]; exact h7, by rw [h6]; exact hc.times⟩, h5⟩
  have := hc.pc
  rw [h4, h5]
  cases hpc : s.tab.pc with
  | killing r =>
    rw [hpc] at this
    exact ⟨this.1, this.2.1, by rw [hb]; exact this.2.2⟩
  | act m => rw [hpc] at this; cases m <;> exact this
  | _ => rw [hpc] at this; exact this

theorem have_calm {e : Ev} {h : List Ev} (hv : Have p T h) (hb : busyH (e :: h) = busyH h) (hk : ∀ id, knownH (e :: h) id = knownH h id)
    (hca : caused p e h = [])
    (hs : ∀ rest st s, RestOk h rest → StOk p T h st → Canon p T rest st s → s.tab.hist = h → ∃ s', RC p T s' ∧ s'.mu = none ∧
      (∀ c ∈ s'.clients, CCanon T st s.tab.pc c) ∧
      s'.tab.pc = s.tab.pc ∧ s'.tab.hist = e :: h ∧ s'.tab.workers = s.tab.workers ∧ ∀ g ∈ s'.tab.gs, GCanon (e :: h) g) :
    Moved p T h ((caused p e h).reverse ++ e :: h) :=
  have_calmX hv hb hk hca (fun st => st) (fun _ h => h) hs

/-- An event of the run goroutine. -/
theorem have_loop {e : Ev} {h : List Ev} (hv : Have p T h) (hro : RestOk h [])
    (hs : ∀ st s, StOk p T h st → Canon p T [] st s → s.tab.hist = h → ∃ s', RC p T s' ∧ s'.mu = none ∧ (∀ c ∈ s'.clients, CCanon T st s'.tab.pc c) ∧
      (s'.tab.pc = .bcast ∨ ∀ h rest, LCanon h rest s'.tab.pc) ∧ s'.tab.hist = (caused p e h).reverse ++ e :: h ∧ (∀ g ∈ s'.tab.gs, GCanon s'.tab.hist g) ∧
      ∀ id i, s'.tab.workers.get? id = some i → i.started = T.time i.rid) :
    Moved p T h ((caused p e h).reverse ++ e :: h) := by
  intro rest st hr hst
  obtain ⟨s, hc, hh⟩ := hv [] st hro hst
  obtain ⟨s', h1, h2, h3, h4, h5, h6, h7⟩ := hs st s hst hc hh
  rcases h4 with h4 | h4
  · obtain ⟨s2, a1, a2, a3, a4⟩ := h1.settle h4 h3
    refine ⟨s2, ⟨a1, a3.trans h2, by rw [a2]; exact a4, by rw [a2]; exact trivial, by rw [a2]; exact h6, by rw [a2]; exact h7⟩, by rw [a2]; exact h5⟩
  · exact ⟨s', ⟨h1, h2, h3, h4 _ _, h6, h7⟩, h5⟩

theorem Canon.noReply {s : State} {rest : List Name} {st : Nat → Stat} (hc : Canon p T rest st s) (hI : Idle s.tab.hist) (hro : RestOk s.tab.hist rest) :
    ∀ c r, s.tab.pc ≠ .reply c r := by
  intro c r hx
  rcases hc.idle hI hro with h | ⟨h, _⟩ <;> rw [hx] at h <;> cases h

/-- A request is taken and decided about. -/
theorem Canon.request {s : State} {st : Nat → Stat} (hc : Canon p T [] st s) (hR : Ready s.tab.hist) {cid id sf : Nat} (ha : Asks s.tab.hist cid id sf) (now : Int)
    {r : Option Err} (hp : (act p (s.tab.goTo (.act (.start cid id sf))) now (.start cid id sf)).pc = .reply cid r) :
    ∃ s', RC p T s' ∧ s'.mu = none ∧ (∀ c ∈ s'.clients, CCanon T st s'.tab.pc c) ∧
      (∀ h rest, LCanon h rest s'.tab.pc) ∧ s'.tab = act p (s.tab.goTo (.act (.start cid id sf))) now (.start cid id sf) := by
  have hro := Idle.rest hR.1
  have hnr := hc.noReply hR.1 hro
  obtain ⟨c, hm, rfl, hcp⟩ := hc.asker (hnr _) ha.1 ha.2.1
  have h1 := hc.toSelect hR hro
  have h2 : RC p T (((s.withTab (s.tab.goTo .select)).cto c.cid .startReply).withTab (s.tab.goTo (.act (.start c.cid id sf)))) := by
    refine h1.clientOp (op := .recvStart c.cid) (c := c) hm rfl ?_ nofun
    simp only [clientStep, hcp]
    rfl
  have h3 := h2.tabOp (op := .act now) (t := act p (s.tab.goTo (.act (.start c.cid id sf))) now (.start c.cid id sf)) (by
    simp only [tabStep]
    exact if_pos (.inr hc.mu)) rfl nofun nofun nofun nofun nofun nofun
  refine ⟨_, h3, hc.mu, ?_, ?_, rfl⟩
  · intro x hx
    show CCanon T st (act p (s.tab.goTo (.act (.start c.cid id sf))) now (.start c.cid id sf)).pc x
    rw [hp]
    have hx : x ∈ s.clients.map (fun y => if y.cid = c.cid then { y with pc := .startReply } else y) := hx
    obtain ⟨y, hy, rfl⟩ := List.mem_map.1 hx
    split
    · rename_i he; exact .reply r rfl (by rw [he])
    · exact (hc.cl y hy).any hnr _
  · intro h rest
    show LCanon h rest (act p (s.tab.goTo (.act (.start c.cid id sf))) now (.start c.cid id sf)).pc
    rw [hp]; trivial

theorem have_accepted {h : List Ev} (hv : Have p T h) {cid id rid sf : Nat} (hc : Can p T (.accepted cid id rid sf) h) :
    Moved p T h ((caused p (.accepted cid id rid sf) h).reverse ++ .accepted cid id rid sf :: h) := by
  obtain ⟨h1, h2, h3, h4, h5⟩ := hc
  refine have_loop hv (Idle.rest h1.1) (fun st s hst hc hh => ?_)
  subst hh
  obtain ⟨T', hx⟩ := hc.reach.xinv
  have hH := hc.reach.tab.hinv
  have hd : s.tab.isDying = false := by
    cases hd : s.tab.isDying with
    | false => rfl
    | true => exact absurd (hH.shut.1 hd) h4
  have hk : s.tab.workers.get? id = none := (unknown_iff hH id).1 h3
  have hact : act p (s.tab.goTo (.act (.start cid id sf))) (T.time rid) (.start cid id sf) =
      (acceptStart p (s.tab.goTo (.act (.start cid id sf))) cid id sf (T.time rid)).goTo (.reply cid none) := by
    simp only [act]
    rw [if_neg (by simp [Tab.goTo, hd]), if_neg (by simp [Tab.goTo, hk])]
  obtain ⟨s', a1, a2, a3, a4, a5⟩ := hc.request h1 h2 (T.time rid) (r := none) (by rw [hact]; rfl)
  have hnR : s.tab.nextR = rid := by rw [h5]; exact hx.tab.nR
  have hh : s'.tab.hist = .begin id (begins s.tab.hist) 0 sf :: .accepted cid id rid sf :: s.tab.hist := by
    rw [a5, hact, ← hx.tab.nG, ← hnR]; rfl
  refine ⟨s', a1, a2, a3, .inr a4, hh, ?_, ?_⟩
  · rw [hh, a5, hact]
    intro g hg
    have hg : g = { gid := s.tab.nextG, id := id, delay := 0, sf := sf, ctx := some cid, pc := .ready } ∨ g ∈ s.tab.gs := List.mem_cons.1 hg
    rcases hg with rfl | hg
    · refine ⟨nofun, fun _ => ?_⟩
      rintro ⟨i, d, f, hm, h0⟩
      simp only [List.mem_cons, Ev.begin.injEq, reduceCtorEq, false_or] at hm
      rcases hm with ⟨_, _, rfl, _⟩ | hm
      · omega
      · have := begin_phase hc.reach.tab.evOk hm
        exact this (hH.fresh _ (Nat.le_refl _))
    · have hne : g.gid ≠ s.tab.nextG := Nat.ne_of_lt (hc.reach.tab.shape.gidLt g hg)
      rw [hx.tab.nG] at hne
      refine ((hc.gs g hg).cons (e := .accepted cid id rid sf) rfl nofun).cons ?_ ?_
      · simp [phaseH, hne]
      · intro i d f he; injection he with _ he; exact hne he.symm
  · rw [a5, hact]
    intro j i hj
    have hj : (s.tab.workers.set id { rid := s.tab.nextR, start := some sf, restartDelay := p.restartDelay, started := T.time rid }).get? j = some i := hj
    rw [AMap.get?_set] at hj
    split at hj
    · cases hj; rw [hnR]
    · exact hc.times j i hj

theorem have_ignored {h : List Ev} (hv : Have p T h) {cid id : Nat} (hc : Can p T (.ignored cid id) h) :
    Moved p T h ((caused p (.ignored cid id) h).reverse ++ .ignored cid id :: h) := by
  obtain ⟨h1, ⟨sf, h2⟩, h3⟩ := hc
  refine have_loop hv (Idle.rest h1.1) (fun st s hst hc hh => ?_)
  subst hh
  have hact : act p (s.tab.goTo (.act (.start cid id sf))) 0 (.start cid id sf) =
      ((s.tab.goTo (.act (.start cid id sf))).log (.ignored cid id)).goTo (.reply cid none) := by
    simp only [act]
    rw [if_pos (show (s.tab.goTo (.act (.start cid id sf))).isDying = true from hc.reach.tab.hinv.shut.2 h3)]
  obtain ⟨s', a1, a2, a3, a4, a5⟩ := hc.request h1 h2 0 (r := none) (by rw [hact]; rfl)
  have hh : s'.tab.hist = .ignored cid id :: s.tab.hist := by rw [a5, hact]; rfl
  refine ⟨s', a1, a2, a3, .inr a4, hh, ?_, ?_⟩
  · rw [hh, a5, hact]
    exact fun g hg => (hc.gs g hg).cons rfl nofun
  · rw [a5, hact]; exact hc.times

theorem have_refused {h : List Ev} (hv : Have p T h) {cid id : Nat} (hc : Can p T (.refused cid id) h) :
    Moved p T h ((caused p (.refused cid id) h).reverse ++ .refused cid id :: h) := by
  obtain ⟨h1, ⟨sf, h2⟩, h3, h4⟩ := hc
  refine have_loop hv (Idle.rest h1.1) (fun st s hst hc hh => ?_)
  subst hh
  have hH := hc.reach.tab.hinv
  obtain ⟨i, hi⟩ := (known_iff hH id).1 h3
  have hact : act p (s.tab.goTo (.act (.start cid id sf))) 0 (.start cid id sf) =
      ((s.tab.goTo (.act (.start cid id sf))).log (.refused cid id)).goTo (.reply cid (some (.alreadyExists id))) := by
    simp only [act]
    rw [if_neg (show ¬ (s.tab.goTo (.act (.start cid id sf))).isDying = true from fun hx => h4 (hH.shut.1 hx)),
      if_pos (show ((s.tab.goTo (.act (.start cid id sf))).workers.get? id).isSome = true by simp [Tab.goTo, hi])]
  obtain ⟨s', a1, a2, a3, a4, a5⟩ := hc.request h1 h2 0 (r := some (.alreadyExists id)) (by rw [hact]; rfl)
  have hh : s'.tab.hist = .refused cid id :: s.tab.hist := by rw [a5, hact]; rfl
  refine ⟨s', a1, a2, a3, .inr a4, hh, ?_, ?_⟩
  · rw [hh, a5, hact]
    exact fun g hg => (hc.gs g hg).cons rfl nofun
  · rw [a5, hact]; exact hc.times

theorem Canon.notGone {s : State} {rest : List Name} {st : Nat → Stat} (hc : Canon p T rest st s) {g : G} (hg : g ∈ s.tab.gs) (e : Option Err) : g.pc ≠ .gone e := by
  intro hx
  have := hc.reach.tab.shape.goneAct g hg e hx
  have hp := hc.pc
  rw [this] at hp
  exact hp

theorem Canon.notAct {s : State} {rest : List Name} {st : Nat → Stat} (hc : Canon p T rest st s) (gid id w : Nat) : s.tab.pc ≠ .act (.started gid id w) := by
  intro hx
  have hp := hc.pc
  rw [hx] at hp
  exact hp

theorem phase_other {e : Ev} {h : List Ev} {k k' : Nat} (hne : k' ≠ k) (he : ∀ i d f, e ≠ .begin i k' d f)
    (h1 : (∃ i f, e = .startCall i k f) ∨ (∃ i w, e = .startOk i k w) ∨ (∃ i x, e = .startErr i k x) ∨ ∃ i x, e = .ended i k x) :
    phaseH (e :: h) k' = phaseH h k' := by
  rcases h1 with ⟨i, f, rfl⟩ | ⟨i, f, rfl⟩ | ⟨i, f, rfl⟩ | ⟨i, f, rfl⟩ <;> simp [phaseH, hne]

theorem have_startCall {h : List Ev} (hv : Have p T h) {id k sf : Nat} (hc : Can p T (.startCall id k sf) h) :
    Moved p T h ((caused p (.startCall id k sf) h).reverse ++ .startCall id k sf :: h) := by
  obtain ⟨h1, h2, h3⟩ := hc
  refine have_calm hv rfl (fun _ => rfl) rfl (fun rest st s hro hst hc hh => ?_)
  subst hh
  have hH := hc.reach.tab.hinv
  have hS := hc.reach.tab.shape
  obtain ⟨g, hg, rfl, rfl⟩ := (hH.opn _ _).1 h1
  have hsf := hH.gsf g hg
  rw [h3] at hsf
  cases hsf
  have key : ∀ s1 : State, RC p T s1 → s1.tab = s.tab ∨ s1.tab = s.tab.gto g.gid .ready → s1.mu = none → s1.clients = s.clients →
      (∃ g1 ∈ s1.tab.gs, g1.gid = g.gid ∧ g1.id = g.id ∧ g1.sf = g.sf ∧ g1.pc = .ready) → ∃ s', RC p T s' ∧ s'.mu = none ∧
      (∀ c ∈ s'.clients, CCanon T st s.tab.pc c) ∧
      s'.tab.pc = s.tab.pc ∧ s'.tab.hist = .startCall g.id g.gid g.sf :: s.tab.hist ∧ s'.tab.workers = s.tab.workers ∧
      ∀ g' ∈ s'.tab.gs, GCanon (.startCall g.id g.gid g.sf :: s.tab.hist) g' := by
    intro s1 hr1 ht hm hcl ⟨g1, hg1, e1, e2, e3, hp1⟩
    have hS1 := hr1.tab.shape
    have h5 : RC p T (s1.withTab ((s1.tab.gto g1.gid .starting).log (.startCall g1.id g1.gid g1.sf))) := by
      refine hr1.tabOp (op := .gCall g1.gid) ?_ rfl nofun nofun nofun nofun nofun nofun
      simp only [tabStep, getG_at hS1 hg1, hp1, if_true]
    refine ⟨_, h5, hm, fun c hc' => hc.cl c (hcl ▸ hc'), ?_, ?_, ?_, ?_⟩
    · show s1.tab.pc = _; rcases ht with ht | ht <;> rw [ht] <;> rfl
    · show _ :: s1.tab.hist = _; rw [e1, e2, e3]; rcases ht with ht | ht <;> rw [ht] <;> rfl
    · show s1.tab.workers = _; rcases ht with ht | ht <;> rw [ht] <;> rfl
    · refine gs_gto (t := s1.tab) ⟨nofun, nofun⟩ (fun g' hg' hne => ?_) hS1 hg1
      rw [e1] at hne
      have hg' : g' ∈ s.tab.gs := by
        rcases ht with ht | ht
        · rw [← ht]; exact hg'
        · rw [ht] at hg'
          obtain ⟨x, hx, rfl⟩ := List.mem_map.1 hg'
          split at hne
          · rename_i he; exact absurd he hne
          · rename_i he; rw [if_neg he]; exact hx
      exact (hc.gs g' hg').cons (phase_other hne nofun (.inl ⟨_, _, rfl⟩)) nofun
  have hph := hH.ph g hg
  unfold PhaseOk at hph
  cases hp : g.pc with
  | ready => exact key s hc.reach (.inl rfl) hc.mu rfl ⟨g, hg, rfl, rfl, rfl, hp⟩
  | delaying =>
    have h5 : RC p T (s.withTab (s.tab.gto g.gid .ready)) := by
      refine hc.reach.tabOp (op := .gTimer g.gid) ?_ rfl nofun nofun nofun nofun nofun nofun
      simp only [tabStep, getG_at hS hg, hp, if_true]
    refine key _ h5 (.inr rfl) hc.mu rfl ⟨{ g with pc := .ready }, ?_, rfl, rfl, rfl, rfl⟩
    exact List.mem_map.2 ⟨g, hg, by rw [if_pos rfl]⟩
  | sendDone e =>
    obtain ⟨err, hx⟩ := (hc.gs g hg).1 e hp
    rw [h2] at hx; cases hx
  | gone e => exact absurd hp (hc.notGone hg e)
  | starting => rw [hp] at hph; rw [show phaseH s.tab.hist g.gid = _ from hph] at h2; cases h2
  | sendStarted w => rw [hp] at hph; rw [show phaseH s.tab.hist g.gid = _ from hph] at h2; cases h2
  | waiting w => rw [hp] at hph; rw [show phaseH s.tab.hist g.gid = _ from hph] at h2; cases h2

/-- The start function is being called. -/
theorem Canon.calling {s : State} {rest : List Name} {st : Nat → Stat} (hc : Canon p T rest st s) {g : G} (hg : g ∈ s.tab.gs)
    (h2 : phaseH s.tab.hist g.gid = some .calling) : g.pc = .starting := by
  have hph := hc.reach.tab.hinv.ph g hg
  unfold PhaseOk at hph
  cases hp : g.pc with
  | starting => rfl
  | sendDone e =>
    obtain ⟨err, hx⟩ := (hc.gs g hg).1 e hp
    rw [h2] at hx; cases hx
  | gone e => exact absurd hp (hc.notGone hg e)
  | ready => rw [hp] at hph; rw [show phaseH s.tab.hist g.gid = _ from hph] at h2; cases h2
  | delaying => rw [hp] at hph; rw [show phaseH s.tab.hist g.gid = _ from hph] at h2; cases h2
  | sendStarted w => rw [hp] at hph; rw [show phaseH s.tab.hist g.gid = _ from hph] at h2; cases h2
  | waiting w => rw [hp] at hph; rw [show phaseH s.tab.hist g.gid = _ from hph] at h2; cases h2

theorem Canon.running {s : State} {rest : List Name} {st : Nat → Stat} (hc : Canon p T rest st s) {g : G} (hg : g ∈ s.tab.gs) {w : Nat}
    (h2 : phaseH s.tab.hist g.gid = some (.running w)) : g.pc = .sendStarted w ∨ g.pc = .waiting w := by
  have hph := hc.reach.tab.hinv.ph g hg
  unfold PhaseOk at hph
  cases hp : g.pc with
  | sendDone e =>
    obtain ⟨err, hx⟩ := (hc.gs g hg).1 e hp
    rw [h2] at hx; cases hx
  | gone e => exact absurd hp (hc.notGone hg e)
  | starting => rw [hp] at hph; rw [show phaseH s.tab.hist g.gid = _ from hph] at h2; cases h2
  | ready => rw [hp] at hph; rw [show phaseH s.tab.hist g.gid = _ from hph] at h2; cases h2
  | delaying => rw [hp] at hph; rw [show phaseH s.tab.hist g.gid = _ from hph] at h2; cases h2
  | sendStarted w => rw [hp] at hph; rw [show phaseH s.tab.hist g.gid = _ from hph] at h2; cases h2; exact .inl rfl
  | waiting w => rw [hp] at hph; rw [show phaseH s.tab.hist g.gid = _ from hph] at h2; cases h2; exact .inr rfl

theorem have_startOk {h : List Ev} (hv : Have p T h) {id k w : Nat} (hc : Can p T (.startOk id k w) h) :
    Moved p T h ((caused p (.startOk id k w) h).reverse ++ .startOk id k w :: h) := by
  obtain ⟨h1, h2⟩ := hc
  refine have_calm hv rfl (fun _ => rfl) rfl (fun rest st s hro hst hc hh => ?_)
  subst hh
  have hS := hc.reach.tab.shape
  obtain ⟨g, hg, rfl, rfl⟩ := (hc.reach.tab.hinv.opn _ _).1 h1
  have h5 : RC p T (s.withTab ((s.tab.gto g.gid (.sendStarted w)).log (.startOk g.id g.gid w))) := by
    refine hc.reach.tabOp (op := .gStartOk g.gid w) ?_ rfl nofun nofun nofun nofun nofun nofun
    simp only [tabStep, getG_at hS hg, hc.calling hg h2, if_true]
  refine ⟨_, h5, hc.mu, hc.cl, rfl, rfl, rfl, ?_⟩
  exact gs_gto (t := s.tab) ⟨nofun, nofun⟩
    (fun g' hg' hne => (hc.gs g' hg').cons (phase_other hne nofun (.inr (.inl ⟨_, _, rfl⟩))) nofun) hS hg

theorem have_startErr {h : List Ev} (hv : Have p T h) {id k : Nat} {x : Err} (hc : Can p T (.startErr id k x) h) :
    Moved p T h ((caused p (.startErr id k x) h).reverse ++ .startErr id k x :: h) := by
  obtain ⟨h1, h2⟩ := hc
  refine have_calm hv rfl (fun _ => rfl) rfl (fun rest st s hro hst hc hh => ?_)
  subst hh
  have hS := hc.reach.tab.shape
  obtain ⟨g, hg, rfl, rfl⟩ := (hc.reach.tab.hinv.opn _ _).1 h1
  have h5 : RC p T (s.withTab ((s.tab.gto g.gid (.sendDone (some x))).log (.startErr g.id g.gid x))) := by
    refine hc.reach.tabOp (op := .gStartErr g.gid x) ?_ rfl nofun nofun nofun nofun nofun nofun
    simp only [tabStep, getG_at hS hg, hc.calling hg h2, if_true]
  refine ⟨_, h5, hc.mu, hc.cl, rfl, rfl, rfl, ?_⟩
  exact gs_gto (t := s.tab) ⟨fun _ _ => ⟨x, by simp [phaseH]⟩, nofun⟩
    (fun g' hg' hne => (hc.gs g' hg').cons (phase_other hne nofun (.inr (.inr (.inl ⟨_, _, rfl⟩)))) nofun) hS hg

/-- An event of nobody in particular. -/
theorem have_tab {e : Ev} {h : List Ev} (hv : Have p T h) (hca : caused p e h = []) (he : Calm2 e) (hph : ∀ h k, phaseH (e :: h) k = phaseH h k)
    (hb : ∀ i k d f, e ≠ .begin i k d f)
    (hs : ∀ rest st s, RestOk h rest → StOk p T h st → Canon p T rest st s → s.tab.hist = h → ∃ t, RC p T (s.withTab t) ∧ t.pc = s.tab.pc ∧ t.hist = e :: h ∧
      t.workers = s.tab.workers ∧ t.gs = s.tab.gs) : Moved p T h ((caused p e h).reverse ++ e :: h) := by
  refine have_calm hv (he.busy _) (he.known _) hca (fun rest st s hro hst hc hh => ?_)
  obtain ⟨t, h1, h2, h3, h4, h5⟩ := hs rest st s hro hst hc hh
  refine ⟨_, h1, hc.mu, hc.cl, h2, h3, h4, ?_⟩
  show ∀ g ∈ t.gs, _
  rw [h5]
  intro g hg
  subst hh
  exact (hc.gs g hg).cons (hph _ _) (fun i d f => hb i _ d f)

theorem have_kill {h : List Ev} (hv : Have p T h) : Moved p T h ((caused p .kill h).reverse ++ .kill :: h) := by
  refine have_tab hv rfl calm_kill (fun _ _ => rfl) nofun (fun rest st s hro hst hc hh => ?_)
  subst hh
  refine ⟨_, hc.reach.tabOp (op := .kill) rfl rfl nofun nofun nofun nofun nofun nofun, rfl, rfl, rfl, rfl⟩

theorem have_finished {h : List Ev} (hv : Have p T h) {w : Nat} {x : Option Err} (hc : Can p T (.finished w x) h) :
    Moved p T h ((caused p (.finished w x) h).reverse ++ .finished w x :: h) := by
  refine have_tab hv rfl (calm_finished _ _) (fun _ _ => rfl) nofun (fun rest st s hro hst hc' hh => ?_)
  subst hh
  have hc : finishedH s.tab.hist w = none := hc
  refine ⟨{ s.tab with finished := s.tab.finished.set w x }.log (.finished w x),
    hc'.reach.tabOp (op := .finish w x) ?_ rfl nofun nofun nofun nofun nofun nofun, rfl, rfl, rfl, rfl⟩
  simp only [tabStep, hc'.reach.tab.hinv.fin, hc]
  rfl

theorem have_ctx {h : List Ev} (hv : Have p T h) {k : Nat} {b : Bool} (hc : Can p T (.ctx k b) h) :
    Moved p T h ((caused p (.ctx k b) h).reverse ++ .ctx k b :: h) := by
  refine have_tab hv rfl (calm_ctx _ _) (fun _ _ => rfl) nofun (fun rest st s hro hst hc' hh => ?_)
  subst hh
  obtain ⟨h1, h2⟩ := hc
  have hH := hc'.reach.tab.hinv
  have hg : ∃ g ∈ s.tab.gs, g.gid = k := by
    rcases Nat.lt_or_ge k s.tab.nextG with hlt | hge
    · rcases Decidable.em (k ∈ s.tab.gs.map G.gid) with hm | hm
      · obtain ⟨g, hg, he⟩ := List.mem_map.1 hm; exact ⟨g, hg, he⟩
      · have := hH.over k hlt hm
        rcases h1 with h1 | ⟨w, h1⟩ <;> rw [this] at h1 <;> cases h1
    · have := hH.fresh k hge
      rcases h1 with h1 | ⟨w, h1⟩ <;> rw [this] at h1 <;> cases h1
  obtain ⟨g, hg, rfl⟩ := hg
  have hu : g.pc.inUser = true := by
    rcases h1 with h1 | ⟨w, h1⟩
    · rw [hc'.calling hg h1]; rfl
    · rcases hc'.running hg h1 with h3 | h3 <;> rw [h3] <;> rfl
  refine ⟨s.tab.log (.ctx g.gid b), hc'.reach.tabOp (op := .gCtx g.gid) ?_ rfl nofun nofun nofun nofun nofun nofun, rfl, rfl, rfl, rfl⟩
  have hb : ctxDone s g = b := by
    have := ctxDone_iff hc'.reach.reach hc'.reach.rinv hg
    rw [← h2] at this
    cases b <;> cases hx : ctxDone s g <;> simp_all
  simp only [tabStep, getG_at hc'.reach.tab.shape hg, hu, if_true, hb]

theorem Canon.muFree {s : State} {rest : List Name} {st : Nat → Stat} (hc : Canon p T rest st s) (hl : ¬ Locked s.tab.hist) : s.muFree = true := by
  unfold State.muFree
  rw [hc.mu]
  cases hp : s.tab.pc with
  | killing r =>
    obtain ⟨T', hx⟩ := hc.reach.xinv
    have h1 := hc.pc
    have h2 := hx.tab.pc
    rw [hp] at h1 h2
    obtain ⟨l, h3, h4, h5, h6⟩ := h2
    obtain ⟨_, h8, h9⟩ := h1
    cases r with
    | nil => exact absurd rfl h8
    | cons x r =>
      have hk := h5 x List.mem_cons_self
      exact absurd ⟨l, h3, fun he => h9 (he ▸ h3), x, hk, (h6 x hk).1 List.mem_cons_self⟩ hl
  | _ => rfl

theorem have_names {h : List Ev} (hv : Have p T h) {l : List Name} (hc : Can p T (.names l) h) :
    Moved p T h ((caused p (.names l) h).reverse ++ .names l :: h) := by
  refine have_tab hv rfl (calm_names _) (fun _ _ => rfl) nofun (fun rest st s hro hst hc' hh => ?_)
  subst hh
  obtain ⟨h1, h2, h3⟩ := hc
  have ho : isRangeOrder s.tab.workers l = true := by
    rw [isRangeOrder_iff]
    refine ⟨h2, fun id => ?_⟩
    rw [h3, AMap.mem_keys_iff, known_iff hc'.reach.tab.hinv, Option.isSome_iff_exists]
  refine ⟨s.tab.log (.names l), hc'.reach.tabOp (op := .names l) ?_ rfl nofun nofun nofun nofun nofun nofun, rfl, rfl, rfl, rfl⟩
  simp only [tabStep]
  rw [if_pos ⟨hc'.muFree h1, ho⟩]

theorem have_report {h : List Ev} (hv : Have p T h) {l : List Line} (hc : Can p T (.report l) h) :
    Moved p T h ((caused p (.report l) h).reverse ++ .report l :: h) := by
  refine have_tab hv rfl (calm_report _) (fun _ _ => rfl) nofun (fun rest st s hro hst hc' hh => ?_)
  subst hh
  obtain ⟨h1, h2, h3, h4⟩ := hc
  have hH := hc'.reach.tab.hinv
  have ho : isRangeOrder s.tab.workers (l.map Line.id) = true := by
    rw [isRangeOrder_iff]
    refine ⟨h2, fun id => ?_⟩
    rw [h3, AMap.mem_keys_iff, known_iff hH, Option.isSome_iff_exists]
  have hl : reportLines s.tab (l.map Line.id) = l := by
    have key : ∀ m : List Line, (∀ x ∈ m, x ∈ l) → reportLines s.tab (m.map Line.id) = m := by
      intro m
      induction m with
      | nil => intro _; rfl
      | cons x m ih =>
        intro hm
        obtain ⟨e1, e2, rid, e3, e4⟩ := h4 x (hm x List.mem_cons_self)
        have e5 := hH.inst x.id
        rw [hH.kn] at e3
        obtain ⟨i, hi, rfl⟩ := Option.map_eq_some_iff.1 e3
        rw [hi] at e5
        have e5 : instH s.tab.hist x.id = i.worker := e5
        have hline : lineOf x.id i = x := by
          rw [e5] at e1 e2
          have e6 : i.lastStart = x.lastStart := by
            rw [e4]; unfold WInfo.lastStart stamp; rw [hc'.times _ _ hi]
          have e7 : i.status = x.status := by
            rw [e1]
            unfold WInfo.status
            have := hc'.reach.tab.shape.stopped _ _ hi
            cases hw : i.worker <;> cases hst : i.stopping <;> simp_all
          unfold lineOf
          rw [e6, e7, ← e2]
        have := ih (fun y hy => hm y (List.mem_cons_of_mem _ hy))
        unfold reportLines at this ⊢
        simp only [List.map_cons, List.filterMap_cons, hi, Option.map_some, hline]
        rw [this]
    exact key l (fun x hx => hx)
  refine ⟨s.tab.log (.report l), hc'.reach.tabOp (op := .report (l.map Line.id)) ?_ rfl nofun nofun nofun nofun nofun nofun, rfl, rfl, rfl, rfl⟩
  simp only [tabStep]
  rw [if_pos ⟨hc'.muFree h1, ho⟩, hl]

theorem have_callStart {h : List Ev} (hv : Have p T h) {cid id sf : Nat} (hc : Can p T (.callStart cid id sf) h) :
    Moved p T h ((caused p (.callStart cid id sf) h).reverse ++ .callStart cid id sf :: h) := by
  refine have_calm hv rfl (fun _ => rfl) rfl (fun rest st s hro hst hc' hh => ?_)
  subst hh
  obtain ⟨T', hx⟩ := hc'.reach.xinv
  have hc : cid = calls s.tab.hist := hc
  rw [← hx.nC] at hc
  subst hc
  refine ⟨_, .step (.callStart id sf) hc'.reach rfl nofun, hc'.mu, ?_, rfl, rfl, rfl, fun g hg => (hc'.gs g hg).cons rfl nofun⟩
  intro c hm
  rcases List.mem_cons.1 hm with rfl | hm
  · exact .send _ _ rfl
  · exact hc'.cl c hm

theorem have_callStop {h : List Ev} (hv : Have p T h) {cid id : Nat} (hc : Can p T (.callStop cid id) h) :
    Moved p T h ((caused p (.callStop cid id) h).reverse ++ .callStop cid id :: h) := by
  refine have_calm hv rfl (fun _ => rfl) rfl (fun rest st s hro hst hc' hh => ?_)
  subst hh
  obtain ⟨T', hx⟩ := hc'.reach.xinv
  have hc : cid = calls s.tab.hist := hc
  rw [← hx.nC] at hc
  subst hc
  refine ⟨_, .step (.callStop id) hc'.reach rfl nofun, hc'.mu, ?_, rfl, rfl, rfl, fun g hg => (hc'.gs g hg).cons rfl nofun⟩
  intro c hm
  rcases List.mem_cons.1 hm with rfl | hm
  · exact .stop _ rfl
  · exact hc'.cl c hm

theorem Canon.newcomer {s : State} {rest : List Name} {st : Nat → Stat} (hc : Canon p T rest st s) (hst : StOk p T s.tab.hist st) : st s.nextC = .lock := by
  refine (hst s.nextC).1 ?_
  cases hk : callH s.tab.hist s.nextC with
  | none => rfl
  | some call =>
    obtain ⟨e, he, hk⟩ := callH_event hk
    exact absurd (hc.reach.cinv.evLt e he _ hk) (Nat.lt_irrefl _)

theorem have_callWorker {h : List Ev} (hv : Have p T h) {cid id : Nat} (hc : Can p T (.callWorker cid id) h) :
    Moved p T h ((caused p (.callWorker cid id) h).reverse ++ .callWorker cid id :: h) := by
  refine have_calm hv rfl (fun _ => rfl) rfl (fun rest st s hro hst hc' hh => ?_)
  subst hh
  obtain ⟨T', hx⟩ := hc'.reach.xinv
  have hc : cid = calls s.tab.hist := hc
  rw [← hx.nC] at hc
  subst hc
  have hl := hc'.newcomer hst
  refine ⟨_, .step (.callWorker id) hc'.reach rfl nofun, hc'.mu, ?_, rfl, rfl, rfl, fun g hg => (hc'.gs g hg).cons rfl nofun⟩
  intro c hm
  rcases List.mem_cons.1 hm with rfl | hm
  · refine .look id ?_ ?_
    · show CPc.lock id = atStat T s.nextC id (st s.nextC)
      rw [hl]; rfl
    · show st s.nextC = .wait → _
      rw [hl]; nofun
  · exact hc'.cl c hm

theorem have_callRemove {h : List Ev} (hv : Have p T h) {cid id : Nat} (hc : Can p T (.callRemove cid id) h) :
    Moved p T h ((caused p (.callRemove cid id) h).reverse ++ .callRemove cid id :: h) := by
  refine have_calm hv rfl (fun _ => rfl) rfl (fun rest st s hro hst hc' hh => ?_)
  subst hh
  obtain ⟨T', hx⟩ := hc'.reach.xinv
  have hc : cid = calls s.tab.hist := hc
  rw [← hx.nC] at hc
  subst hc
  have hl := hc'.newcomer hst
  refine ⟨_, .step (.callRemove id) hc'.reach rfl nofun, hc'.mu, ?_, rfl, rfl, rfl, fun g hg => (hc'.gs g hg).cons rfl nofun⟩
  intro c hm
  rcases List.mem_cons.1 hm with rfl | hm
  · refine .look id ?_ ?_
    · show CPc.lock id = atStat T s.nextC id (st s.nextC)
      rw [hl]; rfl
    · show st s.nextC = .wait → _
      rw [hl]; nofun
  · exact hc'.cl c hm

theorem have_cancelled {h : List Ev} (hv : Have p T h) {cid : Nat} (hc : Can p T (.cancelled cid) h) :
    Moved p T h ((caused p (.cancelled cid) h).reverse ++ .cancelled cid :: h) := by
  refine have_calm hv rfl (fun _ => rfl) rfl (fun rest st s hro hst hc' hh => ?_)
  subst hh
  have hc : (callH s.tab.hist cid).isSome = true := hc
  obtain ⟨call, hc⟩ := Option.isSome_iff_exists.1 hc
  obtain ⟨c, hm, rfl⟩ := client_of hc'.reach.reach hc
  refine ⟨_, hc'.reach.clientOp (op := .cancel c.cid) hm rfl rfl nofun, hc'.mu, ?_, rfl, rfl, rfl, fun g hg => (hc'.gs g hg).cons rfl nofun⟩
  intro x hx
  obtain ⟨y, hy, rfl⟩ := List.mem_map.1 hx
  split
  · exact (hc'.cl y hy).same rfl rfl rfl (fun x' hx' => ⟨x', hx', rfl⟩)
  · exact hc'.cl y hy

/-- A call returns. -/
theorem cl_ret {s : State} {st : Nat → Stat} {pc pc' : LoopPc} {cid : Nat} {r : Ret} {x : Stat} (hcl : ∀ c ∈ s.clients, CCanon T (upd st cid x) pc c)
    (hp : (∀ c r, pc = .reply c r → c = cid) ∨ pc' = pc) : ∀ c ∈ (s.cto cid (.returned r)).clients, CCanon T st pc' c := by
  intro z hz
  obtain ⟨y, hy, rfl⟩ := List.mem_map.1 hz
  split
  · exact .ret _ rfl
  · rename_i hne
    have hst : upd st cid x y.cid = st y.cid := upd_ne _ _ hne
    cases hcl y hy with
    | send id sf h => exact .send id sf h
    | stop id h => exact .stop id h
    | ret r h => exact .ret r h
    | look id h h' => rw [hst] at h h'; exact .look id h h'
    | kill w h => exact .kill w h
    | reply r h h3 =>
      rcases hp with hp | rfl
      · exact absurd (hp _ _ h3) hne
      · exact .reply r h h3

theorem upd_id (st : Nat → Stat) (cid : Nat) : upd st cid (st cid) = st := by
  funext k
  unfold upd
  split
  · rename_i h; rw [h]
  · rfl

theorem cl_ret' {s : State} {st : Nat → Stat} {pc pc' : LoopPc} {cid : Nat} {r : Ret} (hcl : ∀ c ∈ s.clients, CCanon T st pc c)
    (hp : (∀ c r, pc = .reply c r → c = cid) ∨ pc' = pc) : ∀ c ∈ (s.cto cid (.returned r)).clients, CCanon T st pc' c :=
  cl_ret (x := st cid) (by rw [upd_id]; exact hcl) hp

/-- A call returns because the runner is dead, or its context is cancelled. -/
theorem Canon.dead {s : State} {rest : List Name} {st : Nat → Stat} (hc : Canon p T rest st s) {c : Client} (hm : c ∈ s.clients)
    (hp : (∃ id sf, c.pc = .startSend id sf ∧ (c.cancelled = true ∨ s.tab.tomb.dead = true)) ∨ ∃ id, c.pc = .stopSend id ∧ s.tab.tomb.dead = true) :
    ∃ s', RC p T s' ∧ s'.mu = none ∧ (∀ x ∈ s'.clients, CCanon T st s.tab.pc x) ∧
      s'.tab.pc = s.tab.pc ∧ s'.tab.hist = .ret c.cid (.err .runnerDead) :: s.tab.hist ∧ s'.tab.workers = s.tab.workers ∧
      ∀ g ∈ s'.tab.gs, GCanon (.ret c.cid (.err .runnerDead) :: s.tab.hist) g := by
  refine ⟨_, hc.reach.clientOp (op := .cDead c.cid) (s' := s.return_ c.cid (.err .runnerDead)) hm rfl ?_ nofun, hc.mu, ?_, rfl, rfl, rfl,
    fun g hg => (hc.gs g hg).cons rfl nofun⟩
  · rcases hp with ⟨id, sf, h1, h2⟩ | ⟨id, h1, h2⟩
    · simp only [clientStep, h1]; rw [if_pos h2]
    · simp only [clientStep, h1]; rw [if_pos h2]
  · exact cl_ret' hc.cl (.inr rfl)

theorem undecided_reply {h : List Ev} {cid : Nat} {r : Ret} (hu : Undecided h cid) (hb : busyH h = .reply cid r) : False := by
  induction h with
  | nil => cases hb
  | cons e h ih =>
    have hu' : Undecided h cid := by
      obtain ⟨h1, h2, h3⟩ := hu
      exact ⟨fun a b c hm => h1 a b c (List.mem_cons_of_mem _ hm), fun a hm => h2 a (List.mem_cons_of_mem _ hm), fun a hm => h3 a (List.mem_cons_of_mem _ hm)⟩
    have ih := ih hu'
    obtain ⟨h1, h2, h3⟩ := hu
    cases e <;> simp only [busyH] at hb <;> first
      | exact ih hb
      | (cases hb; done)
      | (cases hb; first | exact h1 _ _ _ List.mem_cons_self | exact h2 _ List.mem_cons_self | exact h3 _ List.mem_cons_self)
      | (split at hb <;> first
          | exact ih hb
          | (cases hb; done)
          | (split at hb <;> first | exact ih hb | (cases hb; done) | (rename_i hx _; exact ih (hx.trans hb)) | (rename_i hx; exact ih (hx.trans hb))))

theorem no_reply {h : List Ev} (hv : Have p T h) {cid : Nat} {id : Name} (h2 : callH h cid = some (.worker id) ∨ callH h cid = some (.remove id)) :
    ∀ r', busyH h ≠ .reply cid r' := by
  intro r' hb
  obtain ⟨s, hc, rfl⟩ := hv [] (fun _ => .lock) (fun l hl => by rw [hb] at hl; cases hl) (fun _ => stOk1_lock _ _)
  obtain ⟨T', hx⟩ := hc.reach.xinv
  obtain ⟨r2, hp⟩ := hx.tab.pc.reply hb
  obtain ⟨c, hm, rfl, hcp⟩ := hc.reach.cinv.reply cid (.inr ⟨r2, hp⟩)
  obtain ⟨i, f, h4, _⟩ := (show ∃ id, _ from hc.reach.reach.pcOk hm hcp)
  rcases h2 with h2 | h2 <;> (rw [h4] at h2; cases h2)

theorem killed_remove : ∀ {h : List Ev}, AtEvery (Possible p T) h → ∀ {cid w : Nat}, .clientKillW cid w ∈ h → ∃ id, callH h cid = some (.remove id)
  | [], _, _, _, hm => by cases hm
  | e :: h, ha, cid, w, hm => by
    rcases List.mem_cons.1 hm with rfl | hm
    · rcases possible_cases ha.1 with ⟨_, id, h1, _⟩ | h1
      · exact ⟨id, h1⟩
      · cases h1
    · obtain ⟨id, h1⟩ := killed_remove ha.2 hm
      refine ⟨id, ?_⟩
      rcases possible_cases ha.1 with ⟨_, hc⟩ | hd
      · rw [callH_cons, h1]
        intro he
        have hlt := calls_lt ha.2 (k := cid) (by rw [h1]; rfl)
        cases e <;> first
          | (cases he; done)
          | (simp only [evCall, Option.some.injEq] at he
             subst he
             have hk : _ = calls h := hc
             omega)
      · rw [callH_cons (by rw [hd.evCall]; nofun), h1]

/-- A lookup returns: it is the only one to move. -/
theorem Canon.finish {s s1 s' : State} {rest : List Name} {st : Nat → Stat} {c c1 : Client} {x : Stat} {r : Ret} {t : Tab}
    (hc : Canon p T rest (upd st c.cid x) s) (ho : One p T s s1 c c1) (hr : RC p T s') (hcl : s'.clients = (s1.cto c.cid (.returned r)).clients)
    (hmu : s'.mu = none) (ht : s'.tab = t.log (.ret c.cid r)) (hp : t.pc = s.tab.pc) (hh : t.hist = s.tab.hist) (hw : t.workers = s.tab.workers)
    (hg : t.gs = s.tab.gs) : ∃ s', RC p T s' ∧ s'.mu = none ∧
      (∀ c ∈ s'.clients, CCanon T st s.tab.pc c) ∧ s'.tab.pc = s.tab.pc ∧ s'.tab.hist = .ret c.cid r :: s.tab.hist ∧ s'.tab.workers = s.tab.workers ∧
      ∀ g ∈ s'.tab.gs, GCanon (.ret c.cid r :: s.tab.hist) g := by
  refine ⟨s', hr, hmu, ?_, by rw [ht]; exact hp, by rw [ht, ← hh]; rfl, by rw [ht]; exact hw, ?_⟩
  · intro y hy
    rw [hcl] at hy
    obtain ⟨z, hz, rfl⟩ := List.mem_map.1 hy
    split
    · exact .ret _ rfl
    · rename_i hne
      rcases ho.cl z hz with rfl | ⟨h1, h2⟩
      · exact absurd ho.cid hne
      · exact (hc.cl z h1).same rfl rfl (upd_ne _ _ h2).symm (fun x' hx' => ⟨x', hx', rfl⟩)
  · rw [ht]
    intro g hg'
    have hg' : g ∈ t.gs := hg'
    rw [hg] at hg'
    exact (hc.gs g hg').cons rfl nofun

theorem One.refl {s : State} {c : Client} (hr : RC p T s) (hm : c ∈ s.clients) : One p T s s c c := by
  refine ⟨hr, rfl, hm, rfl, rfl, fun x hx => ?_⟩
  by_cases h : x.cid = c.cid
  · exact .inl (cid_inj hr.cinv.nd hx hm h)
  · exact .inr ⟨hx, h⟩

/-- A lookup returns at once. -/
theorem Canon.quit {s : State} {rest : List Name} {st : Nat → Stat} {c : Client} {x : Stat} {r : Ret} {op : Op}
    (hc : Canon p T rest (upd st c.cid x) s) (hm : c ∈ s.clients) (hn : op.cid? = some c.cid) (hs : clientStep s c op = some (s.return_ c.cid r))
    (hk : op ≠ .cKill c.cid) : ∃ s', RC p T s' ∧ s'.mu = none ∧
      (∀ c ∈ s'.clients, CCanon T st s.tab.pc c) ∧ s'.tab.pc = s.tab.pc ∧ s'.tab.hist = .ret c.cid r :: s.tab.hist ∧ s'.tab.workers = s.tab.workers ∧
      ∀ g ∈ s'.tab.gs, GCanon (.ret c.cid r :: s.tab.hist) g :=
  hc.finish (One.refl hc.reach hm) (hc.reach.clientOp hm hn hs hk) rfl hc.mu rfl rfl rfl rfl rfl

theorem have_noWorker {h : List Ev} (hv : Have p T h) {cid : Nat} {id : Name} {r : Ret} (h1 : ∀ r', .ret cid r' ∉ h)
    (h2 : callH h cid = some (.worker id) ∨ callH h cid = some (.remove id)) (hk : NoKill h cid) (h3 : NoWorker p h cid id r) :
    Moved p T h ((caused p (.ret cid r) h).reverse ++ .ret cid r :: h) := by
  have hpe : Pending h cid id := ⟨h1, hk, h2⟩
  have hb := no_reply hv h2
  rcases h3 with ⟨rfl, hd, hse⟩ | ⟨rfl, hd, hse⟩ | ⟨rfl, hcn, hse⟩
  · refine have_calmX hv (busy_ret hb nofun) (fun _ => rfl) rfl (fun st => upd st cid (.imm .notFound))
      (fun st hst => hst.upd (stOk1_of (x := .imm .notFound) hse h2)) (fun rest st s hro hst hc hh => ?_)
    subst hh
    obtain ⟨c, hm, rfl, hcp, _⟩ := hc.looker hpe
    simp only [upd_self] at hcp
    refine hc.quit (op := .cImmediate c.cid) hm rfl ?_ nofun
    have hd : s.tab.dying = false := (hc.reach.tab.dyingH).trans hd
    simp only [clientStep, hcp, atStat, hd, afterInfo, Bool.false_eq_true, if_false]
  · have hcase : (∃ r, Sees p h cid (fun h' => foundH h' id r)) ∨ Waits p h cid id := by
      obtain ⟨a, b, e1, e2, e3, e4⟩ := hse
      cases hkn : knownH b id with
      | none => exact .inl ⟨.notFound, a, b, e1, e2, e3, hkn⟩
      | some rid =>
        cases hin : instH b id with
        | none => exact .inr ⟨a, b, e1, e2, e3, by rw [hkn]; rfl, hin⟩
        | some w => exact .inl ⟨.worker w rid, a, b, e1, e2, e3, hin, hkn⟩
    rcases hcase with ⟨f, hse⟩ | hse
    · refine have_calmX hv (busy_ret hb nofun) (fun _ => rfl) rfl (fun st => upd st cid (.imm f))
        (fun st hst => hst.upd (stOk1_of (x := .imm f) hse h2)) (fun rest st s hro hst hc hh => ?_)
      subst hh
      obtain ⟨c, hm, rfl, hcp, _⟩ := hc.looker hpe
      simp only [upd_self] at hcp
      refine hc.quit (op := .cImmediate c.cid) hm rfl ?_ nofun
      have hd : s.tab.dying = true := (hc.reach.tab.dyingH).trans hd
      simp only [clientStep, hcp, atStat, hd, if_true]
    · refine have_calmX hv (busy_ret hb nofun) (fun _ => rfl) rfl (fun st => upd st cid .wait)
        (fun st hst => hst.upd (stOk1_of (x := .wait) hse h2)) (fun rest st s hro hst hc hh => ?_)
      subst hh
      obtain ⟨c, hm, rfl, hcp, _⟩ := hc.looker hpe
      simp only [upd_self] at hcp
      refine hc.quit (op := .cDying c.cid) hm rfl ?_ nofun
      have hd : s.tab.dying = true := (hc.reach.tab.dyingH).trans hd
      simp only [clientStep, hcp, atStat, hd, if_true]
  · refine have_calmX hv (busy_ret hb nofun) (fun _ => rfl) rfl (fun st => upd st cid .wait)
      (fun st hst => hst.upd (stOk1_of (x := .wait) hse h2)) (fun rest st s hro hst hc hh => ?_)
    subst hh
    obtain ⟨c, hm, rfl, hcp, _⟩ := hc.looker hpe
    simp only [upd_self] at hcp
    have hcp : c.pc = .waiting id := hcp
    have hcn := hc.reach.rinv.canc c hm hcn
    have o1 := One.of (op := .cAbort c.cid) (s' := s.cto c.cid (.closing id)) hc.reach hm rfl (by simp only [clientStep, hcp, hcn, if_true]) nofun
      (fun c => { c with pc := .closing id }) rfl rfl rfl rfl
    have o2 := One.of (op := .cClose c.cid)
      (s' := (s.cto c.cid (.closing id)).mapC c.cid (fun c => { c with pc := .bcasting id, helper := c.helper.map (fun h => { h with stopped := true }) }))
      o1.reach o1.mem rfl (by simp only [clientStep]) nofun
      (fun c => { c with pc := .bcasting id, helper := c.helper.map (fun h => { h with stopped := true }) }) rfl rfl rfl rfl
    have o := o1.trans o2
    have a := o.reach.clientOp (op := .cBcast c.cid)
      (s' := (broadcast ((s.cto c.cid (.closing id)).mapC c.cid (fun c => { c with pc := .bcasting id, helper := c.helper.map (fun h => { h with stopped := true }) }))).return_
        c.cid (.err .runnerAborted)) o.mem rfl (by simp only [clientStep]) nofun
    refine ⟨_, a, hc.mu, ?_, rfl, rfl, rfl, fun g hg => (hc.gs g hg).cons rfl nofun⟩
    intro y hy
    obtain ⟨z, hz, rfl⟩ := List.mem_map.1 hy
    obtain ⟨z, hz', rfl⟩ := List.mem_map.1 hz
    split
    · exact .ret _ rfl
    · rename_i hne
      rcases o.cl z hz' with rfl | ⟨h1, h2⟩
      · exact absurd rfl hne
      · exact ((hc.cl z h1).same (st' := st) rfl rfl (upd_ne _ _ h2).symm (fun x' hx' => ⟨x', hx', rfl⟩)).wake

theorem have_worker {h : List Ev} (hv : Have p T h) {cid : Nat} {id : Name} {w rid : Nat} (h1 : ∀ r', .ret cid r' ∉ h)
    (h2 : callH h cid = some (.worker id)) (hk : NoKill h cid)
    (h3 : (dyingH p h = false ∧ Sees p h cid (fun h' => HasW h' id w rid)) ∨ Sees p h cid (fun h' => HasW h' id w rid ∧ Waits p h' cid id)) :
    Moved p T h ((caused p (.ret cid (.worker w)) h).reverse ++ .ret cid (.worker w) :: h) := by
  have hpe : Pending h cid id := ⟨h1, hk, .inl h2⟩
  have hb := no_reply hv (.inl h2)
  have hrem : ∀ {c : Client} {s : State}, s.tab.hist = h → c.cid = cid → callH s.tab.hist c.cid = some (lookupCall c id) → c.remove = false := by
    intro c s hh he hca
    subst hh he
    rw [h2] at hca
    unfold lookupCall at hca
    cases hr : c.remove with
    | false => rfl
    | true => rw [hr] at hca; cases hca
  rcases h3 with ⟨hd, hse⟩ | hse
  · refine have_calmX hv (busy_ret hb nofun) (fun _ => rfl) rfl (fun st => upd st cid (.imm (.worker w rid)))
      (fun st hst => hst.upd (stOk1_of (x := .imm (.worker w rid)) hse (.inl h2))) (fun rest st s hro hst hc hh => ?_)
    obtain ⟨c, hm, he, hcp, _, hca⟩ := hc.looker (by rw [hh]; exact hpe)
    have hca := hca (by rw [he, upd_self]; nofun)
    have hr := hrem hh he hca
    subst hh he
    simp only [upd_self] at hcp
    refine hc.quit (op := .cImmediate c.cid) hm rfl ?_ nofun
    have hd : s.tab.dying = false := (hc.reach.tab.dyingH).trans hd
    simp only [clientStep, hcp, atStat, hd, afterInfo, hr, Bool.false_eq_true, if_false]
  · refine have_calmX hv (busy_ret hb nofun) (fun _ => rfl) rfl (fun st => upd st cid (.got w rid))
      (fun st hst => hst.upd (stOk1_of (x := .got w rid) ⟨h2, hse⟩ (.inl h2))) (fun rest st s hro hst hc hh => ?_)
    obtain ⟨c, hm, he, hcp, _, hca⟩ := hc.looker (by rw [hh]; exact hpe)
    have hca := hca (by rw [he, upd_self]; nofun)
    have hr := hrem hh he hca
    subst hh he
    simp only [upd_self] at hcp
    refine hc.quit (op := .cGotWc c.cid) hm rfl ?_ nofun
    simp only [clientStep, hcp, atStat, afterInfo, hr, Bool.false_eq_true, if_false, reduceCtorEq, false_and]

theorem have_removed {h : List Ev} (hv : Have p T h) (ha : AtEvery (Possible p T) h) {cid : Nat} {id : Name} {w : Nat} {e : Option Err} {r : Ret}
    (h1 : ∀ r', .ret cid r' ∉ h) (h2 : callH h cid = some (.remove id)) (h4 : .clientKillW cid w ∈ h) (h5 : finishedH h w = some e)
    (h6 : (r = .err .runnerAborted ∧ .cancelled cid ∈ h) ∨ (r = .result e ∧ .removed id (T.reg cid) ∈ h ∧ ¬ Taken T h (T.reg cid))) :
    Moved p T h ((caused p (.ret cid r) h).reverse ++ .ret cid r :: h) := by
  have hok : r ≠ .ok := by rcases h6 with ⟨rfl, _⟩ | ⟨rfl, _⟩ <;> nofun
  refine have_calm hv (busy_ret (no_reply hv (.inr h2)) hok) (fun _ => rfl) rfl (fun rest st s hro hst hc hh => ?_)
  subst hh
  obtain ⟨c, hm, rfl⟩ := client_of hc.reach.reach h2
  have hcp : c.pc = .removeWait w (T.reg c.cid) := by
    cases hc.cl c hm with
    | send i f hp =>
      rw [show callH s.tab.hist c.cid = some (.start i f) from hc.reach.reach.pcOk hm hp] at h2
      cases h2
    | stop i hp =>
      rw [show callH s.tab.hist c.cid = some (.stop i) from hc.reach.reach.pcOk hm hp] at h2
      cases h2
    | ret r hp => exact absurd (hc.reach.reach.pcOk hm hp) (h1 r)
    | reply r hp hr =>
      obtain ⟨i, f, h7, _⟩ := (show ∃ id, _ from hc.reach.reach.pcOk hm hp)
      rw [h2] at h7; cases h7
    | look i hp _ =>
      obtain ⟨_, ⟨_, h7, _⟩, _⟩ := hc.reach.pending hm hp
      exact absurd h4 (h7 w)
    | kill w' hp =>
      obtain ⟨_, _, _, h7, _⟩ := (show ∃ id, _ from hc.reach.reach.pcOk hm hp)
      rw [kill_once ha h4 h7]; exact hp
  have hf : s.tab.finished.get? w = some e := by rw [hc.reach.tab.hinv.fin]; exact h5
  have o := One.of (op := .cWaitRet c.cid) (s' := s.cto c.cid (.removeSelect w (T.reg c.cid) e)) hc.reach hm rfl (by simp only [clientStep, hcp, hf]) nofun
    (fun x => { x with pc := .removeSelect w (T.reg c.cid) e }) rfl rfl rfl rfl
  have hc' : Canon p T rest (upd st c.cid (st c.cid)) s := by rw [upd_id]; exact hc
  rcases h6 with ⟨rfl, h7⟩ | ⟨rfl, h7, h8⟩
  · have hcn := hc.reach.rinv.canc c hm h7
    refine hc'.finish o (o.reach.clientOp (op := .cRemoveAbort c.cid) (s' := (s.cto c.cid (.removeSelect w (T.reg c.cid) e)).return_ c.cid (.err .runnerAborted))
      o.mem rfl ?_ nofun) rfl hc.mu (t := s.tab) rfl rfl rfl rfl rfl
    simp only [clientStep, hcn, if_true]
  · have htok : s.tab.tokens.contains (T.reg c.cid) = true := by
      rw [List.contains_iff_mem]
      exact (hc.reach.tok.iff _).2 ⟨⟨id, h7⟩, h8⟩
    refine hc'.finish o (o.reach.clientOp (op := .cRemoved c.cid)
      (s' := ((s.cto c.cid (.removeSelect w (T.reg c.cid) e)).cto c.cid (.returned (.result e))).withTab
        ({ s.tab with tokens := s.tab.tokens.erase (T.reg c.cid) }.log (.ret c.cid (.result e))))
      o.mem rfl ?_ nofun) rfl hc.mu (t := { s.tab with tokens := s.tab.tokens.erase (T.reg c.cid) }) rfl rfl rfl rfl rfl
    have htok : (s.cto c.cid (.removeSelect w (T.reg c.cid) e)).tab.tokens.contains (T.reg c.cid) = true := htok
    simp only [clientStep, htok, if_true]
    rfl

theorem have_clientKillW {h : List Ev} (hv : Have p T h) {cid w : Nat} (hc : Can p T (.clientKillW cid w) h) :
    Moved p T h ((caused p (.clientKillW cid w) h).reverse ++ .clientKillW cid w :: h) := by
  obtain ⟨id, h1, h2, h3, h4⟩ := hc
  refine have_calmX hv rfl (fun _ => rfl) rfl (fun st => upd st cid (.kill w)) (fun st hst => hst.upd (stOk1_of (x := .kill w) ⟨h1, h4⟩ (.inr h1)))
    (fun rest st s hro hst hc hh => ?_)
  subst hh
  obtain ⟨c, hm, rfl, hcp, _⟩ := hc.looker ⟨h2, h3, .inr h1⟩
  simp only [upd_self] at hcp
  refine ⟨_, hc.reach.clientKill hm hcp, hc.mu, ?_, rfl, rfl, rfl, fun g hg => (hc.gs g hg).cons rfl nofun⟩
  intro y hy
  obtain ⟨z, hz, rfl⟩ := List.mem_map.1 hy
  split
  · rename_i he
    exact .kill w (by rw [he])
  · rename_i hne
    exact (hc.cl z hz).same rfl rfl (upd_ne _ _ hne).symm (fun x' hx' => ⟨x', hx', rfl⟩)

theorem have_ret {h : List Ev} (hv : Have p T h) {cid : Nat} {r : Ret} (ha : AtEvery (Possible p T) h) (hc : Can p T (.ret cid r) h) :
    Moved p T h ((caused p (.ret cid r) h).reverse ++ .ret cid r :: h) := by
  obtain ⟨h1, call, h2, h3⟩ := hc
  cases call with
  | worker id =>
    rcases h3 with h3 | ⟨w, rid, rfl, h3⟩
    · exact have_noWorker hv h1 (.inl h2) (fun w hm => by
        obtain ⟨_, hk⟩ := killed_remove ha hm
        rw [h2] at hk; cases hk) h3
    · exact have_worker hv h1 h2 (fun w hm => by
        obtain ⟨_, hk⟩ := killed_remove ha hm
        rw [h2] at hk; cases hk) h3
  | remove id =>
    rcases h3 with ⟨hk, h3⟩ | ⟨w, e, h4, h5, h6⟩
    · exact have_noWorker hv h1 (.inr h2) hk h3
    · exact have_removed hv ha h1 h2 h4 h5 h6
  | start id sf =>
    rcases h3 with hb | ⟨hu, rfl, hd⟩
    · refine have_loop hv (fun l hl => by rw [hb] at hl; cases hl) (fun st s hst hc hh => ?_)
      subst hh
      obtain ⟨T', hx⟩ := hc.reach.xinv
      have hX := hx.tab.pc
      obtain ⟨r', hp⟩ := hX.reply hb
      rw [hp] at hX
      have hX : busyH s.tab.hist = .reply cid (toRet r') := hX
      rw [hb] at hX
      have hX : r = toRet r' := by cases hX; rfl
      subst hX
      have hcl := hc.cl
      rw [hp] at hcl
      refine ⟨(s.cto cid (.returned (toRet r'))).withTab ((s.tab.log (.ret cid (toRet r'))).goTo .bcast), .step .reply hc.reach ?_ nofun, hc.mu,
        cl_ret' hcl (.inl (fun c r hx => by cases hx; rfl)), .inl rfl, rfl, fun g hg => (hc.gs g hg).cons rfl nofun, hc.times⟩
      simp only [Runner.step, hp]
      cases r' <;> rfl
    · refine have_calm hv (busy_ret (fun r' hb => undecided_reply hu hb) nofun) (fun _ => rfl) rfl (fun rest st s hro hst hc hh => ?_)
      subst hh
      obtain ⟨T', hx⟩ := hc.reach.xinv
      obtain ⟨c, hm, rfl, hcp⟩ := hc.asker (fun r hp => by
        have hX := hx.tab.pc
        rw [hp] at hX
        exact undecided_reply hu (show busyH s.tab.hist = .reply cid (toRet r) from hX)) h2 h1
      refine hc.dead hm (.inl ⟨id, sf, hcp, ?_⟩)
      rcases hd with hd | hd
      · exact .inl (hc.reach.rinv.canc c hm hd)
      · exact .inr (by rw [hc.reach.tab.deadH]; exact hd)
  | stop id =>
    have stopper : ∀ {s : State} {rest : List Name} {st : Nat → Stat}, Canon p T rest st s → s.tab.hist = h → (∀ r, s.tab.pc ≠ .reply cid r) →
        ∃ c ∈ s.clients, c.cid = cid ∧ c.pc = .stopSend id := by
      intro s rest st hc hh hnr
      subst hh
      obtain ⟨c, hm, rfl⟩ := client_of hc.reach.reach h2
      refine ⟨c, hm, rfl, ?_⟩
      cases hc.cl c hm with
      | send i f hp =>
        rw [show callH s.tab.hist c.cid = some (.start i f) from hc.reach.reach.pcOk hm hp] at h2
        cases h2
      | stop i hp =>
        rw [show callH s.tab.hist c.cid = some (.stop i) from hc.reach.reach.pcOk hm hp] at h2
        cases h2; exact hp
      | ret r hp => exact absurd (hc.reach.reach.pcOk hm hp) (h1 r)
      | reply r hp hr => exact absurd hr (hnr _)
      | look i hp _ =>
        obtain ⟨_, ⟨_, _, h4⟩, _⟩ := hc.reach.pending hm hp
        rcases h4 with h4 | h4 <;> (rw [h2] at h4; cases h4)
      | kill w hp =>
        obtain ⟨i, h4, _⟩ := (show ∃ id, _ from hc.reach.reach.pcOk hm hp)
        rw [h2] at h4; cases h4
    rcases h3 with ⟨rfl, hR⟩ | ⟨rfl, hd⟩
    · refine have_loop hv (Idle.rest hR.1) (fun st s hst hc hh => ?_)
      have hnr := hc.noReply (by rw [hh]; exact hR.1) (by rw [hh]; exact Idle.rest hR.1)
      obtain ⟨c, hm, rfl, hcp⟩ := stopper hc hh (hnr _)
      subst hh
      have h4 := hc.toSelect hR (Idle.rest hR.1)
      refine ⟨_, h4.clientOp (op := .recvStop c.cid) (c := c)
        (s' := ((s.withTab (s.tab.goTo .select)).cto c.cid (.returned .ok)).withTab ((s.tab.log (.ret c.cid .ok)).goTo (.act (.stop id)))) hm rfl ?_ nofun,
        hc.mu, cl_ret' (s := s) hc.cl (.inl (fun c r hx => absurd hx (hnr _ _))), .inr (fun _ _ => trivial), rfl, fun g hg => (hc.gs g hg).cons rfl nofun, hc.times⟩
      simp only [clientStep, hcp]
      rfl
    · have hnr : ∀ {s : State}, RC p T s → s.tab.hist = h → s.tab.pc = .exited := by
        intro s hr hh
        apply Classical.byContradiction
        intro hp
        have := hr.tab.hinv.tomb hp
        have hd' := hr.tab.deadH
        rw [this, hh, hd] at hd'
        unfold aliveTomb at hd'
        split at hd' <;> cases hd'
      have hb : ∀ r', busyH h ≠ .reply cid r' := by
        intro r' hb
        obtain ⟨s, hc, hh⟩ := hv [] (fun _ => .lock) (fun l hl => by rw [hb] at hl; cases hl) (fun _ => stOk1_lock _ _)
        obtain ⟨T', hx⟩ := hc.reach.xinv
        have := hnr hc.reach hh
        obtain ⟨r2, hp⟩ := hx.tab.pc.reply (by rw [hh]; exact hb)
        rw [this] at hp; cases hp
      refine have_calm hv (busy_ret hb nofun) (fun _ => rfl) rfl (fun rest st s hro hst hc hh => ?_)
      obtain ⟨c, hm, rfl, hcp⟩ := stopper hc hh (fun r hp => by rw [hnr hc.reach hh] at hp; cases hp)
      subst hh
      exact hc.dead hm (.inr ⟨id, hcp, by rw [hc.reach.tab.deadH]; exact hd⟩)

theorem GCanon.app {h : List Ev} : ∀ (l : List Ev) {g : G}, GCanon h g → (∀ e ∈ l, ∀ h, phaseH (e :: h) g.gid = phaseH h g.gid) →
    (∀ e ∈ l, ∀ id d sf, e ≠ .begin id g.gid d sf) → GCanon (l ++ h) g
  | [], _, hg, _, _ => hg
  | e :: l, _, hg, h1, h2 =>
    (GCanon.app l hg (fun x hx => h1 x (List.mem_cons_of_mem _ hx)) (fun x hx => h2 x (List.mem_cons_of_mem _ hx))).cons
      (h1 e List.mem_cons_self _) (h2 e List.mem_cons_self)

theorem caused_stop {h : List Ev} {id : Name} {e : Ev} (hm : e ∈ (caused p (.stopHandled id) h).reverse) : e = .told id ∨ ∃ w, e = .killW id w := by
  rw [List.mem_reverse] at hm
  simp only [caused] at hm
  split at hm
  · rcases List.mem_cons.1 hm with h1 | hm
    · exact .inl h1
    · unfold RSpec.killing at hm
      split at hm
      · rw [List.mem_singleton] at hm; exact .inr ⟨_, hm⟩
      · cases hm
  · cases hm

theorem caused_told {h : List Ev} {id : Name} {e : Ev} (hm : e ∈ (caused p (.told id) h).reverse) : ∃ w, e = .killW id w := by
  rw [List.mem_reverse] at hm
  simp only [caused, RSpec.killing] at hm
  split at hm
  · rw [List.mem_singleton] at hm; exact ⟨_, hm⟩
  · cases hm

theorem caused_learned {h : List Ev} {id g w : Nat} {e : Ev} (hm : e ∈ (caused p (.learned id g w) h).reverse) : e = .told id ∨ e = .killW id w := by
  rw [List.mem_reverse] at hm
  simp only [caused] at hm
  split at hm
  · simpa using hm
  · cases hm

theorem have_stopHandled {h : List Ev} (hv : Have p T h) {id : Nat} (hc : Can p T (.stopHandled id) h) :
    Moved p T h ((caused p (.stopHandled id) h).reverse ++ .stopHandled id :: h) := by
  have hc : busyH h = .stop id := hc
  refine have_loop hv (fun l hl => by rw [hc] at hl; cases hl) (fun st s hst hc' hh => ?_)
  subst hh
  obtain ⟨T', hx⟩ := hc'.reach.xinv
  have hX := hx.tab.pc
  have hp : s.tab.pc = .act (.stop id) := by
    have hL := hc'.pc
    cases hp : s.tab.pc with
    | act m =>
      rw [hp] at hX hL
      cases m with
      | stop i =>
        rw [show busyH s.tab.hist = .stop i from hX] at hc
        cases hc; rfl
      | _ => cases hL
    | top => rw [hp] at hX; rcases hX with h1 | ⟨l, h1, _⟩ <;> rw [hc] at h1 <;> cases h1
    | bcast => rw [hp] at hL; cases hL
    | select => rw [hp] at hL; cases hL
    | killAll => rw [hp] at hX; rw [show busyH s.tab.hist = _ from hX] at hc; cases hc
    | killing r => rw [hp] at hX; obtain ⟨l, h1, _⟩ := hX; rw [hc] at h1; cases h1
    | reply a b => rw [hp] at hX; rw [show busyH s.tab.hist = _ from hX] at hc; cases hc
    | exited => rw [hp] at hX; rw [show busyH s.tab.hist = _ from hX] at hc; cases hc
  have hH := hc'.reach.tab.hinv
  have hh := stop_hist hH id
  have hr := killLocked_rest (s.tab.log (.stopHandled id)) id
  refine ⟨_, hc'.reach.tabOp (op := .act 0) (t := (killLocked (s.tab.log (.stopHandled id)) id).goTo .bcast) ?_ rfl nofun nofun nofun nofun nofun nofun,
    hc'.mu, ?_, .inl rfl, hh, ?_, ?_⟩
  · simp only [tabStep, hp]
    rw [if_pos (.inr hc'.mu)]
    rfl
  · exact fun c hm => (hc'.cl c hm).any (fun c r hx => by rw [hp] at hx; cases hx) _
  · intro g hg
    have hg : g ∈ s.tab.gs := by
      have h1 : (killLocked (s.tab.log (.stopHandled id)) id).gs = s.tab.gs := hr.gs
      rw [← h1]; exact hg
    show GCanon (killLocked (s.tab.log (.stopHandled id)) id).hist g
    rw [hh]
    refine GCanon.app _ ((hc'.gs g hg).cons rfl nofun) (fun e he h => ?_) (fun e he => ?_)
    · rcases caused_stop he with rfl | ⟨w, rfl⟩ <;> rfl
    · rcases caused_stop he with rfl | ⟨w, rfl⟩ <;> exact nofun
  · intro j i hi
    obtain ⟨i2, h5, h6, h7⟩ := killLocked_times (show (killLocked (s.tab.log (.stopHandled id)) id).workers.get? j = some i from hi)
    rw [h6, h7]; exact hc'.times j i2 h5

theorem have_learned {h : List Ev} (hv : Have p T h) {id k w : Nat} (hc : Can p T (.learned id k w) h) :
    Moved p T h ((caused p (.learned id k w) h).reverse ++ .learned id k w :: h) := by
  obtain ⟨h1, h2, h3, h4⟩ := hc
  refine have_loop hv (Idle.rest h1.1) (fun st s hst hc hh => ?_)
  subst hh
  have hH := hc.reach.tab.hinv
  have hS := hc.reach.tab.shape
  have hnr := hc.noReply h1.1 (Idle.rest h1.1)
  obtain ⟨T', hx⟩ := hc.reach.xinv
  obtain ⟨g, hg, rfl, rfl⟩ := (hH.opn _ _).1 h2
  have hp : g.pc = .sendStarted w := by
    rcases hc.running hg h3 with hp | hp
    · exact hp
    · have hG := hx.tab.gs g hg
      unfold GSim at hG
      rw [hp] at hG
      rcases hG with hG | hG
      · exact absurd hG h4
      · exact absurd hG (hc.notAct _ _ _)
  obtain ⟨info, hi⟩ := Option.isSome_iff_exists.1 ((hS.known g.id).2 (List.mem_map_of_mem hg))
  have a1 := hc.toSelect h1 (Idle.rest h1.1)
  have a2 : RC p T (s.withTab ((s.tab.gto g.gid (.waiting w)).goTo (.act (.started g.gid g.id w)))) := by
    refine a1.tabOp (op := .recvStarted g.gid) (t := (s.tab.gto g.gid (.waiting w)).goTo (.act (.started g.gid g.id w))) ?_ rfl nofun nofun nofun nofun nofun nofun
    have : (s.withTab (s.tab.goTo .select)).tab.getG g.gid = some g := getG_at hS hg
    simp only [tabStep, this, hp]
    rfl
  have hh := learned_hist (t := (s.tab.gto g.gid (.waiting w)).goTo (.act (.started g.gid g.id w))) a2.tab.hinv (gid := g.gid) (w := w) (id := g.id)
    (info := info) hi
  have a3 := a2.tabOp (op := .act 0) (t := (setWorker ((s.tab.gto g.gid (.waiting w)).goTo (.act (.started g.gid g.id w))) g.gid g.id w).goTo .bcast) (by
    simp only [tabStep]
    exact if_pos (.inr hc.mu)) rfl nofun nofun nofun nofun nofun nofun
  have hr := setWorker_rest ((s.tab.gto g.gid (.waiting w)).goTo (.act (.started g.gid g.id w))) g.gid g.id w info hi
  refine ⟨_, a3, hc.mu, fun c hm => (hc.cl c hm).any hnr _, .inl rfl, hh, ?_, ?_⟩
  · intro g' hg'
    have hg' : g' ∈ (s.tab.gto g.gid (.waiting w)).gs := by
      have h1 : (setWorker ((s.tab.gto g.gid (.waiting w)).goTo (.act (.started g.gid g.id w))) g.gid g.id w).gs = (s.tab.gto g.gid (.waiting w)).gs := hr.gs
      rw [← h1]; exact hg'
    show GCanon (setWorker ((s.tab.gto g.gid (.waiting w)).goTo (.act (.started g.gid g.id w))) g.gid g.id w).hist g'
    rw [hh]
    have hg2 : GCanon s.tab.hist g' := gs_gto (P := GCanon s.tab.hist) (t := s.tab) (q := .waiting w) ⟨nofun, nofun⟩ (fun g'' h _ => hc.gs g'' h) hS hg g' hg'
    refine GCanon.app _ (GCanon.cons (h := s.tab.hist) hg2 rfl nofun) (fun e he h => ?_) (fun e he => ?_)
    · rcases caused_learned he with rfl | rfl <;> rfl
    · rcases caused_learned he with rfl | rfl <;> exact nofun
  · intro j i hi'
    obtain ⟨i2, h5, h6, h7⟩ := (setWorker_eq (t := (s.tab.gto g.gid (.waiting w)).goTo (.act (.started g.gid g.id w))) (gid := g.gid) (w := w) hi).2 j i hi'
    rw [h6, h7]; exact hc.times j i2 h5

/-- After the message that a worker has finished. -/
theorem done_canon {t : Tab} (hr : ReachT p t) {gid : Nat} {id : Name} {e : Option Err} (hgs : ∀ g ∈ t.gs, g.gid ≠ gid → GCanon t.hist g)
    (ht : ∀ id i, t.workers.get? id = some i → i.started = T.time i.rid) (hp : t.pc = .act (.done gid id e)) :
    ((workerDone p t gid id e).pc = .bcast ∨ (workerDone p t gid id e).pc = .killAll) ∧
    (∀ g ∈ (workerDone p t gid id e).gs, GCanon (workerDone p t gid id e).hist g) ∧
    ∀ j i, (workerDone p t gid id e).workers.get? j = some i → i.started = T.time i.rid := by
  have hH := hr.hinv
  have hS := hr.shape
  obtain ⟨g, hg, rfl, rfl, hgone⟩ := hS.actDone gid id e hp
  obtain ⟨info, hi⟩ := Option.isSome_iff_exists.1 ((hS.known g.id).2 (List.mem_map_of_mem hg))
  have hdrop : ∀ g' ∈ (dropG t g.gid).gs, g' ∈ t.gs ∧ g'.gid ≠ g.gid := fun g' hg' => mem_dropG.1 hg'
  have hkeep : ∀ g' ∈ (dropG t g.gid).gs, GCanon (.ended g.id g.gid e :: t.hist) g' := by
    intro g' hg'
    obtain ⟨a, b⟩ := hdrop g' hg'
    exact (hgs g' a b).cons (phase_other b nofun (.inr (.inr (.inr ⟨_, _, rfl⟩)))) nofun
  have herase : ∀ j i, (t.workers.erase g.id).get? j = some i → i.started = T.time i.rid := by
    intro j i hj
    rw [AMap.get?_erase] at hj
    split at hj
    · cases hj
    · exact ht _ _ hj
  unfold workerDone
  rw [hi]
  simp only
  cases hf : fate p info e with
  | remove => exact ⟨.inl rfl, fun g' hg' => (hkeep g' hg').cons rfl nofun, herase⟩
  | fatal err =>
    simp only
    unfold beginShutdown
    split
    · exact ⟨.inl rfl, fun g' hg' => (hkeep g' hg').cons rfl nofun, herase⟩
    · exact ⟨.inr rfl, fun g' hg' => GCanon.cons (e := .shutdown) (GCanon.cons (e := .removed g.id info.rid) (hkeep g' hg') rfl nofun) rfl nofun, herase⟩
  | restart sf =>
    simp only
    refine ⟨.inl rfl, ?_, ?_⟩
    · intro g' hg'
      simp only [spawn, Tab.setInfo, Tab.log, Tab.goTo, List.mem_cons] at hg'
      rcases hg' with rfl | hg'
      · refine ⟨?_, ?_⟩
        · intro x hx
          simp only at hx
          split at hx <;> cases hx
        · intro hx
          simp only at hx
          split at hx
          · cases hx
          · rename_i hd
            rintro ⟨i, d, f, hm, h0⟩
            simp only [spawn, Tab.setInfo, Tab.log, Tab.goTo, dropG, List.mem_cons, Ev.begin.injEq, reduceCtorEq, false_or] at hm
            rcases hm with ⟨_, _, rfl, _⟩ | hm
            · exact hd h0
            · exact begin_phase hr.evOk hm (hH.fresh _ (Nat.le_refl _))
      · have hne : g'.gid ≠ t.nextG := Nat.ne_of_lt (hS.gidLt g' (hdrop g' hg').1)
        refine GCanon.cons (h := .ended g.id g.gid e :: t.hist) (hkeep g' hg') ?_ ?_
        · show phaseH (.begin g.id t.nextG info.restartDelay sf :: _) g'.gid = _
          simp [phaseH, hne]
        · intro i d f he
          have he : Ev.begin g.id t.nextG info.restartDelay sf = .begin i g'.gid d f := he
          injection he with _ he; exact hne he.symm
    · intro j i hj
      simp only [spawn, Tab.setInfo, Tab.log, Tab.goTo, dropG, AMap.get?_set] at hj
      split at hj
      · simp only [Option.some.injEq] at hj; subst hj; exact (show info.started = T.time info.rid from ht _ _ hi)
      · exact ht _ _ hj

theorem have_ended {h : List Ev} (hv : Have p T h) {id k : Nat} {e : Option Err} (hc : Can p T (.ended id k e) h) :
    Moved p T h ((caused p (.ended id k e) h).reverse ++ .ended id k e :: h) := by
  obtain ⟨h1, h2, h3⟩ := hc
  refine have_loop hv (Idle.rest h1.1) (fun st s hst hc hh => ?_)
  subst hh
  have hH := hc.reach.tab.hinv
  have hS := hc.reach.tab.shape
  have hnr := hc.noReply h1.1 (Idle.rest h1.1)
  obtain ⟨T', hx⟩ := hc.reach.xinv
  obtain ⟨g, hg, rfl, rfl⟩ := (hH.opn _ _).1 h2
  have hph := hH.ph g hg
  unfold PhaseOk at hph
  have hG := hx.tab.gs g hg
  unfold GSim at hG
  -- the goroutine sends
  have key : RC p T (s.withTab ((s.tab.gto g.gid (.sendDone e)).goTo .select)) := by
    have a1 := hc.toSelect h1 (Idle.rest h1.1)
    have hget : (s.withTab (s.tab.goTo .select)).tab.getG g.gid = some g := getG_at hS hg
    rcases h3 with ⟨h4, h5, h6, rfl⟩ | ⟨err, h4, rfl⟩ | ⟨w, h4, h5, h6⟩
    · have hp : g.pc = .delaying := by
        cases hp : g.pc with
        | delaying => rfl
        | ready => exact absurd h5 ((hc.gs g hg).2 hp)
        | sendDone e =>
          obtain ⟨err, hx⟩ := (hc.gs g hg).1 e hp
          rw [h4] at hx; cases hx
        | gone e => exact absurd hp (hc.notGone hg e)
        | starting => rw [hp] at hph; rw [show phaseH s.tab.hist g.gid = _ from hph] at h4; cases h4
        | sendStarted w => rw [hp] at hph; rw [show phaseH s.tab.hist g.gid = _ from hph] at h4; cases h4
        | waiting w => rw [hp] at hph; rw [show phaseH s.tab.hist g.gid = _ from hph] at h4; cases h4
      refine a1.tabOp (op := .gDying g.gid) (t := (s.tab.gto g.gid (.sendDone none)).goTo .select) ?_ rfl nofun nofun nofun nofun nofun nofun
      have hd : (s.withTab (s.tab.goTo .select)).tab.dying = true := by
        show s.tab.tomb.dying = true
        rw [hH.tomb (fun hx => by
          rcases hc.idle h1.1 (Idle.rest h1.1) with h | ⟨h, _⟩ <;> rw [hx] at h <;> cases h)]
        rw [show s.tab.hist.contains .kill = true by simpa using h6]
        rfl
      simp only [tabStep, hget]
      rw [if_pos ⟨hp, hd⟩]
      rfl
    · have hp : g.pc = .sendDone (some err) := by
        cases hp : g.pc with
        | delaying => rw [hp] at hph; rw [show phaseH s.tab.hist g.gid = _ from hph] at h4; cases h4
        | ready => rw [hp] at hph; rw [show phaseH s.tab.hist g.gid = _ from hph] at h4; cases h4
        | sendDone e =>
          rw [hp] at hph
          rcases hph with ⟨h5, _⟩ | ⟨x, h5, rfl⟩ | ⟨w, h5, _⟩ <;> rw [h4] at h5 <;> cases h5
          rfl
        | gone e => exact absurd hp (hc.notGone hg e)
        | starting => rw [hp] at hph; rw [show phaseH s.tab.hist g.gid = _ from hph] at h4; cases h4
        | sendStarted w => rw [hp] at hph; rw [show phaseH s.tab.hist g.gid = _ from hph] at h4; cases h4
        | waiting w => rw [hp] at hph; rw [show phaseH s.tab.hist g.gid = _ from hph] at h4; cases h4
      have : s.tab.gto g.gid (.sendDone (some err)) = s.tab := by
        unfold Tab.gto
        have hm : s.tab.gs.map (fun x => if x.gid = g.gid then { x with pc := .sendDone (some err) } else x) = s.tab.gs := by
          conv => rhs; rw [← List.map_id s.tab.gs]
          refine List.map_congr_left (fun x hx => ?_)
          split
          · rename_i he
            have := gid_inj hS.gidNd hx hg he
            subst this
            rw [← hp]; rfl
          · rfl
        rw [hm]
      rw [this]; exact a1
    · have hp : g.pc = .waiting w := by
        rcases hc.running hg h4 with hp | hp
        · rw [hp] at hG
          exact absurd h5 (hG.1 _ _)
        · exact hp
      refine a1.tabOp (op := .gWaitRet g.gid) (t := (s.tab.gto g.gid (.sendDone e)).goTo .select) ?_ rfl nofun nofun nofun nofun nofun nofun
      have hf : (s.withTab (s.tab.goTo .select)).tab.finished.get? w = some e := by
        show s.tab.finished.get? w = some e
        rw [hH.fin]; exact h6
      simp only [tabStep, hget, hp, hf]
      rfl
  have hg1 : { g with pc := .sendDone e } ∈ (s.tab.gto g.gid (.sendDone e)).gs := List.mem_map.2 ⟨g, hg, by rw [if_pos rfl]⟩
  have a2 : RC p T (s.withTab (((s.tab.gto g.gid (.sendDone e)).gto g.gid (.gone e)).goTo (.act (.done g.gid g.id e)))) := by
    refine key.tabOp (op := .recvDone g.gid) (t := ((s.tab.gto g.gid (.sendDone e)).gto g.gid (.gone e)).goTo (.act (.done g.gid g.id e))) ?_
      rfl nofun nofun nofun nofun nofun nofun
    have hget := getG_at key.tab.shape hg1
    have hget : (s.withTab ((s.tab.gto g.gid (.sendDone e)).goTo .select)).tab.getG g.gid = some { g with pc := .sendDone e } := hget
    simp only [tabStep, hget]
    rfl
  obtain ⟨T2, hx2⟩ := a2.xinv
  have hh := (hx2.tab.done a2.tab (gid := g.gid) (id := g.id) (e := e) rfl).2
  have hcn := done_canon (T := T) a2.tab (gid := g.gid) (id := g.id) (e := e) (by
    intro g' hg' hne
    have hg' : g' ∈ ((s.tab.gto g.gid (.sendDone e)).gto g.gid (.gone e)).gs := hg'
    obtain ⟨y, hy, rfl⟩ := List.mem_map.1 hg'
    obtain ⟨z, hz, rfl⟩ := List.mem_map.1 hy
    by_cases hzg : z.gid = g.gid
    · simp only [hzg, if_true] at hne; exact absurd rfl hne
    · simp only [hzg, if_false]; exact hc.gs z hz) hc.times rfl
  have a3 := a2.tabOp (op := .act 0) (t := workerDone p (((s.tab.gto g.gid (.sendDone e)).gto g.gid (.gone e)).goTo (.act (.done g.gid g.id e))) g.gid g.id e) (by
    simp only [tabStep]
    exact if_pos (.inr hc.mu)) rfl nofun nofun nofun nofun nofun nofun
  refine ⟨_, a3, hc.mu, fun c hm => (hc.cl c hm).any hnr _, ?_, hh, hcn.2.1, hcn.2.2⟩
  rcases hcn.1 with hp | hp
  · exact .inl hp
  · refine .inr (fun h rest => ?_)
    show LCanon h rest (workerDone p (((s.tab.gto g.gid (.sendDone e)).gto g.gid (.gone e)).goTo (.act (.done g.gid g.id e))) g.gid g.id e).pc
    have hp : (workerDone p (((s.tab.gto g.gid (.sendDone e)).gto g.gid (.gone e)).goTo (.act (.done g.gid g.id e))) g.gid g.id e).pc = _ := hp
    rw [hp]; trivial

theorem have_shutdown {h : List Ev} (hv : Have p T h) (hc : Can p T .shutdown h) :
    Moved p T h ((caused p .shutdown h).reverse ++ .shutdown :: h) := by
  obtain ⟨h1, h2, h3⟩ := hc
  refine have_loop hv (Idle.rest h1.1) (fun st s hst hc hh => ?_)
  subst hh
  have hnr := hc.noReply h1.1 (Idle.rest h1.1)
  obtain ⟨T', hx⟩ := hc.reach.xinv
  have a1 := hc.toSelect h1 (Idle.rest h1.1)
  have hd : (s.withTab (s.tab.goTo .select)).tab.dying = true := by
    show s.tab.tomb.dying = true
    rw [hc.reach.tab.hinv.tomb (fun hx => by
      rcases hc.idle h1.1 (Idle.rest h1.1) with h | ⟨h, _⟩ <;> rw [hx] at h <;> cases h)]
    rw [show s.tab.hist.contains .kill = true by simpa using h2]
    rfl
  have ha : (s.withTab (s.tab.goTo .select)).tab.dyingArm = true := hx.tab.arm.trans h3
  have a2 : RC p T (s.withTab (({ s.tab with isDying := true, dyingArm := false }.log .shutdown).goTo .killAll)) := by
    refine a1.tabOp (op := .recvDying) (t := ({ s.tab with isDying := true, dyingArm := false }.log .shutdown).goTo .killAll) ?_ rfl nofun nofun nofun nofun nofun nofun
    simp only [tabStep]
    rw [if_pos ⟨rfl, ha, hd⟩]
    rfl
  exact ⟨_, a2, hc.mu, fun c hm => (hc.cl c hm).any hnr _, .inr (fun _ _ => trivial), rfl,
    fun g hg => GCanon.cons (hc.gs g hg) rfl nofun, hc.times⟩

theorem have_exit {h : List Ev} (hv : Have p T h) (hc : Can p T .exit h) :
    Moved p T h ((caused p .exit h).reverse ++ .exit :: h) := by
  obtain ⟨h1, h2, h3⟩ := hc
  refine have_loop hv (Idle.rest h1) (fun st s hst hc hh => ?_)
  subst hh
  have hH := hc.reach.tab.hinv
  obtain ⟨s1, a1, e1, hmu, hcl⟩ := hc.toTop h1 (Idle.rest h1)
  have a2 : RC p T (s1.withTab (({ s.tab with tomb := s.tab.tomb.finish s.tab.finalError }.log .exit).goTo .exited)) := by
    refine a1.tabOp (op := .loopTop) (t := ({ s.tab with tomb := s.tab.tomb.finish s.tab.finalError }.log .exit).goTo .exited) ?_ rfl nofun nofun nofun nofun nofun nofun
    simp only [tabStep]
    rw [if_pos (show s1.tab.pc = .top by rw [e1]; rfl), if_pos]
    · rw [e1]; rfl
    · rw [e1, Bool.and_eq_true, keys_isEmpty]
      exact ⟨hH.shut.2 h2, fun id => (unknown_iff hH id).1 (h3 id)⟩
  exact ⟨_, a2, hmu, fun c hm => (hcl c hm).any nofun _, .inr (fun _ _ => trivial), rfl,
    fun g hg => GCanon.cons (hc.gs g hg) rfl nofun, hc.times⟩

theorem killLocked_goTo (t : Tab) (id : Name) (pc pc' : LoopPc) : (killLocked (t.goTo pc) id).goTo pc' = (killLocked t id).goTo pc' := by
  unfold killLocked
  rw [show (t.goTo pc).workers.get? id = t.workers.get? id from rfl]
  cases t.workers.get? id with
  | none => rfl
  | some i => cases hw : i.worker <;> simp only [hw] <;> rfl

theorem have_told {h : List Ev} (hv : Have p T h) {id : Nat} (hc : Can p T (.told id) h) :
    Moved p T h ((caused p (.told id) h).reverse ++ .told id :: h) := by
  obtain ⟨l, h1, h2, h3⟩ := hc
  intro rest st hro hst
  have hbusy : ∀ m : List Ev, (∀ e ∈ m, ∃ w, e = .killW id w) → busyH (m ++ .told id :: h) = .tell (id :: l) ∧
      ∀ j, knownH (m ++ .told id :: h) j = knownH h j := by
    intro m
    induction m with
    | nil => intro _; exact ⟨by show busyH (.told id :: h) = _; simp only [busyH, h1], fun _ => rfl⟩
    | cons e m ih =>
      intro hm
      obtain ⟨w, rfl⟩ := hm e List.mem_cons_self
      exact ih (fun x hx => hm x (List.mem_cons_of_mem _ hx))
  obtain ⟨hb, hk⟩ := hbusy _ (fun e he => caused_told (p := p) (h := h) he)
  obtain ⟨hnd, hmem⟩ := hro _ hb
  simp only [hk] at hmem
  have hro' : RestOk h (id :: rest) := by
    intro l' hl'
    rw [h1] at hl'; cases hl'
    refine ⟨List.nodup_cons.2 ⟨fun hx => ((hmem id).1 hx).2 List.mem_cons_self, hnd⟩, fun x => ?_⟩
    rw [List.mem_cons, hmem, List.mem_cons, not_or]
    constructor
    · rintro (rfl | ⟨a, b, c⟩)
      · exact ⟨h3, h2⟩
      · exact ⟨a, c⟩
    · rintro ⟨a, b⟩
      rcases Decidable.em (x = id) with rfl | hne
      · exact .inl rfl
      · exact .inr ⟨a, hne, b⟩
  obtain ⟨s, hc, hh⟩ := hv _ st hro' hst
  subst hh
  have hH := hc.reach.tab.hinv
  obtain ⟨T', hx⟩ := hc.reach.xinv
  have hX := hx.tab.pc
  have hL := hc.pc
  have a1 : RC p T (s.withTab (s.tab.goTo (.killing (id :: rest)))) ∧ ∀ c r, s.tab.pc ≠ .reply c r := by
    have hni : ¬ Idle s.tab.hist := by
      rintro (h | ⟨l', h, h'⟩) <;> rw [h1] at h <;> cases h
      exact h2 (h' id h3)
    cases hp : s.tab.pc with
    | top => rw [hp] at hX; exact absurd hX hni
    | bcast => rw [hp] at hL; cases hL
    | select => rw [hp] at hL; cases hL
    | act m =>
      rw [hp] at hL hX
      cases m with
      | stop i => rw [show busyH s.tab.hist = _ from hX] at h1; cases h1
      | _ => cases hL
    | reply a b => rw [hp] at hX; rw [show busyH s.tab.hist = _ from hX] at h1; cases h1
    | exited => rw [hp] at hX; rw [show busyH s.tab.hist = _ from hX] at h1; cases h1
    | killing r =>
      rw [hp] at hL
      refine ⟨?_, nofun⟩
      have : s.withTab (s.tab.goTo (.killing (id :: rest))) = s := by
        unfold State.withTab Tab.goTo
        rw [← hL.1, ← hp]
      rw [this]; exact hc.reach
    | killAll =>
      refine ⟨?_, nofun⟩
      rw [hp] at hX
      have hX : busyH s.tab.hist = .tell [] := hX
      have ho : isRangeOrder s.tab.workers (id :: rest) = true := by
        rw [isRangeOrder_iff]
        obtain ⟨b1, b2⟩ := hro' _ hX
        refine ⟨b1, fun j => ?_⟩
        rw [b2, AMap.mem_keys_iff, known_iff hH, Option.isSome_iff_exists]
        exact ⟨fun hx => hx.1, fun hx => ⟨hx, nofun⟩⟩
      refine hc.reach.tabOp (op := .killAll (id :: rest)) ?_ rfl nofun nofun nofun nofun nofun nofun
      simp only [tabStep]
      rw [if_pos ⟨hp, hc.mu, ho⟩]
  obtain ⟨a1, hnr⟩ := a1
  have a2 : RC p T (s.withTab ((killLocked s.tab id).goTo (.killing rest))) :=
    a1.tabOp (op := .killNext) (t := (killLocked s.tab id).goTo (.killing rest)) (congrArg some (killLocked_goTo s.tab id _ _))
      rfl nofun nofun nofun nofun nofun nofun
  have hh := told_hist hH h3
  have hr := killLocked_rest s.tab id
  have hgs : ∀ g ∈ (killLocked s.tab id).gs, GCanon (killLocked s.tab id).hist g := by
    intro g hg
    have h1 : (killLocked s.tab id).gs = s.tab.gs := hr.gs
    rw [h1] at hg
    rw [hh]
    refine GCanon.app _ ((hc.gs g hg).cons rfl nofun) (fun e he h => ?_) (fun e he => ?_)
    · obtain ⟨w, rfl⟩ := caused_told he; rfl
    · obtain ⟨w, rfl⟩ := caused_told he; exact nofun
  have htm : ∀ j i, (killLocked s.tab id).workers.get? j = some i → i.started = T.time i.rid := by
    intro j i hi
    obtain ⟨i2, h5, h6, h7⟩ := killLocked_times hi
    rw [h6, h7]; exact hc.times j i2 h5
  cases rest with
  | nil =>
    have a3 : RC p T (s.withTab ((killLocked s.tab id).goTo .bcast)) :=
      a2.tabOp (op := .killNext) (t := (killLocked s.tab id).goTo .bcast) rfl rfl nofun nofun nofun nofun nofun nofun
    obtain ⟨s2, b1, b2, b3, b4⟩ := a3.settle (s := s.withTab ((killLocked s.tab id).goTo .bcast)) (st := st) rfl (fun c hm => (hc.cl c hm).any hnr _)
    exact ⟨s2, ⟨b1, b3.trans hc.mu, by rw [b2]; exact b4, by rw [b2]; exact trivial, by rw [b2]; exact hgs, by rw [b2]; exact htm⟩, by rw [b2]; exact hh⟩
  | cons x rest =>
    refine ⟨_, ⟨a2, hc.mu, fun c hm => (hc.cl c hm).any hnr _, ⟨rfl, nofun, ?_⟩, hgs, htm⟩, hh⟩
    show busyH (killLocked s.tab id).hist ≠ _
    rw [hh, hb]; nofun

theorem Canon.retarget {s : State} {rest : List Name} {st st' : Nat → Stat} (hc : Canon p T rest st s)
    (hs : ∀ k, st' k = st k ∨ ∀ id, ¬ Pending s.tab.hist k id) : Canon p T rest st' s := by
  refine ⟨hc.reach, hc.mu, fun c hm => ?_, hc.pc, hc.gs, hc.times⟩
  rcases hs c.cid with h1 | h1
  · exact (hc.cl c hm).same rfl rfl h1 (fun x' hx' => ⟨x', hx', rfl⟩)
  · cases hc.cl c hm with
    | send id sf h => exact .send id sf h
    | stop id h => exact .stop id h
    | ret r h => exact .ret r h
    | reply r h h' => exact .reply r h h'
    | look id h h' =>
      obtain ⟨id', h2, _⟩ := hc.reach.pending hm h
      exact absurd h2 (h1 id')
    | kill w h => exact .kill w h

/-- One lookup looks. -/
theorem Canon.advance {s : State} {rest : List Name} {st : Nat → Stat} (hc : Canon p T rest st s) {k : Nat} {id : Name} {y : Stat}
    (hp : Pending s.tab.hist k id) (hl : ¬ Locked s.tab.hist) (ha : Adv p T s.tab.hist k id (st k) y) :
    ∃ s', Canon p T rest (upd st k y) s' ∧ s'.tab = s.tab := by
  obtain ⟨c, hm, rfl, hcp, hw, hca⟩ := hc.looker hp
  have hca := hca (fun w hx => by rw [hx] at ha; cases ha)
  obtain ⟨s', c', ho, hmu, hcp', hw'⟩ := ha.step hc.reach hm hca hcp hw (hc.muFree hl) (fun hx => by
    have := hc.pc
    rw [hx] at this; exact this)
  refine ⟨s', ⟨ho.reach, hmu, ?_, by rw [ho.tab]; exact hc.pc, by rw [ho.tab]; exact hc.gs, by rw [ho.tab]; exact hc.times⟩, ho.tab⟩
  intro x hx
  rw [ho.tab]
  rcases ho.cl x hx with rfl | ⟨h1, h2⟩
  · refine .look id ?_ ?_
    · rw [ho.cid, upd_self]; exact hcp'
    · rw [ho.cid, upd_self]; exact hw'
  · exact (hc.cl x h1).same rfl rfl (upd_ne _ _ h2) (fun x' hx' => ⟨x', hx', rfl⟩)

/-- After the event, the lookups look. -/
theorem Moved.looks {e : Ev} {h : List Ev} (ha : AtEvery (Possible p T) h) (hd : dueH p h = []) (hc : Can p T e h)
    (hm : Moved p T h ((caused p e h).reverse ++ e :: h)) : Have p T ((caused p e h).reverse ++ e :: h) := by
  intro rest st hro hst
  have hch : ∀ k, ∃ x0, StOk1 p T h k x0 ∧ ∀ id, Pending ((caused p e h).reverse ++ e :: h) k id →
      x0 = st k ∨ (CanLook p ((caused p e h).reverse ++ e :: h) ∧ Adv p T ((caused p e h).reverse ++ e :: h) k id x0 (st k)) := by
    intro k
    rcases Classical.em (∃ id, Pending ((caused p e h).reverse ++ e :: h) k id) with ⟨id, hp⟩ | hn
    · obtain ⟨x0, h1, h2⟩ := demote ha hd hc hp.2.2 ((hst k).2 id hp)
      refine ⟨x0, h1, fun id' hp' => ?_⟩
      have : id' = id := by
        rcases hp.2.2 with h3 | h3 <;> rcases hp'.2.2 with h4 | h4 <;> (rw [h3] at h4; cases h4) <;> rfl
      subst this
      exact h2
    · exact ⟨.lock, stOk1_lock _ _, fun id hp => absurd ⟨id, hp⟩ hn⟩
  obtain ⟨st0, hst0⟩ := Classical.axiomOfChoice hch
  obtain ⟨s, hcn, hh⟩ := hm rest st0 hro (fun k => (hst0 k).1)
  have key : ∀ n, ∃ s', Canon p T rest (fun k => if k < n then st k else st0 k) s' ∧ s'.tab = s.tab := by
    intro n
    induction n with
    | zero => exact ⟨s, hcn.retarget (fun k => .inl (if_neg (Nat.not_lt_zero k))), rfl⟩
    | succ n ih =>
      obtain ⟨s1, hc1, ht1⟩ := ih
      have off : ∀ k, k ≠ n → (if k < n + 1 then st k else st0 k) = (if k < n then st k else st0 k) := by
        intro k hk
        by_cases hlt : k < n
        · rw [if_pos hlt, if_pos (by omega)]
        · rw [if_neg hlt, if_neg (by omega)]
      have h0 : (if n < n then st n else st0 n) = st0 n := if_neg (Nat.lt_irrefl n)
      have h1 : (if n < n + 1 then st n else st0 n) = st n := if_pos (Nat.lt_succ_self n)
      rcases Classical.em (∃ id, Pending ((caused p e h).reverse ++ e :: h) n id) with ⟨id, hp⟩ | hn
      · rcases (hst0 n).2 id hp with heq | ⟨hl, had⟩
        · refine ⟨s1, hc1.retarget (fun k => .inl ?_), ht1⟩
          by_cases hk : k = n
          · subst hk; rw [h0, h1, heq]
          · exact off k hk
        · have hh1 : s1.tab.hist = (caused p e h).reverse ++ e :: h := by rw [ht1]; exact hh
          rw [← hh1] at hp hl had
          obtain ⟨s2, hc2, ht2⟩ := hc1.advance hp hl.2 (y := st n) (by simp only [h0]; exact had)
          refine ⟨s2, hc2.retarget (fun k => .inl ?_), ht2.trans ht1⟩
          by_cases hk : k = n
          · subst hk; rw [h1, upd_self]
          · rw [upd_ne _ _ hk]; exact off k hk
      · refine ⟨s1, hc1.retarget (fun k => ?_), ht1⟩
        by_cases hk : k = n
        · subst hk
          refine .inr (fun id hp => hn ⟨id, ?_⟩)
          rw [ht1, hh] at hp; exact hp
        · exact .inl (off k hk)
  obtain ⟨s', hc', ht'⟩ := key s.nextC
  refine ⟨s', hc'.retarget (fun k => ?_), by rw [ht']; exact hh⟩
  by_cases hk : k < s.nextC
  · exact .inl (if_pos hk).symm
  · refine .inr (fun id hp => hk ?_)
    rw [ht'] at hp
    rcases hp.2.2 with h1 | h1 <;>
    · obtain ⟨x, hx, hxk⟩ := callH_event h1
      exact hcn.reach.cinv.evLt x hx k hxk

/-- An execution for one event more. -/
theorem have_next {h : List Ev} (hv : Have p T h) (ha : AtEvery (Possible p T) h) {e : Ev} (hc : Can p T e h) :
    Moved p T h ((caused p e h).reverse ++ e :: h) := by
  cases e with
  | accepted => exact have_accepted hv hc
  | refused => exact have_refused hv hc
  | ignored => exact have_ignored hv hc
  | begin => exact hc.elim
  | removed => exact hc.elim
  | killW => exact hc.elim
  | startCall => exact have_startCall hv hc
  | startOk => exact have_startOk hv hc
  | startErr => exact have_startErr hv hc
  | learned => exact have_learned hv hc
  | stopHandled => exact have_stopHandled hv hc
  | told => exact have_told hv hc
  | finished => exact have_finished hv hc
  | ended => exact have_ended hv hc
  | shutdown => exact have_shutdown hv hc
  | exit => exact have_exit hv hc
  | callStart => exact have_callStart hv hc
  | callStop => exact have_callStop hv hc
  | callWorker => exact have_callWorker hv hc
  | callRemove => exact have_callRemove hv hc
  | cancelled => exact have_cancelled hv hc
  | ret => exact have_ret hv ha hc
  | ctx => exact have_ctx hv hc
  | report => exact have_report hv hc
  | names => exact have_names hv hc
  | clientKillW => exact have_clientKillW hv hc
  | kill => exact have_kill hv

theorem have_due : ∀ {h : List Ev}, AtEvery (Possible p T) h → Have p T ((dueH p h).reverse ++ h)
  | [], _ => fun rest st _ _ => ⟨init, Canon.init rest st, rfl⟩
  | e :: h, ha => by
    have ih := have_due ha.2
    have hp : Possible p T e h := ha.1
    unfold Possible at hp
    simp only [dueH]
    cases hd : dueH p h with
    | nil =>
      rw [hd] at hp ih
      exact (have_next ih ha.2 hp).looks ha.2 hd hp
    | cons d l =>
      rw [hd] at hp ih
      simp only at hp
      subst hp
      simpa using ih

/-- There are executions for the ones still to be told. -/
theorem rest_exists (P : Name → Bool) : ∀ l : List Name, ∃ r : List Name, r.Nodup ∧ ∀ id, id ∈ r ↔ id ∈ l ∧ P id = true
  | [] => ⟨[], .nil, by simp⟩
  | x :: l => by
    obtain ⟨r, h1, h2⟩ := rest_exists P l
    rcases Decidable.em (x ∈ r ∨ P x = false) with h | h
    · refine ⟨r, h1, fun id => ?_⟩
      rw [h2, List.mem_cons]
      constructor
      · rintro ⟨a, b⟩; exact ⟨.inr a, b⟩
      · rintro ⟨rfl | a, b⟩
        · rcases h with h | h
          · exact (h2 _).1 h
          · rw [h] at b; cases b
        · exact ⟨a, b⟩
    · rw [not_or] at h
      refine ⟨x :: r, List.nodup_cons.2 ⟨h.1, h1⟩, fun id => ?_⟩
      rw [List.mem_cons, List.mem_cons, h2]
      constructor
      · rintro (rfl | ⟨a, b⟩)
        · exact ⟨.inl rfl, by cases hp : P id <;> simp_all⟩
        · exact ⟨.inr a, b⟩
      · rintro ⟨rfl | a, b⟩
        · exact .inl rfl
        · exact .inr ⟨a, b⟩

/-- The ids in a history. -/
def idsH : List Ev → List Name
  | [] => []
  | e :: h => match e with
    | .accepted _ id _ _ => id :: idsH h
    | _ => idsH h

theorem known_ids {h : List Ev} {id : Name} (hk : (knownH h id).isSome = true) : id ∈ idsH h := by
  induction h with
  | nil => cases hk
  | cons e h ih =>
    cases e <;> simp only [knownH, idsH] at hk ⊢ <;> first
      | exact ih hk
      | (split at hk <;> first
          | exact ih hk
          | (cases hk; done)
          | (rename_i he; rw [he]; exact List.mem_cons_self)
          | exact List.mem_cons_of_mem _ (ih hk))

/-- Every possible history is that of an execution. -/
theorem history_reach {h : List Ev} (hh : History p T h) : ∃ s, Reach p s ∧ s.tab.hist = h := by
  have hv := have_due hh.1
  rw [hh.2] at hv
  have hv : Have p T h := hv
  have : ∃ rest, RestOk h rest := by
    cases hb : busyH h with
    | tell l =>
      obtain ⟨r, h1, h2⟩ := rest_exists (fun id => (knownH h id).isSome && !decide (id ∈ l)) (idsH h)
      refine ⟨r, fun l' hl' => ?_⟩
      rw [hb] at hl'; cases hl'
      refine ⟨h1, fun id => ?_⟩
      rw [h2]
      simp only [Bool.and_eq_true, Bool.not_eq_true', decide_eq_false_iff_not]
      exact ⟨fun hx => hx.2, fun hx => ⟨known_ids hx.1, hx⟩⟩
    | _ => exact ⟨[], fun l hl => by rw [hb] at hl; cases hl⟩
  obtain ⟨rest, hr⟩ := this
  obtain ⟨s, hc, hs⟩ := hv rest (fun _ => .lock) hr (fun _ => stOk1_lock _ _)
  exact ⟨s, hc.reach.reach, hs⟩

end Verif.Runner
