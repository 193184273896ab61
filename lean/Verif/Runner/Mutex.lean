import Verif.Runner.Clients

/-!
# Runner: who holds runner.mu, and what a sleeping helper may rely on
-/

namespace Verif.Runner
open Tab State

/-- The loop will broadcast before it looks at anything else. -/
def Waking (pc : LoopPc) : Prop := pc = .bcast ∨ pc.busy = true

structure MInv (s : State) : Prop where
  nd : (s.clients.map Client.cid).Nodup
  holder : ∀ c ∈ s.clients, ∀ h, c.helper = some h → h.pc = .check ∨ h.pc = .enter →
    s.mu = some c.cid ∧ getWorker s.tab h.id = none
  held : ∀ cid, s.mu = some cid → ∃ c ∈ s.clients, c.cid = cid ∧ ∃ h, c.helper = some h ∧ (h.pc = .check ∨ h.pc = .enter)
  asleep : ∀ c ∈ s.clients, ∀ h, c.helper = some h → h.pc = .sleep → Waking s.tab.pc ∨ getWorker s.tab h.id = none
  waits : ∀ c ∈ s.clients, ∀ id, c.pc = .waiting id →
    ∃ h, c.helper = some h ∧ h.id = id ∧ h.stopped = false ∧ (h.pc = .done → h.wc.isSome = true)
  fresh : ∀ c ∈ s.clients, ∀ id, c.pc = .lock id → c.helper = none

theorem muFree_iff {s : State} : s.muFree = true ↔ s.mu = none ∧ s.tab.pc.locked = false := by
  unfold State.muFree; simp

theorem mu_of_free {s : State} (h : s.muFree = true) : s.mu = none := (muFree_iff.1 h).1

theorem getWorker_none {t : Tab} {id : Name} :
    getWorker t id = none ↔ ∃ i, t.workers.get? id = some i ∧ i.worker = none := by
  unfold getWorker
  cases h : t.workers.get? id with
  | none => simp
  | some i => cases h2 : i.worker <;> simp [h2]

theorem getWorker_eq {t t' : Tab} (h : t'.workers = t.workers) (id : Name) : getWorker t' id = getWorker t id := by
  unfold getWorker; rw [h]

theorem killLocked_getWorker {t : Tab} {id j : Name} (h : getWorker t j = none) : getWorker (killLocked t id) j = none := by
  obtain ⟨i, hi, hw⟩ := getWorker_none.1 h
  rw [getWorker_none, killLocked_get?]
  by_cases hx : j = id
  · subst hx; rw [if_pos rfl, hi]; exact ⟨_, rfl, rfl⟩
  · rw [if_neg hx]; exact ⟨i, hi, hw⟩

/-- The effect of a step on what a caller of Worker looks at. -/
structure Eff (s : State) (t : Tab) : Prop where
  keeps : (∀ id, getWorker s.tab id = none → getWorker t id = none) ∨ (s.mu = none ∧ Waking t.pc)
  waking : Waking s.tab.pc → Waking t.pc

theorem Eff.same {s : State} {t : Tab} (h1 : t.workers = s.tab.workers) (h2 : Waking s.tab.pc → Waking t.pc) : Eff s t :=
  ⟨Or.inl (fun id h => by rw [getWorker_eq h1]; exact h), h2⟩

theorem not_waking {pc : LoopPc} {P : Prop} (h1 : pc ≠ .bcast) (h2 : pc.busy = false) : Waking pc → P := by
  rintro (h | h)
  · exact absurd h h1
  · rw [h2] at h; cases h

theorem act_eff {p : Params} {s : State} {now : Int} {m : Msg} (hp : s.tab.pc = .act m)
    (hmu : needsMu p s.tab m = false ∨ s.mu = none) : Eff s (act p s.tab now m) := by
  have hnw : ∀ {P : Prop}, Waking s.tab.pc → P := not_waking (by rw [hp]; nofun) (by rw [hp]; rfl)
  cases m with
  | start cid id sf =>
    simp only [act]
    split
    · exact .same rfl hnw
    · split
      · exact .same rfl hnw
      · rename_i hk
        refine ⟨Or.inl ?_, hnw⟩
        intro j hj
        obtain ⟨i, hi, hw⟩ := getWorker_none.1 hj
        have hne : j ≠ id := by rintro rfl; rw [hi] at hk; exact hk rfl
        refine getWorker_none.2 ⟨i, ?_, hw⟩
        show (s.tab.workers.set id _).get? j = some i
        rw [AMap.get?_set, if_neg hne]; exact hi
  | stop id => exact ⟨Or.inl (fun j hj => killLocked_getWorker (t := s.tab.log _) hj), hnw⟩
  | started gid id w =>
    refine ⟨Or.inr ⟨hmu.resolve_left (by simp [needsMu]), Or.inl rfl⟩, hnw⟩
  | done gid id e =>
    simp only [act]
    unfold workerDone
    split
    · exact .same rfl hnw
    · rename_i info hi
      simp only [needsMu, hi] at hmu
      cases hf : fate p info e <;> simp only [hf] at hmu ⊢
      · exact ⟨Or.inr ⟨hmu.resolve_left nofun, Or.inl rfl⟩, hnw⟩
      ·
        refine ⟨Or.inr ⟨hmu.resolve_left nofun, ?_⟩, hnw⟩
        unfold beginShutdown
        split
        · exact Or.inl rfl
        · exact Or.inr rfl
      · refine ⟨Or.inl ?_, hnw⟩
        intro j hj
        obtain ⟨i, hi', hw⟩ := getWorker_none.1 hj
        rw [getWorker_none]
        show ∃ i, (s.tab.workers.set id _).get? j = some i ∧ _
        by_cases hx : j = id
        · subst hx; rw [hi] at hi'; cases hi'
          rw [AMap.get?_set, if_pos rfl]; exact ⟨_, rfl, hw⟩
        · exact ⟨i, by rw [AMap.get?_set, if_neg hx]; exact hi', hw⟩

theorem tabStep_eff {p : Params} {s : State} {op : Op} {t : Tab} (h : tabStep p s op = some t) : Eff s t := by
  unfold tabStep at h
  split at h
  · cases h; exact .same rfl id
  · split at h
    · rename_i hpc
      split at h <;> cases h <;> exact .same rfl (not_waking (by rw [hpc]; nofun) (by rw [hpc]; rfl))
    · cases h
  · split at h
    · cases h; exact .same rfl (fun _ => Or.inr rfl)
    · cases h
  · split at h
    · rename_i hpc
      split at h
      · split at h
        · cases h; exact .same rfl (not_waking (by rw [hpc]; nofun) (by rw [hpc]; rfl))
        · cases h
      · cases h
    · cases h
  · split at h
    · rename_i hpc
      split at h
      · split at h
        · cases h; exact .same rfl (not_waking (by rw [hpc]; nofun) (by rw [hpc]; rfl))
        · cases h
      · cases h
    · cases h
  · split at h
    · rename_i m hm
      split at h
      · rename_i hmu; cases h; exact act_eff hm hmu
      · cases h
    · cases h
  · split at h
    · cases h; exact .same rfl (fun _ => Or.inr rfl)
    · cases h
  · split at h
    · cases h; exact .same rfl (fun _ => Or.inl rfl)
    · cases h; exact ⟨Or.inl (fun j hj => killLocked_getWorker hj), fun _ => Or.inr rfl⟩
    · cases h
  all_goals
    first
    | (cases h; done)
    | (split at h
       · split at h
         · first
           | (cases h; exact .same rfl id)
           | (split at h
              · cases h; exact .same rfl id
              · cases h)
         · cases h
       · cases h)
    | (split at h
       · cases h; exact .same rfl id
       · cases h)

theorem MInv.tab {s : State} {t : Tab} (h : MInv s) (he : Eff s t) : MInv (s.withTab t) := by
  refine ⟨h.nd, ?_, h.held, ?_, h.waits, h.fresh⟩
  · intro c hc x hx hp
    obtain ⟨h1, h2⟩ := h.holder c hc x hx hp
    refine ⟨h1, ?_⟩
    rcases he.keeps with hk | ⟨hk, _⟩
    · exact hk _ h2
    · rw [h1] at hk; cases hk
  · intro c hc x hx hp
    rcases h.asleep c hc x hx hp with hw | hw
    · exact Or.inl (he.waking hw)
    · rcases he.keeps with hk | ⟨_, hk⟩
      · exact Or.inr (hk _ hw)
      · exact Or.inl hk

/-- Conditions under which changing the one client leaves the invariant. -/
theorem MInv.client {s : State} (h : MInv s) {c : Client} (hc : c ∈ s.clients) (f : Client → Client) (hf : ∀ x, (f x).cid = x.cid)
    (mu : Option Nat) (t : Tab) (he : Eff s t)
    (holder : ∀ x, (f c).helper = some x → x.pc = .check ∨ x.pc = .enter → mu = some c.cid ∧ getWorker t x.id = none)
    (held : ∀ cid, mu = some cid → (cid = c.cid ∧ ∃ x, (f c).helper = some x ∧ (x.pc = .check ∨ x.pc = .enter)) ∨
      (cid ≠ c.cid ∧ s.mu = some cid))
    (other : ∀ k, k ≠ c.cid → s.mu = some k → mu = some k)
    (asleep : ∀ x, (f c).helper = some x → x.pc = .sleep → Waking t.pc ∨ getWorker t x.id = none)
    (waits : ∀ id, (f c).pc = .waiting id →
      ∃ x, (f c).helper = some x ∧ x.id = id ∧ x.stopped = false ∧ (x.pc = .done → x.wc.isSome = true))
    (fresh : ∀ id, (f c).pc = .lock id → (f c).helper = none) :
    MInv (((s.mapC c.cid f).setMu mu).withTab t) := by
  have h0 := h.tab he
  have key : ∀ c' ∈ (((s.mapC c.cid f).setMu mu).withTab t).clients, (c' = f c) ∨ (c' ∈ s.clients ∧ c'.cid ≠ c.cid) := by
    intro c' hc'
    obtain ⟨x, hx, rfl⟩ := List.mem_map.1 hc'
    split
    · rename_i heq
      exact Or.inl (by rw [cid_inj h.nd hx hc heq])
    · rename_i hne; exact Or.inr ⟨hx, hne⟩
  have hmem : f c ∈ (((s.mapC c.cid f).setMu mu).withTab t).clients :=
    List.mem_map.2 ⟨c, hc, by simp⟩
  refine ⟨?_, ?_, ?_, ?_, ?_, ?_⟩
  · show (List.map Client.cid (List.map _ s.clients)).Nodup
    rw [List.map_map]
    have : (Client.cid ∘ fun x => if x.cid = c.cid then f x else x) = Client.cid := by
      funext x; simp only [Function.comp]; split
      · exact hf x
      · rfl
    rw [this]; exact h.nd
  · intro c' hc' x hx hp
    rcases key c' hc' with rfl | ⟨h1, h2⟩
    · rw [hf]; exact holder x hx hp
    · obtain ⟨h3, h4⟩ := h0.holder c' h1 x hx hp
      exact ⟨other _ h2 h3, h4⟩
  · intro cid hcid
    rcases held cid hcid with ⟨rfl, hx⟩ | ⟨hne, hx⟩
    · exact ⟨f c, hmem, hf c, hx⟩
    · obtain ⟨c', h1, rfl, h2⟩ := h.held cid hx
      exact ⟨c', List.mem_map.2 ⟨c', h1, by rw [if_neg hne]⟩, rfl, h2⟩
  · intro c' hc' x hx hp
    rcases key c' hc' with rfl | ⟨h1, h2⟩
    · exact asleep x hx hp
    · exact h0.asleep c' h1 x hx hp
  · intro c' hc' id hp
    rcases key c' hc' with rfl | ⟨h1, h2⟩
    · exact waits id hp
    · exact h0.waits c' h1 id hp
  · intro c' hc' id hp
    rcases key c' hc' with rfl | ⟨h1, h2⟩
    · exact fresh id hp
    · exact h0.fresh c' h1 id hp

/-- The client moves to a place where it neither waits nor is about to look; its helper keeps its place. -/
theorem MInv.move {s : State} (h : MInv s) {c : Client} (hc : c ∈ s.clients) (f : Client → Client) (hf : ∀ x, (f x).cid = x.cid)
    (t : Tab) (he : Eff s t)
    (hh : ∀ y, (f c).helper = some y → ∃ x, c.helper = some x ∧ y.pc = x.pc ∧ y.id = x.id)
    (hh' : ∀ x, c.helper = some x → ∃ y, (f c).helper = some y ∧ y.pc = x.pc)
    (waits : ∀ id, (f c).pc = .waiting id → c.pc = .waiting id ∧ (f c).helper = c.helper)
    (fresh : ∀ id, (f c).pc = .lock id → c.pc = .lock id ∧ (f c).helper = c.helper) :
    MInv (((s.mapC c.cid f).setMu s.mu).withTab t) := by
  have h0 := h.tab he
  refine h.client hc f hf s.mu t he ?_ ?_ (fun _ _ hx => hx) ?_ ?_ ?_
  · intro y hy hp
    obtain ⟨x, hx, h1, h2⟩ := hh y hy
    rw [h1] at hp; rw [h2]
    exact h0.holder c hc x hx hp
  · intro cid hcid
    by_cases hx : cid = c.cid
    · refine Or.inl ⟨hx, ?_⟩
      obtain ⟨c', h1, h2, x, h3, h4⟩ := h.held cid hcid
      have := cid_inj h.nd h1 hc (h2.trans hx)
      subst this
      obtain ⟨y, hy, hyp⟩ := hh' x h3
      exact ⟨y, hy, by rw [hyp]; exact h4⟩
    · exact Or.inr ⟨hx, hcid⟩
  · intro y hy hp
    obtain ⟨x, hx, h1, h2⟩ := hh y hy
    rw [h1] at hp; rw [h2]
    exact h0.asleep c hc x hx hp
  · intro id hp
    obtain ⟨h1, h2⟩ := waits id hp
    rw [h2]; exact h.waits c hc id h1
  · intro id hp
    obtain ⟨h1, h2⟩ := fresh id hp
    rw [h2]; exact h.fresh c hc id h1

/-- The client goes to another place and nothing else happens to it. -/
theorem MInv.cto {s : State} (h : MInv s) {c : Client} (hc : c ∈ s.clients) (pc : CPc) (hw : ∀ id, pc ≠ .waiting id)
    (hl : ∀ id, pc ≠ .lock id) (t : Tab) (he : Eff s t) : MInv ((s.cto c.cid pc).withTab t) :=
  h.move hc (fun x => { x with pc := pc }) (fun _ => rfl) t he (fun y hy => ⟨y, hy, rfl, rfl⟩) (fun x hx => ⟨x, hx, rfl⟩)
    (fun id hx => absurd hx (hw id)) (fun id hx => absurd hx (hl id))

theorem MInv.return_ {s : State} (h : MInv s) {c : Client} (hc : c ∈ s.clients) (r : Ret) : MInv (s.return_ c.cid r) :=
  h.cto hc (.returned r) nofun nofun (s.tab.log (.ret c.cid r)) (.same rfl id)

theorem MInv.afterInfo {s : State} (h : MInv s) {c : Client} (hc : c ∈ s.clients) (id : Name) (r : Found) :
    MInv (afterInfo s c id r) := by
  unfold Runner.afterInfo
  split
  · exact h.return_ hc _
  · split
    · exact h.cto hc _ (by intro _ hx; cases hx) (by intro _ hx; cases hx) s.tab (.same rfl (fun x => x))
    · exact h.return_ hc _

theorem Helper.wake_cases (x : Helper) : (x.pc = .sleep ∧ x.wake = { x with pc := .woken }) ∨ (x.pc ≠ .sleep ∧ x.wake = x) := by
  unfold Helper.wake
  split
  · rename_i h; exact Or.inl ⟨h, rfl⟩
  · rename_i h; exact Or.inr ⟨h, rfl⟩

theorem MInv.broadcast {s : State} (h : MInv s) (t : Tab) (ht : t.workers = s.tab.workers) :
    MInv ((broadcast s).withTab t) := by
  have key : ∀ c' ∈ ((Runner.broadcast s).withTab t).clients, ∃ c ∈ s.clients, c' = { c with helper := c.helper.map Helper.wake } := by
    intro c' hc'
    obtain ⟨x, hx, rfl⟩ := List.mem_map.1 hc'
    exact ⟨x, hx, rfl⟩
  have hw : ∀ (c : Client) y, ({ c with helper := c.helper.map Helper.wake } : Client).helper = some y →
      ∃ x, c.helper = some x ∧ y = x.wake := by
    intro c y hy
    obtain ⟨x, hx, rfl⟩ := Option.map_eq_some_iff.1 hy
    exact ⟨x, hx, rfl⟩
  refine ⟨?_, ?_, ?_, ?_, ?_, ?_⟩
  · show (List.map Client.cid (List.map _ s.clients)).Nodup
    rw [List.map_map]
    exact h.nd
  · intro c' hc' y hy hp
    obtain ⟨c, hc, rfl⟩ := key c' hc'
    obtain ⟨x, hx, rfl⟩ := hw c y hy
    rcases x.wake_cases with ⟨h1, h2⟩ | ⟨h1, h2⟩
    · rw [h2] at hp; rcases hp with hp | hp <;> cases hp
    · rw [h2] at hp ⊢
      obtain ⟨h3, h4⟩ := h.holder c hc x hx hp
      exact ⟨h3, by rw [← h4]; exact getWorker_eq ht _⟩
  · intro cid hcid
    obtain ⟨c, hc, h1, x, hx, hp⟩ := h.held cid hcid
    refine ⟨_, List.mem_map.2 ⟨c, hc, rfl⟩, h1, x.wake, by show c.helper.map Helper.wake = _; rw [hx]; rfl, ?_⟩
    rcases x.wake_cases with ⟨h1, h2⟩ | ⟨h1, h2⟩
    · rw [h1] at hp; rcases hp with hp | hp <;> cases hp
    · rw [h2]; exact hp
  · intro c' hc' y hy hp
    obtain ⟨c, hc, rfl⟩ := key c' hc'
    obtain ⟨x, hx, rfl⟩ := hw c y hy
    rcases x.wake_cases with ⟨h1, h2⟩ | ⟨h1, h2⟩
    · rw [h2] at hp; cases hp
    · rw [h2] at hp; exact absurd hp h1
  · intro c' hc' id hp
    obtain ⟨c, hc, rfl⟩ := key c' hc'
    obtain ⟨x, hx, h1, h2, h3⟩ := h.waits c hc id hp
    refine ⟨x.wake, by show c.helper.map Helper.wake = _; rw [hx]; rfl, ?_⟩
    rcases x.wake_cases with ⟨h4, h5⟩ | ⟨h4, h5⟩
    · rw [h5]; exact ⟨h1, h2, fun hx => by cases hx⟩
    · rw [h5]; exact ⟨h1, h2, h3⟩
  · intro c' hc' id hp
    obtain ⟨c, hc, rfl⟩ := key c' hc'
    show c.helper.map Helper.wake = none
    rw [h.fresh c hc id hp]; rfl

theorem mapH_eq {s : State} {c : Client} (f : Helper → Helper) :
    s.mapH c.cid f = s.mapC c.cid (fun x => { x with helper := x.helper.map f }) := rfl

/-- Something the helper does. -/
theorem MInv.helper {s : State} (h : MInv s) {c : Client} (hc : c ∈ s.clients) {x : Helper} (hx : c.helper = some x)
    (f : Helper → Helper) (mu : Option Nat) (hid : (f x).id = x.id) (hst : (f x).stopped = x.stopped)
    (holder : (f x).pc = .check ∨ (f x).pc = .enter → mu = some c.cid ∧ getWorker s.tab x.id = none)
    (held : ∀ cid, mu = some cid → (cid = c.cid ∧ ((f x).pc = .check ∨ (f x).pc = .enter)) ∨ (cid ≠ c.cid ∧ s.mu = some cid))
    (other : ∀ k, k ≠ c.cid → s.mu = some k → mu = some k)
    (asleep : (f x).pc = .sleep → Waking s.tab.pc ∨ getWorker s.tab x.id = none)
    (done : (f x).pc = .done → x.stopped = true ∨ (f x).wc.isSome = true) :
    MInv ((s.mapH c.cid f).setMu mu) := by
  have hfc : ({ c with helper := c.helper.map f } : Client).helper = some (f x) := by
    show c.helper.map f = _; rw [hx]; rfl
  refine h.client hc (fun x => { x with helper := x.helper.map f }) (fun _ => rfl) mu s.tab (.same rfl id) ?_ ?_ other ?_ ?_ ?_
  · intro y hy hp
    rw [hfc] at hy; cases hy; rw [hid]; exact holder hp
  · intro cid hcid
    rcases held cid hcid with ⟨h1, h2⟩ | h1
    · exact Or.inl ⟨h1, _, hfc, h2⟩
    · exact Or.inr h1
  · intro y hy hp
    rw [hfc] at hy; cases hy; rw [hid]; exact asleep hp
  · intro id hp
    obtain ⟨y, hy, h1, h2, _⟩ := h.waits c hc id hp
    rw [hx] at hy; cases hy
    refine ⟨_, hfc, hid.trans h1, hst.trans h2, fun hd => ?_⟩
    rcases done hd with h3 | h3
    · rw [h2] at h3; cases h3
    · exact h3
  · intro id hp
    have := h.fresh c hc id hp
    rw [hx] at this; cases this

theorem MInv.clientStep {s s' : State} {c : Client} {op : Op} (h : MInv s) (hc : c ∈ s.clients) (hop : op.cid? = some c.cid)
    (hs : clientStep s c op = some s') : MInv s' := by
  unfold Runner.clientStep at hs
  split at hs <;> simp only [Op.cid?, Option.some.injEq, reduceCtorEq] at hop <;> (try subst hop)
  · -- cancel
    cases hs
    exact h.move hc (fun x => { x with cancelled := true }) (fun _ => rfl) (s.tab.log (.cancelled c.cid)) (.same rfl id)
      (fun y hy => ⟨y, hy, rfl, rfl⟩) (fun x hx => ⟨x, hx, rfl⟩) (fun id hx => ⟨hx, rfl⟩) (fun id hx => ⟨hx, rfl⟩)
  · split at hs
    · rename_i hpc
      split at hs
      · cases hs
        exact h.cto hc _ (by intro _ hx; cases hx) (by intro _ hx; cases hx) _ (.same rfl (not_waking (by rw [hpc]; nofun) (by rw [hpc]; rfl)))
      · cases hs
    · cases hs
  · split at hs
    · rename_i hpc
      split at hs
      · cases hs
        exact h.cto hc _ (by intro _ hx; cases hx) (by intro _ hx; cases hx) _ (.same rfl (not_waking (by rw [hpc]; nofun) (by rw [hpc]; rfl)))
      · cases hs
    · cases hs
  · split at hs
    · split at hs
      · cases hs; exact h.return_ hc _
      · cases hs
    · split at hs
      · cases hs; exact h.return_ hc _
      · cases hs
    · cases hs
  · -- cLock
    split at hs
    · rename_i id hp
      split at hs
      · rename_i hmu
        split at hs
        · cases hs; exact h.cto hc _ (by intro _ hx; cases hx) (by intro _ hx; cases hx) s.tab (.same rfl (fun x => x))
        · rename_i hg
          cases hs
          refine h.client hc (fun c => { c with pc := .waiting id, helper := some { id := id } }) (fun _ => rfl) (some c.cid)
            s.tab (.same rfl (fun x => x)) ?_ ?_ ?_ ?_ ?_ ?_
          · intro x hx _; cases hx; exact ⟨rfl, hg⟩
          · intro cid hcid; cases hcid; exact Or.inl ⟨rfl, _, rfl, Or.inl rfl⟩
          · intro k _ hk; rw [mu_of_free hmu] at hk; cases hk
          · intro x hx hs; cases hx; cases hs
          · intro id' hx; cases hx; exact ⟨_, rfl, rfl, rfl, fun hx => by cases hx⟩
          · intro id' hx; cases hx
      · cases hs
    · cases hs
  · split at hs
    · cases hs
      split
      · exact h.return_ hc _
      · exact h.afterInfo hc _ _
    · cases hs
  · split at hs
    · rename_i id r hp hwc
      cases hs
      refine h.move hc (fun c => { c with pc := .gotWc id r, helper := c.helper.map (fun h => { h with wc := none }) })
        (fun _ => rfl) s.tab (.same rfl (fun x => x)) ?_ ?_ (fun id hx => by cases hx) (fun id hx => by cases hx)
      · intro y hy
        obtain ⟨x, hx, rfl⟩ := Option.map_eq_some_iff.1 hy
        exact ⟨x, hx, rfl, rfl⟩
      · intro x hx
        show ∃ y, c.helper.map _ = some y ∧ _
        rw [hx]; exact ⟨_, rfl, rfl⟩
    · cases hs
  · split at hs
    · cases hs
      split
      · exact h.return_ hc _
      · exact h.afterInfo hc _ _
    · cases hs
  · split at hs
    · split at hs
      · cases hs; exact h.return_ hc _
      · cases hs
    · cases hs
  · split at hs
    · split at hs
      · cases hs; exact h.cto hc _ (by intro _ hx; cases hx) (by intro _ hx; cases hx) s.tab (.same rfl (fun x => x))
      · cases hs
    · cases hs
  · split at hs
    · rename_i id hp
      cases hs
      refine h.move hc (fun c => { c with pc := .bcasting id, helper := c.helper.map (fun h => { h with stopped := true }) })
        (fun _ => rfl) s.tab (.same rfl (fun x => x)) ?_ ?_ (fun id hx => by cases hx) (fun id hx => by cases hx)
      · intro y hy
        obtain ⟨x, hx, rfl⟩ := Option.map_eq_some_iff.1 hy
        exact ⟨x, hx, rfl, rfl⟩
      · intro x hx
        show ∃ y, c.helper.map _ = some y ∧ _
        rw [hx]; exact ⟨_, rfl, rfl⟩
    · cases hs
  · split at hs
    · cases hs
      have hb := h.broadcast s.tab rfl
      have hc' : { c with helper := c.helper.map Helper.wake } ∈ (Runner.broadcast s).clients :=
        List.mem_map.2 ⟨c, hc, rfl⟩
      exact hb.return_ hc' _
    · cases hs
  · split at hs
    · cases hs; exact h.cto hc _ (by intro _ hx; cases hx) (by intro _ hx; cases hx) _ (.same rfl (fun x => x))
    · cases hs
  · split at hs
    · split at hs
      · cases hs; exact h.cto hc _ (by intro _ hx; cases hx) (by intro _ hx; cases hx) s.tab (.same rfl (fun x => x))
      · cases hs
    · cases hs
  · split at hs
    · split at hs
      · cases hs; exact h.return_ hc _
      · cases hs
    · cases hs
  · split at hs
    · split at hs
      · cases hs; exact h.cto hc _ (by intro _ hx; cases hx) (by intro _ hx; cases hx) _ (.same rfl (fun x => x))
      · cases hs
    · cases hs
  · -- hCheck
    split at hs
    · rename_i x hx
      split at hs
      · rename_i hp
        obtain ⟨hm, hg⟩ := h.holder c hc x hx (Or.inl hp)
        split at hs <;> cases hs
        · rename_i hst
          refine h.helper hc hx (fun h => { h with pc := .done }) none rfl rfl ?_ ?_ ?_ ?_ ?_
          · intro hx; rcases hx with hx | hx <;> cases hx
          · intro _ hx; cases hx
          · intro k hne hk; rw [hm] at hk; cases hk; exact absurd rfl hne
          · intro hx; cases hx
          · intro _; exact Or.inl hst
        · refine h.helper hc hx (fun h => { h with pc := .enter }) s.mu rfl rfl ?_ ?_ ?_ ?_ ?_
          · intro _; exact ⟨hm, hg⟩
          · intro cid hcid; rw [hm] at hcid; cases hcid; exact Or.inl ⟨rfl, Or.inr rfl⟩
          · intro k _ hk; exact hk
          · intro hx; cases hx
          · intro hx; cases hx
      · cases hs
    · cases hs
  · -- hEnter
    split at hs
    · rename_i x hx
      split at hs
      · rename_i hp
        obtain ⟨hm, hg⟩ := h.holder c hc x hx (Or.inr hp)
        cases hs
        refine h.helper hc hx (fun h => { h with pc := .sleep }) none rfl rfl ?_ ?_ ?_ ?_ ?_
        · intro hx; rcases hx with hx | hx <;> cases hx
        · intro _ hx; cases hx
        · intro k hne hk; rw [hm] at hk; cases hk; exact absurd rfl hne
        · intro _; exact Or.inr hg
        · intro hx; cases hx
      · cases hs
    · cases hs
  · -- hWake
    split at hs
    · rename_i x hx
      split at hs
      · rename_i hp
        split at hs <;> cases hs
        · rename_i r hg
          refine h.helper hc hx (fun h => { h with pc := .done, wc := some r }) s.mu rfl rfl ?_ ?_ ?_ ?_ ?_
          · intro hx; rcases hx with hx | hx <;> cases hx
          · intro cid hx; rw [mu_of_free hp.2] at hx; cases hx
          · intro k _ hk; exact hk
          · intro hx; cases hx
          · intro _; exact Or.inr rfl
        · rename_i hg
          refine h.helper hc hx (fun h => { h with pc := .check }) (some c.cid) rfl rfl ?_ ?_ ?_ ?_ ?_
          · intro _; exact ⟨rfl, hg⟩
          · intro cid hcid; cases hcid; exact Or.inl ⟨rfl, Or.inl rfl⟩
          · intro k _ hk; rw [mu_of_free hp.2] at hk; cases hk
          · intro hx; cases hx
          · intro hx; cases hx
      · cases hs
    · cases hs

theorem MInv.new {s : State} (h : MInv s) (hlt : ∀ c ∈ s.clients, c.cid < s.nextC) (c : Client) (e : Ev)
    (hw : ∀ id, c.pc ≠ .waiting id) (hh : c.helper = none) : MInv (newClient s c e) := by
  have h0 := h.tab (t := s.tab.log e) (.same rfl id)
  refine ⟨?_, ?_, ?_, ?_, ?_, ?_⟩
  · show (List.map Client.cid (_ :: s.clients)).Nodup
    rw [List.map_cons, List.nodup_cons]
    refine ⟨?_, h.nd⟩
    intro hm
    obtain ⟨c', hc', heq⟩ := List.mem_map.1 hm
    exact Nat.lt_irrefl _ (heq ▸ hlt c' hc')
  · intro c' hc' x hx hp
    rcases List.mem_cons.1 hc' with rfl | hc'
    · rw [show _ = none from hh] at hx; cases hx
    · exact h0.holder c' hc' x hx hp
  · intro cid hcid
    obtain ⟨c', hc', h1⟩ := h.held cid hcid
    exact ⟨c', List.mem_cons_of_mem _ hc', h1⟩
  · intro c' hc' x hx hp
    rcases List.mem_cons.1 hc' with rfl | hc'
    · rw [show _ = none from hh] at hx; cases hx
    · exact h0.asleep c' hc' x hx hp
  · intro c' hc' id hp
    rcases List.mem_cons.1 hc' with rfl | hc'
    · exact absurd hp (hw id)
    · exact h.waits c' hc' id hp
  · intro c' hc' id hp
    rcases List.mem_cons.1 hc' with rfl | hc'
    · exact hh
    · exact h.fresh c' hc' id hp

theorem MInv.step {p : Params} {s s' : State} {op : Op} (h : MInv s) (hci : CInv s) (hs : step p s op = some s') : MInv s' := by
  unfold Runner.step at hs
  split at hs
  · cases hs; exact h.new hci.lt _ _ nofun rfl
  · cases hs; exact h.new hci.lt _ _ nofun rfl
  · cases hs; exact h.new hci.lt _ _ nofun rfl
  · cases hs; exact h.new hci.lt _ _ nofun rfl
  · split at hs
    · rename_i cid hp
      cases hs
      obtain ⟨c, hc, rfl, _⟩ := hci.reply cid (Or.inr ⟨_, hp⟩)
      exact h.cto hc _ (by intro _ hx; cases hx) (by intro _ hx; cases hx) _ (.same rfl (fun _ => Or.inl rfl))
    · rename_i cid e hp
      cases hs
      obtain ⟨c, hc, rfl, _⟩ := hci.reply cid (Or.inr ⟨_, hp⟩)
      exact h.cto hc _ (by intro _ hx; cases hx) (by intro _ hx; cases hx) _ (.same rfl (fun _ => Or.inl rfl))
    · cases hs
  · split at hs
    · cases hs; exact h.broadcast _ rfl
    · cases hs
  · split at hs
    · rename_i cid hcid
      split at hs
      · rename_i c hg
        obtain ⟨hc, rfl⟩ := getC_some hg
        exact h.clientStep hc hcid hs
      · cases hs
    · obtain ⟨t, ht, rfl⟩ := Option.map_eq_some_iff.1 hs
      exact h.tab (tabStep_eff ht)

theorem Reach.minv {p : Params} {s : State} (h : Reach p s) : MInv s := by
  induction h with
  | init =>
    exact ⟨List.nodup_nil, (by intro c hc; cases hc), (by intro c hc; cases hc), (by intro c hc; cases hc),
      (by intro c hc; cases hc), (by intro c hc; cases hc)⟩
  | step op hr hs ih => exact ih.step hr.cinv hs

/-! ## The loop and a caller of Worker do not hold mu at once -/

theorem act_unlocked {p : Params} {t : Tab} {now : Int} {m : Msg} (hp : t.pc = .act m) : (act p t now m).pc.locked = false := by
  cases m with
  | start cid id sf => simp only [act]; split <;> (try split) <;> rfl
  | stop id => rfl
  | started gid id w => rfl
  | done gid id e =>
    simp only [act]
    unfold workerDone
    split
    · rw [hp]; rfl
    · simp only
      split
      · rfl
      · unfold beginShutdown; split <;> rfl
      · rfl

theorem tabStep_locked {p : Params} {s : State} {op : Op} {t : Tab} (h : tabStep p s op = some t) (hl : t.pc.locked = true) :
    s.mu = none ∨ s.tab.pc.locked = true := by
  unfold tabStep at h
  split at h
  · cases h; exact .inr hl
  all_goals
    first
    | (cases h; done)
    | (split at h
       · rename_i m hm
         split at h
         · cases h; rw [act_unlocked hm] at hl; cases hl
         · cases h
       · cases h)
    | (repeat' split at h)
  all_goals
    first
    | (cases h; done)
    | (cases h; exact .inr hl)
    | (cases h; cases hl; done)
    | (rename_i hc; exact .inl hc.2.1)
    | (rename_i hc; rw [hc]; exact .inr rfl)

theorem afterInfo_excl {s : State} {c : Client} {id : Name} {r : Found} (he : s.tab.pc.locked = true → s.mu = none)
    (hl : (afterInfo s c id r).tab.pc.locked = true) : (afterInfo s c id r).mu = none := by
  unfold afterInfo at hl ⊢
  cases r with
  | notFound => exact he hl
  | worker w rid =>
    simp only at hl ⊢
    split
    · rename_i hc; rw [if_pos hc] at hl; exact he hl
    · rename_i hc; rw [if_neg hc] at hl; exact he hl

theorem clientStep_excl {s s' : State} {c : Client} {op : Op} (h : clientStep s c op = some s')
    (he : s.tab.pc.locked = true → s.mu = none) (hl : s'.tab.pc.locked = true) : s'.mu = none := by
  unfold Runner.clientStep at h
  split at h
  all_goals (repeat' split at h)
  all_goals
    first
    | (cases h; done)
    | (cases h; exact he hl)
    | (cases h; cases hl; done)
    | (rename_i hf _ _; cases h
       have hl : s.tab.pc.locked = true := hl
       rw [(muFree_iff.1 (by first | exact hf | exact hf.2)).2] at hl; cases hl)
    | (cases h; exact afterInfo_excl he hl)
    | (cases h; rfl)
    | skip

theorem clientStep_locked {s s' : State} {c : Client} {op : Op} (h : clientStep s c op = some s')
    (hl : s'.tab.pc.locked = true) : s.tab.pc.locked = true := by
  unfold Runner.clientStep at h
  split at h
  all_goals (repeat' split at h)
  all_goals
    first
    | (cases h; done)
    | (cases h; exact hl)
    | (cases h; cases hl; done)
    | (rw [← Option.some.inj h] at hl
       rename Found => r
       unfold afterInfo at hl
       cases r with
       | notFound => exact hl
       | worker w rid => simp only at hl; split at hl <;> exact hl)

/-- The loop takes mu only when it is free. -/
theorem step_locked {p : Params} {s s' : State} {op : Op} (hs : step p s op = some s') (hl : s'.tab.pc.locked = true) :
    s.mu = none ∨ s.tab.pc.locked = true := by
  unfold Runner.step at hs
  split at hs
  · cases hs; exact .inr hl
  · cases hs; exact .inr hl
  · cases hs; exact .inr hl
  · cases hs; exact .inr hl
  · split at hs <;> cases hs <;> cases hl
  · split at hs <;> cases hs; cases hl
  · split at hs
    · split at hs
      · exact .inr (clientStep_locked hs hl)
      · cases hs
    · obtain ⟨t, ht, rfl⟩ := Option.map_eq_some_iff.1 hs
      exact tabStep_locked ht hl

theorem Reach.excl {p : Params} {s : State} (h : Reach p s) : s.tab.pc.locked = true → s.mu = none := by
  induction h with
  | init => intro hl; cases hl
  | @step s s' op hr hs ih =>
    intro hl
    unfold Runner.step at hs
    split at hs
    · cases hs; exact ih hl
    · cases hs; exact ih hl
    · cases hs; exact ih hl
    · cases hs; exact ih hl
    · split at hs <;> cases hs <;> cases hl
    · split at hs <;> cases hs; cases hl
    · split at hs
      · split at hs
        · exact clientStep_excl hs ih hl
        · cases hs
      · obtain ⟨t, ht, rfl⟩ := Option.map_eq_some_iff.1 hs
        exact (tabStep_locked ht hl).elim id ih

end Verif.Runner
