import Verif.Runner.Progress

/-!
# Runner: the helper goroutines of workerInfo after their caller has given up
-/

namespace Verif.Runner
open Tab State

/-- What may happen to a helper in one step. -/
inductive HMove (h : Helper) : Helper → Prop
  | same : HMove h h
  | wake : HMove h h.wake
  | taken : HMove h { h with wc := none }
  | stop : HMove h { h with stopped := true }
  | quit : h.pc = .check → h.stopped = true → HMove h { h with pc := .done }
  | enter : h.pc = .check → h.stopped = false → HMove h { h with pc := .enter }
  | sleep : h.pc = .enter → HMove h { h with pc := .sleep }
  | found (r : Found) : h.pc = .woken → HMove h { h with pc := .done, wc := some r }
  | check : h.pc = .woken → HMove h { h with pc := .check }

/-- The helper of a client call, once there is one. -/
def Has (s : State) (cid : Nat) (h : Helper) : Prop :=
  ∃ c ∈ s.clients, c.cid = cid ∧ (∀ id, c.pc ≠ .lock id) ∧ c.helper = some h

theorem Has.mapC {s s' : State} {cid k : Nat} {h h' : Helper} {f : Client → Client} (hh : Has s cid h)
    (hcl : s'.clients = s.clients.map (fun c => if c.cid = k then f c else c)) (hid : ∀ c, (f c).cid = c.cid)
    (hf : ∀ c ∈ s.clients, c.cid = cid → c.cid = k → c.helper = some h → (∀ id, c.pc ≠ .lock id) →
      (f c).helper = some h' ∧ ∀ id, (f c).pc ≠ .lock id) (hne : cid ≠ k → h' = h) : Has s' cid h' := by
  obtain ⟨c, hc, h1, h2, h3⟩ := hh
  by_cases hk : c.cid = k
  · obtain ⟨h4, h5⟩ := hf c hc h1 hk h3 h2
    exact ⟨f c, by rw [hcl]; exact List.mem_map.2 ⟨c, hc, by simp [hk]⟩, by rw [hid, h1], h5, h4⟩
  · refine ⟨c, by rw [hcl]; exact List.mem_map.2 ⟨c, hc, by simp [hk]⟩, h1, h2, ?_⟩
    rw [hne (fun he => hk (by rw [h1, he]))]; exact h3

/-- Only the place of a client changes. -/
theorem Has.cto {s s' : State} {cid k : Nat} {h : Helper} {pc : CPc} (hh : Has s cid h) (hp : ∀ id, pc ≠ .lock id)
    (hcl : s'.clients = s.clients.map (fun c => if c.cid = k then { c with pc := pc } else c)) : Has s' cid h :=
  hh.mapC hcl (fun _ => rfl) (fun c _ _ _ h3 _ => ⟨h3, hp⟩) (fun _ => rfl)

theorem Has.broadcast {s s' : State} {cid : Nat} {h : Helper} (hh : Has s cid h)
    (hcl : s'.clients = (broadcast s).clients) : Has s' cid h.wake := by
  obtain ⟨c, hc, h1, h2, h3⟩ := hh
  exact ⟨{ c with helper := c.helper.map Helper.wake }, by rw [hcl]; exact List.mem_map.2 ⟨c, hc, rfl⟩, h1, h2, by simp [h3]⟩

theorem Has.same {s s' : State} {cid : Nat} {h : Helper} (hh : Has s cid h) (hcl : s'.clients = s.clients) : Has s' cid h := by
  obtain ⟨c, hc, h1⟩ := hh
  exact ⟨c, by rw [hcl]; exact hc, h1⟩

theorem Has.new {s : State} {cid : Nat} {h : Helper} (hh : Has s cid h) (c : Client) (e : Ev) : Has (newClient s c e) cid h := by
  obtain ⟨x, hx, h1⟩ := hh
  exact ⟨x, List.mem_cons_of_mem _ hx, h1⟩

theorem Has.client {s s' : State} {cid : Nat} {h : Helper} {c : Client} {op : Op} (hnd : (s.clients.map Client.cid).Nodup)
    (hc : c ∈ s.clients) (hop : op.cid? = some c.cid) (hh : Has s cid h) (hs : clientStep s c op = some s') :
    ∃ h', Has s' cid h' ∧ HMove h h' ∧ (op = .cBcast c.cid → h' = h.wake) := by
  -- the client that moves is the one with the helper, or another one
  have me : ∀ {f : Client → Client} (h' : Helper), c.cid = cid →
      s'.clients = s.clients.map (fun x => if x.cid = c.cid then f x else x) → (∀ x, (f x).cid = x.cid) →
      (c.helper = some h → (∀ id, c.pc ≠ .lock id) → (f c).helper = some h' ∧ ∀ id, (f c).pc ≠ .lock id) → Has s' cid h' := by
    intro f h' hcid hcl hid hf
    refine hh.mapC hcl hid ?_ (fun hn => absurd hcid.symm hn)
    intro x hx h1 h2 h3 h4
    rw [cid_inj hnd hx hc h2] at h3 h4 ⊢
    exact hf h3 h4
  have other : ∀ {f : Client → Client}, c.cid ≠ cid →
      s'.clients = s.clients.map (fun x => if x.cid = c.cid then f x else x) → (∀ x, (f x).cid = x.cid) → Has s' cid h := by
    intro f hcid hcl hid
    exact hh.mapC hcl hid (fun x _ h1 h2 => absurd (h2.symm.trans h1) hcid) (fun _ => rfl)
  have mine : c.cid = cid → c.helper = some h ∧ ∀ id, c.pc ≠ .lock id := by
    intro hcid
    obtain ⟨x, hx, h1, h2, h3⟩ := hh
    rw [cid_inj hnd hc hx (by rw [hcid, h1])]
    exact ⟨h3, h2⟩
  unfold clientStep at hs
  split at hs <;> simp only [Op.cid?, Option.some.injEq, reduceCtorEq] at hop <;> (try subst hop)
  · cases hs
    refine ⟨h, hh.mapC (k := c.cid) (f := fun c => { c with cancelled := true }) rfl (fun _ => rfl) (fun x _ _ _ h3 h4 => ⟨h3, h4⟩) (fun _ => rfl), .same, by nofun⟩
  · split at hs
    · split at hs <;> cases hs
      exact ⟨h, hh.cto (pc := .startReply) (by nofun) rfl, .same, by nofun⟩
    · cases hs
  · split at hs
    · split at hs <;> cases hs
      exact ⟨h, hh.cto (pc := .returned .ok) (by nofun) rfl, .same, by nofun⟩
    · cases hs
  · split at hs
    · split at hs <;> cases hs
      exact ⟨h, hh.cto (pc := .returned (.err .runnerDead)) (by nofun) rfl, .same, by nofun⟩
    · split at hs <;> cases hs
      exact ⟨h, hh.cto (pc := .returned (.err .runnerDead)) (by nofun) rfl, .same, by nofun⟩
    · cases hs
  · -- cLock
    split at hs
    · rename_i id hp
      have hne : c.cid ≠ cid := fun he => (mine he).2 id hp
      split at hs
      · split at hs <;> cases hs
        · exact ⟨h, hh.cto (pc := .immediate id _) (by nofun) rfl, .same, by nofun⟩
        · exact ⟨h, other (f := fun c => { c with pc := .waiting id, helper := some { id := id } }) hne rfl (fun _ => rfl), .same, by nofun⟩
      · cases hs
    · cases hs
  · -- cImmediate
    split at hs
    · cases hs
      split
      · exact ⟨h, hh.cto (pc := .returned (.err .runnerDead)) (by nofun) rfl, .same, by nofun⟩
      · unfold afterInfo
        split
        · exact ⟨h, hh.cto (pc := .returned (.err (.notFound _))) (by nofun) rfl, .same, by nofun⟩
        · split
          · exact ⟨h, hh.cto (pc := .removeKill _ _) (by nofun) rfl, .same, by nofun⟩
          · exact ⟨h, hh.cto (pc := .returned (.worker _)) (by nofun) rfl, .same, by nofun⟩
    · cases hs
  · -- cRecv
    split at hs
    · rename_i id r hp hwc
      cases hs
      by_cases hcid : c.cid = cid
      · refine ⟨{ h with wc := none }, me (f := fun c => { c with pc := .gotWc id r, helper := c.helper.map (fun h => { h with wc := none }) }) _ hcid rfl (fun _ => rfl) ?_, .taken, by nofun⟩
        intro h3 h4
        exact ⟨by simp [h3], by nofun⟩
      · exact ⟨h, other (f := fun c => { c with pc := .gotWc id r, helper := c.helper.map (fun h => { h with wc := none }) }) hcid rfl (fun _ => rfl), .same, by nofun⟩
    · cases hs
  · -- cGotWc
    split at hs
    · cases hs
      split
      · exact ⟨h, hh.cto (pc := .returned (.err .runnerDead)) (by nofun) rfl, .same, by nofun⟩
      · unfold afterInfo
        split
        · exact ⟨h, hh.cto (pc := .returned (.err (.notFound _))) (by nofun) rfl, .same, by nofun⟩
        · split
          · exact ⟨h, hh.cto (pc := .removeKill _ _) (by nofun) rfl, .same, by nofun⟩
          · exact ⟨h, hh.cto (pc := .returned (.worker _)) (by nofun) rfl, .same, by nofun⟩
    · cases hs
  · -- cDying
    split at hs
    · split at hs <;> cases hs
      exact ⟨h, hh.cto (pc := .returned (.err .runnerDead)) (by nofun) rfl, .same, by nofun⟩
    · cases hs
  · -- cAbort
    split at hs
    · split at hs <;> cases hs
      exact ⟨h, hh.cto (pc := .closing _) (by nofun) rfl, .same, by nofun⟩
    · cases hs
  · -- cClose
    split at hs
    · rename_i id hp
      cases hs
      by_cases hcid : c.cid = cid
      · refine ⟨{ h with stopped := true }, me (f := fun c => { c with pc := .bcasting id, helper := c.helper.map (fun h => { h with stopped := true }) }) _ hcid rfl (fun _ => rfl) ?_, .stop, by nofun⟩
        intro h3 h4
        exact ⟨by simp [h3], by nofun⟩
      · exact ⟨h, other (f := fun c => { c with pc := .bcasting id, helper := c.helper.map (fun h => { h with stopped := true }) }) hcid rfl (fun _ => rfl), .same, by nofun⟩
    · cases hs
  · -- cBcast
    split at hs
    · cases hs
      have h1 : Has (Runner.broadcast s) cid h.wake := hh.broadcast rfl
      exact ⟨h.wake, h1.cto (k := c.cid) (pc := .returned (.err .runnerAborted)) (by nofun) rfl, .wake, fun _ => rfl⟩
    · cases hs
  · split at hs
    · cases hs
      exact ⟨h, hh.cto (pc := .removeWait _ _) (by nofun) rfl, .same, by nofun⟩
    · cases hs
  · split at hs
    · split at hs <;> cases hs
      exact ⟨h, hh.cto (pc := .removeSelect _ _ _) (by nofun) rfl, .same, by nofun⟩
    · cases hs
  · split at hs
    · split at hs <;> cases hs
      exact ⟨h, hh.cto (pc := .returned (.err .runnerAborted)) (by nofun) rfl, .same, by nofun⟩
    · cases hs
  · split at hs
    · split at hs <;> cases hs
      exact ⟨h, hh.cto (pc := .returned (.result _)) (by nofun) rfl, .same, by nofun⟩
    · cases hs
  · -- hCheck
    have go : ∀ (f : Helper → Helper), s'.clients = s.clients.map (fun x => if x.cid = c.cid then { x with helper := x.helper.map f } else x) →
        (c.helper = some h → HMove h (f h)) → ∃ h', Has s' cid h' ∧ HMove h h' ∧ (Op.hCheck c.cid = .cBcast c.cid → h' = h.wake) := by
      intro f hcl hm
      by_cases hcid : c.cid = cid
      · exact ⟨f h, me (f := fun x => { x with helper := x.helper.map f }) _ hcid hcl (fun _ => rfl)
          (fun h3 h4 => ⟨by simp [h3], h4⟩), hm (mine hcid).1, by nofun⟩
      · exact ⟨h, other (f := fun x => { x with helper := x.helper.map f }) hcid hcl (fun _ => rfl), .same, by nofun⟩
    split at hs
    · rename_i x hx
      split at hs
      · rename_i hp
        split at hs <;> rename_i hst <;> cases hs
        · exact go _ rfl (fun h3 => by rw [hx] at h3; cases h3; exact .quit hp hst)
        · exact go _ rfl (fun h3 => by rw [hx] at h3; cases h3; exact .enter hp (by simpa using hst))
      · cases hs
    · cases hs
  · -- hEnter
    have go : ∀ (f : Helper → Helper), s'.clients = s.clients.map (fun x => if x.cid = c.cid then { x with helper := x.helper.map f } else x) →
        (c.helper = some h → HMove h (f h)) → ∃ h', Has s' cid h' ∧ HMove h h' ∧ (Op.hEnter c.cid = .cBcast c.cid → h' = h.wake) := by
      intro f hcl hm
      by_cases hcid : c.cid = cid
      · exact ⟨f h, me (f := fun x => { x with helper := x.helper.map f }) _ hcid hcl (fun _ => rfl)
          (fun h3 h4 => ⟨by simp [h3], h4⟩), hm (mine hcid).1, by nofun⟩
      · exact ⟨h, other (f := fun x => { x with helper := x.helper.map f }) hcid hcl (fun _ => rfl), .same, by nofun⟩
    split at hs
    · rename_i x hx
      split at hs
      · rename_i hp
        cases hs
        exact go _ rfl (fun h3 => by rw [hx] at h3; cases h3; exact .sleep hp)
      · cases hs
    · cases hs
  · -- hWake
    have go : ∀ (f : Helper → Helper), s'.clients = s.clients.map (fun x => if x.cid = c.cid then { x with helper := x.helper.map f } else x) →
        (c.helper = some h → HMove h (f h)) → ∃ h', Has s' cid h' ∧ HMove h h' ∧ (Op.hWake c.cid = .cBcast c.cid → h' = h.wake) := by
      intro f hcl hm
      by_cases hcid : c.cid = cid
      · exact ⟨f h, me (f := fun x => { x with helper := x.helper.map f }) _ hcid hcl (fun _ => rfl)
          (fun h3 h4 => ⟨by simp [h3], h4⟩), hm (mine hcid).1, by nofun⟩
      · exact ⟨h, other (f := fun x => { x with helper := x.helper.map f }) hcid hcl (fun _ => rfl), .same, by nofun⟩
    split at hs
    · rename_i x hx
      split at hs
      · rename_i hp
        split at hs <;> cases hs
        · exact go _ rfl (fun h3 => by rw [hx] at h3; cases h3; exact .found _ hp.1)
        · exact go _ rfl (fun h3 => by rw [hx] at h3; cases h3; exact .check hp.1)
      · cases hs
    · cases hs

theorem Has.step {p : Params} {s s' : State} {cid : Nat} {h : Helper} {op : Op} (hr : Reach p s) (hh : Has s cid h)
    (hs : Runner.step p s op = some s') :
    ∃ h', Has s' cid h' ∧ HMove h h' ∧ (op = .bcast ∨ op = .cBcast cid → h' = h.wake) := by
  unfold Runner.step at hs
  split at hs
  · cases hs; exact ⟨h, hh.new _ _, .same, by nofun⟩
  · cases hs; exact ⟨h, hh.new _ _, .same, by nofun⟩
  · cases hs; exact ⟨h, hh.new _ _, .same, by nofun⟩
  · cases hs; exact ⟨h, hh.new _ _, .same, by nofun⟩
  · split at hs <;> cases hs
    · exact ⟨h, hh.cto (pc := .returned .ok) (by nofun) rfl, .same, by nofun⟩
    · exact ⟨h, hh.cto (pc := .returned (.err _)) (by nofun) rfl, .same, by nofun⟩
  · split at hs <;> cases hs
    exact ⟨h.wake, hh.broadcast rfl, .wake, fun _ => rfl⟩
  · rename_i h1 h2 h3 h4 h5 h6
    split at hs
    · rename_i k hk
      split at hs
      · rename_i c hg
        obtain ⟨hc, rfl⟩ := getC_some hg
        obtain ⟨h', g1, g2, g3⟩ := hh.client hr.minv.nd hc hk hs
        refine ⟨h', g1, g2, ?_⟩
        rintro (rfl | rfl)
        · exact absurd rfl h6
        · simp only [Op.cid?, Option.some.injEq] at hk
          exact g3 (by rw [hk])
      · cases hs
    · rename_i hk
      obtain ⟨t, ht, rfl⟩ := Option.map_eq_some_iff.1 hs
      refine ⟨h, hh.same rfl, .same, ?_⟩
      rintro (rfl | rfl)
      · exact absurd rfl h6
      · cases hk

/-- A helper that has been told to stop and is on its way out. -/
def Leaving (h : Helper) : Prop := h.stopped = true ∧ (h.pc = .woken ∨ h.pc = .check ∨ h.pc = .done)

theorem Leaving.move {h h' : Helper} (hl : Leaving h) (hm : HMove h h') : Leaving h' := by
  obtain ⟨h1, h2⟩ := hl
  cases hm with
  | same => exact ⟨h1, h2⟩
  | wake =>
    unfold Helper.wake
    split
    · rename_i hp; rw [hp] at h2; rcases h2 with h | h | h <;> cases h
    · exact ⟨h1, h2⟩
  | taken => exact ⟨h1, h2⟩
  | stop => exact ⟨rfl, h2⟩
  | quit => exact ⟨h1, Or.inr (Or.inr rfl)⟩
  | enter _ hs => rw [h1] at hs; cases hs
  | sleep hp => rw [hp] at h2; rcases h2 with h | h | h <;> cases h
  | found r _ => exact ⟨h1, Or.inr (Or.inr rfl)⟩
  | check _ => exact ⟨h1, Or.inr (Or.inl rfl)⟩

/-- A helper that has been told to stop and is asleep or on its way out. -/
def Resting (h : Helper) : Prop := h.stopped = true ∧ (h.pc = .sleep ∨ h.pc = .woken ∨ h.pc = .check ∨ h.pc = .done)

theorem Resting.wake {h : Helper} (hl : Resting h) : Leaving h.wake := by
  obtain ⟨h1, h2⟩ := hl
  unfold Helper.wake
  split
  · exact ⟨h1, Or.inl rfl⟩
  · rename_i hn; exact ⟨h1, h2.resolve_left hn⟩

theorem Resting.move {h h' : Helper} (hl : Resting h) (hm : HMove h h') : Resting h' := by
  obtain ⟨h1, h2⟩ := hl
  cases hm with
  | same => exact ⟨h1, h2⟩
  | wake => exact ⟨(Resting.wake ⟨h1, h2⟩).1, Or.inr (Resting.wake ⟨h1, h2⟩).2⟩
  | taken => exact ⟨h1, h2⟩
  | stop => exact ⟨rfl, h2⟩
  | quit => exact ⟨h1, Or.inr (Or.inr (Or.inr rfl))⟩
  | enter _ hs => rw [h1] at hs; cases hs
  | sleep hp => rw [hp] at h2; rcases h2 with h | h | h | h <;> cases h
  | found r _ => exact ⟨h1, Or.inr (Or.inr (Or.inr rfl))⟩
  | check _ => exact ⟨h1, Or.inr (Or.inr (Or.inl rfl))⟩

theorem Exec.leaving {p : Params} {ok count : Op → Bool} {n : Nat} {s s' : State} (hx : Exec p ok count n s s') (hr : Reach p s)
    {cid : Nat} {h : Helper} (hh : Has s cid h) (hl : Leaving h) : ∃ h', Has s' cid h' ∧ Leaving h' := by
  induction hx generalizing h with
  | nil => exact ⟨h, hh, hl⟩
  | one op _ hs _ ih =>
    obtain ⟨h', h1, h2, _⟩ := hh.step hr hs
    exact ih (hr.step op hs) h1 (hl.move h2)

/-- With a broadcast of the loop. -/
theorem Exec.resting {p : Params} {n : Nat} {s s' : State} {ok : Op → Bool}
    (hx : Exec p ok (fun op => decide (op = .bcast)) n s s') (hr : Reach p s)
    {cid : Nat} {h : Helper} (hh : Has s cid h) (hl : Resting h) (hn : n ≠ 0) : ∃ h', Has s' cid h' ∧ Leaving h' := by
  induction hx generalizing h with
  | nil => exact absurd rfl hn
  | one op _ hs hx ih =>
    obtain ⟨h', h1, h2, h3⟩ := hh.step hr hs
    by_cases hb : op = .bcast
    · exact hx.leaving (hr.step op hs) h1 (by rw [h3 (Or.inl hb)]; exact hl.wake)
    · exact ih (hr.step op hs) h1 (hl.move h2) (by simpa [hb] using hn)

/-- A helper that has gone stays gone. -/
theorem Exec.finished {p : Params} {ok count : Op → Bool} {n : Nat} {s s' : State} (hx : Exec p ok count n s s') (hr : Reach p s)
    {cid : Nat} {h : Helper} (hh : Has s cid h) (hl : h.pc = .done) : ∃ h', Has s' cid h' ∧ h'.pc = .done := by
  induction hx generalizing h with
  | nil => exact ⟨h, hh, hl⟩
  | one op _ hs _ ih =>
    obtain ⟨h', h1, h2, _⟩ := hh.step hr hs
    refine ih (hr.step op hs) h1 ?_
    cases h2 with
    | wake => unfold Helper.wake; rw [if_neg (by rw [hl]; nofun)]; exact hl
    | same => exact hl
    | taken => exact hl
    | stop => exact hl
    | quit => rfl
    | enter h9 => rw [hl] at h9; cases h9
    | sleep h9 => rw [hl] at h9; cases h9
    | found r h9 => rfl
    | check h9 => rw [hl] at h9; cases h9

/-- In a state of rest such a helper has gone. -/
theorem Has.gone {p : Params} {s : State} (hr : Reach p s) (hq : ¬ CanStep p s) {cid : Nat} {h : Helper} (hh : Has s cid h)
    (hl : Leaving h) : h.pc = .done := by
  obtain ⟨c, hc, rfl, _, hh⟩ := hh
  have hm := hr.minv
  have hg := getC_of hm.nd hc
  have hfree := hr.mu_rest hq
  have hmu : s.mu = none := mu_of_free hfree
  rcases hl.2 with hp | hp | hp
  · exfalso
    refine hq (canStep_of (.hWake c.cid) rfl ?_)
    simp only [Runner.step, Op.cid?, hg, clientStep, hh, hp, hfree, and_self, if_true]
    split <;> rfl
  · have := (hm.holder c hc h hh (Or.inl hp)).1; rw [hmu] at this; cases this
  · exact hp

/-- What the helper of a call looks like, given where the call is. -/
def AInv (c : Client) : Prop := ∀ h, c.helper = some h → match c.pc with
  | .bcasting _ => h.stopped = true
  | .waiting _ | .closing _ => h.wc.isSome = true → h.pc = .done
  | .gotWc .. | .removeKill .. | .removeWait .. | .removeSelect .. => h.pc = .done
  | .returned r => r = .err .runnerAborted → h.stopped = true ∨ h.pc = .done
  | _ => False

theorem AInv.helper {c : Client} (hi : AInv c) (f : Helper → Helper)
    (hf : ∀ h, c.helper = some h → HMove h (f h) ∧ (f h).wc = h.wc ∨ (f h).pc = .done ∧ (f h).stopped = h.stopped) :
    AInv { c with helper := c.helper.map f } := by
  intro h' hh'
  obtain ⟨h, hh, rfl⟩ := Option.map_eq_some_iff.1 hh'
  have hi := hi h hh
  have hst : h.stopped = true → (f h).stopped = true := by
    intro hx
    rcases hf h hh with ⟨hm, _⟩ | ⟨_, hm⟩
    · generalize f h = g at hm
      cases hm with
      | wake => unfold Helper.wake; split <;> exact hx
      | _ => first | exact hx | rfl
    · rw [hm]; exact hx
  have hdn : h.pc = .done → (f h).pc = .done := by
    intro hx
    rcases hf h hh with ⟨hm, _⟩ | ⟨hm, _⟩
    · generalize f h = g at hm
      cases hm with
      | wake => unfold Helper.wake; rw [if_neg (by rw [hx]; nofun)]; exact hx
      | same => exact hx
      | taken => exact hx
      | stop => exact hx
      | quit h1 => rfl
      | enter h1 => rw [hx] at h1; cases h1
      | sleep h1 => rw [hx] at h1; cases h1
      | found r h1 => rfl
      | check h1 => rw [hx] at h1; cases h1
    · exact hm
  show match c.pc with
    | .bcasting _ => (f h).stopped = true
    | .waiting _ | .closing _ => (f h).wc.isSome = true → (f h).pc = .done
    | .gotWc .. | .removeKill .. | .removeWait .. | .removeSelect .. => (f h).pc = .done
    | .returned r => r = .err .runnerAborted → (f h).stopped = true ∨ (f h).pc = .done
    | _ => False
  have hwc : (h.wc.isSome = true → h.pc = .done) → (f h).wc.isSome = true → (f h).pc = .done := by
    intro h1 h2
    rcases hf h hh with ⟨_, hw⟩ | ⟨hm, _⟩
    · rw [hw] at h2; exact hdn (h1 h2)
    · exact hm
  cases hp : c.pc <;> rw [hp] at hi <;> simp only at hi ⊢
  case bcasting => exact hst hi
  case waiting => exact hwc hi
  case closing => exact hwc hi
  case returned => exact fun hr => (hi hr).imp hst hdn
  all_goals exact hdn hi

/-- The call moves, its helper does not. -/
theorem AInv.goto {c : Client} (pc : CPc) (h : ∀ x, c.helper = some x → AInv { c with pc := pc }) : AInv { c with pc := pc } :=
  fun x hx => h x hx x hx

def AllC (P : Client → Prop) (s : State) : Prop := ∀ c ∈ s.clients, P c

theorem AllC.mapC {P : Client → Prop} {s s' : State} (h : AllC P s) (hnd : (s.clients.map Client.cid).Nodup) {c : Client}
    (hc : c ∈ s.clients) {f : Client → Client} (hcl : s'.clients = s.clients.map (fun x => if x.cid = c.cid then f x else x))
    (hf : P (f c)) : AllC P s' := by
  intro x hx
  rw [hcl] at hx
  obtain ⟨y, hy, rfl⟩ := List.mem_map.1 hx
  split
  · rename_i he; rw [cid_inj hnd hy hc he]; exact hf
  · exact h y hy

theorem AInv.client {s s' : State} {c : Client} {op : Op} (hnd : (s.clients.map Client.cid).Nodup) (h : AllC AInv s)
    (hc : c ∈ s.clients) (hop : op.cid? = some c.cid) (hs : clientStep s c op = some s') : AllC AInv s' := by
  have hi := h c hc
  have help : ∀ {f : Helper → Helper},
      s'.clients = s.clients.map (fun x => if x.cid = c.cid then { x with helper := x.helper.map f } else x) →
      (∀ h, c.helper = some h → HMove h (f h) ∧ (f h).wc = h.wc ∨ (f h).pc = .done ∧ (f h).stopped = h.stopped) → AllC AInv s' :=
    fun hcl hf => h.mapC hnd hc (f := fun x => { x with helper := x.helper.map _ }) hcl (hi.helper _ hf)
  have to : ∀ {pc : CPc}, s'.clients = s.clients.map (fun x => if x.cid = c.cid then { x with pc := pc } else x) →
      (∀ x, c.helper = some x → AInv { c with pc := pc }) → AllC AInv s' :=
    fun hcl hf => h.mapC hnd hc (f := fun x => { x with pc := _ }) hcl (AInv.goto _ hf)
  have ret : ∀ {r : Ret}, s'.clients = s.clients.map (fun x => if x.cid = c.cid then { x with pc := .returned r } else x) →
      r ≠ .err .runnerAborted → AllC AInv s' := fun hcl hr => to hcl (fun _ _ _ _ hx => absurd hx hr)
  -- after the lookup
  have info : ∀ {id : Name} {r : Found}, s' = afterInfo s c id r → (∀ x, c.helper = some x → x.pc = .done) → AllC AInv s' := by
    intro id r heq hd
    unfold afterInfo at heq
    split at heq
    · exact ret (by rw [heq]; rfl) (by nofun)
    · split at heq
      · exact to (pc := .removeKill _ _) (by rw [heq]; rfl) (fun _ _ y hy => hd y hy)
      · exact ret (by rw [heq]; rfl) (by nofun)
  unfold clientStep at hs
  split at hs <;> simp only [Op.cid?, Option.some.injEq, reduceCtorEq] at hop <;> (try subst hop)
  · cases hs
    exact h.mapC hnd hc (f := fun c => { c with cancelled := true }) rfl (fun x hx => hi x hx)
  · split at hs
    · split at hs
      · rename_i hp; cases hs
        refine to (pc := .startReply) rfl (fun x hx => ?_)
        have := hi x hx; rw [hp] at this; exact this.elim
      · cases hs
    · cases hs
  · split at hs
    · split at hs <;> cases hs
      exact ret (r := .ok) rfl (by nofun)
    · cases hs
  · split at hs
    · split at hs <;> cases hs
      exact ret (r := .err .runnerDead) rfl (by nofun)
    · split at hs <;> cases hs
      exact ret (r := .err .runnerDead) rfl (by nofun)
    · cases hs
  · -- cLock
    split at hs
    · rename_i id hp
      split at hs
      · split at hs <;> cases hs
        · refine to (pc := .immediate _ _) rfl (fun x hx => ?_)
          have := hi x hx; rw [hp] at this; exact this.elim
        · refine h.mapC hnd hc (f := fun c => { c with pc := .waiting id, helper := some { id := id } }) rfl ?_
          intro x hx
          cases hx
          intro hw; cases hw
      · cases hs
    · cases hs
  · -- cImmediate
    split at hs
    · rename_i hp
      have hd : ∀ x, c.helper = some x → x.pc = .done := by
        intro x hx; have := hi x hx; rw [hp] at this; exact this.elim
      split at hs <;> simp only [Option.some.injEq] at hs
      · exact ret (r := .err .runnerDead) (by rw [← hs]; rfl) (by nofun)
      · exact info hs.symm hd
    · cases hs
  · -- cRecv
    split at hs
    · rename_i id r hp hwc
      cases hs
      refine h.mapC hnd hc (f := fun c => { c with pc := .gotWc id r, helper := c.helper.map (fun h => { h with wc := none }) }) rfl ?_
      intro x hx
      obtain ⟨y, hy, rfl⟩ := Option.map_eq_some_iff.1 hx
      have := hi y hy
      rw [hp] at this
      rw [hy] at hwc
      exact this (by rw [show y.wc = some r from hwc]; rfl)
    · cases hs
  · -- cGotWc
    split at hs
    · rename_i hp
      have hd : ∀ x, c.helper = some x → x.pc = .done := by
        intro x hx; have := hi x hx; rw [hp] at this; exact this
      split at hs <;> simp only [Option.some.injEq] at hs
      · exact ret (r := .err .runnerDead) (by rw [← hs]; rfl) (by nofun)
      · exact info hs.symm hd
    · cases hs
  · -- cDying
    split at hs
    · split at hs <;> cases hs
      exact ret (r := .err .runnerDead) rfl (by nofun)
    · cases hs
  · -- cAbort
    split at hs
    · rename_i hp
      split at hs <;> cases hs
      refine to (pc := .closing _) rfl (fun _ _ y hy => ?_)
      have := hi y hy; rw [hp] at this; exact this
    · cases hs
  · -- cClose
    split at hs
    · rename_i id hp
      cases hs
      refine h.mapC hnd hc (f := fun c => { c with pc := .bcasting id, helper := c.helper.map (fun h => { h with stopped := true }) }) rfl ?_
      intro x hx
      obtain ⟨y, hy, rfl⟩ := Option.map_eq_some_iff.1 hx
      rfl
    · cases hs
  · -- cBcast
    split at hs
    · rename_i hp
      cases hs
      have hb : AllC AInv (Runner.broadcast s) := by
        intro x hx
        obtain ⟨y, hy, rfl⟩ := List.mem_map.1 hx
        refine (h y hy).helper _ (fun z _ => Or.inl ⟨.wake, ?_⟩)
        unfold Helper.wake; split <;> rfl
      have hnd' : ((Runner.broadcast s).clients.map Client.cid).Nodup := by
        have : (Runner.broadcast s).clients.map Client.cid = s.clients.map Client.cid := by
          show (List.map _ (List.map _ _)) = _
          rw [List.map_map]; rfl
        rw [this]; exact hnd
      have hc' : { c with helper := c.helper.map Helper.wake } ∈ (Runner.broadcast s).clients := List.mem_map.2 ⟨c, hc, rfl⟩
      refine hb.mapC hnd' hc' (f := fun x => { x with pc := .returned (.err .runnerAborted) }) rfl ?_
      intro x hx _
      have := hb _ hc' x hx
      simp only [hp] at this
      exact Or.inl this
    · cases hs
  · split at hs
    · rename_i hp; cases hs
      refine to (pc := .removeWait _ _) rfl (fun _ _ y hy => ?_)
      have := hi y hy; rw [hp] at this; exact this
    · cases hs
  · split at hs
    · rename_i hp
      split at hs <;> cases hs
      refine to (pc := .removeSelect _ _ _) rfl (fun _ _ y hy => ?_)
      have := hi y hy; rw [hp] at this; exact this
    · cases hs
  · split at hs
    · rename_i hp
      split at hs <;> cases hs
      refine to (pc := .returned (.err .runnerAborted)) rfl (fun _ _ y hy _ => ?_)
      have := hi y hy; rw [hp] at this; exact Or.inr this
    · cases hs
  · split at hs
    · split at hs <;> cases hs
      exact ret (r := .result _) rfl (by nofun)
    · cases hs
  · -- hCheck
    split at hs
    · rename_i x hx
      split at hs
      · rename_i hp
        split at hs <;> rename_i hst <;> cases hs
        · exact help rfl (fun h3 _ => Or.inr ⟨rfl, rfl⟩)
        · exact help rfl (fun h3 hh => by rw [hx] at hh; cases hh; exact Or.inl ⟨.enter hp (by simpa using hst), rfl⟩)
      · cases hs
    · cases hs
  · -- hEnter
    split at hs
    · rename_i x hx
      split at hs
      · rename_i hp
        cases hs
        exact help rfl (fun h3 hh => by rw [hx] at hh; cases hh; exact Or.inl ⟨.sleep hp, rfl⟩)
      · cases hs
    · cases hs
  · -- hWake
    split at hs
    · rename_i x hx
      split at hs
      · rename_i hp
        split at hs <;> cases hs
        · exact help rfl (fun h3 _ => Or.inr ⟨rfl, rfl⟩)
        · exact help rfl (fun h3 hh => by rw [hx] at hh; cases hh; exact Or.inl ⟨.check hp.1, rfl⟩)
      · cases hs
    · cases hs

theorem Reach.ainv {p : Params} {s : State} (hr : Reach p s) : AllC AInv s := by
  induction hr with
  | init => intro c hc; cases hc
  | @step s s' op hr hs ih =>
    have new : ∀ (c : Client) (e : Ev), c.helper = none → AllC AInv (newClient s c e) := by
      intro c e hn x hx
      rcases List.mem_cons.1 hx with rfl | hx
      · intro h hh; simp only [hn] at hh; cases hh
      · exact ih x hx
    have ret : ∀ {r : Ret} {cid : Nat} {e : Option Err},
        s'.clients = s.clients.map (fun x => if x.cid = cid then { x with pc := .returned r } else x) →
        s.tab.pc = .reply cid e → AllC AInv s' := by
      intro r cid e hcl hp
      obtain ⟨c, hc, rfl, hcp⟩ := hr.cinv.reply cid (Or.inr ⟨e, hp⟩)
      refine ih.mapC hr.minv.nd hc (f := fun x => { x with pc := .returned r }) hcl (fun h hh => ?_)
      have := ih c hc h hh
      rw [hcp] at this; exact this.elim
    unfold Runner.step at hs
    split at hs
    · cases hs; exact new _ _ rfl
    · cases hs; exact new _ _ rfl
    · cases hs; exact new _ _ rfl
    · cases hs; exact new _ _ rfl
    · split at hs <;> rename_i hp <;> cases hs
      · exact ret (r := .ok) rfl hp
      · exact ret (r := .err _) rfl hp
    · split at hs <;> cases hs
      intro x hx
      obtain ⟨y, hy, rfl⟩ := List.mem_map.1 hx
      refine (ih y hy).helper _ (fun z _ => Or.inl ⟨.wake, ?_⟩)
      unfold Helper.wake; split <;> rfl
    · split at hs
      · rename_i k hk
        split at hs
        · rename_i c hg
          obtain ⟨hc, rfl⟩ := getC_some hg
          exact AInv.client hr.minv.nd ih hc hk hs
        · cases hs
      · obtain ⟨t, ht, rfl⟩ := Option.map_eq_some_iff.1 hs
        exact ih

end Verif.Runner

namespace Verif.Runner
open Tab State

/-- What others than the loop read of an entry, holding runner.mu: Worker, StopAndRemoveWorker, WorkerNames and Report. -/
structure Shown where
  worker : Option Nat
  rid : Nat
  status : Status
  lastStart : Option Int
deriving DecidableEq

def shown (t : Tab) (id : Name) : Option Shown :=
  (t.workers.get? id).map (fun i => ⟨i.worker, i.rid, i.status, i.lastStart⟩)

theorem tabStep_shown {p : Params} {s : State} {op : Op} {t : Tab} (hmu : s.mu ≠ none)
    (hex : s.tab.pc.locked = true → s.mu = none) (h : tabStep p s op = some t) (id : Name) :
    shown t id = shown s.tab id := by
  unfold tabStep at h
  split at h
  · cases h; rfl
  · split at h
    · split at h <;> cases h <;> rfl
    · cases h
  · split at h <;> cases h; rfl
  · split at h
    · split at h
      · split at h <;> cases h; rfl
      · cases h
    · cases h
  · split at h
    · split at h
      · split at h <;> cases h; rfl
      · cases h
    · cases h
  · split at h
    · rename_i m hm
      split at h
      · rename_i hc
        cases h
        have hc := hc.resolve_right hmu
        cases m with
        | start cid n sf =>
          simp only [needsMu, Bool.and_eq_false_iff, Bool.not_eq_false', Option.isNone_eq_false_iff] at hc
          simp only [act]
          split
          · rfl
          · rename_i hd
            rw [if_pos (hc.resolve_left hd)]; rfl
        | stop n => cases hc
        | started g n w => cases hc
        | done g n e =>
          simp only [needsMu] at hc
          simp only [act]
          unfold workerDone
          split at hc
          · rename_i info hi
            rw [hi]
            simp only
            split at hc
            · rename_i sf hf
              rw [hf]
              show Option.map _ ((s.tab.workers.set n _).get? id) = _
              unfold shown
              rw [AMap.get?_set]
              split
              · rename_i he; rw [he, hi]; rfl
              · rfl
            · cases hc
          · cases hc
      · cases h
    · cases h
  · split at h
    · rename_i hc; exact absurd hc.2.1 hmu
    · cases h
  · split at h
    · cases h; rfl
    · rename_i hp; exact absurd (hex (by rw [hp]; rfl)) hmu
    · cases h
  all_goals first
    | (split at h <;> first | (split at h <;> first | (split at h <;> first | (cases h; rfl) | cases h) | (cases h; rfl) | cases h) | (cases h; rfl) | cases h)
    | cases h

theorem afterInfo_workers (s : State) (c : Client) (id : Name) (r : Found) : (afterInfo s c id r).tab.workers = s.tab.workers := by
  unfold afterInfo
  split
  · rfl
  · split <;> rfl

theorem clientStep_workers {s s' : State} {c : Client} {op : Op} (hs : clientStep s c op = some s') :
    s'.tab.workers = s.tab.workers := by
  unfold clientStep at hs
  split at hs
  case h_6 =>
    split at hs
    · cases hs
      split
      · rfl
      · exact afterInfo_workers ..
    · cases hs
  case h_8 =>
    split at hs
    · cases hs
      split
      · rfl
      · exact afterInfo_workers ..
    · cases hs
  all_goals first
    | (cases hs; rfl)
    | (cases hs; done)
    | (split at hs <;> first
        | (cases hs; rfl)
        | cases hs
        | (split at hs <;> first
          | (cases hs; rfl)
          | cases hs
          | (split at hs <;> first | (cases hs; rfl) | cases hs)))

/-- While a helper holds runner.mu, nothing that is read under it changes. -/
theorem shown_step {p : Params} {s s' : State} {op : Op} (hmu : s.mu ≠ none)
    (hex : s.tab.pc.locked = true → s.mu = none) (hs : Runner.step p s op = some s') (id : Name) :
    shown s'.tab id = shown s.tab id := by
  unfold Runner.step at hs
  split at hs
  · cases hs; rfl
  · cases hs; rfl
  · cases hs; rfl
  · cases hs; rfl
  · split at hs <;> cases hs <;> rfl
  · split at hs <;> cases hs; rfl
  · split at hs
    · split at hs
      · unfold shown; rw [clientStep_workers hs]
      · cases hs
    · obtain ⟨t, ht, rfl⟩ := Option.map_eq_some_iff.1 hs
      exact tabStep_shown hmu hex ht id

end Verif.Runner
