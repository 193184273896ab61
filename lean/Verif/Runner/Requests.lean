import Verif.Runner.Clients

/-!
# Runner: decisions about StartWorker requests, and the contexts given to StartFuncs
-/

namespace Verif.Runner
open Tab State RSpec Spec

/-- Events this file is about. -/
def sel : Ev → Bool
  | .accepted .. | .refused .. | .ignored .. | .ctx .. | .cancelled .. => true
  | _ => false

/-- No such event happened. -/
def Calm (t t' : Tab) : Prop := ∃ es, t'.hist = es ++ t.hist ∧ ∀ e ∈ es, sel e = false

theorem Calm.nil {t t' : Tab} (h : t'.hist = t.hist) : Calm t t' := ⟨[], h, by simp⟩

theorem Calm.one {t t' : Tab} (e : Ev) (h : t'.hist = e :: t.hist) (he : sel e = false) : Calm t t' :=
  ⟨[e], h, by simpa using he⟩

theorem Calm.trans {t t' t'' : Tab} (h1 : Calm t t') (h2 : Calm t' t'') : Calm t t'' := by
  obtain ⟨es, he, hs⟩ := h1
  obtain ⟨fs, hf, hs'⟩ := h2
  refine ⟨fs ++ es, by rw [hf, he, List.append_assoc], fun e hm => ?_⟩
  rcases List.mem_append.1 hm with hm | hm
  · exact hs' e hm
  · exact hs e hm

theorem killLocked_calm (t : Tab) (id : Name) : Calm t (killLocked t id) := by
  refine ⟨killEvs t id, killLocked_hist t id, fun e he => ?_⟩
  rcases mem_killEvs he with rfl | ⟨w, rfl⟩ <;> rfl

/-- Where the loop may be handling the request of a call. -/
def handling (pc : LoopPc) (cid : Nat) : Prop := ∃ id sf, pc = .act (.start cid id sf)

theorem act_calm {p : Params} {t : Tab} {now : Int} {m : Msg} (hp : t.pc = .act m)
    (hm : ∀ cid id sf, m ≠ .start cid id sf) :
    Calm t (act p t now m) ∧ ∀ cid, ¬ handling (act p t now m).pc cid := by
  cases m with
  | start cid id sf => exact absurd rfl (hm cid id sf)
  | stop id =>
    refine ⟨?_, by rintro cid ⟨_, _, h⟩; cases h⟩
    exact Calm.trans (t' := t.log (.stopHandled id)) (.one (.stopHandled id) rfl rfl) (killLocked_calm _ id)
  | started gid id w =>
    refine ⟨?_, by rintro cid ⟨_, _, h⟩; cases h⟩
    show Calm t (setWorker t gid id w)
    unfold setWorker
    split
    · exact .nil rfl
    · simp only
      have h1 : ∀ i, Calm t ((t.setInfo id i).log (.learned id gid w)) := fun i => .one (.learned id gid w) rfl rfl
      split
      · exact (h1 _).trans (killLocked_calm _ id)
      · exact h1 _
  | done gid id e =>
    simp only [act, workerDone]
    split
    · refine ⟨.nil rfl, ?_⟩
      rintro cid ⟨_, _, h⟩
      have h : t.pc = _ := h
      rw [hp] at h; cases h
    · split
      · exact ⟨⟨[.removed id _, .ended id gid e], rfl, by simp [sel]⟩, by rintro cid ⟨_, _, h⟩; cases h⟩
      · unfold beginShutdown
        split
        · exact ⟨⟨[.removed id _, .ended id gid e], rfl, by simp [sel]⟩, by rintro cid ⟨_, _, h⟩; cases h⟩
        · exact ⟨⟨[.shutdown, .removed id _, .ended id gid e], rfl, by simp [sel]⟩, by rintro cid ⟨_, _, h⟩; cases h⟩
      · exact ⟨⟨[.begin id _ _ _, .ended id gid e], rfl, by simp [sel]⟩, by rintro cid ⟨_, _, h⟩; cases h⟩

/-- A client is about to send a StartWorker request. -/
def sending (c : Client) : Prop := ∃ id sf, c.pc = .startSend id sf

/-- What is the same for all steps that neither decide about a request, nor close a context, nor look at one. -/
structure Same (s s' : State) : Prop where
  hist : Calm s.tab s'.tab
  keys : (s'.clients.map (fun c => (c.cid, c.cancelled)) = s.clients.map (fun c => (c.cid, c.cancelled)) ∧
      s'.nextC = s.nextC) ∨
    (s'.clients.map (fun c => (c.cid, c.cancelled)) = (s.nextC, false) :: s.clients.map (fun c => (c.cid, c.cancelled)) ∧
      s'.nextC = s.nextC + 1)
  send : ∀ c' ∈ s'.clients, sending c' → (∃ c ∈ s.clients, c.cid = c'.cid ∧ sending c) ∨ c'.cid = s.nextC
  pc : ∀ cid, handling s'.tab.pc cid → handling s.tab.pc cid ∨ ∃ c ∈ s.clients, c.cid = cid ∧ sending c

/-- Only the table moves. -/
theorem Same.tab {s : State} {t : Tab} (h : Calm s.tab t) (hp : ∀ cid, handling t.pc cid → handling s.tab.pc cid) :
    Same s (s.withTab t) :=
  ⟨h, Or.inl ⟨rfl, rfl⟩, fun c hc hs => Or.inl ⟨c, hc, rfl, hs⟩, fun cid hx => Or.inl (hp cid hx)⟩

/-- The clients move. -/
theorem Same.clients {s s' : State} {f : Client → Client} (h : Calm s.tab s'.tab) (hc : s'.clients = s.clients.map f)
    (hn : s'.nextC = s.nextC) (hf : ∀ c, (f c).cid = c.cid ∧ (f c).cancelled = c.cancelled ∧ (sending (f c) → sending c))
    (hp : ∀ cid, handling s'.tab.pc cid → handling s.tab.pc cid ∨ ∃ c ∈ s.clients, c.cid = cid ∧ sending c) : Same s s' := by
  refine ⟨h, Or.inl ⟨?_, hn⟩, ?_, hp⟩
  · rw [hc, List.map_map]
    exact List.map_congr_left (fun c _ => by simp only [Function.comp, (hf c).1, (hf c).2.1])
  · intro c' hx hs
    rw [hc] at hx
    obtain ⟨c, hm, rfl⟩ := List.mem_map.1 hx
    exact Or.inl ⟨c, hm, ((hf c).1).symm, (hf c).2.2 hs⟩

/-- One client moves, and is not about to send a request then. -/
theorem Same.one {s s' : State} {cid : Nat} {f : Client → Client} (h : Calm s.tab s'.tab)
    (hc : s'.clients = s.clients.map (fun c => if c.cid = cid then f c else c)) (hn : s'.nextC = s.nextC)
    (hf : ∀ c, (f c).cid = c.cid ∧ (f c).cancelled = c.cancelled ∧ (sending (f c) → sending c))
    (hp : ∀ cid, handling s'.tab.pc cid → handling s.tab.pc cid ∨ ∃ c ∈ s.clients, c.cid = cid ∧ sending c) : Same s s' := by
  refine Same.clients h hc hn (fun c => ?_) hp
  split
  · exact hf c
  · exact ⟨rfl, rfl, fun h => h⟩

theorem Same.new {s : State} (c : Client) (e : Ev) (he : sel e = false) (hc : c.cancelled = false) : Same s (newClient s c e) := by
  refine ⟨.one e rfl he, Or.inr ⟨?_, rfl⟩, ?_, fun cid hx => Or.inl hx⟩
  · show ((s.nextC, c.cancelled) :: _) = _
    rw [hc]
  · intro c' hx hs
    rcases List.mem_cons.1 hx with rfl | hx
    · exact Or.inr rfl
    · exact Or.inl ⟨c', hx, rfl, hs⟩

/-- What a step does. -/
inductive Kind (p : Params) (s s' : State) : Prop
  | ctx (g : G) : g ∈ s.tab.gs → g.pc.inUser = true → s' = s.withTab (s.tab.log (.ctx g.gid (ctxDone s g))) → Kind p s s'
  | cancel (c : Client) : c ∈ s.clients →
      s' = (s.mapC c.cid (fun c => { c with cancelled := true })).log (.cancelled c.cid) → Kind p s s'
  | act (cid id sf : Nat) (now : Int) : s.tab.pc = .act (.start cid id sf) →
      s' = s.withTab (Runner.act p s.tab now (.start cid id sf)) → Kind p s s'
  | same : Same s s' → Kind p s s'

theorem tabStep_kind {p : Params} {s : State} {op : Op} {t : Tab} (h : tabStep p s op = some t) : Kind p s (s.withTab t) := by
  have calm : ∀ t : Tab, Calm s.tab t → (∀ cid, handling t.pc cid → handling s.tab.pc cid) → Kind p s (s.withTab t) :=
    fun t h1 h2 => .same (.tab h1 h2)
  have no : ∀ {pc : LoopPc} {cid : Nat}, (∀ m, pc ≠ .act m) → handling pc cid → handling s.tab.pc cid := by
    rintro pc cid hpc ⟨_, _, h⟩; exact absurd h (hpc _)
  unfold tabStep at h
  split at h
  · cases h; exact calm _ (.one .kill rfl rfl) (fun _ h => h)
  · split at h
    · split at h
      · cases h; exact calm _ (.one .exit rfl rfl) (fun _ => no (by simp [Tab.goTo]))
      · cases h; exact calm _ (.nil rfl) (fun _ => no (by simp [Tab.goTo]))
    · cases h
  · split at h
    · cases h; exact calm _ (.one .shutdown rfl rfl) (fun _ => no (by simp [Tab.goTo]))
    · cases h
  · split at h
    · split at h
      · split at h
        · cases h; exact calm _ (.nil rfl) (by rintro _ ⟨_, _, h⟩; cases h)
        · cases h
      · cases h
    · cases h
  · split at h
    · split at h
      · split at h
        · cases h; exact calm _ (.nil rfl) (by rintro _ ⟨_, _, h⟩; cases h)
        · cases h
      · cases h
    · cases h
  · rename_i now
    split at h
    · rename_i m hp
      split at h
      · cases h
        cases m with
        | start cid id sf => exact .act cid id sf now hp rfl
        | _ =>
          have := act_calm (p := p) (now := now) hp (by simp)
          exact calm _ this.1 (fun cid hx => absurd hx (this.2 cid))
      · cases h
    · cases h
  · split at h
    · cases h
      exact calm _ (.nil rfl) (fun _ => no (by simp [Tab.goTo]))
    · cases h
  · split at h
    · cases h; exact calm _ (.nil rfl) (fun _ => no (by simp [Tab.goTo]))
    · rename_i id _ _; cases h
      refine calm _ ?_ (fun _ => no (by simp [Tab.goTo]))
      exact killLocked_calm s.tab id
    · cases h
  · split at h
    · split at h
      · cases h; exact calm _ (.nil rfl) (fun _ h => h)
      · cases h
    · cases h
  · split at h
    · split at h
      · cases h; exact calm _ (.nil rfl) (fun _ h => h)
      · cases h
    · cases h
  · split at h
    · split at h
      · cases h; exact calm _ (.one _ rfl rfl) (fun _ h => h)
      · cases h
    · cases h
  · split at h
    · split at h
      · cases h; exact calm _ (.one _ rfl rfl) (fun _ h => h)
      · cases h
    · cases h
  · split at h
    · split at h
      · cases h; exact calm _ (.one _ rfl rfl) (fun _ h => h)
      · cases h
    · cases h
  · split at h
    · split at h
      · cases h; exact calm _ (.one _ rfl rfl) (fun _ h => h)
      · cases h
    · cases h
  · split at h
    · split at h
      · split at h
        · cases h; exact calm _ (.nil rfl) (fun _ h => h)
        · cases h
      · cases h
    · cases h
  · split at h
    · rename_i g hg
      obtain ⟨hm, rfl⟩ := getG_some hg
      split at h
      · rename_i hc; cases h; exact .ctx g hm hc rfl
      · cases h
    · cases h
  · split at h
    · cases h; exact calm _ (.one _ rfl rfl) (fun _ h => h)
    · cases h
  · split at h
    · cases h; exact calm _ (.one _ rfl rfl) (fun _ h => h)
    · cases h
  · split at h
    · cases h; exact calm _ (.one _ rfl rfl) (fun _ h => h)
    · cases h
  · cases h

theorem Same.cto {s s' : State} {cid : Nat} {pc : CPc} (h : Calm s.tab s'.tab)
    (hc : s'.clients = (s.cto cid pc).clients) (hn : s'.nextC = s.nextC) (hpc : ∀ id sf, pc ≠ .startSend id sf)
    (hp : s'.tab.pc = s.tab.pc) : Same s s' :=
  .one (f := fun c => { c with pc := pc }) h hc hn
    (fun c => ⟨rfl, rfl, fun ⟨_, _, h⟩ => absurd h (hpc _ _)⟩) (fun _ hx => Or.inl (by rw [hp] at hx; exact hx))

theorem Same.return_ (s : State) (cid : Nat) (r : Ret) : Same s (s.return_ cid r) :=
  .cto (.one _ rfl rfl) rfl rfl (by nofun) rfl

theorem afterInfo_same (s : State) (c : Client) (id : Name) (r : Found) : Same s (afterInfo s c id r) := by
  unfold afterInfo
  split
  · exact .return_ _ _ _
  · split
    · exact .cto (.nil rfl) rfl rfl (by nofun) rfl
    · exact .return_ _ _ _

/-- The helper of a client moves. -/
theorem Same.helper {s s' : State} {cid : Nat} {f : Helper → Helper} (h : s'.tab = s.tab)
    (hc : s'.clients = (s.mapH cid f).clients) (hn : s'.nextC = s.nextC) : Same s s' :=
  .one (f := fun c => { c with helper := c.helper.map f }) (.nil (by rw [h])) hc hn
    (fun c => ⟨rfl, rfl, fun h => h⟩) (fun _ hx => Or.inl (by rw [h] at hx; exact hx))

theorem Same.broadcast {s s' : State} (h : Same (broadcast s) s') : Same s s' := by
  refine ⟨h.hist, ?_, ?_, ?_⟩
  · have : (Runner.broadcast s).clients.map (fun c => (c.cid, c.cancelled)) = s.clients.map (fun c => (c.cid, c.cancelled)) := by
      simp only [Runner.broadcast, List.map_map]; rfl
    rw [← this]; exact h.keys
  · intro c' hx hs
    rcases h.send c' hx hs with ⟨c, hc, h1, h2⟩ | h1
    · obtain ⟨x, hx, rfl⟩ := List.mem_map.1 hc
      exact Or.inl ⟨x, hx, h1, h2⟩
    · exact Or.inr h1
  · intro cid hx
    rcases h.pc cid hx with h1 | ⟨c, hc, h1, h2⟩
    · exact Or.inl h1
    · obtain ⟨x, hx, rfl⟩ := List.mem_map.1 hc
      exact Or.inr ⟨x, hx, h1, h2⟩

theorem clientStep_kind {p : Params} {s s' : State} {c : Client} {op : Op} (hc : c ∈ s.clients) (hop : op.cid? = some c.cid)
    (h : clientStep s c op = some s') : Kind p s s' := by
  unfold clientStep at h
  split at h <;> simp only [Op.cid?, Option.some.injEq, reduceCtorEq] at hop <;> (try subst hop)
  · cases h; exact .cancel c hc rfl
  · split at h
    · split at h
      · rename_i id sf hp
        cases h
        refine .same (.one (f := fun c => { c with pc := .startReply }) (.nil rfl) rfl rfl
          (fun c => ⟨rfl, rfl, fun ⟨_, _, h⟩ => by cases h⟩) ?_)
        rintro cid ⟨_, _, hx⟩
        simp only [withTab, Tab.goTo, LoopPc.act.injEq, Msg.start.injEq] at hx
        exact Or.inr ⟨c, hc, hx.1, id, sf, hp⟩
      · cases h
    · cases h
  · split at h
    · split at h
      · cases h
        refine .same (.one (f := fun c => { c with pc := .returned .ok }) (.one _ rfl rfl) rfl rfl
          (fun c => ⟨rfl, rfl, fun ⟨_, _, h⟩ => by cases h⟩) ?_)
        rintro cid ⟨_, _, hx⟩; cases hx
      · cases h
    · cases h
  · split at h
    · split at h
      · cases h; exact .same (.return_ _ _ _)
      · cases h
    · split at h
      · cases h; exact .same (.return_ _ _ _)
      · cases h
    · cases h
  · split at h
    · split at h
      · split at h
        · cases h; exact .same (.cto (.nil rfl) rfl rfl (by nofun) rfl)
        · cases h
          exact .same (.one (f := fun c => { c with pc := .waiting _, helper := some { id := _ } }) (.nil rfl) rfl rfl
            (fun c => ⟨rfl, rfl, fun ⟨_, _, h⟩ => by cases h⟩) (fun _ hx => Or.inl hx))
      · cases h
    · cases h
  · split at h
    · cases h
      split
      · exact .same (.return_ _ _ _)
      · exact .same (afterInfo_same _ _ _ _)
    · cases h
  · split at h
    · cases h
      exact .same (.one (f := fun c => { c with pc := .gotWc _ _, helper := c.helper.map (fun h => { h with wc := none }) })
        (.nil rfl) rfl rfl (fun c => ⟨rfl, rfl, fun ⟨_, _, h⟩ => by cases h⟩) (fun _ hx => Or.inl hx))
    · cases h
  · split at h
    · cases h
      split
      · exact .same (.return_ _ _ _)
      · exact .same (afterInfo_same _ _ _ _)
    · cases h
  · split at h
    · split at h
      · cases h; exact .same (.return_ _ _ _)
      · cases h
    · cases h
  · split at h
    · split at h
      · cases h; exact .same (.cto (.nil rfl) rfl rfl (by nofun) rfl)
      · cases h
    · cases h
  · split at h
    · cases h
      exact .same (.one (f := fun c => { c with pc := .bcasting _, helper := c.helper.map (fun h => { h with stopped := true }) })
        (.nil rfl) rfl rfl (fun c => ⟨rfl, rfl, fun ⟨_, _, h⟩ => by cases h⟩) (fun _ hx => Or.inl hx))
    · cases h
  · split at h
    · cases h; exact .same (.broadcast (.return_ _ _ _))
    · cases h
  · split at h
    · cases h; exact .same (.cto (.one _ rfl rfl) rfl rfl (by nofun) rfl)
    · cases h
  · split at h
    · split at h
      · cases h; exact .same (.cto (.nil rfl) rfl rfl (by nofun) rfl)
      · cases h
    · cases h
  · split at h
    · split at h
      · cases h; exact .same (.return_ _ _ _)
      · cases h
    · cases h
  · split at h
    · split at h
      · cases h; exact .same (.cto (.one _ rfl rfl) rfl rfl (by nofun) rfl)
      · cases h
    · cases h
  · split at h
    · split at h
      · split at h
        · cases h; exact .same (.helper rfl rfl rfl)
        · cases h; exact .same (.helper rfl rfl rfl)
      · cases h
    · cases h
  · split at h
    · split at h
      · cases h; exact .same (.helper rfl rfl rfl)
      · cases h
    · cases h
  · split at h
    · split at h
      · split at h
        · cases h; exact .same (.helper rfl rfl rfl)
        · cases h; exact .same (.helper rfl rfl rfl)
      · cases h
    · cases h

theorem step_kind {p : Params} {s s' : State} {op : Op} (h : step p s op = some s') : Kind p s s' := by
  unfold step at h
  split at h
  · cases h; exact .same (.new _ _ rfl rfl)
  · cases h; exact .same (.new _ _ rfl rfl)
  · cases h; exact .same (.new _ _ rfl rfl)
  · cases h; exact .same (.new _ _ rfl rfl)
  · split at h
    · cases h
      refine .same (.one (f := fun c => { c with pc := .returned .ok }) (.one _ rfl rfl) rfl rfl
        (fun c => ⟨rfl, rfl, fun ⟨_, _, h⟩ => by cases h⟩) ?_)
      rintro cid ⟨_, _, hx⟩; cases hx
    · rename_i e _
      cases h
      refine .same (.one (f := fun c => { c with pc := .returned (.err e) }) (.one _ rfl rfl) rfl rfl
        (fun c => ⟨rfl, rfl, fun ⟨_, _, h⟩ => by cases h⟩) ?_)
      rintro cid ⟨_, _, hx⟩; cases hx
    · cases h
  · split at h
    · cases h
      refine .same (.broadcast (.tab (.nil rfl) ?_))
      rintro cid ⟨_, _, hx⟩; cases hx
    · cases h
  · split at h
    · rename_i hcid
      split at h
      · rename_i c hg
        obtain ⟨hc, rfl⟩ := getC_some hg
        exact clientStep_kind hc hcid h
      · cases h
    · obtain ⟨t, ht, rfl⟩ := Option.map_eq_some_iff.1 h
      exact tabStep_kind ht

/-! ## The parent of an attempt's context -/

theorem parentH_append {es h : List Ev} {k : Nat} (hb : ∀ id g d sf, Ev.begin id g d sf ∈ es → g ≠ k) :
    parentH (es ++ h) k = parentH h k := by
  induction es with
  | nil => rfl
  | cons e es ih =>
    have ih := ih (fun id g d sf hm => hb id g d sf (List.mem_cons_of_mem _ hm))
    cases e with
    | begin id g d sf =>
      simp only [List.cons_append, parentH]
      rw [if_neg (fun h => hb id g d sf List.mem_cons_self h.symm)]; exact ih
    | _ => exact ih

theorem phaseH_append_none {es h : List Ev} {k : Nat} (hn : phaseH (es ++ h) k = none) : phaseH h k = none := by
  induction es with
  | nil => exact hn
  | cons e es ih =>
    apply ih
    cases e <;> first
      | exact hn
      | (simp only [List.cons_append, phaseH] at hn; split at hn; · cases hn
         · exact hn)

theorem T.newG {p : Params} {t t' : Tab} (hr : ReachT p t) (hT : T p t t') :
    ∀ g' ∈ t'.gs, (∃ g ∈ t.gs, g.gid = g'.gid ∧ g.ctx = g'.ctx) ∨ parentH t'.hist g'.gid = g'.ctx := by
  have same : ∀ {t'' : Tab}, t''.gs = t.gs → ∀ g' ∈ t''.gs,
      (∃ g ∈ t.gs, g.gid = g'.gid ∧ g.ctx = g'.ctx) ∨ parentH t''.hist g'.gid = g'.ctx := by
    intro t'' h g' hg; rw [h] at hg; exact Or.inl ⟨g', hg, rfl, rfl⟩
  have gto : ∀ {t'' : Tab} {gid pc}, t''.gs = (t.gto gid pc).gs → ∀ g' ∈ t''.gs,
      (∃ g ∈ t.gs, g.gid = g'.gid ∧ g.ctx = g'.ctx) ∨ parentH t''.hist g'.gid = g'.ctx := by
    intro t'' gid pc h g' hg
    rw [h] at hg
    rcases mem_gto.1 hg with ⟨g, hm, _, rfl⟩ | ⟨hm, _⟩
    · exact Or.inl ⟨g, hm, rfl, rfl⟩
    · exact Or.inl ⟨g', hm, rfl, rfl⟩
  cases hT with
  | accepted cid id sf now hpc hd hi =>
    intro g' hg
    rcases List.mem_cons.1 hg with rfl | hg
    · right
      show parentH (.begin id t.nextG 0 sf :: .accepted cid id t.nextR sf :: t.hist) t.nextG = some cid
      simp [parentH]
    · exact Or.inl ⟨g', hg, rfl, rfl⟩
  | stop id hpc => exact same (killLocked_rest _ _).gs
  | started gid id w hpc =>
    obtain ⟨g, hg, rfl, rfl⟩ := hr.shape.actStarted _ _ _ hpc
    obtain ⟨info, hi⟩ := Option.isSome_iff_exists.1 ((hr.shape.known g.id).2 (List.mem_map.2 ⟨g, hg, rfl⟩))
    exact same (setWorker_rest t g.gid g.id w info hi).gs
  | killNext id rest hpc => exact same (killLocked_rest _ _).gs
  | done gid id e hpc =>
    obtain ⟨g, hg, rfl, rfl, hgp⟩ := hr.shape.actDone _ _ _ hpc
    obtain ⟨info, hi⟩ := Option.isSome_iff_exists.1 ((hr.shape.known g.id).2 (List.mem_map.2 ⟨g, hg, rfl⟩))
    have drop : ∀ {t'' : Tab}, t''.gs = (dropG t g.gid).gs → ∀ g' ∈ t''.gs,
        (∃ g ∈ t.gs, g.gid = g'.gid ∧ g.ctx = g'.ctx) ∨ parentH t''.hist g'.gid = g'.ctx := by
      intro t'' h g' hg; rw [h] at hg; exact Or.inl ⟨g', (List.mem_filter.1 hg).1, rfl, rfl⟩
    unfold workerDone
    rw [hi]
    simp only
    split
    · exact drop rfl
    · unfold beginShutdown
      split <;> exact drop rfl
    · rename_i sf _
      intro g' hg
      rcases List.mem_cons.1 hg with rfl | hg
      · right
        show parentH (.begin g.id t.nextG info.restartDelay sf :: .ended g.id g.gid e :: t.hist) t.nextG = none
        simp [parentH]
      · exact Or.inl ⟨g', (List.mem_filter.1 hg).1, rfl, rfl⟩
  | recvStarted g w _ _ _ => exact gto rfl
  | recvDone g w _ _ _ => exact gto rfl
  | gDying g _ _ _ => exact gto rfl
  | gTimer g _ _ => exact gto rfl
  | gCall g _ _ => exact gto rfl
  | gStartOk g w _ _ => exact gto rfl
  | gStartErr g w _ _ => exact gto rfl
  | gWaitRet g w e _ _ _ => exact gto rfl
  | _ => exact same rfl

theorem phase_some {p : Params} {t : Tab} (h : HInv p t) {g : G} (hg : g ∈ t.gs) : phaseH t.hist g.gid ≠ none := by
  have := h.ph g hg
  unfold PhaseOk at this
  intro hn
  rw [hn] at this
  split at this <;> simp at this

theorem ReachT.par {p : Params} {t : Tab} (h : ReachT p t) : ∀ g ∈ t.gs, parentH t.hist g.gid = g.ctx := by
  induction h with
  | init => intro g hg; cases hg
  | @step t t' hr hT ih =>
    intro g' hg'
    rcases hT.newG hr g' hg' with ⟨g, hg, h1, h2⟩ | h1
    · obtain ⟨es, hh, hn, _⟩ := hr.emits hT
      rw [← h1, ← h2, ← ih g hg, hh]
      apply parentH_append
      intro id k d sf hm hk
      obtain ⟨a, b, rfl⟩ := mem_split hm
      have := (AtEvery.append hn hr.evOk)
      rw [List.append_assoc] at this
      have := this.split (e := Ev.begin id k d sf)
      exact phase_some hr.hinv hg (hk ▸ phaseH_append_none this.2.2.2.2.1)
    · exact h1

/-! ## The invariant -/

/-- The call a decision is about. -/
def decCid : Ev → Option Nat
  | .accepted c _ _ _ | .refused c _ | .ignored c _ => some c
  | _ => none

theorem undecided_iff {h : List Ev} {cid : Nat} : Undecided h cid ↔ ∀ e ∈ h, decCid e ≠ some cid := by
  constructor
  · rintro ⟨h1, h2, h3⟩ e he hx
    cases e <;> simp only [decCid, Option.some.injEq, reduceCtorEq] at hx
    · subst hx; exact h1 _ _ _ he
    · subst hx; exact h2 _ he
    · subst hx; exact h3 _ he
  · intro hx
    exact ⟨fun id rid sf hm => hx _ hm rfl, fun id hm => hx _ hm rfl, fun id hm => hx _ hm rfl⟩

structure RInv (s : State) : Prop where
  req : AtEvery ReqOk s.tab.hist
  all : ∀ k, k < s.nextC → ∃ c ∈ s.clients, c.cid = k
  canc : ∀ c ∈ s.clients, .cancelled c.cid ∈ s.tab.hist → c.cancelled = true
  lt : ∀ e ∈ s.tab.hist, ∀ k, decCid e = some k → k < s.nextC
  send : ∀ c ∈ s.clients, sending c → Undecided s.tab.hist c.cid
  act : ∀ cid, handling s.tab.pc cid → Undecided s.tab.hist cid

/-- Membership in the list of keys. -/
theorem mem_keys {l : List Client} {k : Nat} {b : Bool} :
    (k, b) ∈ l.map (fun c => (c.cid, c.cancelled)) ↔ ∃ c ∈ l, c.cid = k ∧ c.cancelled = b := by
  simp [List.mem_map, Prod.ext_iff]

theorem RInv.same {s s' : State} (h : RInv s) (hc : CInv s) (hx : Same s s') : RInv s' := by
  obtain ⟨es, hh, he⟩ := hx.hist
  have hdec : ∀ e ∈ es, decCid e = none := by
    intro e hm; have := he e hm; cases e <;> first | rfl | cases this
  have hund : ∀ cid, Undecided s.tab.hist cid → Undecided s'.tab.hist cid := by
    intro cid hu
    rw [undecided_iff] at hu ⊢
    intro e hm
    rw [hh] at hm
    rcases List.mem_append.1 hm with hm | hm
    · rw [hdec e hm]; nofun
    · exact hu e hm
  have hlt : s.nextC ≤ s'.nextC := by rcases hx.keys with ⟨_, h⟩ | ⟨_, h⟩ <;> omega
  have hcan : ∀ k, .cancelled k ∈ s'.tab.hist → .cancelled k ∈ s.tab.hist := by
    intro k hm
    rw [hh] at hm
    rcases List.mem_append.1 hm with hm | hm
    · cases he _ hm
    · exact hm
  refine ⟨?_, ?_, ?_, ?_, ?_, ?_⟩
  · rw [hh]
    refine AtEvery.append ?_ h.req
    clear hh hdec
    induction es with
    | nil => trivial
    | cons e es ih =>
      refine ⟨?_, ih (fun x hx => he x (List.mem_cons_of_mem _ hx))⟩
      have := he e List.mem_cons_self
      cases e <;> first | trivial | cases this
  · intro k hk
    rcases hx.keys with ⟨h1, h2⟩ | ⟨h1, h2⟩
    · rw [h2] at hk
      obtain ⟨c, hc, rfl⟩ := h.all k hk
      have : (c.cid, c.cancelled) ∈ s'.clients.map (fun c => (c.cid, c.cancelled)) := by
        rw [h1]; exact mem_keys.2 ⟨c, hc, rfl, rfl⟩
      obtain ⟨c', hc', h3, _⟩ := mem_keys.1 this
      exact ⟨c', hc', h3⟩
    · by_cases hkn : k = s.nextC
      · subst hkn
        have : (s.nextC, false) ∈ s'.clients.map (fun c => (c.cid, c.cancelled)) := by rw [h1]; exact List.mem_cons_self
        obtain ⟨c', hc', h3, _⟩ := mem_keys.1 this
        exact ⟨c', hc', h3⟩
      · obtain ⟨c, hc, rfl⟩ := h.all k (by omega)
        have : (c.cid, c.cancelled) ∈ s'.clients.map (fun c => (c.cid, c.cancelled)) := by
          rw [h1]; exact List.mem_cons_of_mem _ (mem_keys.2 ⟨c, hc, rfl, rfl⟩)
        obtain ⟨c', hc', h3, _⟩ := mem_keys.1 this
        exact ⟨c', hc', h3⟩
  · intro c' hc' hm
    have hm := hcan _ hm
    have hin : (c'.cid, c'.cancelled) ∈ s'.clients.map (fun c => (c.cid, c.cancelled)) := mem_keys.2 ⟨c', hc', rfl, rfl⟩
    have old : (c'.cid, c'.cancelled) ∈ s.clients.map (fun c => (c.cid, c.cancelled)) → c'.cancelled = true := by
      intro hx
      obtain ⟨c, hc, h3, h4⟩ := mem_keys.1 hx
      rw [← h4]; exact h.canc c hc (by rw [h3]; exact hm)
    rcases hx.keys with ⟨h1, h2⟩ | ⟨h1, h2⟩
    · rw [h1] at hin; exact old hin
    · rw [h1] at hin
      rcases List.mem_cons.1 hin with h3 | h3
      · have := hc.evLt _ hm _ rfl
        have h4 : c'.cid = s.nextC := congrArg Prod.fst h3
        omega
      · exact old h3
  · intro e hm k hk
    rw [hh] at hm
    rcases List.mem_append.1 hm with hm | hm
    · rw [hdec e hm] at hk; cases hk
    · exact Nat.lt_of_lt_of_le (h.lt e hm k hk) hlt
  · intro c' hc' hs
    apply hund
    rcases hx.send c' hc' hs with ⟨c, hc, h1, h2⟩ | h1
    · rw [← h1]; exact h.send c hc h2
    · rw [h1, undecided_iff]
      intro e hm hk
      exact Nat.lt_irrefl _ (h.lt e hm _ hk)
  · intro cid hk
    apply hund
    rcases hx.pc cid hk with h1 | ⟨c, hc, rfl, h2⟩
    · exact h.act cid h1
    · exact h.send c hc h2

theorem ctxDone_iff {p : Params} {s : State} (hr : Reach p s) (h : RInv s) {g : G} (hg : g ∈ s.tab.gs) :
    ctxDone s g = true ↔ CtxDone s.tab.hist g.gid := by
  unfold ctxDone CtxDone
  have hp : s.tab.pc ≠ .exited := by
    intro hp
    have := (hr.tab.shape.known g.id).2 (List.mem_map.2 ⟨g, hg, rfl⟩)
    rw [(hr.tab.shape.exited hp).2 g.id] at this; cases this
  rw [hr.tab.par g hg, Bool.or_eq_true, List.any_eq_true]
  constructor
  · rintro (hd | ⟨c, hc, hx⟩)
    · rcases hr.tab.dying hd with h | h
      · exact Or.inl h
      · exact absurd (hr.tab.hinv.exit.2 h) hp
    · simp only [Bool.and_eq_true, decide_eq_true_eq] at hx
      exact Or.inr ⟨c.cid, hx.1, (hr.cinv.ok c hc).canc hx.2⟩
  · rintro (hk | ⟨cid, h1, h2⟩)
    · left
      unfold Tab.dying
      rw [hr.tab.hinv.tomb hp]; simp [aliveTomb, hk, Tomb.dying]
    · right
      obtain ⟨c, hc, rfl⟩ := h.all cid (hr.cinv.evLt _ h2 _ rfl)
      exact ⟨c, hc, by simp [h1, h.canc c hc h2]⟩

theorem RInv.step {p : Params} {s s' : State} {op : Op} (h : RInv s) (hr : Reach p s) (hs : Runner.step p s op = some s') :
    RInv s' := by
  cases step_kind hs with
  | same hx => exact h.same hr.cinv hx
  | ctx g hg hu heq =>
    subst heq
    have hund : ∀ cid, Undecided s.tab.hist cid → Undecided (.ctx g.gid (ctxDone s g) :: s.tab.hist) cid := by
      intro cid hu
      rw [undecided_iff] at hu ⊢
      intro e hm
      rcases List.mem_cons.1 hm with rfl | hm
      · nofun
      · exact hu e hm
    refine ⟨⟨⟨?_, ctxDone_iff hr h hg⟩, h.req⟩, h.all, ?_, ?_, ?_, ?_⟩
    · have := hr.tab.hinv.ph g hg
      unfold PhaseOk at this
      cases hpc : g.pc <;> rw [hpc] at this hu <;> first | cases hu; done | skip
      · exact Or.inl this
      · exact Or.inr ⟨_, this⟩
      · exact Or.inr ⟨_, this⟩
    · intro c hc hm
      exact h.canc c hc ((List.mem_cons.1 hm).resolve_left (by nofun))
    · intro e hm k hk
      rcases List.mem_cons.1 hm with rfl | hm
      · cases hk
      · exact h.lt e hm k hk
    · intro c hc hx; exact hund _ (h.send c hc hx)
    · intro c hx; exact hund _ (h.act c hx)
  | cancel c hc heq =>
    subst heq
    have hund : ∀ cid, Undecided s.tab.hist cid → Undecided (.cancelled c.cid :: s.tab.hist) cid := by
      intro cid hu
      rw [undecided_iff] at hu ⊢
      intro e hm
      rcases List.mem_cons.1 hm with rfl | hm
      · nofun
      · exact hu e hm
    refine ⟨⟨trivial, h.req⟩, ?_, ?_, ?_, ?_, ?_⟩
    · intro k hk
      obtain ⟨x, hx, rfl⟩ := h.all k hk
      refine ⟨if x.cid = c.cid then { x with cancelled := true } else x, List.mem_map.2 ⟨x, hx, rfl⟩, ?_⟩
      split <;> rfl
    · intro c' hc' hm
      obtain ⟨x, hx, rfl⟩ := List.mem_map.1 hc'
      split
      · rfl
      · rename_i hne
        rw [if_neg hne] at hm
        rcases List.mem_cons.1 hm with hm | hm
        · simp only [Ev.cancelled.injEq] at hm; exact absurd hm hne
        · exact h.canc x hx hm
    · intro e hm k hk
      rcases List.mem_cons.1 hm with rfl | hm
      · cases hk
      · exact h.lt e hm k hk
    · intro c' hc' hs
      obtain ⟨x, hx, rfl⟩ := List.mem_map.1 hc'
      have : sending x := by split at hs <;> exact hs
      have h2 := hund _ (h.send x hx this)
      split
      · exact h2
      · exact h2
    · intro c hx; exact hund _ (h.act c hx)
  | act cid id sf now hp heq =>
    subst heq
    have hc := hr.cinv
    obtain ⟨c, hm, rfl, hcp⟩ := hc.reply cid (Or.inl ⟨id, sf, hp⟩)
    have hco := hc.ok c hm
    have hpo := hco.pc
    unfold PcOk at hpo
    rw [hcp] at hpo
    obtain ⟨id', sf', hcall, hro⟩ := hpo
    have hask : Asks s.tab.hist c.cid id sf := by
      refine ⟨?_, hco.ret (by rw [hcp]; nofun), h.act c.cid ⟨id, sf, hp⟩⟩
      rcases hro with h1 | ⟨h1, _⟩ | ⟨h1, _⟩ <;> rw [hp] at h1 <;> cases h1
      exact hcall
    have hlt := hc.lt c hm
    -- the events of any of the three outcomes
    have key : ∀ (es : List Ev) (t : Tab), t.hist = es ++ s.tab.hist → AtNew ReqOk es s.tab.hist →
        (∀ e ∈ es, decCid e = none ∨ decCid e = some c.cid) → (∀ k, .cancelled k ∉ es) →
        (∀ m, t.pc ≠ .act m) → RInv (s.withTab t) := by
      intro es t hh hn hd hcan hpc
      refine ⟨?_, h.all, ?_, ?_, ?_, ?_⟩
      · show AtEvery ReqOk t.hist
        rw [hh]; exact AtEvery.append hn h.req
      · intro x hx hmx
        have hmx : Ev.cancelled x.cid ∈ t.hist := hmx
        rw [hh] at hmx
        exact h.canc x hx ((List.mem_append.1 hmx).resolve_left (hcan _))
      · intro e he k hk
        have he : e ∈ t.hist := he
        rw [hh] at he
        rcases List.mem_append.1 he with he | he
        · rcases hd e he with h1 | h1
          · rw [h1] at hk; cases hk
          · rw [h1] at hk; cases hk; exact hlt
        · exact h.lt e he k hk
      · intro x hx hsx
        have hu := h.send x hx hsx
        show Undecided t.hist x.cid
        rw [hh]
        rw [undecided_iff] at hu ⊢
        intro e he hk
        rcases List.mem_append.1 he with he | he
        · rcases hd e he with h1 | h1
          · rw [h1] at hk; cases hk
          · rw [h1] at hk
            have : x = c := cid_inj hc.nd hx hm (Option.some.inj hk).symm
            subst this
            obtain ⟨_, _, hy⟩ := hsx
            rw [hcp] at hy; cases hy
        · exact hu e he hk
      · rintro k ⟨_, _, hx⟩
        exact absurd hx (hpc _)
    simp only [Runner.act]
    split
    · exact key [.ignored c.cid id] _ rfl ⟨⟨sf, hask⟩, trivial⟩ (by simp [decCid]) (by simp) (by simp [Tab.goTo])
    · split
      · exact key [.refused c.cid id] _ rfl ⟨⟨sf, hask⟩, trivial⟩ (by simp [decCid]) (by simp) (by simp [Tab.goTo])
      · exact key [.begin id s.tab.nextG 0 sf, .accepted c.cid id s.tab.nextR sf] _ rfl ⟨trivial, hask, trivial⟩
          (by simp [decCid]) (by simp) (by simp [Tab.goTo])

theorem Reach.rinv {p : Params} {s : State} (h : Reach p s) : RInv s := by
  induction h with
  | init =>
    refine ⟨trivial, (by intro k hk; cases hk), (by intro c hc; cases hc), (by intro e he; cases he), (by intro c hc; cases hc), ?_⟩
    rintro cid ⟨_, _, hx⟩; cases hx
  | step op hr hs ih => exact ih.step hr hs

end Verif.Runner
