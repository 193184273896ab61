import Verif.Props.RunnerLive
import Verif.Props.CatacombLive
import Verif.Props.EngineLive

/-!
# C77: what other code may do at any moment

The theorems about all executions would say little if the models excluded executions that the code has. What the three
components do themselves is covered by the theorems about progress; the theorems below say that the models let the code
around them do what it likes: calls can be made in every state, a Start func may return anything as soon as it has been
called, and a worker may finish with any result at any moment.
-/

namespace Verif.Props

/-! ## Runner -/

section
open Verif.Spec Verif.RSpec Verif.Runner

variable {p : Params} {s : State}

/-- `e` is what happens next in one execution. -/
def RNext (p : Params) (s : State) (e : Runner.Ev) : Prop := ∃ op s', Runner.step p s op = some s' ∧ s'.tab.hist = e :: s.tab.hist

theorem rnext_of (op : Runner.Op) {e : Runner.Ev} (h : (Runner.step p s op).map (fun s' => s'.tab.hist) = some (e :: s.tab.hist)) :
    RNext p s e := by
  cases hs : Runner.step p s op with
  | none => rw [hs] at h; cases h
  | some s' => rw [hs] at h; exact ⟨op, s', hs, Option.some.inj h⟩

/-- C77: Kill, StartWorker, StopWorker, Worker and StopAndRemoveWorker can be called in every state, with every argument. -/
theorem C77_runner_calls (hr : Runner.Reach p s) : RNext p s .kill ∧
    ∃ cid, callH s.tab.hist cid = none ∧ ∀ id sf, RNext p s (.callStart cid id sf) ∧ RNext p s (.callStop cid id) ∧
      RNext p s (.callWorker cid id) ∧ RNext p s (.callRemove cid id) := by
  have hnone : ∀ h : List Runner.Ev, (∀ e ∈ h, ∀ k, evCid e = some k → k < s.nextC) → callH h s.nextC = none := by
    intro h
    induction h with
    | nil => intro _; rfl
    | cons e h ih =>
      intro hl
      have hi := ih (fun x hx => hl x (List.mem_cons_of_mem _ hx))
      have he := hl e List.mem_cons_self
      cases e <;> simp only [callH] <;> try exact hi
      all_goals
        have := he _ rfl
        rw [if_neg (by omega)]; exact hi
  refine ⟨⟨.kill, _, rfl, rfl⟩, s.nextC, hnone _ hr.cinv.evLt, fun id sf => ⟨⟨.callStart id sf, _, rfl, rfl⟩,
    ⟨.callStop id, _, rfl, rfl⟩, ⟨.callWorker id, _, rfl, rfl⟩, ⟨.callRemove id, _, rfl, rfl⟩⟩⟩

/-- C77: the context given to a call may be done, or its abort channel closed, at any moment. -/
theorem C77_runner_cancel (hr : Runner.Reach p s) {c : Client} (hc : c ∈ s.clients) : RNext p s (.cancelled c.cid) :=
  rnext_of (.cancel c.cid) (by simp only [Runner.step, Op.cid?, getC_of hr.minv.nd hc, clientStep]; rfl)

theorem attempt_calling (hr : Runner.Reach p s) {g : Nat} (hp : phaseH s.tab.hist g = some .calling) :
    ∃ x ∈ s.tab.gs, x.gid = g ∧ x.pc = .starting ∧ openH s.tab.hist x.id = some g := by
  have hi := hr.tab.hinv
  have hlt : g < s.tab.nextG := by
    apply Classical.byContradiction
    intro h
    rw [hi.fresh g (by omega)] at hp; cases hp
  have hmem : g ∈ s.tab.gs.map G.gid := by
    apply Classical.byContradiction
    intro h
    rw [hi.over g hlt h] at hp; cases hp
  obtain ⟨x, hx, rfl⟩ := List.mem_map.1 hmem
  have hph := hi.ph x hx
  refine ⟨x, hx, rfl, ?_, (hi.opn _ _).2 ⟨x, hx, rfl, rfl⟩⟩
  cases hpc : x.pc <;> simp only [PhaseOk, hpc, hp] at hph <;> first | rfl | (simp at hph)

/-- C77: a StartFunc that has been called may return any worker or any error at any moment, and look at its context. -/
theorem C77_runner_startfunc (hr : Runner.Reach p s) {g : Nat} (hp : phaseH s.tab.hist g = some .calling) :
    ∃ id, openH s.tab.hist id = some g ∧ (∀ w, RNext p s (.startOk id g w)) ∧ (∀ e, RNext p s (.startErr id g e)) ∧
      ∃ b, RNext p s (.ctx g b) := by
  obtain ⟨x, hx, rfl, hpc, ho⟩ := attempt_calling hr hp
  have hg := getG_of hr.tab.shape.gidNd hx
  exact ⟨x.id, ho, fun w => rnext_of (.gStartOk x.gid w) (by simp only [Runner.step, Op.cid?, tabStep, hg, hpc]; rfl),
    fun e => rnext_of (.gStartErr x.gid e) (by simp only [Runner.step, Op.cid?, tabStep, hg, hpc]; rfl),
    ctxDone s x, rnext_of (.gCtx x.gid) (by simp only [Runner.step, Op.cid?, tabStep, hg, hpc]; rfl)⟩

/-- C77: a worker may finish with any result at any moment. -/
theorem C77_runner_finish (hr : Runner.Reach p s) {w : Nat} (hf : finishedH s.tab.hist w = none) (e : Option Err) :
    RNext p s (.finished w e) := by
  have h : s.tab.finished.get? w = none := by rw [hr.tab.hinv.fin]; exact hf
  exact rnext_of (.finish w e) (by simp only [Runner.step, Op.cid?, tabStep, h]; rfl)

example : phaseH (RDemo.after RDemo.prm (RDemo.opsUp.take 7)).tab.hist 0 = some .calling := by decide +kernel

theorem mu_free {p : Params} {s : State} (hr : Runner.Reach p s) :
    ∃ n s', Exec p Op.internal (fun _ => true) n s s' ∧ n ≤ 2 ∧ s'.tab = s.tab ∧ s'.mu = none := by
  have enter : ∀ {s : State}, Runner.Reach p s → ∀ {c : Client}, c ∈ s.clients → ∀ {h : Helper}, c.helper = some h →
      h.pc = .enter → ∃ s', Runner.step p s (.hEnter c.cid) = some s' ∧ s'.tab = s.tab ∧ s'.mu = none := by
    intro s hr c hc h hh hp
    refine ⟨(s.mapH c.cid (fun h => { h with pc := .sleep })).setMu none, ?_, rfl, rfl⟩
    simp only [Runner.step, Op.cid?, getC_of hr.minv.nd hc, clientStep, hh, hp]; rfl
  cases hmu : s.mu with
  | none => exact ⟨0, s, .nil s, by omega, rfl, hmu⟩
  | some cid =>
    obtain ⟨c, hc, hcid, h, hh, hp⟩ := hr.minv.held cid hmu
    rcases hp with hp | hp
    · by_cases hs : h.stopped = true
      · refine ⟨1, (s.mapH c.cid (fun h => { h with pc := .done })).setMu none,
          .one (n := 0) (.hCheck c.cid) rfl ?_ (.nil _), by omega, rfl, rfl⟩
        simp only [Runner.step, Op.cid?, getC_of hr.minv.nd hc, clientStep, hh, hp, hs]; rfl
      · have h1 : Runner.step p s (.hCheck c.cid) = some (s.mapH c.cid (fun h => { h with pc := .enter })) := by
          simp only [Runner.step, Op.cid?, getC_of hr.minv.nd hc, clientStep, hh, hp]; simp [hs]
        have hr1 := Runner.Reach.step _ hr h1
        have hc1 : { c with helper := some { h with pc := .enter } } ∈ (s.mapH c.cid (fun h => { h with pc := .enter })).clients := by
          refine List.mem_map.2 ⟨c, hc, ?_⟩
          simp [hh]
        obtain ⟨s2, h2, ht, hm⟩ := enter hr1 hc1 rfl rfl
        exact ⟨2, s2, .one (n := 1) _ rfl h1 (.one (n := 0) _ rfl h2 (.nil _)), by omega, ht, hm⟩
    · obtain ⟨s2, h2, ht, hm⟩ := enter hr hc hh hp
      exact ⟨1, s2, .one (n := 0) _ rfl h2 (.nil _), by omega, ht, hm⟩

/-- The loop gets through killAll without waiting for anything. -/
theorem kill_free {p : Params} : ∀ (rest : List Name) {s : State}, s.tab.pc = .killing rest → s.mu = none →
    ∃ s' es, Exec p Op.internal (fun _ => true) (rest.length + 1) s s' ∧ s'.tab.hist = es ++ s.tab.hist ∧
      (∀ e ∈ es, ∃ id, e = .told id ∨ ∃ w, e = .killW id w) ∧ s'.muFree = true
  | [], s, hp, hm => by
    refine ⟨{ s with tab := s.tab.goTo .bcast }, [], .one (n := 0) .killNext rfl ?_ (.nil _), rfl, by simp, ?_⟩
    · simp only [Runner.step, Op.cid?, tabStep, hp]; rfl
    · rw [muFree_iff]; exact ⟨hm, rfl⟩
  | id :: rest, s, hp, hm => by
    obtain ⟨s', es, hx, hh, hk, hf⟩ := kill_free (p := p) rest
      (s := { s with tab := (killLocked s.tab id).goTo (.killing rest) }) rfl hm
    have h1 : Runner.step p s .killNext = some { s with tab := (killLocked s.tab id).goTo (.killing rest) } := by
      simp only [Runner.step, Op.cid?, tabStep, hp]; rfl
    refine ⟨s', es ++ killEvs s.tab id, .one (n := rest.length + 1) .killNext rfl h1 hx, ?_, ?_, hf⟩
    · rw [hh, List.append_assoc]
      congr 1
      exact killLocked_hist s.tab id
    · intro e he
      rcases List.mem_append.1 he with he | he
      · exact hk e he
      · rcases mem_killEvs he with rfl | ⟨w, rfl⟩
        · exact ⟨id, .inl rfl⟩
        · exact ⟨id, .inr ⟨w, rfl⟩⟩

/-- C77: Report and WorkerNames can be called in every state and do not wait for any worker, StartFunc or other call: at
most two steps of a call that is about to sleep come first, or the rest of a killAll that is going on, and nothing else
happens until they return. -/
theorem C77_runner_reports (hr : Runner.Reach p s) : ∃ n s' es, Exec p Op.internal (fun _ => true) n s s' ∧
    s'.tab.hist = es ++ s.tab.hist ∧ (∀ e ∈ es, ∃ id, e = .told id ∨ ∃ w, e = .killW id w) ∧
    (n ≤ 2 ∧ es = [] ∨ ∃ rest, s.tab.pc = .killing rest ∧ n = rest.length + 1) ∧
    (∃ lines, RNext p s' (.report lines)) ∧ ∃ l, RNext p s' (.names l) := by
  have key : ∀ {s' : State}, Runner.Reach p s' → s'.muFree = true → (∃ lines, RNext p s' (.report lines)) ∧ ∃ l, RNext p s' (.names l) :=
    fun {s'} hr hm => ⟨⟨reportLines s'.tab s'.tab.workers.keys, rnext_of (.report s'.tab.workers.keys) (by
        simp only [Runner.step, Op.cid?, tabStep, hm, keys_order hr.tab]; rfl)⟩,
      ⟨s'.tab.workers.keys, rnext_of (.names s'.tab.workers.keys) (by
        simp only [Runner.step, Op.cid?, tabStep, hm, keys_order hr.tab]; rfl)⟩⟩
  have other : s.tab.pc.locked = false → ∃ n s', Exec p Op.internal (fun _ => true) n s s' ∧ n ≤ 2 ∧ s'.tab.hist = s.tab.hist ∧
      s'.muFree = true := by
    intro hl
    obtain ⟨n, s', hx, hn, ht, hm⟩ := mu_free hr
    exact ⟨n, s', hx, hn, by rw [ht], muFree_iff.2 ⟨hm, by rw [ht]; exact hl⟩⟩
  cases hl : s.tab.pc.locked with
  | false =>
    obtain ⟨n, s', hx, hn, ht, hm⟩ := other hl
    exact ⟨n, s', [], hx, ht, by simp, .inl ⟨hn, rfl⟩, key (hx.reach hr) hm⟩
  | true =>
    cases hp : s.tab.pc with
    | killing rest =>
      obtain ⟨s', es, hx, hh, hk, hf⟩ := kill_free (p := p) rest hp (hr.excl hl)
      exact ⟨_, s', es, hx, hh, hk, .inr ⟨rest, rfl, rfl⟩, key (hx.reach hr) hf⟩
    | _ => rw [hp] at hl; cases hl

end

/-! ## Catacomb -/

section
open Verif.Spec Verif.CSpec Verif.Catacomb

variable {own : Nat} {s : State}

def CNext (own : Nat) (s : State) (e : Catacomb.Ev) : Prop := ∃ op s', Catacomb.step own s op = some s' ∧ s'.hist = e :: s.hist

theorem cnext_of (op : Catacomb.Op) {e : Catacomb.Ev} (h : (Catacomb.step own s op).map (fun s' => s'.hist) = some (e :: s.hist)) :
    CNext own s e := by
  cases hs : Catacomb.step own s op with
  | none => rw [hs] at h; cases h
  | some s' => rw [hs] at h; exact ⟨op, s', hs, Option.some.inj h⟩

/-- C77: Invoke, Add, Kill and ErrDying can be called in every state, with every argument. -/
theorem C77_catacomb_calls (hr : Catacomb.Reach own s) (hp : Proper own s.hist) :
    (∃ i, (∀ q, .callInvoke i q ∉ s.hist) ∧ ∀ plan, CNext own s (.callInvoke i plan)) ∧
    (∃ c, (∀ v, .callAdd c v ∉ s.hist) ∧ ∀ w, CNext own s (.callAdd c w)) ∧
    (∀ e, CNext own s (.kill e) ∨ CNext own s (.killPanics .client e)) ∧
    CNext own s (.errDying (if s.dying then .catDying own else .badStillAlive)) := by
  have hc := hr.no_crash hp
  refine ⟨⟨s.invs.length, fun q hq => Nat.lt_irrefl _ (hr.hinv.invs.fresh _ hq _ rfl), fun plan =>
      cnext_of (.callInvoke plan) (by simp only [Catacomb.step, hc, Op.inv?, Op.add?, Op.track?, stepMain]; rfl)⟩,
    ⟨s.adds.length, fun q hq => Nat.lt_irrefl _ (hr.hinv.adds.fresh _ hq _ rfl), fun w =>
      cnext_of (.callAdd w) (by simp only [Catacomb.step, hc, Op.inv?, Op.add?, Op.track?, stepMain]; rfl)⟩, ?_,
    cnext_of .callErrDying (by simp only [Catacomb.step, hc, Op.inv?, Op.add?, Op.track?, stepMain]; rfl)⟩
  intro e
  have hs : Catacomb.step own s (.killCall e) = some (Catacomb.kill own s s e .client (.kill e)) := by
    simp only [Catacomb.step, hc, Op.inv?, Op.add?, Op.track?, stepMain]; rfl
  by_cases hk : (s.tomb.kill (killArg own e)).panicked = true
  · right; exact cnext_of (.killCall e) (by rw [hs]; simp [Catacomb.kill, hk])
  · left; exact cnext_of (.killCall e) (by rw [hs]; simp [Catacomb.kill, hk])

/-- The work func runs from the moment it is called until it returns. -/
theorem work_running (hr : Catacomb.Reach own s) (hw : .workCall ∈ s.hist) (hn : ∀ r, .workRet r ∉ s.hist) : s.work = .running := by
  have hH := hr.hinv.work
  have hover : s.work.over = true → False := by
    intro ho
    cases hg : s.goexit with
    | true => exact hn _ (hH.exit.1 hg)
    | false =>
      obtain ⟨e, he⟩ := hH.killed ho hg
      obtain ⟨post, pre, hh⟩ := List.append_of_mem he
      obtain ⟨r', hr', _⟩ := (hh ▸ hr.events).split.1
      exact hn r' (by rw [hh]; simp [hr'])
  cases hk : s.work with
  | none => exact absurd hw (hH.call.1 hk)
  | running => rfl
  | kill e => obtain ⟨r', hr', _⟩ := hH.kill e hk; exact absurd hr' (hn r')
  | _ => exact absurd (by rw [hk]; rfl) hover

/-- C77: the work func may return anything, panic or call Goexit at any moment after it has been called. -/
theorem C77_catacomb_work (hr : Catacomb.Reach own s) (hp : Proper own s.hist) (hw : .workCall ∈ s.hist)
    (hn : ∀ r, .workRet r ∉ s.hist) (r : WorkRes) : CNext own s (.workRet r) := by
  have hc := hr.no_crash hp
  have hw' := work_running hr hw hn
  apply cnext_of (.workRet r)
  simp only [Catacomb.step, hc, Op.inv?, Op.add?, Op.track?, stepMain, hw']
  cases r.safely <;> rfl

example : .workCall ∈ (CDemo.after 7 CDemo.opsUp).hist ∧ ((CDemo.after 7 CDemo.opsUp).hist.any (fun | .workRet _ => true | _ => false)) = false ∧
    finishedH (CDemo.after 7 CDemo.opsUp).hist 1 = none := by decide +kernel

/-- C77: a worker may finish with any result at any moment. -/
theorem C77_catacomb_finish (hr : Catacomb.Reach own s) (hp : Proper own s.hist) {w : Nat} (hf : finishedH s.hist w = none)
    (e : Option Err) : CNext own s (.finished w e) := by
  have hc := hr.no_crash hp
  have h : s.fin.get? w = none := by rw [hr.hinv.fin]; exact hf
  exact cnext_of (.finish w e) (by simp only [Catacomb.step, hc, Op.inv?, Op.add?, Op.track?, stepMain, h]; rfl)

end

/-! ## Engine -/

section
open Verif.Spec Verif.Engine

variable {cfg : Config} {s : State}

def ENext (cfg : Config) (s : State) (e : Engine.Ev) : Prop := ∃ op s', Engine.step cfg s op = some s' ∧ s'.hist = e :: s.hist

theorem enext_of (op : Engine.Op) {e : Engine.Ev} (h : (Engine.step cfg s op).map (fun s' => s'.hist) = some (e :: s.hist)) :
    ENext cfg s e := by
  cases hs : Engine.step cfg s op with
  | none => rw [hs] at h; cases h
  | some s' => rw [hs] at h; exact ⟨op, s', hs, Option.some.inj h⟩

/-- C77: Kill can be called in every state, and until the engine has ended its loop serves every Install and Report. After
Kill every Install may return ErrEngineShuttingDown at once. -/
theorem C77_engine_calls (hr : Engine.Reach cfg s) : ENext cfg s .kill ∧
    (.kill ∈ s.hist → ∀ n, ENext cfg s (.installFailed n .shuttingDown)) ∧
    (.exit ∉ s.hist → (∀ pend, (Engine.step cfg s (.armReport pend)).isSome = true) ∧
      ∀ n m pend, ∃ order, (Engine.step cfg s (.armInstall n m order pend)).isSome = true) := by
  refine ⟨⟨.kill, _, rfl, rfl⟩, fun hk n => enext_of (.installRefused n) ?_, fun hx => ?_⟩
  · have hd : s.dying = true := (reach_hinv hr).2.dying.2 hk
    simp only [Engine.step, hd]; rfl
  have hd : s.tomb.dead = false := by
    cases h : s.tomb.dead with
    | false => rfl
    | true => exact absurd ((reach_hinv hr).2.dead.1 h) hx
  refine ⟨fun pend => by simp [Engine.step, hd], fun n m pend => ⟨(s.manifolds.set n m).keys.dedup, ?_⟩⟩
  have hro : isRangeOrder (s.manifolds.set n m) (s.manifolds.set n m).keys.dedup = true := by
    rw [isRangeOrder_iff]; exact ⟨List.nodup_dedup _, fun _ => List.mem_dedup⟩
  simp [Engine.step, hd, hro]

/-- C77: a Start func that has been called may return any worker or any error at any moment. -/
theorem C77_engine_startfunc (hr : Engine.Reach cfg s) {n : Name} {g : Nat} (ho : openH s.hist n = some g)
    (hp : phaseH s.hist n = .inStart) : (∀ w, ENext cfg s (.startOk n g w)) ∧ ∀ e, ENext cfg s (.startErr n g e) := by
  obtain ⟨hcore, hi⟩ := reach_hinv hr
  obtain ⟨x, hx, rfl, rfl⟩ := hi.openN n g ho
  have hph := hi.pc x hx
  have hpc : x.pc = .starting := by
    cases hpc : x.pc <;> simp only [PcOk, hpc, hp] at hph <;> first | rfl | (simp at hph)
  have hg := hcore.getG_eq hx
  exact ⟨fun w => enext_of (.gStartOk x.gid w) (by simp only [Engine.step, hg, hpc]; rfl),
    fun e => enext_of (.gStartErr x.gid e) (by simp only [Engine.step, hg, hpc]; rfl)⟩

example : openH (Demo.after Demo.cfg (Demo.opsUp.take 3)).hist 0 = some 0 ∧ phaseH (Demo.after Demo.cfg (Demo.opsUp.take 3)).hist 0 = .inStart := by
  decide +kernel

/-- C77: from the moment its Start func is called until its end has been dealt with, code that has its Container may ask for
any resource, with any target. -/
theorem C77_engine_get (hr : Engine.Reach cfg s) {n : Name} {g : Nat} (ho : openH s.hist n = some g)
    (hp : phaseH s.hist n = .inStart ∨ (∃ w, phaseH s.hist n = .ok w) ∨ ∃ e, phaseH s.hist n = .failed e) (res : Name) (out : Option Nat) :
    ∃ r, ENext cfg s (.get g res out r) := by
  obtain ⟨hcore, hi⟩ := reach_hinv hr
  obtain ⟨x, hx, rfl, rfl⟩ := hi.openN n g ho
  have hph := hi.pc x hx
  have hpc : x.pc ≠ .delaying := by
    intro hpc
    simp only [PcOk, hpc] at hph
    rcases hp with h | ⟨w, h⟩ | ⟨e, h⟩ <;> rw [hph] at h <;> cases h
  have hg := hcore.getG_eq hx
  exact ⟨getResult cfg x res out, enext_of (.gGet x.gid res out) (by simp only [Engine.step, hg, if_neg hpc]; rfl)⟩

/-- C77: a worker may finish with any result at any moment. -/
theorem C77_engine_finish (hr : Engine.Reach cfg s) {w : Nat} (hf : ∀ e, .finished w e ∉ s.hist) (e : Option Err) :
    ENext cfg s (.finished w e) := by
  have h : s.finished.get? w = none := by
    cases h : s.finished.get? w with
    | none => rfl
    | some x => exact absurd (((reach_hinv hr).2.fin w x).1 h) (hf x)
  exact enext_of (.finish w e) (by simp only [Engine.step, h]; rfl)

end
end Verif.Props
