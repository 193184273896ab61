import Verif.Config
import Verif.Runner.Model
import Verif.Stub
import Verif.Worker.Live
import Verif.Worker.Stubs
import Mathlib.Tactic.NormNum

/-!
# C55-C57, C61-C63: configuration checks, worker.go, workertest, dependency/testing
-/

namespace Verif.Props
open Verif.Spec

/-! ## C55: configuration checks -/

namespace Conf
open Verif.Config

/-- "at least 1": a number from 1 on, or positive infinity. -/
def AtLeastOne : Float64 → Prop
  | .num q => 1 ≤ q
  | .posInf => True
  | .negInf => False
  | .nan => False

/-- What the documentation of the field (dependency/engine.go:38-88) and the text of Validate's error demand of it. -/
def FieldOk (c : EngineConfig) : Field → Prop
  | .isFatal => c.isFatal = true
  | .worstError => c.worstError = true
  | .errorDelay => 0 ≤ c.errorDelay
  | .bounceDelay => 0 ≤ c.bounceDelay
  | .backoffFactor => c.backoffFactor = .num 0 ∨ AtLeastOne c.backoffFactor
  | .backoffResetTime => 0 ≤ c.backoffResetTime
  | .maxDelay => 0 ≤ c.maxDelay
  | .clock => c.clock = true
  | .metrics => c.metrics = true
  | .logger => c.logger = true

theorem factor_iff {f : Float64} : (f.ne0 && f.lt1) = false ↔ f = .nan ∨ f = .num 0 ∨ AtLeastOne f := by
  cases f with
  | num q =>
    simp only [Float64.ne0, Float64.lt1, AtLeastOne, Bool.and_eq_false_iff, decide_eq_false_iff_not, not_not, not_lt,
      Float64.num.injEq, reduceCtorEq, false_or]
  | posInf => simp [Float64.ne0, Float64.lt1, AtLeastOne]
  | negInf => simp [Float64.ne0, Float64.lt1, AtLeastOne]
  | nan => simp [Float64.ne0, Float64.lt1]

end Conf
open Conf Verif.Config

/-- C55: EngineConfig.Validate returns nil exactly if every field is as documented, or all but the BackoffFactor, which is
NaN. -/
theorem C55_engine (c : EngineConfig) :
    c.validate = none ↔ ∀ f : Field, FieldOk c f ∨ (f = .backoffFactor ∧ c.backoffFactor = .nan) := by
  have hfac := factor_iff (f := c.backoffFactor)
  constructor
  · intro h
    unfold EngineConfig.validate at h
    repeat' split at h
    all_goals first
      | cases h
      | skip
    rename_i h1 h2 h3 h4 h5 h6 h7 h8 h9 h10
    simp only [Bool.not_eq_true', Bool.not_eq_false] at *
    intro f
    cases f with
    | backoffFactor =>
      rcases hfac.1 (by simpa using h5) with h | h
      · exact Or.inr ⟨rfl, h⟩
      · exact Or.inl h
    | isFatal => exact Or.inl h1
    | worstError => exact Or.inl h2
    | errorDelay => exact Or.inl (Int.not_lt.1 h3)
    | bounceDelay => exact Or.inl (Int.not_lt.1 h4)
    | backoffResetTime => exact Or.inl (Int.not_lt.1 h6)
    | maxDelay => exact Or.inl (Int.not_lt.1 h7)
    | clock => exact Or.inl h8
    | metrics => exact Or.inl h9
    | logger => exact Or.inl h10
  · intro h
    have g : ∀ f, f ≠ Field.backoffFactor → FieldOk c f := fun f hf => (h f).resolve_right (fun hx => hf hx.1)
    have hb : (c.backoffFactor.ne0 && c.backoffFactor.lt1) = false := by
      rw [hfac]
      rcases h .backoffFactor with h | h
      · exact Or.inr h
      · exact Or.inl h.2
    have h1 : c.isFatal = true := g .isFatal nofun
    have h2 : c.worstError = true := g .worstError nofun
    have h3 : 0 ≤ c.errorDelay := g .errorDelay nofun
    have h4 : 0 ≤ c.bounceDelay := g .bounceDelay nofun
    have h6 : 0 ≤ c.backoffResetTime := g .backoffResetTime nofun
    have h7 : 0 ≤ c.maxDelay := g .maxDelay nofun
    have h8 : c.clock = true := g .clock nofun
    have h9 : c.metrics = true := g .metrics nofun
    have h10 : c.logger = true := g .logger nofun
    simp only [EngineConfig.validate, h1, h2, h8, h9, h10, hb, Int.not_lt.2 h3, Int.not_lt.2 h4, Int.not_lt.2 h6, Int.not_lt.2 h7,
      Bool.not_true, Bool.false_eq_true, if_false]

/-- C55: and a field it complains about is not as documented. -/
theorem C55_engine_error (c : EngineConfig) {f : Field} (h : c.validate = some f) : ¬ FieldOk c f := by
  unfold EngineConfig.validate at h
  repeat' split at h
  all_goals (cases h)
  all_goals simp only [FieldOk]
  all_goals first
    | (rename_i hx; simp only [Bool.not_eq_true'] at hx; rw [hx]; nofun)
    | (rename_i hx
       intro hy
       have := factor_iff.2 (Or.inr hy)
       rw [hx] at this; cases this)
    | (rename_i hx; omega)

/-- C55: the NaN case does happen: NaN is neither 0 nor at least 1, and is accepted. -/
theorem C55_nan_accepted : ∃ c : EngineConfig, c.validate = none ∧ ¬ FieldOk c .backoffFactor := by
  refine ⟨{ backoffFactor := .nan }, rfl, ?_⟩
  rintro (h | h)
  · cases h
  · exact h

/-- C55: NewRunner accepts exactly the params with a name, and replaces exactly the fields left out. -/
theorem C55_runner {E C L : Type} (wall : C) (noop : L) (p : RunnerParams E C L) :
    (newRunner wall noop p = none ↔ p.name = "") ∧
    ∀ r, newRunner wall noop p = some r →
      (∀ f, p.isFatal = some f → r.isFatal = f) ∧ (p.isFatal = none → ∀ e, r.isFatal e = true) ∧
      (∀ f, p.shouldRestart = some f → r.shouldRestart = f) ∧ (p.shouldRestart = none → ∀ e, r.shouldRestart e = true) ∧
      (∀ f, p.moreImportant = some f → r.moreImportant = f) ∧
      (p.restartDelay ≠ 0 → r.restartDelay = p.restartDelay) ∧ (p.restartDelay = 0 → r.restartDelay = 3000000000) ∧
      (∀ x, p.clock = some x → r.clock = x) ∧ (p.clock = none → r.clock = wall) ∧
      (∀ x, p.logger = some x → r.logger = x) ∧ (p.logger = none → r.logger = noop) := by
  unfold newRunner
  constructor
  · simp [RunnerParams.validate]
  · intro r h
    split at h
    · cases h
      refine ⟨?_, ?_, ?_, ?_, ?_, ?_, ?_, ?_, ?_, ?_, ?_⟩ <;> intros <;> simp_all [defaultRestartDelay]
    · cases h

/-- C55: the documented default for MoreImportant is "the first error reported"; what NewRunner installs instead prefers
every new error to the one before. -/
theorem C55_more_important_default {E C L : Type} (wall : C) (noop : L) (p : RunnerParams E C L) (r : RunnerSetup E C L)
    (h : newRunner wall noop p = some r) (hp : p.moreImportant = none) (e0 e1 : E) : r.moreImportant e0 e1 = true := by
  unfold newRunner at h
  split at h
  · cases h; simp [hp]
  · cases h

/-- C55: the parameters of the runner model are what NewRunner makes of the params it is given. -/
theorem C55_runner_params {C L : Type} (wall : C) (noop : L) (p : RunnerParams Err C L) (r : RunnerSetup Err C L)
    (h : newRunner wall noop p = some r) : Runner.applyDefaults ⟨p.isFatal, p.shouldRestart, p.moreImportant, p.restartDelay⟩ =
      ⟨r.isFatal, r.shouldRestart, r.moreImportant, r.restartDelay⟩ := by
  unfold newRunner at h
  split at h
  · cases h; rfl
  · cases h

example : (EngineConfig.validate { backoffFactor := .num (3/2), maxDelay := 5 }) = none ∧
    (EngineConfig.validate { backoffFactor := .num (1/2), maxDelay := -5 }) = some .backoffFactor := by
  constructor
  · rw [C55_engine]
    intro f
    left
    cases f <;> simp [FieldOk, AtLeastOne]
    norm_num
  · have : (Float64.num (1/2)).ne0 = true ∧ (Float64.num (1/2)).lt1 = true := by
      simp only [Float64.ne0, Float64.lt1, decide_eq_true_eq]; norm_num
    simp only [EngineConfig.validate, this.1, this.2]
    rfl

example : ∃ r, newRunner (E := Nat) (C := Unit) (L := Unit) () () { name := "x", restartDelay := 7 } = some r ∧ r.restartDelay = 7 := by
  refine ⟨_, rfl, ?_⟩; rfl

/-! ## C56: worker.Stop and worker.Dead -/

section Workers
open Verif.Worker Verif.WSpec

variable {s : Worker.State}

theorem wSplit {P : Worker.Ev → List Worker.Ev → Prop} {h : List Worker.Ev} {e : Worker.Ev} (ha : AtEvery P h) (he : e ∈ h) :
    ∃ post pre, h = post ++ e :: pre ∧ P e pre := by
  obtain ⟨post, pre, rfl⟩ := List.append_of_mem he
  exact ⟨post, pre, rfl, ha.split⟩

/-- C56: a Stop call that returns has called Kill, and the worker has finished with the result it returns. -/
theorem C56_stop (hr : Worker.Reach s) {post pre : List Worker.Ev} {c : Nat} {r : Option Err} (hh : s.hist = post ++ .stopRet c r :: pre) :
    .kill c ∈ pre ∧ .finished r ∈ pre := by
  have hk := hr.inv.events
  rw [hh] at hk
  have h : EvOk (.stopRet c r) pre := hk.split
  exact ⟨h.2.1, h.2.2.1⟩

/-- C56: Dead returns the worker's own channel exactly if the worker supplies one that is not nil. -/
theorem C56_dead_own (hr : Worker.Reach s) {post pre : List Worker.Ev} {c : Nat} {own : Bool} (hh : s.hist = post ++ .deadRet c own :: pre) :
    ∃ d, .ownDead c d ∈ pre ∧ (own = true ↔ d = .chan) := by
  have hk := hr.inv.events
  rw [hh] at hk
  exact (hk.split : EvOk (.deadRet c own) pre)

/-- C56: a channel made by Dead is closed only after the worker has finished, and only once. -/
theorem C56_dead_closed (hr : Worker.Reach s) {post pre : List Worker.Ev} {c : Nat} (hh : s.hist = post ++ .closed c :: pre) :
    .deadRet c false ∈ pre ∧ (∃ r, .finished r ∈ pre) ∧ .closed c ∉ pre ∧ .closed c ∉ post := by
  have hk := hr.inv.events
  rw [hh] at hk
  have h : EvOk (.closed c) pre := hk.split
  refine ⟨h.1, h.2.1, h.2.2, ?_⟩
  intro hm
  obtain ⟨p1, p2, rfl⟩ := List.append_of_mem hm
  rw [List.append_assoc] at hk
  have h2 : EvOk (.closed c) (p2 ++ .closed c :: pre) := hk.split
  exact h2.2.2 (by simp)

/-- C56: once the worker has finished and nothing can go on, every Stop and Dead call has returned, and every channel made
by Dead is closed. -/
theorem C56_complete (hr : Worker.Reach s) (hq : ¬ Worker.CanStep s) {r : Option Err} (hf : .finished r ∈ s.hist) :
    (∀ c, .called c .stop ∈ s.hist → .stopRet c r ∈ s.hist) ∧ (∀ c, .called c .dead ∈ s.hist → ∃ b, .deadRet c b ∈ s.hist) ∧
    ∀ c, .deadRet c false ∈ s.hist → .closed c ∈ s.hist := by
  have hI := hr.inv
  have hfin := (hI.fin r).2 hf
  have qq : ∀ {c : Nat} {x : Worker.Call}, s.calls[c]? = some x → x.pc = .returned ∧ (x.g = .none ∨ x.g = .done) := by
    intro c x hx
    obtain ⟨h1, h2⟩ := Worker.quiet hI hq hx
    rw [hfin] at h1 h2
    refine ⟨?_, ?_⟩
    · rcases h1 with h | ⟨_, h⟩ | ⟨_, h, _⟩
      · exact h
      · cases h
      · cases h
    · rcases h2 with h | h | ⟨_, h⟩
      · exact Or.inl h
      · exact Or.inr h
      · cases h
  refine ⟨?_, ?_, ?_⟩
  · intro c hc
    obtain ⟨x, hx, hk⟩ := hI.all c _ hc
    obtain ⟨r', hr'⟩ := (hI.ok c x hx).rstop (qq hx).1 hk
    obtain ⟨post, pre, hh, h⟩ := wSplit hI.events hr'
    have h1 : .finished r' ∈ s.hist := by rw [hh]; simp [h.2.2.1]
    have h2 := (hI.fin r').2 h1
    rw [hfin] at h2; cases h2
    exact hr'
  · intro c hc
    obtain ⟨x, hx, hk⟩ := hI.all c _ hc
    exact (hI.ok c x hx).rdead (qq hx).1 hk
  · intro c hc
    obtain ⟨post, pre, hh, d, h1, _⟩ := wSplit hI.events hc
    have h1' : .ownDead c d ∈ s.hist := by rw [hh]; simp [h1]
    obtain ⟨post, pre, hh, h2⟩ := wSplit hI.events h1'
    have h2 : Worker.Ev.called c .dead ∈ pre := h2
    obtain ⟨x, hx, hk⟩ := hI.all c .dead (by rw [hh]; simp [h2])
    have hc' := hI.ok c x hx
    rcases (qq hx).2 with hg | hg
    · exact absurd hg (hc'.fresh hc)
    · exact hc'.closed hk hg

/-- C56: the calls take a bounded number of steps: each decreases a measure that only new calls increase. -/
theorem C56_bounded {s s' : Worker.State} {op : Worker.Op} (hs : Worker.step s op = some s') :
    (op.internal = true → Worker.measure s' < Worker.measure s) ∧ ((∀ k, op ≠ .call k) → Worker.measure s' ≤ Worker.measure s) :=
  Worker.step_measure hs

/-- C56: when nothing can go on, a Stop call that has not returned has called Kill, and waits for a worker that has not
finished. -/
theorem C56_stop_waits (hr : Worker.Reach s) (hq : ¬ Worker.CanStep s) {c : Nat} (hc : .called c .stop ∈ s.hist) :
    (∃ r, .stopRet c r ∈ s.hist) ∨ (.kill c ∈ s.hist ∧ ∀ r, .finished r ∉ s.hist) := by
  have hI := hr.inv
  obtain ⟨x, hx, hk⟩ := hI.all c _ hc
  have hok := hI.ok c x hx
  rcases (Worker.quiet hI hq hx).1 with h | ⟨h1, h2⟩ | ⟨h1, _, _⟩
  · exact Or.inl (hok.rstop h hk)
  · refine Or.inr ⟨hok.killed (by rw [h1]; nofun) (by rw [hk]; exact Or.inl rfl), fun r hr' => ?_⟩
    have := (hI.fin r).2 hr'
    rw [h2] at this; cases this
  · have := (hok.sel h1).1
    rw [hk] at this; simp [TimesOut] at this

/-! ## C61: the functions of workertest -/

/-- C61: a Check function that got a result from the worker: the worker has finished with it, CheckKill and the like have
called Kill, and the test is failed because of it only by CheckAlive, or by CleanKill or CheckNilOrKill if it is an error. -/
theorem C61_result (hr : Worker.Reach s) {post pre : List Worker.Ev} {c : Nat} {r : Option Err}
    (hh : s.hist = post ++ .checkRet c (some r) :: pre) :
    .finished r ∈ pre ∧ ∃ k, .called c k ∈ pre ∧
      (k = .checkKill ∨ k = .cleanKill ∨ k = .dirtyKill ∨ k = .nilOrKill → .kill c ∈ pre) ∧
      (.failed c ∈ pre ↔ k = .checkAlive ∨ ((k = .cleanKill ∨ k = .nilOrKill) ∧ r ≠ none)) := by
  have hk := hr.inv.events
  rw [hh] at hk
  obtain ⟨h1, k, h2, _, h3, h4, _⟩ : EvOk (.checkRet c (some r)) pre := hk.split
  exact ⟨h1, k, h2, fun h => h3 (Or.inr h), h4⟩

/-- C61: a Check function that got none: its timeout has fired; CheckAlive is content, the others have failed the test. -/
theorem C61_timeout (hr : Worker.Reach s) {post pre : List Worker.Ev} {c : Nat} (hh : s.hist = post ++ .checkRet c none :: pre) :
    .timeout c ∈ pre ∧ ∃ k, .called c k ∈ pre ∧ (.failed c ∈ pre ↔ k ≠ .checkAlive) := by
  have hk := hr.inv.events
  rw [hh] at hk
  obtain ⟨h1, k, h2, _, _, h4, _⟩ : EvOk (.checkRet c none) pre := hk.split
  exact ⟨h1, k, h2, h4⟩

/-- C61: CheckNilOrKill of a worker that is not nil has failed the test before it calls Kill, and it has called Kill when it
returns; nothing else fails a test for that reason. -/
theorem C61_nil_or_kill (hr : Worker.Reach s) {c : Nat} :
    (.notNil c ∈ s.hist → .called c .nilOrKill ∈ s.hist) ∧
    (.called c .nilOrKill ∈ s.hist →
      (∀ post pre, s.hist = post ++ .kill c :: pre → .notNil c ∈ pre) ∧
      (∀ post pre r, s.hist = post ++ .checkRet c r :: pre → .kill c ∈ pre)) := by
  have hI := hr.inv
  have huniq : ∀ {pre : List Worker.Ev} {k k' : Worker.Kind}, (∀ e ∈ pre, e ∈ s.hist) → .called c k ∈ s.hist → .called c k' ∈ pre → k' = k := by
    intro pre k k' hsub h h'
    obtain ⟨x, hx, rfl⟩ := hI.all c _ h
    obtain ⟨y, hy, rfl⟩ := hI.all c _ (hsub _ h')
    rw [hx] at hy; cases hy; rfl
  refine ⟨fun h => ?_, fun hc => ⟨fun post pre hh => ?_, fun post pre r hh => ?_⟩⟩
  · obtain ⟨post, pre, hh⟩ := List.append_of_mem h
    have hk := hI.events
    rw [hh] at hk
    obtain ⟨h1, _⟩ : EvOk (.notNil c) pre := hk.split
    rw [hh]; exact List.mem_append_right _ (List.mem_cons_of_mem _ h1)
  · have hsub : ∀ e ∈ pre, e ∈ s.hist := fun e he => by rw [hh]; exact List.mem_append_right _ (List.mem_cons_of_mem _ he)
    have hk := hI.events
    rw [hh] at hk
    obtain ⟨⟨k, h1, _, h2⟩, _⟩ : EvOk (.kill c) pre := hk.split
    exact h2.2 (huniq hsub hc h1)
  · have hsub : ∀ e ∈ pre, e ∈ s.hist := fun e he => by rw [hh]; exact List.mem_append_right _ (List.mem_cons_of_mem _ he)
    have hk := hI.events
    rw [hh] at hk
    cases r with
    | none =>
      obtain ⟨_, k, h1, _, h2, _⟩ : EvOk (.checkRet c none) pre := hk.split
      exact h2 (by rw [huniq hsub hc h1]; simp [Kills])
    | some r =>
      obtain ⟨_, k, h1, _, h2, _⟩ : EvOk (.checkRet c (some r)) pre := hk.split
      exact h2 (by rw [huniq hsub hc h1]; simp [Kills])

/-- C61: a Check function never hangs: when nothing can go on, it has returned, or neither has the worker finished nor its
timeout fired; and the goroutine it leaves behind ends when the worker does. -/
theorem C61_no_hang (hr : Worker.Reach s) (hq : ¬ Worker.CanStep s) {c : Nat} {k : Worker.Kind} (hk : TimesOut k) (hc : .called c k ∈ s.hist) :
    ((∃ r, .checkRet c r ∈ s.hist) ∨ ((∀ r, .finished r ∉ s.hist) ∧ .timeout c ∉ s.hist)) ∧
    (∀ r, .finished r ∈ s.hist → ∃ x, s.calls[c]? = some x ∧ (x.g = .none ∨ x.g = .done)) := by
  have hI := hr.inv
  obtain ⟨x, hx, rfl⟩ := hI.all c _ hc
  have hok := hI.ok c x hx
  have hq' := Worker.quiet hI hq hx
  refine ⟨?_, ?_⟩
  · rcases hq'.1 with h | ⟨h1, _⟩ | ⟨_, h2, h3⟩
    · exact Or.inl (hok.rcheck h hk)
    · have := hok.wait h1
      rw [this] at hk; simp [TimesOut] at hk
    · refine Or.inr ⟨fun r hr' => ?_, fun ht => ?_⟩
      · have := (hI.fin r).2 hr'
        rw [h2] at this; cases this
      · rw [hr.timer hx ht] at h3; cases h3
  · intro r hr'
    refine ⟨x, hx, ?_⟩
    rcases hq'.2 with h | h | ⟨_, h⟩
    · exact Or.inl h
    · exact Or.inr h
    · have := (hI.fin r).2 hr'
      rw [h] at this; cases this

/-- Run a list of operations. -/
def wRun : Worker.State → List Worker.Op → Option Worker.State
  | s, [] => some s
  | s, op :: ops => (Worker.step s op).bind (fun s' => wRun s' ops)

/-- Stop, Dead, CleanKill and CheckAlive with the same worker. -/
example : ((wRun Worker.init [.call .stop, .call .dead, .call .cleanKill, .call .checkAlive, .kill 0, .go 0 .absent, .kill 1, .go 1 .nil,
      .kill 2, .go 2 .absent, .kill 3, .go 3 .absent, .timeout 3, .late 3, .finish (some (.user 4)), .stopRet 0, .gWait 1, .gSend 1, .gWait 2, .gSend 2,
      .recv 2, .gWait 3, .gSend 3]).map (·.hist)) =
    some [.checkRet 2 (some (some (.user 4))), .failed 2, .closed 1, .stopRet 0 (some (.user 4)), .finished (some (.user 4)), .checkRet 3 none,
      .timeout 3, .kill 2, .deadRet 1 false, .ownDead 1 .nil, .kill 0, .called 3 .checkAlive, .called 2 .cleanKill, .called 1 .dead,
      .called 0 .stop] := by decide +kernel

/-- CheckNilOrKill of a rogue worker that ends well. -/
example : ((wRun Worker.init [.call .nilOrKill, .kill 0, .go 0 .absent, .finish none, .gWait 0, .gSend 0, .recv 0]).map (·.hist)) =
    some [.checkRet 0 (some none), .finished none, .kill 0, .notNil 0, .called 0 .nilOrKill] := by decide +kernel

end Workers

/-! ## C62: the stub workers -/

section StubWorkers
open Verif.Stubs

variable {k : Stubs.Kind} {e : Option Err} {s : Stubs.State}

/-- C62: Wait of a stub worker always returns the error given to its constructor; that of an error worker only after Kill,
that of a forever worker only after ReallyKill. -/
theorem C62_wait (hr : Stubs.Reach k e s) {s' : Stubs.State} (hs : Stubs.step s .wait = some s') :
    s'.hist = .waitRet e :: s.hist ∧ (k = .error → .kill ∈ s.hist) ∧ (k = .forever → .reallyKill ∈ s.hist) := by
  have hI := hr.inv
  unfold Stubs.step at hs
  split at hs
  · cases hs
  · rename_i hp
    have hp : s.tomb.panicked = false := Bool.eq_false_iff.2 hp
    simp only at hs
    split at hs
    · rename_i h
      cases hs
      have hkd := hI.kind
      rw [h] at hkd
      subst hkd
      exact ⟨by rw [hI.err], nofun, nofun⟩
    · rename_i hnd
      split at hs
      · rename_i r hw
        cases hs
        have hkn : k ≠ .dead := fun h => hnd (hI.kind.trans h)
        simp only [Tomb.wait] at hw
        split at hw
        · rename_i hd
          have hdy := (hI.dying hkn hp).1 (hI.deadDying hd)
          refine ⟨by rw [hI.reason r hw], ?_, ?_⟩ <;> rintro rfl <;> exact hdy
        · cases hw
      · cases hs

/-- C62: a Wait call of a dead worker returns at once. A worker whose Kill (or ReallyKill, for a forever worker) has been
called, and whose goroutine has run if it can, is dead. Neither is ever stuck. -/
theorem C62_ends (hr : Stubs.Reach k e s) (he : e ≠ some .tombStillAlive ∧ e ≠ some .tombDying) :
    (k = .dead → ∃ s', Stubs.step s .wait = some s') ∧
    (k ≠ .dead → Stubs.ends k ∈ s.hist → (∃ s', Stubs.step s .goroutine = some s') ∨ ∃ s', Stubs.step s .wait = some s') := by
  have hI := hr.inv
  have hp : s.tomb.panicked = false := Bool.eq_false_iff.2 fun h => by
    rcases hI.panic h with h | h
    · exact he.1 h
    · exact he.2 h
  refine ⟨?_, ?_⟩
  · rintro rfl
    refine ⟨{ s with hist := .waitRet s.err :: s.hist }, ?_⟩
    simp only [Stubs.step, hp, hI.kind, Bool.false_eq_true, if_false]
  · intro hk hm
    have hd := (hI.dying hk hp).2 hm
    have ha := hI.alive hk
    cases hdd : s.tomb.dead with
    | false =>
      rw [hdd] at ha
      left
      exact ⟨{ s with tomb := s.tomb.finish none }, by simp [Stubs.step, hp, ha, hd]⟩
    | true =>
      right
      cases hrr : s.tomb.reason with
      | none => simp [Tomb.dying, hrr] at hd
      | some r =>
        have hkn : s.kind ≠ .dead := fun h => hk (hI.kind.symm.trans h)
        refine ⟨{ s with hist := .waitRet r :: s.hist }, ?_⟩
        cases hkk : s.kind with
        | dead => exact absurd hkk hkn
        | error => simp only [Stubs.step, hp, Bool.false_eq_true, if_false, hkk, Tomb.wait, hdd, if_true, hrr]
        | forever => simp only [Stubs.step, hp, Bool.false_eq_true, if_false, hkk, Tomb.wait, hdd, if_true, hrr]

/-- C62: Kill has no effect on a forever worker. -/
theorem C62_forever (hr : Stubs.Reach .forever e s) {s' : Stubs.State} (hs : Stubs.step s .kill = some s') : s'.tomb = s.tomb := by
  unfold Stubs.step at hs
  split at hs
  · cases hs
  · simp only at hs
    split at hs
    · rename_i h
      rw [hr.inv.kind] at h; cases h
    · cases hs; rfl

example : (Stubs.step (Stubs.init .forever (some (.user 3))) .kill).map (·.tomb.dying) = some false ∧
    ((Stubs.step (Stubs.init .error (some (.user 3))) .kill).bind fun s => (Stubs.step s .goroutine).bind fun s => Stubs.step s .wait).map (·.hist) =
      some [.waitRet (some (.user 3)), .kill] := by decide +kernel

end StubWorkers

/-! ## C57, C63: dependency/testing, and the Output func of SelfManifold -/

section StubGetter
open Verif.Stub

variable {Val Ty : Type} (R : Reflect Val Ty)

namespace StubL

theorem skip {ty : Ty} : ∀ {pre : List Val} (tried : List Val) (l : List (Option Val)), (∀ u ∈ pre, R.convertible (R.typeOf u) ty = false) →
    tryOutputs R ty tried (pre.map some ++ l) = tryOutputs R ty (tried ++ pre) l := by
  intro pre
  induction pre with
  | nil => intro tried l _; simp
  | cons u pre ih =>
    intro tried l h
    have hu := h u List.mem_cons_self
    simp only [List.map_cons, List.cons_append, tryOutputs, hu, Bool.false_eq_true, if_false]
    rw [ih (tried ++ [u]) l (fun v hv => h v (List.mem_cons_of_mem _ hv))]
    simp

/-- A list of outputs is exhausted, or has a first one that stops the loop. -/
theorem shape (ty : Ty) (l : List (Option Val)) :
    (∃ pre : List Val, l = pre.map some ∧ ∀ u ∈ pre, R.convertible (R.typeOf u) ty = false) ∨
    (∃ (pre : List Val) (post : List (Option Val)), l = pre.map some ++ none :: post ∧ ∀ u ∈ pre, R.convertible (R.typeOf u) ty = false) ∨
    (∃ (pre : List Val) (v : Val) (post : List (Option Val)), l = pre.map some ++ some v :: post ∧ (∀ u ∈ pre, R.convertible (R.typeOf u) ty = false) ∧
      R.convertible (R.typeOf v) ty = true) := by
  induction l with
  | nil => exact Or.inl ⟨[], rfl, nofun⟩
  | cons x l ih =>
    cases x with
    | none => exact Or.inr (Or.inl ⟨[], l, rfl, nofun⟩)
    | some v =>
      cases hc : R.convertible (R.typeOf v) ty with
      | true => exact Or.inr (Or.inr ⟨[], v, l, rfl, nofun, hc⟩)
      | false =>
        have hx : ∀ {pre : List Val}, (∀ u ∈ pre, R.convertible (R.typeOf u) ty = false) → ∀ u ∈ v :: pre, R.convertible (R.typeOf u) ty = false := by
          intro pre h u hu
          rcases List.mem_cons.1 hu with rfl | hu
          · exact hc
          · exact h u hu
        rcases ih with ⟨pre, rfl, h⟩ | ⟨pre, post, rfl, h⟩ | ⟨pre, w, post, rfl, h, h'⟩
        · exact Or.inl ⟨v :: pre, rfl, hx h⟩
        · exact Or.inr (Or.inl ⟨v :: pre, post, rfl, hx h⟩)
        · exact Or.inr (Or.inr ⟨v :: pre, w, post, rfl, hx h, h'⟩)

end StubL

/-- C57: names that are not known, resources with an error, nil out, out that is no pointer. -/
theorem C57_simple (m : AMap (Resource Val)) (n : Name) (out : Out Ty) :
    (m.get? n = none → get R m n out = .unexpected) ∧
    (∀ r e, m.get? n = some r → r.error = some e → get R m n out = .error e) ∧
    (∀ r, m.get? n = some r → r.error = none → get R m n .nil = .ok ∧ get R m n .notPointer = .notPointer) := by
  refine ⟨?_, ?_, ?_⟩
  · intro h; simp [Stub.get, h]
  · intro r e h1 h2; simp [Stub.get, h1, h2]
  · intro r h1 h2; simp [Stub.get, h1, h2]

/-- C57: the first convertible output is assigned, converted, if no output before it is nil and the conversion does not
panic. -/
theorem C57_first (m : AMap (Resource Val)) (n : Name) (ty : Ty) {r : Resource Val} (h1 : m.get? n = some r) (h2 : r.error = none) (v' : Val) :
    (∃ (pre : List Val) (v : Val) (post : List (Option Val)), r.outputs = pre.map some ++ some v :: post ∧
      (∀ u ∈ pre, R.convertible (R.typeOf u) ty = false) ∧ R.convertible (R.typeOf v) ty = true ∧ R.convert v ty = some v') ↔
    get R m n (.var ty) = .assigned v' := by
  have hg : get R m n (.var ty) = tryOutputs R ty [] r.outputs := by simp [Stub.get, h1, h2]
  rw [hg]
  constructor
  · rintro ⟨pre, v, post, h3, h4, h5, h6⟩
    rw [h3, StubL.skip R [] _ h4]
    simp [tryOutputs, h5, h6]
  · intro h
    rcases StubL.shape R ty r.outputs with ⟨pre, h3, h4⟩ | ⟨pre, post, h3, h4⟩ | ⟨pre, v, post, h3, h4, h5⟩
    · rw [h3, ← List.append_nil (pre.map some), StubL.skip R [] _ h4] at h
      simp [tryOutputs] at h
    · rw [h3, StubL.skip R [] _ h4] at h
      simp [tryOutputs] at h
    · refine ⟨pre, v, post, h3, h4, h5, ?_⟩
      rw [h3, StubL.skip R [] _ h4] at h
      simp only [tryOutputs, h5, if_true] at h
      split at h
      · rename_i w hw
        injection h with h
        rw [hw, h]
      · cases h

/-- C57: "cannot set" is returned exactly if no output is nil and none is convertible, and it lists all of them. -/
theorem C57_none (m : AMap (Resource Val)) (n : Name) (ty : Ty) {r : Resource Val} (h1 : m.get? n = some r) (h2 : r.error = none) (l : List Val) :
    (r.outputs = l.map some ∧ ∀ u ∈ l, R.convertible (R.typeOf u) ty = false) ↔ get R m n (.var ty) = .cannotSet l := by
  have hg : get R m n (.var ty) = tryOutputs R ty [] r.outputs := by simp [Stub.get, h1, h2]
  rw [hg]
  constructor
  · rintro ⟨h3, h4⟩
    rw [h3, ← List.append_nil (l.map some), StubL.skip R [] _ h4]
    simp [tryOutputs]
  · intro h
    rcases StubL.shape R ty r.outputs with ⟨pre, h3, h4⟩ | ⟨pre, post, h3, h4⟩ | ⟨pre, v, post, h3, h4, h5⟩
    · rw [h3, ← List.append_nil (pre.map some), StubL.skip R [] _ h4] at h
      simp only [tryOutputs, List.nil_append] at h
      injection h with h
      subst h
      exact ⟨h3, h4⟩
    · rw [h3, StubL.skip R [] _ h4] at h
      simp [tryOutputs] at h
    · rw [h3, StubL.skip R [] _ h4] at h
      simp only [tryOutputs, h5, if_true] at h
      split at h <;> cases h

/-- C57: a nil output that comes before a convertible one makes Get panic; so does a nil pointer. -/
theorem C57_panics (m : AMap (Resource Val)) (n : Name) (ty : Ty) {r : Resource Val} (h1 : m.get? n = some r) (h2 : r.error = none) :
    get R m n (Out.nilPointer : Out Ty) = .panics ∧
    ∀ (pre : List Val) (post : List (Option Val)), r.outputs = pre.map some ++ none :: post → (∀ u ∈ pre, R.convertible (R.typeOf u) ty = false) →
      get R m n (.var ty) = .panics := by
  refine ⟨by simp [Stub.get, h1, h2], ?_⟩
  intro pre post h3 h4
  have hg : get R m n (.var ty) = tryOutputs R ty [] r.outputs := by simp [Stub.get, h1, h2]
  rw [hg, h3, StubL.skip R [] _ h4]
  simp [tryOutputs]

/-- C57: NewStubResources: errors become errors, lists become outputs, anything else becomes the one output. -/
theorem C57_resources (raw : List (Name × Raw Val)) (hd : (raw.map (·.1)).Nodup) (n : Name) :
    (∀ x, (n, x) ∈ raw → (newStubResources raw).get? n = some (match x with
      | .err e => { error := some e }
      | .list l => { outputs := l }
      | .val v => { outputs := [v] })) ∧
    (n ∉ raw.map (·.1) → (newStubResources raw).get? n = none) := by
  have key : ∀ (raw : List (Name × Raw Val)) (m : AMap (Resource Val)), (raw.map (·.1)).Nodup →
      (∀ x, (n, x) ∈ raw → (raw.foldl (fun m p => m.set p.1 p.2.resource) m).get? n = some x.resource) ∧
      (n ∉ raw.map (·.1) → (raw.foldl (fun m p => m.set p.1 p.2.resource) m).get? n = m.get? n) := by
    intro raw
    induction raw with
    | nil => intro m _; exact ⟨nofun, fun _ => rfl⟩
    | cons p raw ih =>
      intro m hd
      simp only [List.map_cons, List.nodup_cons] at hd
      obtain ⟨h1, h2⟩ := ih (m.set p.1 p.2.resource) hd.2
      simp only [List.foldl_cons, List.map_cons, List.mem_cons, not_or]
      refine ⟨?_, ?_⟩
      · rintro x (rfl | hx)
        · rw [h2 hd.1]; simp
        · exact h1 x hx
      · rintro ⟨h3, h4⟩
        rw [h2 h4, AMap.get?_set_ne _ _ h3]
  obtain ⟨h1, h2⟩ := key raw .empty hd
  refine ⟨fun x hx => ?_, fun h => by rw [newStubResources, h2 h]; rfl⟩
  rw [newStubResources, h1 x hx]
  cases x <;> rfl

/-- The second output is the first that can be converted (here: to numbers below 10). -/
example : get (R := { typeOf := fun v : Nat => v, convertible := fun a _ => a < 10, convert := fun v _ => some (v + 100) }) (Ty := Nat)
    (newStubResources [(3, .list [some 12, some 5, none])]) 3 (.var 0) = .assigned 105 := rfl

/-- C63: the Output func of SelfManifold assigns the engine exactly if it is given the engine and a non-nil *Installer or
*Reporter. -/
theorem C63_self_output (engine w : Nat) (out : SelfOut) :
    (selfOutput engine w out = .assigned ↔ w = engine ∧ (out = .installer ∨ out = .reporter)) ∧
    (selfOutput engine w out = .badInput ↔ w ≠ engine) ∧ (selfOutput engine w out = .badOut ↔ w = engine ∧ out = .other) := by
  unfold selfOutput
  by_cases h : w = engine
  · cases out <;> simp [h]
  · simp [h]

example : selfOutput 1 1 .installer = .assigned ∧ selfOutput 1 2 .installer = .badInput := by decide

end StubGetter

end Verif.Props
