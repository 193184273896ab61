import Verif.System.Local

/-!
# What components do by themselves

Steps that a component's goroutines take by themselves tell nothing about start funcs that return or workers that finish: these are the users'
part of a history.
-/

namespace Verif.Runner

/-- A StartFunc has returned, or a worker has finished. -/
def Ev.outer : Ev → Bool
  | .startOk .. | .startErr .. | .finished .. => true
  | _ => false

/-- The users' part of what has happened. -/
def outer (t : Tab) : List Ev := t.hist.filter Ev.outer

theorem outer_log {t : Tab} {e : Ev} (h : e.outer = false) : outer (t.log e) = outer t := by
  show List.filter Ev.outer (e :: t.hist) = _
  rw [List.filter_cons_of_neg (by rw [h]; exact nofun)]; rfl

theorem outer_many {t t' : Tab} (es : List Ev) (h : t'.hist = es ++ t.hist) (ho : es.filter Ev.outer = []) : outer t' = outer t := by
  unfold outer; rw [h, List.filter_append, ho]; rfl

theorem outer_killLocked (t : Tab) (id : Name) : outer (killLocked t id) = outer t := by
  unfold killLocked
  split
  · rfl
  · simp only
    split
    · exact (outer_log rfl).trans (outer_log (t := Tab.setInfo _ _ _) rfl)
    · exact outer_log (t := Tab.setInfo _ _ _) rfl

theorem outer_act (p : Params) (t : Tab) (now : Int) (m : Msg) : outer (act p t now m) = outer t := by
  cases m with
  | start cid id sf =>
    unfold act
    simp only
    split
    · exact outer_log (t := t) rfl
    · split
      · exact outer_log (t := t) rfl
      · exact outer_many [_, _] rfl rfl
  | stop id => exact (outer_killLocked _ id).trans (outer_log rfl)
  | started gid id w =>
    show outer (setWorker t gid id w) = _
    unfold setWorker
    split
    · rfl
    · simp only
      split
      · exact (outer_killLocked _ id).trans (outer_log (t := Tab.setInfo _ _ _) rfl)
      · exact outer_log (t := Tab.setInfo _ _ _) rfl
  | done gid id e =>
    show outer (workerDone p t gid id e) = _
    unfold workerDone
    split
    · rfl
    · simp only
      split
      · exact outer_many [_, _] rfl rfl
      · unfold beginShutdown
        split
        · exact outer_many [_, _] rfl rfl
        · exact outer_many [_, _, _] rfl rfl
      · exact outer_many [_, _] rfl rfl

theorem outer_clientStep {s s' : State} {c : Client} {op : Op} (hs : clientStep s c op = some s') : outer s'.tab = outer s.tab := by
  have one : ∀ (t : Tab) (e : Ev), e.outer = false → t.hist = e :: s.tab.hist → outer t = outer s.tab := fun t e he h => by
    unfold outer; rw [h, List.filter_cons_of_neg (by rw [he]; exact nofun)]
  have ret : ∀ (t : Tab) (cid : Nat) (r : Ret), t.hist = .ret cid r :: s.tab.hist → outer t = outer s.tab := fun t cid r h => one t _ rfl h
  have info : ∀ (c : Client) id r, outer (afterInfo s c id r).tab = outer s.tab := fun c id r => by
    unfold afterInfo
    split
    · exact one _ _ rfl rfl
    · split
      · rfl
      · exact one _ _ rfl rfl
  unfold clientStep at hs
  split at hs <;> (repeat' split at hs) <;> first
    | (cases hs; done)
    | (cases hs; first
        | rfl
        | exact ret _ _ _ rfl
        | exact one _ _ rfl rfl
        | exact info _ _ _
        | (split <;> first | exact ret _ _ _ rfl | exact info _ _ _))

theorem outer_tabStep {p : Params} {s : State} {t : Tab} {op : Op} (hi : op.internal = true) (hs : tabStep p s op = some t) : outer t = outer s.tab := by
  have one : ∀ (t : Tab) (e : Ev), e.outer = false → t.hist = e :: s.tab.hist → outer t = outer s.tab := fun t e he h => by
    unfold outer; rw [h, List.filter_cons_of_neg (by rw [he]; exact nofun)]
  unfold tabStep at hs
  split at hs <;> (try (cases hi; done)) <;> (repeat' split at hs) <;> first
    | (cases hs; done)
    | (cases hs; first
        | rfl
        | exact one _ _ rfl rfl
        | exact outer_act ..
        | exact outer_killLocked ..)

/-- What a runner and its goroutines do by themselves. -/
theorem outer_internal {p : Params} {s s' : State} {op : Op} (hi : op.internal = true) (hs : step p s op = some s') : outer s'.tab = outer s.tab := by
  have one : ∀ (t : Tab) (e : Ev), e.outer = false → t.hist = e :: s.tab.hist → outer t = outer s.tab := fun t e he h => by
    unfold outer; rw [h, List.filter_cons_of_neg (by rw [he]; exact nofun)]
  unfold step at hs
  split at hs
  iterate 4 · cases hi
  · split at hs
    · cases hs; exact one _ _ rfl rfl
    · cases hs; exact one _ _ rfl rfl
    · cases hs
  · split at hs
    · cases hs; rfl
    · cases hs
  · split at hs
    · split at hs
      · exact outer_clientStep hs
      · cases hs
    · replace hs := Option.map_eq_some_iff.1 hs
      obtain ⟨t, ht, rfl⟩ := hs
      exact outer_tabStep hi ht

theorem outer_mem {t t' : Tab} (h : outer t' = outer t) {e : Ev} (ho : e.outer = true) : e ∈ t'.hist ↔ e ∈ t.hist := by
  have : e ∈ outer t' ↔ e ∈ outer t := by rw [h]
  simpa [outer, ho] using this

end Verif.Runner

namespace Verif.Catacomb

/-- Somebody has called Invoke, Add or Kill, the work func has returned, or a worker has finished. -/
def Ev.outer : Ev → Bool
  | .callInvoke .. | .callAdd .. | .kill .. | .killPanics .client _ | .workRet .. | .finished .. => true
  | _ => false

/-- What a catacomb and its goroutines do by themselves. -/
theorem T.inner {own : Nat} {s s' : State} {op : Op} (hT : T own s op s') (hi : op.internal = true) :
    s'.hist = s.hist ∨ ∃ e, s'.hist = e :: s.hist ∧ e.outer = false := by
  have evn : ∀ {e : Ev}, s'.hist = e :: s.hist → e.outer = false → s'.hist = s.hist ∨ ∃ e, s'.hist = e :: s.hist ∧ e.outer = false :=
    fun h1 h2 => Or.inr ⟨_, h1, h2⟩
  cases hT with
  | killPanics who e hw hk =>
    cases who with
    | client => cases hi
    | waiter k => exact evn rfl rfl
    | work => exact evn rfl rfl
  | iAdd i v j w ws hv hp => exact evn (e := .tracked _ w (.init i j)) (congrArg _ (wgAdd_tomb s 2).2) rfl
  | iListen i v j hv hp => exact Or.inl (by simp [State.setInv, wgAdd_tomb])
  | lDying hl hd => exact Or.inl (wgDone_tomb _).2
  | lAdd c w hl => exact evn (e := .tracked _ w (.add c)) (congrArg _ (wgAdd_tomb { s with listener := .select } 2).2) rfl
  | tExit k t ht hp => exact Or.inl (wgDone_tomb _).2
  | kWaitRet k t ht hp hf => exact Or.inl (wgDone_tomb _).2
  | kClosed k t ht hp hc => exact Or.inl (wgDone_tomb _).2
  | iInvalid | iUsed | iSkip | iWaitRet | tErr | tNil | tClose | wgPass | wgSleep | wgWake | wgReused | goexited => exact Or.inl rfl
  | iClaim | iGo | iOk | iKill | iFail | aDying | aSend | aErr | aNil | tKill | kDying | workKill | dead => exact evn rfl rfl
  | _ => cases hi

theorem inner_mem {own : Nat} {s s' : State} {op : Op} (hs : step own s op = some s') (hi : op.internal = true) {e : Ev} (ho : e.outer = true) :
    e ∈ s'.hist ↔ e ∈ s.hist := by
  rcases (step_T hs).2.inner hi with h | ⟨x, h, hx⟩
  · rw [h]
  · rw [h, List.mem_cons]
    exact ⟨fun h => h.resolve_left (fun h => by rw [h, hx] at ho; cases ho), .inr⟩

end Verif.Catacomb

namespace Verif.Engine

/-- A Start func has returned, or a worker has finished. -/
def Ev.outer : Ev → Bool
  | .startOk .. | .startErr .. | .finished .. => true
  | _ => false

/-- The second history continues the first by what the engine does. -/
def Inner (a b : State) : Prop := ∃ d, b.hist = d ++ a.hist ∧ ∀ e ∈ d, e.outer = false

variable {cfg : Config}

theorem Inner.refl (a : State) : Inner a a := ⟨[], rfl, nofun⟩

theorem Inner.of_eq {a b : State} (h : b.hist = a.hist) : Inner a b := ⟨[], h, nofun⟩

theorem Inner.cons {a b : State} (e : Ev) (h : b.hist = e :: a.hist) (ho : e.outer = false) : Inner a b :=
  ⟨[e], h, fun x hx => by rw [List.mem_singleton.1 hx]; exact ho⟩

theorem Inner.trans {a b c : State} (h : Inner a b) (k : Inner b c) : Inner a c := by
  obtain ⟨d, hd, h1⟩ := h
  obtain ⟨e, he, h2⟩ := k
  exact ⟨e ++ d, by rw [he, hd, List.append_assoc], fun x hx => (List.mem_append.1 hx).elim (h2 x) (h1 x)⟩

theorem inner_tick (a : State) : Inner a a.tick := by
  unfold State.tick
  split
  · exact .refl a
  · exact .cons .kill rfl rfl
  · exact .of_eq rfl

theorem inner_killWorker (a : State) (w : WRef) : Inner a (a.killWorker w) := by
  cases w with
  | self => exact Inner.trans (b := a.log (.killW .self)) (.cons _ rfl rfl) (.cons .kill rfl rfl)
  | obj k => exact .cons _ rfl rfl

theorem inner_requestStart (a : State) (n : Name) (d : Int) : Inner a (requestStart a n d) := by
  unfold requestStart
  simp only
  have h1 : Inner a (if (a.manifolds.get? n).isNone then a.killInternal 384 n else a) := by
    split
    · exact .of_eq rfl
    · exact .refl a
  generalize (if (a.manifolds.get? n).isNone then a.killInternal 384 n else a) = s1 at *
  have h2 : Inner s1 (if (s1.cur n).stopped then s1 else s1.killInternal 390 n) := by
    split
    · exact .refl _
    · exact .of_eq rfl
  generalize (if (s1.cur n).stopped then s1 else s1.killInternal 390 n) = s2 at *
  refine (h1.trans h2).trans ((inner_tick s2).trans ?_)
  split
  · exact .refl _
  · exact .cons _ rfl rfl

theorem inner_requestStop (a : State) (n : Name) : Inner a (requestStop a n) := by
  have hm : Inner a (markStopping a n) := by
    unfold markStopping
    cases hc : (a.cur n).cancel with
    | none => refine .of_eq ?_; simp only [hc]; rfl
    | some i => refine .cons (.cancelled i) ?_ rfl; simp only [hc]; rfl
  rcases requestStop_cases a n with ⟨_, e⟩ | ⟨_, _, ⟨w, _, e⟩ | ⟨_, e⟩⟩ <;> rw [e]
  · exact .refl a
  · exact hm.trans (inner_killWorker ..)
  · exact hm

theorem inner_exec (cfg : Config) (a : State) (t : Task) : Inner a (exec cfg a t).1 := by
  cases t with
  | start n d => exact inner_requestStart ..
  | react n told err vals lost => simp only [exec]; split <;> exact .refl a
  | remove n vals => exact .cons _ rfl rfl
  | bounceAll n => exact .refl a
  | bounce d =>
    simp only [exec]
    split
    · exact inner_requestStart ..
    · exact inner_requestStop ..
  | stop n => exact inner_requestStop ..
  | clearOneShot => exact .of_eq rfl
  | report =>
    show Inner a (liveReport a)
    unfold liveReport
    simp only
    split
    · exact (inner_tick a).trans (.cons _ rfl rfl)
    · exact (inner_tick a).trans (.cons _ rfl rfl)
  | check =>
    show Inner a (endArm a)
    unfold endArm
    simp only
    split
    · exact (inner_tick a).trans (.cons .exit rfl rfl)
    · exact (inner_tick a).trans (.of_eq rfl)

theorem inner_noteFatal (cfg : Config) (a : State) (n : Name) (e : Option Err) : Inner a (noteFatal cfg a n e) := by
  unfold noteFatal
  split
  · exact .refl a
  · split
    · exact .cons .kill rfl rfl
    · exact .refl a

theorem inner_beginStopped (cfg : Config) (a : State) (n : Name) (gid : Nat) (raw : Option Err) (now : Int)
    (vals : Name → List Name) : Inner (a.log (.ended n gid now raw (applyFilter cfg (a.man n) raw) (a.cur n).stopping
      (a.cur n).worker)) (beginStopped cfg a n gid raw now vals).1 := by
  unfold beginStopped
  exact (inner_noteFatal ..).trans (.of_eq rfl)

/-- What an engine and its goroutines do by themselves. -/
theorem fstep_inner {f f' : Fine} {op : FOp} (hk : op.kind ≠ none) (h : fstep cfg f op = some f') : Inner f.s f'.s := by
  cases op with
  | env op =>
    simp only [fstep] at h
    split at h
    · rw [Option.map_eq_some_iff] at h
      obtain ⟨s', hs, rfl⟩ := h
      cases op <;> (try (exact absurd rfl hk)) <;> simp only [Engine.step] at hs <;> (try (rename_i he; cases he; done)) <;>
        (repeat' split at hs) <;> first
          | (cases hs; done)
          | (cases hs; first
              | exact .refl _
              | exact .of_eq rfl
              | exact .cons _ rfl rfl
              | exact Inner.trans (.of_eq (a := f.s) (b := State.mapG _ _ _) rfl) (inner_killWorker ..))
    · cases h
  | work =>
    simp only [fstep] at h
    split at h
    · cases h
    · simp only [Option.some.injEq] at h; subst h
      exact inner_exec ..
  | dying order => simp only [fstep] at h; split at h <;> cases h; exact .refl _
  | report => exact absurd rfl hk
  | install n m order => exact absurd rfl hk
  | started gid now =>
    simp only [fstep] at h
    split at h
    case isFalse => cases h
    split at h
    · cases h
    split at h <;> cases h
    unfold beginStarted
    simp only
    split
    · exact Inner.trans (.of_eq (a := f.s) (b := (f.s.mapG gid _).killInternal 584 _) rfl) (inner_killWorker ..)
    · split
      · exact Inner.trans (.of_eq (a := f.s) (b := f.s.mapG gid _) rfl) (inner_killWorker ..)
      · split
        · exact Inner.trans (.of_eq (a := f.s) (b := f.s.mapG gid _) rfl) (inner_killWorker ..)
        · exact .cons _ rfl rfl
  | stopped gid now vals =>
    simp only [fstep] at h
    split at h
    case isFalse => cases h
    split at h
    · cases h
    split at h <;> cases h
    exact Inner.trans (.cons _ rfl rfl) (inner_beginStopped cfg _ _ gid _ now vals)

theorem inner_mem {a b : State} (h : Inner a b) {e : Ev} (ho : e.outer = true) : e ∈ b.hist ↔ e ∈ a.hist := by
  obtain ⟨d, hd, h⟩ := h
  rw [hd, List.mem_append]
  exact ⟨fun hx => hx.resolve_left (fun hx => by rw [h e hx] at ho; cases ho), .inr⟩

end Verif.Engine
