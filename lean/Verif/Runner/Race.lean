import Verif.Runner.Helpers

/-!
# Runner: which steps look at the loop's variables

The variables of runner.go that more than one goroutine could touch: `workers` with its entries, `isDying` and `finalError`.
A step does not look at them, and does not change them, if it does the same whatever they are.
-/

namespace Verif.Runner
open Tab State

/-- The run goroutine takes part in the step. -/
def Op.byLoop : Op → Bool
  | .loopTop | .recvDying | .recvStart _ | .recvStop _ | .recvStarted _ | .recvDone _ | .act _ | .killAll _
  | .killNext | .reply | .bcast => true
  | _ => false

/-- The same state with other values of the loop's variables. -/
def Tab.own (t : Tab) (W : AMap WInfo) (d : Bool) (f : Option Err) : Tab :=
  { t with workers := W, isDying := d, finalError := f }

def State.own (s : State) (W : AMap WInfo) (d : Bool) (f : Option Err) : State :=
  { s with tab := s.tab.own W d f }

/-- What can be read of the table by others than the loop: everything but `start` and `restartDelay`. -/
def view (W : AMap WInfo) : List (Name × Nat × Option Nat × Bool × Int) :=
  W.entries.map (fun e => (e.1, e.2.rid, e.2.worker, e.2.stopping, e.2.started))

theorem lookup_view {W W' : List (Name × WInfo)} {id : Name}
    (h : W'.map (fun e => (e.1, e.2.rid, e.2.worker, e.2.stopping, e.2.started)) =
      W.map (fun e => (e.1, e.2.rid, e.2.worker, e.2.stopping, e.2.started))) :
    (W'.lookup id).map (fun i => (i.rid, i.worker, i.stopping, i.started)) =
    (W.lookup id).map (fun i => (i.rid, i.worker, i.stopping, i.started)) := by
  induction W generalizing W' with
  | nil => cases W' with
    | nil => rfl
    | cons a l => cases h
  | cons b m ih => cases W' with
    | nil => cases h
    | cons a l =>
      simp only [List.map_cons, List.cons.injEq, Prod.mk.injEq] at h
      obtain ⟨⟨h1, h2, h3, h4, h5⟩, h6⟩ := h
      obtain ⟨a1, a2⟩ := a
      obtain ⟨b1, b2⟩ := b
      simp only at h1 h2 h3 h4 h5
      subst h1
      rw [List.lookup_cons, List.lookup_cons]
      split
      · simp [h2, h3, h4, h5]
      · exact ih h6

theorem getWorker_view {t : Tab} {W : AMap WInfo} {d : Bool} {f : Option Err} (h : view W = view t.workers) (id : Name) :
    getWorker (t.own W d f) id = getWorker t id := by
  have h1 := lookup_view (id := id) h
  show (match W.entries.lookup id with | none => _ | some info => _) = match t.workers.entries.lookup id with | none => _ | some info => _
  cases h2 : W.entries.lookup id <;> cases h3 : t.workers.entries.lookup id <;> simp_all

theorem reportLines_view {t : Tab} {W : AMap WInfo} {d : Bool} {f : Option Err} (h : view W = view t.workers) (order : List Name) :
    reportLines (t.own W d f) order = reportLines t order := by
  have key : ∀ id, (W.get? id).map (lineOf id) = (t.workers.get? id).map (lineOf id) := by
    intro id
    have h1 := lookup_view (id := id) h
    show (W.entries.lookup id).map _ = (t.workers.entries.lookup id).map _
    cases h2 : W.entries.lookup id with
    | none => rw [h2] at h1; cases h3 : t.workers.entries.lookup id with
      | none => rfl
      | some b => rw [h3] at h1; cases h1
    | some a => rw [h2] at h1; cases h3 : t.workers.entries.lookup id with
      | none => rw [h3] at h1; cases h1
      | some b =>
        rw [h3] at h1
        simp only [Option.map_some, Option.some.injEq, Prod.mk.injEq] at h1
        obtain ⟨_, h5, h6, h7⟩ := h1
        simp only [Option.map_some, lineOf, WInfo.status, WInfo.lastStart, h5, h6, h7]
  unfold reportLines
  exact congrArg (fun f => order.filterMap f) (funext key)

theorem keys_view {W W' : AMap WInfo} (h : view W' = view W) : W'.keys = W.keys := by
  have h1 : ∀ W : AMap WInfo, W.keys = (view W).map (·.1) := by
    intro W; unfold view AMap.keys; rw [List.map_map]; rfl
  rw [h1, h1, h]

theorem order_view {s : State} {W : AMap WInfo} {d : Bool} {f : Option Err} (h : view W = view s.tab.workers) (order : List Name) :
    isRangeOrder (s.own W d f).tab.workers order = isRangeOrder s.tab.workers order := by
  show isRangeOrder W order = _
  rw [Bool.eq_iff_iff, isRangeOrder_iff, isRangeOrder_iff]
  unfold IsRangeOrder
  rw [keys_view h]

/-- The steps that look at the table, apart from the loop's: those of Report, WorkerNames and workerInfo, and of its helper. -/
def Op.looks : Op → Bool
  | .report _ | .names _ | .cLock _ | .hWake _ => true
  | _ => false

theorem tabStep_own {p : Params} {s : State} {op : Op} (hl : op.byLoop = false) (W : AMap WInfo) (d : Bool) (f : Option Err)
    (h : op.looks = false ∨ s.muFree = false ∨ view W = view s.tab.workers) :
    tabStep p (s.own W d f) op = (tabStep p s op).map (fun t => t.own W d f) := by
  have key : ∀ g, (s.own W d f).tab.getG g = s.tab.getG g := fun _ => rfl
  have hd : (s.own W d f).tab.dying = s.tab.dying := rfl
  have hf : (s.own W d f).tab.finished = s.tab.finished := rfl
  have hm : (s.own W d f).muFree = s.muFree := rfl
  cases op <;> first | (cases hl; done) | skip
  all_goals try rfl
  case gCtx gid =>
    simp only [tabStep, key]
    split
    · split <;> rfl
    · rfl
  case report order =>
    simp only [tabStep, hm]
    cases hmu : s.muFree with
    | false => simp
    | true =>
      have hv := (h.resolve_left nofun).resolve_left (by rw [hmu]; nofun)
      rw [order_view hv, show reportLines (s.own W d f).tab order = _ from reportLines_view hv order]
      split <;> rfl
  case names order =>
    simp only [tabStep, hm]
    cases hmu : s.muFree with
    | false => simp
    | true =>
      have hv := (h.resolve_left nofun).resolve_left (by rw [hmu]; nofun)
      rw [order_view hv]
      split <;> rfl
  case finish w e =>
    simp only [tabStep, hf]
    split <;> rfl
  all_goals
    simp only [tabStep, key, hd, hf]
    split
    · split <;> first | rfl | (split <;> rfl)
    · rfl

theorem clientStep_own {s : State} {c : Client} {op : Op} (hl : op.byLoop = false) (W : AMap WInfo) (d : Bool) (f : Option Err)
    (h : op.looks = false ∨ s.muFree = false ∨ view W = view s.tab.workers) :
    clientStep (s.own W d f) c op = (clientStep s c op).map (fun s' => s'.own W d f) := by
  have hd : (s.own W d f).tab.dying = s.tab.dying := rfl
  have ht : (s.own W d f).tab.tomb = s.tab.tomb := rfl
  have hf : (s.own W d f).tab.finished = s.tab.finished := rfl
  have hk : (s.own W d f).tab.tokens = s.tab.tokens := rfl
  have hm : (s.own W d f).muFree = s.muFree := rfl
  have ha : ∀ id r, afterInfo (s.own W d f) c id r = (afterInfo s c id r).own W d f := by
    intro id r; unfold afterInfo; split
    · rfl
    · split <;> rfl
  cases op <;> first | (cases hl; done) | skip
  all_goals try rfl
  case cLock cid =>
    simp only [clientStep, hm]
    split
    · split
      · rename_i hmu
        have hv := (h.resolve_left nofun).resolve_left (by rw [hmu]; nofun)
        have : ∀ id, getWorker (s.own W d f).tab id = getWorker s.tab id := getWorker_view hv
        rw [this]
        split <;> rfl
      · rfl
    · rfl
  case hWake cid =>
    simp only [clientStep, hm]
    split
    · split
      · rename_i hmu
        have hv := (h.resolve_left nofun).resolve_left (by rw [hmu.2]; nofun)
        have : ∀ id, getWorker (s.own W d f).tab id = getWorker s.tab id := getWorker_view hv
        rw [this]
        split <;> rfl
      · rfl
    · rfl
  all_goals
    simp only [clientStep, hd, ht, hf, hk, ha]
    repeat' split
    all_goals rfl

theorem step_own {p : Params} {s : State} {op : Op} (hl : op.byLoop = false) (W : AMap WInfo) (d : Bool) (f : Option Err)
    (h : op.looks = false ∨ s.muFree = false ∨ view W = view s.tab.workers) :
    step p (s.own W d f) op = (step p s op).map (fun s' => s'.own W d f) := by
  have hg : ∀ cid, (s.own W d f).getC cid = s.getC cid := fun _ => rfl
  unfold step
  split
  · rfl
  · rfl
  · rfl
  · rfl
  · cases hl
  · cases hl
  · split
    · rw [hg]
      split
      · exact clientStep_own hl W d f h
      · rfl
    · rw [tabStep_own hl W d f h, Option.map_map, Option.map_map]; rfl

end Verif.Runner
