import Verif.Runner.Mutex

/-!
# Runner: a measure that every internal step decreases
-/

namespace Verif.Runner
open Tab State

/-- Steps the runner and its goroutines take by themselves, given that delays elapse: everything except calls of
clients, the environment closing a call's context, StartFuncs returning, user code looking at its context, and
workers finishing. -/
def Op.internal : Op → Bool
  | .kill | .callStart .. | .callStop .. | .callWorker .. | .callRemove .. | .cancel .. | .report .. | .names .. | .gCtx ..
  | .gStartOk .. | .gStartErr .. | .gGoexit .. | .finish .. => false
  | _ => true

/-- A StartFunc returns, or calls Goexit. -/
def Op.startReturns : Op → Bool
  | .gStartOk .. | .gStartErr .. | .gGoexit .. => true
  | _ => false

/-- How much a goroutine has left to do. With `b` the StartFuncs returning count as steps. -/
def Pc.rank (b : Bool) (fin : Nat → Bool) : Pc → Nat
  | .delaying => if b then 9 else 2
  | .ready => if b then 8 else 1
  | .starting => if b then 7 else 0
  | .sendStarted _ => 6
  | .waiting w => if fin w then 4 else 5
  | .sendDone none => 1
  | .sendDone (some _) => 3
  | .gone none => 0
  | .gone (some _) => 2

/-- How much the loop has left to do before it rests; `n` bounds the number of workers. -/
def LoopPc.rank (n : Nat) : LoopPc → Nat
  | .top => 1
  | .select => 0
  | .act (.start ..) => 12
  | .act _ => 5
  | .killAll => n + 4
  | .killing r => r.length + 3
  | .reply _ _ => 3
  | .bcast => 2
  | .exited => 0

def CPc.rank : CPc → Nat
  | .startSend _ _ => 4
  | .startReply => 1
  | .stopSend _ => 1
  | .lock _ => 7
  | .immediate _ _ => 4
  | .waiting _ => 6
  | .gotWc _ _ => 4
  | .closing _ => 5
  | .bcasting _ => 4
  | .removeKill _ _ => 3
  | .removeWait _ _ => 2
  | .removeSelect _ _ _ => 1
  | .returned _ => 0

def HPc.rank : HPc → Nat
  | .check => 2
  | .enter => 1
  | .sleep => 0
  | .woken => 3
  | .done => 0

def Tab.fin (t : Tab) (w : Nat) : Bool := (t.finished.get? w).isSome

def gsum (b : Bool) (t : Tab) : Nat := (t.gs.map (fun g => g.pc.rank b t.fin)).sum

/-- How often killAll may run yet. -/
def Tab.due (t : Tab) : Nat := (if t.isDying then 0 else 1) + (if t.dyingArm then 1 else 0)

def tabL (b : Bool) (t : Tab) : Nat :=
  6 * gsum b t + (if t.dyingArm then 6 else 0) + t.pc.rank t.gs.length + t.gs.length * t.due

def csum (s : State) : Nat := (s.clients.map (fun c => c.pc.rank)).sum

def hrank (c : Client) : Nat := match c.helper with
  | some h => h.pc.rank
  | none => 0

def hsum (s : State) : Nat := (s.clients.map hrank).sum

def bigL (b : Bool) (s : State) : Nat := tabL b s.tab + 6 * csum s

/-- The measure. -/
def meas (b : Bool) (s : State) : Nat := bigL b s * (3 * s.clients.length + 1) + hsum s

theorem hrank_le (c : Client) : hrank c ≤ 3 := by
  unfold hrank
  split
  · rename_i h _; cases h.pc <;> simp [HPc.rank]
  · omega

theorem hsum_le (s : State) : hsum s ≤ 3 * s.clients.length := by
  unfold hsum
  induction s.clients with
  | nil => simp
  | cons c l ih => have := hrank_le c; simp only [List.map_cons, List.sum_cons, List.length_cons]; omega

theorem meas_lt_L {b : Bool} {s s' : State} (hl : s'.clients.length = s.clients.length) (h : bigL b s' < bigL b s) :
    meas b s' < meas b s := by
  unfold meas
  have h1 := hsum_le s'
  rw [hl] at h1 ⊢
  have h2 : (bigL b s' + 1) * (3 * s.clients.length + 1) ≤ bigL b s * (3 * s.clients.length + 1) :=
    Nat.mul_le_mul_right _ h
  rw [Nat.add_mul] at h2
  omega

theorem meas_lt_H {b : Bool} {s s' : State} (hl : s'.clients.length = s.clients.length) (h : bigL b s' = bigL b s)
    (hh : hsum s' < hsum s) : meas b s' < meas b s := by
  unfold meas; rw [hl, h]; omega

theorem sum_update {α : Type} (key : α → Nat) (r : α → Nat) (f : α → α) {a : α} : ∀ {l : List α}, (l.map key).Nodup → a ∈ l →
    ((l.map (fun x => if key x = key a then f x else x)).map r).sum + r a = (l.map r).sum + r (f a) := by
  intro l
  induction l with
  | nil => intro _ h; cases h
  | cons x l ih =>
    intro hnd ha
    rw [List.map_cons, List.nodup_cons] at hnd
    rcases List.mem_cons.1 ha with rfl | ha
    · have : l.map (fun x => if key x = key a then f x else x) = l := by
        conv => rhs; rw [← List.map_id l]
        apply List.map_congr_left
        intro y hy
        rw [if_neg]; rfl
        intro he
        exact hnd.1 (he ▸ List.mem_map_of_mem hy)
      simp only [List.map_cons, if_true, List.sum_cons, this]; omega
    · have := ih hnd.2 ha
      have hne : key x ≠ key a := fun he => hnd.1 (he ▸ List.mem_map_of_mem ha)
      simp only [List.map_cons, if_neg hne, List.sum_cons]; omega

theorem sum_drop {α : Type} (key : α → Nat) (r : α → Nat) {a : α} : ∀ {l : List α}, (l.map key).Nodup → a ∈ l →
    ((l.filter (fun x => key x != key a)).map r).sum + r a = (l.map r).sum := by
  intro l
  induction l with
  | nil => intro _ h; cases h
  | cons x l ih =>
    intro hnd ha
    rw [List.map_cons, List.nodup_cons] at hnd
    rcases List.mem_cons.1 ha with rfl | ha
    · have : l.filter (fun x => key x != key a) = l := by
        apply List.filter_eq_self.2
        intro y hy
        have : key y ≠ key a := fun he => hnd.1 (he ▸ List.mem_map_of_mem hy)
        simpa using this
      simp only [List.filter_cons, bne_self_eq_false, Bool.false_eq_true, if_false, List.map_cons, List.sum_cons, this]; omega
    · have := ih hnd.2 ha
      have hne : key x ≠ key a := fun he => hnd.1 (he ▸ List.mem_map_of_mem ha)
      have hb : (key x != key a) = true := by simpa using hne
      simp only [List.filter_cons, hb, if_true, List.map_cons, List.sum_cons]; omega

theorem gsum_gto {b : Bool} {t : Tab} {g : G} (hnd : (t.gs.map G.gid).Nodup) (hg : g ∈ t.gs) (pc : Pc) :
    gsum b (t.gto g.gid pc) + g.pc.rank b t.fin = gsum b t + pc.rank b t.fin :=
  sum_update G.gid (fun g => g.pc.rank b t.fin) (fun g => { g with pc := pc }) hnd hg

theorem killLocked_L (b : Bool) (t : Tab) (id : Name) : tabL b (killLocked t id) = tabL b t := by
  unfold killLocked
  split
  · rfl
  · split <;> rfl

theorem goTo_L (b : Bool) (t : Tab) (pc : LoopPc) :
    tabL b (t.goTo pc) + t.pc.rank t.gs.length = tabL b t + pc.rank t.gs.length := by
  unfold tabL Tab.goTo gsum Tab.fin Tab.due; simp only; omega

theorem log_L (b : Bool) (t : Tab) (e : Ev) : tabL b (t.log e) = tabL b t := rfl

theorem gto_L {b : Bool} {t : Tab} {g : G} (hnd : (t.gs.map G.gid).Nodup) (hg : g ∈ t.gs) (pc : Pc) :
    tabL b (t.gto g.gid pc) + 6 * g.pc.rank b t.fin = tabL b t + 6 * pc.rank b t.fin := by
  have := gsum_gto (b := b) hnd hg pc
  unfold tabL
  have hl : (t.gto g.gid pc).gs.length = t.gs.length := List.length_map _
  rw [hl]
  show 6 * gsum b (t.gto g.gid pc) + (if t.dyingArm then 6 else 0) + t.pc.rank t.gs.length + t.gs.length * t.due + _ = _
  omega

theorem setWorker_L (b : Bool) (t : Tab) (gid : Nat) (id : Name) (w : Nat) : tabL b (setWorker t gid id w) = tabL b t := by
  unfold setWorker
  split
  · rfl
  · dsimp only
    split
    · rw [killLocked_L]; rfl
    · rfl

theorem goTo_lt {b : Bool} {t t' : Tab} {pc : LoopPc} (h : tabL b t' = tabL b t) (hp : t'.pc = t.pc) (hg : t'.gs = t.gs)
    (hr : pc.rank t.gs.length < t.pc.rank t.gs.length) : tabL b (t'.goTo pc) < tabL b t := by
  have := goTo_L b t' pc
  rw [hp, hg] at this
  omega

theorem gsum_dropG {b : Bool} {t : Tab} {g : G} (hnd : (t.gs.map G.gid).Nodup) (hg : g ∈ t.gs) :
    gsum b (dropG t g.gid) + g.pc.rank b t.fin = gsum b t :=
  sum_drop G.gid (fun g => g.pc.rank b t.fin) hnd hg

theorem dropG_length {t : Tab} {g : G} (hnd : (t.gs.map G.gid).Nodup) (hg : g ∈ t.gs) :
    (dropG t g.gid).gs.length + 1 = t.gs.length := by
  have h : ∀ l : List G, (l.map (fun _ => 1)).sum = l.length := by
    intro l
    induction l with
    | nil => rfl
    | cons a l ih => rw [List.map_cons, List.sum_cons, ih, List.length_cons]; omega
  have := sum_drop G.gid (fun _ => 1) hnd hg
  rw [h, h] at this
  exact this

theorem beginShutdown_L (b : Bool) (t : Tab) : tabL b (beginShutdown t) + t.pc.rank t.gs.length ≤ tabL b t + 4 := by
  unfold beginShutdown
  split
  · have := goTo_L b t .bcast
    simp only [LoopPc.rank] at this ⊢; omega
  · rename_i hd
    have hd : t.isDying = false := by simpa using hd
    have h1 : tabL b (({ t with isDying := true }.log .shutdown).goTo .killAll) =
      6 * gsum b t + (if t.dyingArm then 6 else 0) + (t.gs.length + 4) + t.gs.length * (0 + if t.dyingArm then 1 else 0) := rfl
    have h2 : tabL b t = 6 * gsum b t + (if t.dyingArm then 6 else 0) + t.pc.rank t.gs.length +
        t.gs.length * (1 + if t.dyingArm then 1 else 0) := by unfold tabL Tab.due; rw [hd]; rfl
    rw [h1, h2, Nat.mul_add, Nat.mul_add]
    omega

theorem spawn_rank (b : Bool) (fin : Nat → Bool) (delay : Int) (hb : b = false) :
    Pc.rank b fin (if 0 < delay then .delaying else .ready) ≤ 2 := by
  subst hb; split <;> simp [Pc.rank]

theorem act_L {p : Params} {b : Bool} {t : Tab} (hs : Shape p t) (hb : b = true → t.isDying = true) {now : Int} {m : Msg}
    (hp : t.pc = .act m) : tabL b (act p t now m) < tabL b t := by
  cases m with
  | start cid id sf =>
    simp only [act]
    split
    · exact goTo_lt (t' := t.log _) rfl rfl rfl (by rw [hp]; simp [LoopPc.rank])
    · rename_i hd
      split
      · exact goTo_lt (t' := t.log _) rfl rfl rfl (by rw [hp]; simp [LoopPc.rank])
      · have hbf : b = false := by cases b with
          | false => rfl
          | true => exact absurd (hb rfl) hd
        have hdf : t.isDying = false := by simpa using hd
        have harm : t.dyingArm = true := by
          cases ha : t.dyingArm with
          | true => rfl
          | false => rw [hs.arm ha] at hdf; cases hdf
        have hdue : t.due = 2 := by unfold Tab.due; rw [hdf, harm]; rfl
        have h1 : tabL b ((acceptStart p t cid id sf now).goTo (.reply cid none)) =
            6 * (Pc.rank b t.fin .ready + gsum b t) + (if t.dyingArm then 6 else 0) + 3 + (t.gs.length + 1) * t.due := rfl
        have h2 : tabL b t = 6 * gsum b t + (if t.dyingArm then 6 else 0) + 12 + t.gs.length * t.due := by
          unfold tabL; rw [hp]; rfl
        have h4 : Pc.rank b t.fin .ready = 1 := by rw [hbf]; rfl
        rw [h1, h2, h4, hdue]
        omega
  | stop id =>
    exact goTo_lt (t' := killLocked (t.log (.stopHandled id)) id) (killLocked_L _ _ _) (killLocked_rest _ _).pc
      (killLocked_rest _ _).gs
      (by rw [hp]; simp [LoopPc.rank])
  | started gid id w =>
    refine goTo_lt (t' := setWorker t gid id w) (setWorker_L _ _ _ _ _) ?_ ?_ (by rw [hp]; simp [LoopPc.rank])
    · unfold setWorker; split
      · rfl
      · dsimp only
        split
        · rw [(killLocked_rest _ _).pc]; rfl
        · rfl
    · unfold setWorker; split
      · rfl
      · dsimp only
        split
        · rw [(killLocked_rest _ _).gs]; rfl
        · rfl
  | done gid id e =>
    obtain ⟨g, hg, rfl, rfl, hge⟩ := hs.actDone gid id e hp
    obtain ⟨info, hi⟩ := Option.isSome_iff_exists.1 ((hs.known g.id).2 (List.mem_map.2 ⟨g, hg, rfl⟩))
    have hd := gsum_dropG (b := b) hs.gidNd hg
    have h2 : tabL b t = 6 * gsum b t + (if t.dyingArm then 6 else 0) + 5 + t.gs.length * t.due := by unfold tabL; rw [hp]; rfl
    have hlen := dropG_length hs.gidNd hg
    have hmul : (dropG t g.gid).gs.length * t.due ≤ t.gs.length * t.due := Nat.mul_le_mul_right _ (by omega)
    simp only [act]
    unfold workerDone
    rw [hi]
    dsimp only
    cases hf : fate p info e with
    | remove =>
      have h1 : ∀ t' : Tab, t' = ((removeWorker ((dropG t g.gid).log (.ended g.id g.gid e)) g.id info.rid).goTo .bcast) →
          tabL b t' = 6 * gsum b (dropG t g.gid) + (if t.dyingArm then 6 else 0) + 2 + (dropG t g.gid).gs.length * t.due := by
        rintro _ rfl; rfl
      rw [h1 _ rfl, h2]; omega
    | fatal err =>
      have h1 := beginShutdown_L b (removeWorker (noteFatal p ((dropG t g.gid).log (.ended g.id g.gid e)) err) g.id info.rid)
      have h3 : tabL b (removeWorker (noteFatal p ((dropG t g.gid).log (.ended g.id g.gid e)) err) g.id info.rid) =
        6 * gsum b (dropG t g.gid) + (if t.dyingArm then 6 else 0) + t.pc.rank (dropG t g.gid).gs.length +
          (dropG t g.gid).gs.length * t.due := rfl
      have h4 : ∀ n, (removeWorker (noteFatal p ((dropG t g.gid).log (.ended g.id g.gid e)) err) g.id info.rid).pc.rank n = 5 := by
        intro n; show t.pc.rank n = 5; rw [hp]; rfl
      rw [h3, h4, hp] at h1
      simp only [LoopPc.rank] at h1
      rw [h2]
      simp only
      omega
    | restart sf =>
      obtain ⟨herr, hst⟩ : e.isSome = true ∧ info.start = some sf := by
        refine ⟨?_, fate_restart hf⟩
        cases e with
        | some _ => rfl
        | none =>
          exfalso
          have h1 := fate_restart hf
          have h3 : info.stopping = true := by
            cases h4 : info.stopping with
            | true => rfl
            | false => simp [fate, h4] at hf
          rw [(hs.noStart _ _ hi).1 h3] at h1; cases h1
      have hbf : b = false := by cases b with
        | false => rfl
        | true =>
          exfalso
          rcases hs.dying (hb rfl) with hx | hx
          · rw [hp] at hx; cases hx
          · have := (hs.noStart _ _ hi).1 (hx _ _ hi)
            rw [hst] at this; cases this
      have h1 : ∀ t' : Tab, t' = ((spawn (((dropG t g.gid).log (.ended g.id g.gid e)).setInfo g.id
          { info with restartDelay := p.restartDelay }) g.id info.restartDelay sf none).goTo .bcast) →
          tabL b t' = 6 * (Pc.rank b t.fin (if 0 < info.restartDelay then .delaying else .ready) + gsum b (dropG t g.gid)) +
            (if t.dyingArm then 6 else 0) + 2 + ((dropG t g.gid).gs.length + 1) * t.due := by rintro _ rfl; rfl
      rw [h1 _ rfl, h2, hlen]
      have h3 := spawn_rank b t.fin info.restartDelay hbf
      have h4 : g.pc.rank b t.fin = 2 := by
        rw [hge]; cases e with
        | none => cases herr
        | some _ => rfl
      omega

theorem nodup_length_le {α : Type} [DecidableEq α] : ∀ {l m : List α}, l.Nodup → l ⊆ m → l.length ≤ m.length := by
  intro l
  induction l with
  | nil => intro m _ _; exact Nat.zero_le _
  | cons a l ih =>
    intro m hnd hs
    rw [List.nodup_cons] at hnd
    have ha : a ∈ m := hs List.mem_cons_self
    have h1 : l ⊆ m.erase a := by
      intro x hx
      exact (List.mem_erase_of_ne (by rintro rfl; exact hnd.1 hx)).2 (hs (List.mem_cons_of_mem _ hx))
    have h2 := ih hnd.2 h1
    rw [List.length_erase_of_mem ha] at h2
    have h3 := List.length_pos_of_mem ha
    rw [List.length_cons]; omega

/-- A worker has a goroutine, so killAll has at most as many to visit. -/
theorem range_length {p : Params} {t : Tab} (hs : Shape p t) {order : List Name} (h : IsRangeOrder t.workers order) :
    order.length ≤ t.gs.length := by
  have h1 : order ⊆ t.gs.map G.id := by
    intro id hid
    exact (hs.known id).1 ((AMap.mem_keys_iff _ _).1 ((h.2 id).1 hid))
  have h2 := nodup_length_le h.1 h1
  rwa [List.length_map] at h2

/-- Every internal step of the loop or of a goroutine makes the loop's part of the measure smaller. -/
theorem tabStep_L {p : Params} {b : Bool} {s : State} {op : Op} {t : Tab} (hs : Shape p s.tab)
    (hb : b = true → s.tab.isDying = true) (hop : op.internal = true ∨ (b = true ∧ op.startReturns = true))
    (h : tabStep p s op = some t) : tabL b t < tabL b s.tab := by
  unfold tabStep at h
  split at h <;> (try (simp only [Op.internal, Op.startReturns, Bool.false_eq_true, and_false, or_self] at hop; done))
  · split at h
    · rename_i hpc
      split at h <;> cases h
      · refine goTo_lt (t' := Tab.log _ _) rfl rfl rfl (by rw [hpc]; simp [LoopPc.rank])
      · refine goTo_lt (t' := s.tab) rfl rfl rfl (by rw [hpc]; simp [LoopPc.rank])
    · cases h
  · split at h
    · rename_i hc
      cases h
      have h1 : ∀ t' : Tab, t' = (({ s.tab with isDying := true, dyingArm := false }.log .shutdown).goTo .killAll) →
          tabL b t' = 6 * gsum b s.tab + 0 + (s.tab.gs.length + 4) + s.tab.gs.length * 0 := by rintro _ rfl; rfl
      have h2 : tabL b s.tab = 6 * gsum b s.tab + 6 + 0 + s.tab.gs.length * ((if s.tab.isDying then 0 else 1) + 1) := by
        unfold tabL Tab.due; rw [hc.1, hc.2.1]; rfl
      rw [h1 _ rfl, h2, Nat.mul_add]
      omega
    · cases h
  · split at h
    · rename_i hpc
      split at h
      · rename_i g hg
        obtain ⟨hm, rfl⟩ := getG_some hg
        split at h
        · rename_i w hw
          cases h
          have h1 := gto_L (b := b) hs.gidNd hm (.waiting w)
          have h2 := goTo_L b (s.tab.gto g.gid (.waiting w)) (.act (.started g.gid g.id w))
          rw [hw] at h1
          have h3 : ∀ n, (s.tab.gto g.gid (.waiting w)).pc.rank n = 0 := by intro n; show s.tab.pc.rank n = 0; rw [hpc]; rfl
          rw [h3] at h2
          have h4 : (Pc.waiting w).rank b s.tab.fin ≤ 5 := by simp only [Pc.rank]; split <;> omega
          have h5 : (Pc.sendStarted w).rank b s.tab.fin = 6 := rfl
          rw [show ∀ n, (LoopPc.act (.started g.gid g.id w)).rank n = 5 from fun _ => rfl] at h2
          omega
        · cases h
      · cases h
    · cases h
  · split at h
    · rename_i hpc
      split at h
      · rename_i g hg
        obtain ⟨hm, rfl⟩ := getG_some hg
        split at h
        · rename_i e hw
          cases h
          have h1 := gto_L (b := b) hs.gidNd hm (.gone e)
          have h2 := goTo_L b (s.tab.gto g.gid (.gone e)) (.act (.done g.gid g.id e))
          rw [hw] at h1
          have h3 : ∀ n, (s.tab.gto g.gid (.gone e)).pc.rank n = 0 := by intro n; show s.tab.pc.rank n = 0; rw [hpc]; rfl
          rw [h3] at h2
          have h4 : (Pc.sendDone e).rank b s.tab.fin = (Pc.gone e).rank b s.tab.fin + 1 := by cases e <;> rfl
          rw [show ∀ n, (LoopPc.act (.done g.gid g.id e)).rank n = 5 from fun _ => rfl] at h2
          omega
        · cases h
      · cases h
    · cases h
  · split at h
    · rename_i m hm
      split at h
      · cases h; exact act_L hs hb hm
      · cases h
    · cases h
  · split at h
    · rename_i hc; cases h
      have := range_length hs (isRangeOrder_iff _ _ |>.1 hc.2.2)
      exact goTo_lt (t' := s.tab) rfl rfl rfl (by rw [hc.1]; simp only [LoopPc.rank]; omega)
    · cases h
  · split at h
    · rename_i hpc; cases h
      exact goTo_lt (t' := s.tab) rfl rfl rfl (by rw [hpc]; simp [LoopPc.rank])
    · rename_i id rest hpc; cases h
      exact goTo_lt (killLocked_L b _ _) (killLocked_rest _ _).pc (killLocked_rest _ _).gs (by rw [hpc]; simp [LoopPc.rank])
    · cases h
  · split at h
    · rename_i g hg
      obtain ⟨hm, rfl⟩ := getG_some hg
      split at h
      · rename_i hc; cases h
        have h1 := gto_L (b := b) hs.gidNd hm (.sendDone none)
        rw [hc.1] at h1
        have h4 : (Pc.sendDone none).rank b s.tab.fin < Pc.delaying.rank b s.tab.fin := by cases b <;> simp [Pc.rank]
        omega
      · cases h
    · cases h
  · split at h
    · rename_i g hg
      obtain ⟨hm, rfl⟩ := getG_some hg
      split at h
      · rename_i hc; cases h
        have h1 := gto_L (b := b) hs.gidNd hm .ready
        rw [hc] at h1
        have h4 : Pc.ready.rank b s.tab.fin < Pc.delaying.rank b s.tab.fin := by cases b <;> simp [Pc.rank]
        omega
      · cases h
    · cases h
  · split at h
    · rename_i g hg
      obtain ⟨hm, rfl⟩ := getG_some hg
      split at h
      · rename_i hc; cases h
        have h1 := gto_L (b := b) hs.gidNd hm .starting
        rw [hc] at h1
        have h4 : Pc.starting.rank b s.tab.fin < Pc.ready.rank b s.tab.fin := by cases b <;> simp [Pc.rank]
        rw [log_L]
        omega
      · cases h
    · cases h
  · split at h
    · rename_i w _ g hg
      obtain ⟨hm, rfl⟩ := getG_some hg
      split at h
      · rename_i hc; cases h
        have hbt : b = true := by simpa [Op.internal, Op.startReturns] using hop
        have h1 := gto_L (b := b) hs.gidNd hm (.sendStarted w)
        rw [hc] at h1
        have h4 : (Pc.sendStarted w).rank b s.tab.fin < Pc.starting.rank b s.tab.fin := by rw [hbt]; simp [Pc.rank]
        rw [log_L]
        omega
      · cases h
    · cases h
  · split at h
    · rename_i e _ g hg
      obtain ⟨hm, rfl⟩ := getG_some hg
      split at h
      · rename_i hc; cases h
        have hbt : b = true := by simpa [Op.internal, Op.startReturns] using hop
        have h1 := gto_L (b := b) hs.gidNd hm (.sendDone (some e))
        rw [hc] at h1
        have h4 : (Pc.sendDone (some e)).rank b s.tab.fin < Pc.starting.rank b s.tab.fin := by rw [hbt]; simp [Pc.rank]
        rw [log_L]
        omega
      · cases h
    · cases h
  · split at h
    · rename_i _ g hg
      obtain ⟨hm, rfl⟩ := getG_some hg
      split at h
      · rename_i hc; cases h
        have hbt : b = true := by simpa [Op.internal, Op.startReturns] using hop
        have h1 := gto_L (b := b) hs.gidNd hm (.sendDone (some .goexit))
        rw [hc] at h1
        have h4 : (Pc.sendDone (some .goexit)).rank b s.tab.fin < Pc.starting.rank b s.tab.fin := by rw [hbt]; simp [Pc.rank]
        rw [log_L]
        omega
      · cases h
    · cases h
  · split at h
    · rename_i g hg
      obtain ⟨hm, rfl⟩ := getG_some hg
      split at h
      · rename_i w hw
        split at h
        · rename_i e he; cases h
          have h1 := gto_L (b := b) hs.gidNd hm (.sendDone e)
          rw [hw] at h1
          have h4 : (Pc.sendDone e).rank b s.tab.fin ≤ 3 := by cases e <;> simp [Pc.rank]
          have h5 : 4 ≤ (Pc.waiting w).rank b s.tab.fin := by simp only [Pc.rank]; split <;> omega
          omega
        · cases h
      · cases h
    · cases h
  · cases h

/-! ## Client calls -/

theorem cid_rank {s : State} {c : Client} (hnd : (s.clients.map Client.cid).Nodup) (hc : c ∈ s.clients) (f : Client → Client) :
    csum (s.mapC c.cid f) + c.pc.rank = csum s + (f c).pc.rank :=
  sum_update Client.cid (fun c => c.pc.rank) f hnd hc

theorem cid_hrank {s : State} {c : Client} (hnd : (s.clients.map Client.cid).Nodup) (hc : c ∈ s.clients) (f : Client → Client) :
    hsum (s.mapC c.cid f) + hrank c = hsum s + hrank (f c) :=
  sum_update Client.cid hrank f hnd hc

/-- A client step that moves its client down, and may give the loop something to do. -/
theorem client_L {b : Bool} {s : State} {c : Client} (hnd : (s.clients.map Client.cid).Nodup) (hc : c ∈ s.clients)
    (f : Client → Client) (s' : State) (t : Tab) (h1 : s'.clients = (s.mapC c.cid f).clients) (h2 : s'.tab = t)
    (hlt : tabL b t + 6 * (f c).pc.rank < tabL b s.tab + 6 * c.pc.rank) : meas b s' < meas b s := by
  have h3 := cid_rank hnd hc f
  have h4 : csum s' = csum (s.mapC c.cid f) := by unfold csum; rw [h1]
  apply meas_lt_L
  · rw [h1]; exact List.length_map _
  · unfold bigL; rw [h2, h4]; omega

theorem helper_L {b : Bool} {s : State} {c : Client} (hnd : (s.clients.map Client.cid).Nodup) (hc : c ∈ s.clients)
    {x : Helper} (hx : c.helper = some x) (f : Helper → Helper) (s' : State) (h1 : s'.clients = (s.mapH c.cid f).clients)
    (h2 : s'.tab = s.tab) (hlt : (f x).pc.rank < x.pc.rank) : meas b s' < meas b s := by
  have h3 := cid_rank hnd hc (fun c => { c with helper := c.helper.map f })
  have h4 : csum s' = csum (s.mapC c.cid (fun c => { c with helper := c.helper.map f })) := by unfold csum; rw [h1]; rfl
  have h5 := cid_hrank hnd hc (fun c => { c with helper := c.helper.map f })
  have h6 : hsum s' = hsum (s.mapC c.cid (fun c => { c with helper := c.helper.map f })) := by unfold hsum; rw [h1]; rfl
  have h7 : hrank c = x.pc.rank := by unfold hrank; rw [hx]
  have h8 : hrank { c with helper := c.helper.map f } = (f x).pc.rank := by unfold hrank; simp only [hx, Option.map_some]
  apply meas_lt_H
  · rw [h1]; exact List.length_map _
  · unfold bigL; rw [h2, h4]
    simp only at h3
    omega
  · rw [h6]; rw [h7, h8] at h5; omega

theorem afterInfo_rank {b : Bool} {s : State} {c : Client} (hnd : (s.clients.map Client.cid).Nodup) (hc : c ∈ s.clients)
    {id : Name} {r : Found} (hp : 4 ≤ c.pc.rank) : meas b (afterInfo s c id r) < meas b s := by
  unfold Runner.afterInfo
  split
  · exact client_L hnd hc (fun x => { x with pc := .returned _ }) _ _ rfl rfl (by rw [return_tab, log_L]; simp only [CPc.rank] at hp ⊢; omega)
  · split
    · rename_i w rid _
      exact client_L hnd hc (fun x => { x with pc := .removeKill w rid }) _ s.tab rfl rfl (by simp only [CPc.rank] at hp ⊢; omega)
    · exact client_L hnd hc (fun x => { x with pc := .returned _ }) _ _ rfl rfl (by rw [return_tab, log_L]; simp only [CPc.rank] at hp ⊢; omega)

theorem return_lt {b : Bool} {s : State} {c : Client} (hnd : (s.clients.map Client.cid).Nodup) (hc : c ∈ s.clients)
    (r : Ret) (hp : 0 < c.pc.rank) : meas b (s.return_ c.cid r) < meas b s :=
  client_L hnd hc (fun x => { x with pc := .returned r }) _ (s.tab.log (.ret c.cid r)) rfl rfl
    (by rw [log_L]; simp only [CPc.rank] at hp ⊢; omega)

theorem to_lt {b : Bool} {s : State} {c : Client} (hnd : (s.clients.map Client.cid).Nodup) (hc : c ∈ s.clients)
    (pc : CPc) (hp : pc.rank < c.pc.rank) : meas b (s.cto c.cid pc) < meas b s :=
  client_L hnd hc (fun x => { x with pc := pc }) _ s.tab rfl rfl (by simp only; omega)

theorem broadcast_csum (s : State) : csum (broadcast s) = csum s := by
  unfold csum broadcast
  simp [Function.comp_def]

theorem clientStep_meas {b : Bool} {s s' : State} {c : Client} {op : Op} (h : MInv s) (hc : c ∈ s.clients)
    (hop : op.cid? = some c.cid) (hi : op.internal = true) (hs : clientStep s c op = some s') : meas b s' < meas b s := by
  have hnd := h.nd
  unfold Runner.clientStep at hs
  split at hs <;> simp only [Op.cid?, Option.some.injEq, reduceCtorEq] at hop <;> (try subst hop)
  · cases hi
  · split at hs
    · rename_i hpc
      split at hs
      · rename_i id sf hp
        cases hs
        refine client_L hnd hc (fun x => { x with pc := .startReply }) _ (s.tab.goTo (.act (.start c.cid id sf))) rfl rfl ?_
        have := goTo_L b s.tab (.act (.start c.cid id sf))
        rw [hpc] at this
        rw [hp]
        simp only [LoopPc.rank, CPc.rank] at this ⊢
        omega
      · cases hs
    · cases hs
  · split at hs
    · rename_i hpc
      split at hs
      · rename_i id hp
        cases hs
        refine client_L hnd hc (fun x => { x with pc := .returned .ok }) _ ((s.tab.log (.ret c.cid .ok)).goTo (.act (.stop id))) rfl rfl ?_
        have := goTo_L b (s.tab.log (.ret c.cid .ok)) (.act (.stop id))
        rw [show (s.tab.log (.ret c.cid .ok)).pc = .select from hpc, log_L] at this
        rw [hp]
        simp only [LoopPc.rank, CPc.rank] at this ⊢
        omega
      · cases hs
    · cases hs
  · split at hs
    · rename_i hp
      split at hs
      · cases hs; exact return_lt hnd hc _ (by rw [hp]; simp [CPc.rank])
      · cases hs
    · rename_i hp
      split at hs
      · cases hs; exact return_lt hnd hc _ (by rw [hp]; simp [CPc.rank])
      · cases hs
    · cases hs
  · split at hs
    · rename_i id hp
      split at hs
      · split at hs
        · cases hs; exact to_lt hnd hc _ (by rw [hp]; simp [CPc.rank])
        · cases hs
          exact client_L hnd hc (fun c => { c with pc := .waiting id, helper := some { id := id } }) _ s.tab rfl rfl
            (by rw [hp]; simp only [CPc.rank]; omega)
      · cases hs
    · cases hs
  · split at hs
    · rename_i hp
      cases hs
      split
      · exact return_lt hnd hc _ (by rw [hp]; simp [CPc.rank])
      · exact afterInfo_rank hnd hc (by rw [hp]; simp [CPc.rank])
    · cases hs
  · split at hs
    · rename_i id r hp hwc
      cases hs
      exact client_L hnd hc (fun c => { c with pc := .gotWc id r, helper := c.helper.map (fun h => { h with wc := none }) }) _ s.tab
        rfl rfl (by rw [hp]; simp only [CPc.rank]; omega)
    · cases hs
  · split at hs
    · rename_i hp
      cases hs
      split
      · exact return_lt hnd hc _ (by rw [hp]; simp [CPc.rank])
      · exact afterInfo_rank hnd hc (by rw [hp]; simp [CPc.rank])
    · cases hs
  · split at hs
    · rename_i hp
      split at hs
      · cases hs; exact return_lt hnd hc _ (by rw [hp]; simp [CPc.rank])
      · cases hs
    · cases hs
  · split at hs
    · rename_i hp
      split at hs
      · cases hs; exact to_lt hnd hc _ (by rw [hp]; simp [CPc.rank])
      · cases hs
    · cases hs
  · split at hs
    · rename_i id hp
      cases hs
      exact client_L hnd hc (fun c => { c with pc := .bcasting id, helper := c.helper.map (fun h => { h with stopped := true }) }) _
        s.tab rfl rfl (by rw [hp]; simp only [CPc.rank]; omega)
    · cases hs
  · split at hs
    · rename_i hp
      cases hs
      have hb := h.broadcast s.tab rfl
      have hc' : { c with helper := c.helper.map Helper.wake } ∈ (Runner.broadcast s).clients :=
        List.mem_map.2 ⟨c, hc, rfl⟩
      have h3 := cid_rank (s := Runner.broadcast s) hb.nd hc' (fun x => { x with pc := .returned (.err .runnerAborted) })
      rw [broadcast_csum] at h3
      simp only [hp, CPc.rank] at h3
      apply meas_lt_L
      · show (List.map _ (List.map _ s.clients)).length = _
        simp
      · have h4 : bigL b ((Runner.broadcast s).return_ c.cid (.err .runnerAborted)) =
          tabL b s.tab + 6 * csum ((Runner.broadcast s).mapC c.cid (fun x => { x with pc := .returned (.err .runnerAborted) })) := rfl
        rw [h4]; unfold bigL; omega
    · cases hs
  · split at hs
    · rename_i w rid hp
      cases hs
      exact client_L hnd hc (fun x => { x with pc := .removeWait w rid }) _ (s.tab.log (.clientKillW c.cid w)) rfl rfl
        (by rw [hp, log_L]; simp only [CPc.rank]; omega)
    · cases hs
  · split at hs
    · rename_i hp
      split at hs
      · cases hs; exact to_lt hnd hc _ (by rw [hp]; simp [CPc.rank])
      · cases hs
    · cases hs
  · split at hs
    · rename_i hp
      split at hs
      · cases hs; exact return_lt hnd hc _ (by rw [hp]; simp [CPc.rank])
      · cases hs
    · cases hs
  · split at hs
    · rename_i w rid e hp
      split at hs
      · cases hs
        exact client_L hnd hc (fun x => { x with pc := .returned (.result e) }) _
          ({ s.tab with tokens := s.tab.tokens.erase rid }.log (.ret c.cid (.result e))) rfl rfl
          (by rw [hp, log_L, show tabL b { s.tab with tokens := s.tab.tokens.erase rid } = tabL b s.tab from rfl]
              simp only [CPc.rank]; omega)
      · cases hs
    · cases hs
  · split at hs
    · rename_i x hx
      split at hs
      · rename_i hp
        split at hs <;> cases hs
        · exact helper_L hnd hc hx (fun h => { h with pc := .done }) _ rfl rfl (by rw [hp]; simp [HPc.rank])
        · exact helper_L hnd hc hx (fun h => { h with pc := .enter }) _ rfl rfl (by rw [hp]; simp [HPc.rank])
      · cases hs
    · cases hs
  · split at hs
    · rename_i x hx
      split at hs
      · rename_i hp
        cases hs
        exact helper_L hnd hc hx (fun h => { h with pc := .sleep }) _ rfl rfl (by rw [hp]; simp [HPc.rank])
      · cases hs
    · cases hs
  · split at hs
    · rename_i x hx
      split at hs
      · rename_i hp
        split at hs <;> cases hs
        · rename_i r _
          exact helper_L hnd hc hx (fun h => { h with pc := .done, wc := some r }) _ rfl rfl (by rw [hp.1]; simp [HPc.rank])
        · exact helper_L hnd hc hx (fun h => { h with pc := .check }) _ rfl rfl (by rw [hp.1]; simp [HPc.rank])
      · cases hs
    · cases hs

/-- Every internal step makes the measure smaller; so does a StartFunc returning, if that is counted and the runner is
shutting down. -/
theorem Reach.meas_lt {p : Params} {b : Bool} {s s' : State} {op : Op} (hr : Reach p s) (hb : b = true → s.tab.isDying = true)
    (hop : op.internal = true ∨ (b = true ∧ op.startReturns = true)) (hs : Runner.step p s op = some s') :
    meas b s' < meas b s := by
  have hm := hr.minv
  have hsh := hr.tab.shape
  unfold Runner.step at hs
  split at hs <;> (try (simp only [Op.internal, Op.startReturns, Bool.false_eq_true, and_false, or_self] at hop; done))
  · have key : ∀ cid r ret, s.tab.pc = .reply cid r →
        meas b ((s.cto cid (.returned ret)).withTab ((s.tab.log (.ret cid ret)).goTo .bcast)) < meas b s := by
      intro cid r ret hp
      obtain ⟨c, hc, rfl, hcp⟩ := hr.cinv.reply cid (Or.inr ⟨_, hp⟩)
      refine client_L hm.nd hc (fun x => { x with pc := .returned ret }) _ ((s.tab.log (.ret c.cid ret)).goTo .bcast) rfl rfl ?_
      have := goTo_L b (s.tab.log (.ret c.cid ret)) .bcast
      rw [show (s.tab.log (.ret c.cid ret)).pc = _ from hp, log_L] at this
      rw [hcp]
      simp only [LoopPc.rank, CPc.rank] at this ⊢
      omega
    split at hs
    · rename_i cid hp; cases hs; exact key _ _ _ hp
    · rename_i cid e hp; cases hs; exact key _ _ _ hp
    · cases hs
  · split at hs
    · rename_i hp
      cases hs
      apply meas_lt_L
      · show (List.map _ s.clients).length = _
        simp
      · have h1 : bigL b ((Runner.broadcast s).withTab (s.tab.goTo .top)) = tabL b (s.tab.goTo .top) + 6 * csum (Runner.broadcast s) := rfl
        have h2 := goTo_lt (b := b) (t := s.tab) (t' := s.tab) (pc := .top) rfl rfl rfl (by rw [hp]; simp [LoopPc.rank])
        rw [h1, broadcast_csum]; unfold bigL; omega
    · cases hs
  · split at hs
    · rename_i cid hcid
      split at hs
      · rename_i c hg
        obtain ⟨hc, rfl⟩ := getC_some hg
        refine clientStep_meas hm hc hcid ?_ hs
        rcases hop with h | ⟨_, h⟩
        · exact h
        · cases op <;> cases h <;> cases hcid
      · cases hs
    · obtain ⟨t, ht, rfl⟩ := Option.map_eq_some_iff.1 hs
      have := tabStep_L hsh hb hop ht
      apply meas_lt_L
      · rfl
      · show tabL b t + 6 * csum s < tabL b s.tab + 6 * csum s; omega

end Verif.Runner
