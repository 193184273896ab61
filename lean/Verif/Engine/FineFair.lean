import Verif.Engine.FineAll
import Verif.Engine.Fair
import Verif.Engine.ExactBack

/-!
# Engine: infinite executions with an interruptible loop, and what a step does to each goroutine
-/

namespace Verif.Engine
open Verif.Spec

/-- The steps of the engine's own goroutines that need no user code: the next piece of the loop's work, or one of those of
`Kind`. -/
inductive FKind
  | work
  | of (x : Kind)
  deriving DecidableEq

/-- The kind of a step; `none` for what clients, Start funcs and workers do. -/
def FOp.kind : FOp → Option FKind
  | .work => some .work
  | .env op => op.kind.map .of
  | .dying _ => some (.of .dying)
  | .started g _ => some (.of (.started g))
  | .stopped g _ _ => some (.of (.stopped g))
  | _ => none

/-- Whether a kind of step is the end of a delay. -/
def FKind.isTimer : FKind → Bool
  | .of x => x.isTimer
  | .work => false

/-- An infinite execution of an engine whose loop can be interrupted. -/
structure FineRun (cfg : Config) where
  st : Nat → Fine
  op : Nat → FOp
  start : st 0 = {}
  next : ∀ k, fstep cfg (st k) (op k) = some (st (k + 1))

variable {cfg : Config}

theorem FineRun.reach (r : FineRun cfg) : ∀ k, FReach cfg (r.st k)
  | 0 => by rw [r.start]; exact .init
  | k + 1 => (r.reach k).step (r.op k) (r.next k)

/-- What has happened in the first `k` steps. -/
def FineRun.hist (r : FineRun cfg) (k : Nat) : List Ev := (r.st k).s.hist

/-- A step of the kind can be taken. -/
def FCanDo (cfg : Config) (f : Fine) (x : FKind) : Prop := ∃ op f', op.kind = some x ∧ fstep cfg f op = some f'

/-- No kind of step of the engine's own, ends of delays aside, that is possible again and again is passed over for ever. -/
def FineRun.Fair (r : FineRun cfg) : Prop := ∀ x : FKind, x.isTimer = false → InfOften (fun k => FCanDo cfg (r.st k) x) →
  InfOften (fun k => (r.op k).kind = some x)

/-- No delay goes on for ever. -/
def FineRun.DelaysEnd (r : FineRun cfg) : Prop := ∀ g, InfOften (fun k => FCanDo cfg (r.st k) (.of (.timer g))) →
  InfOften (fun k => (r.op k).kind = some (.of (.timer g)))

theorem freach_ex {f : Fine} (hr : FReach cfg f) : ∃ D, Ex own cfg f.s D := by
  obtain ⟨D, hl⟩ := freach_link hr
  exact ⟨D, hl.1⟩

theorem freach_hinv {f : Fine} (hr : FReach cfg f) : Core f.s ∧ HInv cfg f.s := by
  obtain ⟨D, hx⟩ := freach_ex hr
  exact ex_hinv hx

/-! ## Histories grow -/

/-- The second history continues the first. -/
def Grows (a b : State) : Prop := ∃ d, b.hist = d ++ a.hist

theorem Grows.refl (a : State) : Grows a a := ⟨[], rfl⟩

theorem Grows.of_eq {a b : State} (h : b.hist = a.hist) : Grows a b := ⟨[], h⟩

theorem Grows.cons {a b : State} (e : Ev) (h : b.hist = e :: a.hist) : Grows a b := ⟨[e], h⟩

theorem Grows.trans {a b c : State} (h : Grows a b) (k : Grows b c) : Grows a c := by
  obtain ⟨d, hd⟩ := h
  obtain ⟨e, he⟩ := k
  exact ⟨e ++ d, by rw [he, hd, List.append_assoc]⟩

theorem Grows.mem {a b : State} (h : Grows a b) {e : Ev} (he : e ∈ a.hist) : e ∈ b.hist := by
  obtain ⟨d, hd⟩ := h
  rw [hd]; exact List.mem_append_right _ he

theorem grows_tick (a : State) : Grows a a.tick := by
  unfold State.tick
  split
  · exact .refl a
  · exact .cons .kill rfl
  · exact .of_eq rfl

theorem grows_killWorker (a : State) (w : WRef) : Grows a (a.killWorker w) := by
  cases w with
  | self => exact Grows.trans (b := a.log (.killW .self)) (.cons _ rfl) (.cons .kill rfl)
  | obj k => exact .cons _ rfl

theorem grows_killInternal (a : State) (l : Nat) (n : Name) : Grows a (a.killInternal l n) := .of_eq rfl

theorem grows_requestStart (a : State) (n : Name) (d : Int) : Grows a (requestStart a n d) := by
  unfold requestStart
  simp only
  have h1 : Grows a (if (a.manifolds.get? n).isNone then a.killInternal 384 n else a) := by
    split
    · exact grows_killInternal ..
    · exact .refl a
  generalize (if (a.manifolds.get? n).isNone then a.killInternal 384 n else a) = s1 at *
  have h2 : Grows s1 (if (s1.cur n).stopped then s1 else s1.killInternal 390 n) := by
    split
    · exact .refl _
    · exact grows_killInternal ..
  generalize (if (s1.cur n).stopped then s1 else s1.killInternal 390 n) = s2 at *
  refine (h1.trans h2).trans ((grows_tick s2).trans ?_)
  split
  · exact .refl _
  · exact .cons _ rfl

theorem grows_requestStop (a : State) (n : Name) : Grows a (requestStop a n) := by
  have hm : Grows a (markStopping a n) := by
    unfold markStopping
    cases hc : (a.cur n).cancel with
    | none => refine .of_eq ?_; simp only [hc]; rfl
    | some i => refine .cons (.cancelled i) ?_; simp only [hc]; rfl
  rcases requestStop_cases a n with ⟨_, e⟩ | ⟨_, _, ⟨w, _, e⟩ | ⟨_, e⟩⟩ <;> rw [e]
  · exact .refl a
  · exact hm.trans (grows_killWorker ..)
  · exact hm

theorem grows_endArm (a : State) : Grows a (endArm a) := by
  unfold endArm
  simp only
  split
  · exact (grows_tick a).trans (.cons .exit rfl)
  · exact (grows_tick a).trans (.of_eq rfl)

theorem grows_liveReport (a : State) : Grows a (liveReport a) := by
  unfold liveReport
  simp only
  split
  · exact (grows_tick a).trans (.cons _ rfl)
  · exact (grows_tick a).trans (.cons _ rfl)

theorem grows_exec (cfg : Config) (a : State) (t : Task) : Grows a (exec cfg a t).1 := by
  cases t with
  | start n d => exact grows_requestStart ..
  | react n told err vals lost => simp only [exec]; split <;> exact .refl a
  | remove n vals => exact .cons _ rfl
  | bounceAll n => exact .refl a
  | bounce d =>
    simp only [exec]
    split
    · exact grows_requestStart ..
    · exact grows_requestStop ..
  | stop n => exact grows_requestStop ..
  | clearOneShot => exact .of_eq rfl
  | report => exact grows_liveReport a
  | check => exact grows_endArm a

theorem grows_noteFatal (cfg : Config) (a : State) (n : Name) (e : Option Err) : Grows a (noteFatal cfg a n e) := by
  unfold noteFatal
  split
  · exact .refl a
  · split
    · exact .cons .kill rfl
    · exact .refl a

theorem grows_beginStopped (cfg : Config) (a : State) (n : Name) (gid : Nat) (raw : Option Err) (now : Int)
    (vals : Name → List Name) : Grows (a.log (.ended n gid now raw (applyFilter cfg (a.man n) raw) (a.cur n).stopping
      (a.cur n).worker)) (beginStopped cfg a n gid raw now vals).1 := by
  unfold beginStopped
  exact (grows_noteFatal ..).trans (.of_eq rfl)

theorem fstep_grows {f f' : Fine} {op : FOp} (c : Core f.s) (h : fstep cfg f op = some f') : Grows f.s f'.s := by
  cases op with
  | env op =>
    simp only [fstep] at h
    split at h
    · rw [Option.map_eq_some_iff] at h
      obtain ⟨s', hs, rfl⟩ := h
      exact chain_hist (step_chain c hs) c
    · cases h
  | work =>
    simp only [fstep] at h
    split at h
    · cases h
    · simp only [Option.some.injEq] at h; subst h
      exact grows_exec ..
  | dying order => simp only [fstep] at h; split at h <;> cases h; exact .refl _
  | report => simp only [fstep] at h; split at h <;> cases h; exact .refl _
  | install n m order =>
    simp only [fstep] at h
    split at h <;> cases h
    unfold beginInstall
    split
    · exact .cons _ rfl
    · split
      · exact .cons _ rfl
      · exact .cons _ rfl
  | started gid now =>
    simp only [fstep] at h
    split at h
    case isFalse => cases h
    split at h
    · cases h
    split at h <;> cases h
    unfold beginStarted
    simp only
    split
    · exact (grows_killInternal (f.s.mapG gid _) 584 _).trans (grows_killWorker ..)
    · split
      · exact grows_killWorker (f.s.mapG gid _) _
      · split
        · exact grows_killWorker (f.s.mapG gid _) _
        · exact .cons _ rfl
  | stopped gid now vals =>
    simp only [fstep] at h
    split at h
    case isFalse => cases h
    split at h
    · cases h
    split at h <;> cases h
    exact Grows.trans (.cons _ rfl) (grows_beginStopped cfg _ _ gid _ now vals)

theorem FineRun.hist_append (r : FineRun cfg) {k j : Nat} (h : k ≤ j) : ∃ d, r.hist j = d ++ r.hist k := by
  induction h with
  | refl => exact ⟨[], rfl⟩
  | @step m _ ih =>
    obtain ⟨d, hd⟩ := ih
    obtain ⟨d', hd'⟩ := fstep_grows (freach_hinv (r.reach m)).1 (r.next m)
    exact ⟨d' ++ d, by rw [List.append_assoc, ← hd]; exact hd'⟩

theorem FineRun.hist_mono (r : FineRun cfg) {k j : Nat} (h : k ≤ j) {e : Ev} (he : e ∈ r.hist k) : e ∈ r.hist j := by
  obtain ⟨d, hd⟩ := r.hist_append h
  rw [hd]; exact List.mem_append_right _ he

/-! ## The loop gets back to its select -/

def Task.isReact : Task → Bool
  | .react _ _ _ _ _ => true
  | _ => false

def Task.isBounceAll : Task → Bool
  | .bounceAll _ => true
  | _ => false

/-- Only a piece of work, or the begin of an arm, changes what the loop has to do. -/
theorem fstep_todo {f f' : Fine} {op : FOp} (h : fstep cfg f op = some f') (hne : f.todo ≠ []) (hw : op ≠ .work) :
    f'.todo = f.todo := by
  have no : ¬ (f.todo.isEmpty = true) := fun hh => hne (List.isEmpty_iff.1 hh)
  cases op with
  | env op =>
    simp only [fstep] at h
    split at h
    · rw [Option.map_eq_some_iff] at h
      obtain ⟨s', _, rfl⟩ := h
      rfl
    · cases h
  | work => exact absurd rfl hw
  | dying _ | report | install _ _ _ | started _ _ | stopped _ _ _ =>
    simp only [fstep] at h
    split at h
    · rename_i hc; exact absurd (by first | exact hc.1 | exact hc) no
    · cases h

theorem mapStart_count (p : Task → Bool) (ds : List Name) (hp : ∀ d, p (.bounce d) = false) :
    (ds.map Task.bounce).countP p = 0 := by
  rw [List.countP_eq_zero]
  intro t ht
  obtain ⟨d, _, rfl⟩ := List.mem_map.1 ht
  rw [hp]; simp

theorem exec_less (cfg : Config) (s : State) (t : Task) (ts : List Task) :
    Prod.Lex (· < ·) (Prod.Lex (· < ·) (· < ·))
      (((exec cfg s t).2 ++ ts).countP Task.isReact, ((exec cfg s t).2 ++ ts).countP Task.isBounceAll,
        ((exec cfg s t).2 ++ ts).length)
      ((t :: ts).countP Task.isReact, (t :: ts).countP Task.isBounceAll, (t :: ts).length) := by
  have single : (exec cfg s t).2 = [] → t.isReact = false → t.isBounceAll = false → Prod.Lex (· < ·) (Prod.Lex (· < ·) (· < ·))
      (((exec cfg s t).2 ++ ts).countP Task.isReact, ((exec cfg s t).2 ++ ts).countP Task.isBounceAll,
        ((exec cfg s t).2 ++ ts).length)
      ((t :: ts).countP Task.isReact, (t :: ts).countP Task.isBounceAll, (t :: ts).length) := by
    intro h h1 h2
    rw [h, List.nil_append, List.countP_cons_of_neg (by rw [h1]; simp), List.countP_cons_of_neg (by rw [h2]; simp)]
    exact .right _ (.right _ (by simp))
  cases t with
  | react n told err vals lost =>
    refine .left _ _ ?_
    have : (reactTasks cfg n told err vals).countP Task.isReact = 0 := by
      unfold reactTasks
      repeat' split
      all_goals rfl
    rw [List.countP_cons_of_pos rfl, List.countP_append]
    have h0 : (exec cfg s (.react n told err vals lost)).2.countP Task.isReact = 0 := by
      simp only [exec]
      split
      · rfl
      · simp only [List.countP_append, this]
        split <;> rfl
    omega
  | bounceAll n =>
    rw [List.countP_append, List.countP_append, List.countP_cons_of_neg (by simp [Task.isReact]), List.countP_cons_of_pos rfl,
      show (exec cfg s (.bounceAll n)).2.countP Task.isReact = 0 from mapStart_count _ _ (fun _ => rfl),
      show (exec cfg s (.bounceAll n)).2.countP Task.isBounceAll = 0 from mapStart_count _ _ (fun _ => rfl), Nat.zero_add,
      Nat.zero_add]
    exact .right _ (.left _ _ (by omega))
  | start | remove | bounce | stop | clearOneShot | report | check => exact single rfl rfl rfl

/-- The loop gets back to its select again and again. -/
theorem FineRun.idle_again {r : FineRun cfg} (hf : r.Fair) : InfOften (fun k => (r.st k).todo = []) := by
  have wf : WellFounded (Prod.Lex (· < ·) (Prod.Lex (· < ·) (· < ·)) : Nat × Nat × Nat → Nat × Nat × Nat → Prop) :=
    (Prod.lex Nat.lt_wfRel (Prod.lex Nat.lt_wfRel Nat.lt_wfRel)).wf
  have main : ∀ (x : Nat × Nat × Nat) k, ((r.st k).todo.countP Task.isReact, (r.st k).todo.countP Task.isBounceAll,
      (r.st k).todo.length) = x → ∃ j, k ≤ j ∧ (r.st j).todo = [] := by
    intro x
    induction x using wf.induction with
    | h x ih =>
      intro k hx
      by_cases h0 : (r.st k).todo = []
      · exact ⟨k, Nat.le_refl _, h0⟩
      by_cases hw : ∃ j, k ≤ j ∧ r.op j = .work
      · -- the first piece of work
        obtain ⟨j, ⟨hj, hop⟩, hmin⟩ : ∃ j, (k ≤ j ∧ r.op j = .work) ∧ ∀ i, k ≤ i → i < j → r.op i ≠ .work := by
          obtain ⟨j, hj⟩ := hw
          induction j using Nat.strongRecOn with
          | ind j ih =>
            by_cases hlt : ∃ i, i < j ∧ k ≤ i ∧ r.op i = .work
            · obtain ⟨i, hi, h⟩ := hlt
              exact ih i hi h
            · exact ⟨j, hj, fun i hi hij he => hlt ⟨i, hij, hi, he⟩⟩
        have hsame : ∀ i, k ≤ i → i ≤ j → (r.st i).todo = (r.st k).todo := by
          intro i hi
          induction hi with
          | refl => intro; rfl
          | @step i hi ih' =>
            intro hle
            have e := ih' (by omega)
            rw [fstep_todo (r.next i) (by rw [e]; exact h0) (hmin i hi (by omega)), e]
        have hn := r.next j
        rw [hop] at hn
        have e := hsame j hj (Nat.le_refl _)
        simp only [fstep] at hn
        split at hn
        · cases hn
        · rename_i t ts ht
          simp only [Option.some.injEq] at hn
          obtain ⟨i, hi, h⟩ := ih _ (by
            rw [← hx, ← e, ht]
            exact exec_less cfg (r.st j).s t ts) (j + 1) (by rw [← hn])
          exact ⟨i, by omega, h⟩
      · exfalso
        have hsame : ∀ i, k ≤ i → (r.st i).todo = (r.st k).todo := by
          intro i hi
          induction hi with
          | refl => rfl
          | @step i hi ih' => rw [fstep_todo (r.next i) (by rw [ih']; exact h0) (fun h => hw ⟨i, hi, h⟩), ih']
        obtain ⟨i, hi, h⟩ := hf .work rfl (infOften_of_from k (fun i hi => by
          have e := hsame i hi
          cases ht : (r.st i).todo with
          | nil => exact absurd (e.symm.trans ht) h0
          | cons t ts => exact ⟨.work, ⟨(exec cfg (r.st i).s t).1, (exec cfg (r.st i).s t).2 ++ ts⟩, rfl, by simp only [fstep, ht]⟩)) k
        refine hw ⟨i, hi, ?_⟩
        cases ho : r.op i <;> rw [ho] at h <;> simp only [FOp.kind, Option.some.injEq, reduceCtorEq] at h
        · rename_i o
          cases hk : o.kind <;> rw [hk] at h <;> cases h
  intro n
  obtain ⟨j, hj, h⟩ := main _ n rfl
  exact ⟨j, hj, h⟩

/-! ## What a step does to each goroutine -/

/-- The goroutine whose step an operation is. -/
def FOp.mover : FOp → Option Nat
  | .env op => op.mover
  | .started g _ | .stopped g _ _ => some g
  | _ => none

/-- The goroutine is still there; it has gone on if the step is its own, and is where it was if not. -/
def FGoesOn (op : FOp) (g : G) (s' : State) : Prop := ∃ g' ∈ s'.gs, g'.gid = g.gid ∧ g'.name = g.name ∧
  (op.mover ≠ some g.gid → g'.pc = g.pc) ∧ (op.mover = some g.gid → g'.pc.rank < g.pc.rank)

theorem keepsG_exec (cfg : Config) (a : State) (t : Task) : KeepsG a (exec cfg a t).1 := by
  cases t with
  | start n d => exact keepsG_requestStart _ _ _
  | react n told err vals lost => simp only [exec]; split <;> exact .refl a
  | remove n vals => exact .of_eq rfl
  | bounceAll n => exact .refl a
  | bounce d =>
    simp only [exec]
    split
    · exact keepsG_requestStart _ _ _
    · exact keepsG_requestStop _ _
  | stop n => exact keepsG_requestStop _ _
  | clearOneShot => exact .of_eq rfl
  | report =>
    refine .of_eq ?_
    show (liveReport a).gs = _
    unfold liveReport
    simp only
    split <;> exact tick_gs _
  | check => exact .of_eq (endArm_gs a)

theorem beginStopped_gs (cfg : Config) (a : State) (n : Name) (gid : Nat) (raw : Option Err) (now : Int)
    (vals : Name → List Name) : (beginStopped cfg a n gid raw now vals).1.gs = a.gs := by
  have h1 : ∀ (b : State) f, (noteFatal cfg b n f).gs = b.gs := by
    intro b f
    unfold noteFatal
    split
    · rfl
    · split <;> rfl
  unfold beginStopped
  exact h1 _ _

theorem beginStarted_gs (a : State) (n : Name) (gid : Nat) (w : WRef) (now : Int) :
    (beginStarted a n gid w now).1.gs = a.gs := by
  unfold beginStarted
  simp only
  repeat' split
  · exact killWorker_gs ..
  · exact killWorker_gs ..
  · exact killWorker_gs ..
  · rfl

/-- What a step does to a goroutine: it goes on, or the loop has received its last message. -/
theorem fstep_moves {f f' : Fine} {op : FOp} (c : Core f.s) (h : fstep cfg f op = some f') {g : G} (hg : g ∈ f.s.gs) :
    FGoesOn op g f'.s ∨ ((∃ now raw fe t l, .ended g.name g.gid now raw fe t l ∈ f'.s.hist) ∧
      ∀ x ∈ f'.s.gs, x.gid ≠ g.gid) := by
  have keep : op.mover = none → KeepsG f.s f'.s → FGoesOn op g f'.s := by
    intro h1 h2
    obtain ⟨g', a, b, d, e⟩ := h2 g hg
    exact ⟨g', a, b, d, fun _ => e, fun hx => by rw [h1] at hx; cases hx⟩
  cases op with
  | env op =>
    simp only [fstep] at h
    split at h
    · rename_i he
      rw [Option.map_eq_some_iff] at h
      obtain ⟨s', hs, rfl⟩ := h
      rcases step_moves c hs hg with hh | ⟨_, _, _, rfl⟩
      · exact Or.inl hh
      · cases he
    · cases h
  | work =>
    simp only [fstep] at h
    split at h
    · cases h
    · simp only [Option.some.injEq] at h; subst h
      exact Or.inl (keep rfl (keepsG_exec _ _ _))
  | dying order => simp only [fstep] at h; split at h <;> cases h; exact Or.inl (keep rfl (.refl _))
  | report => simp only [fstep] at h; split at h <;> cases h; exact Or.inl (keep rfl (.refl _))
  | install n m order =>
    simp only [fstep] at h
    split at h <;> cases h
    refine Or.inl (keep rfl (.of_eq ?_))
    unfold beginInstall
    split
    · rfl
    · split <;> rfl
  | started gid now =>
    simp only [fstep] at h
    split at h
    case isFalse => cases h
    split at h
    · cases h
    rename_i x hxx
    obtain ⟨hx, rfl⟩ := getG_some _ _ hxx
    split at h <;> cases h
    rename_i w hpc
    refine Or.inl ?_
    have hgs := beginStarted_gs (f.s.mapG x.gid (fun g => { g with pc := afterOffer w })) x.name x.gid w now
    by_cases hxg : x.gid = g.gid
    · obtain rfl := c.gid_inj hx hg hxg
      refine ⟨{ x with pc := afterOffer w }, ?_, rfl, rfl, fun hn => absurd rfl hn, fun _ => ?_⟩
      · rw [hgs]; exact List.mem_map.2 ⟨x, hg, by simp⟩
      · rw [hpc]; cases w <;> simp [Pc.rank, afterOffer]
    · refine ⟨g, ?_, rfl, rfl, fun _ => rfl, fun hx => absurd (Option.some.inj hx) hxg⟩
      rw [hgs]; exact List.mem_map.2 ⟨g, hg, if_neg (fun hh => hxg (Eq.symm hh))⟩
  | stopped gid now vals =>
    simp only [fstep] at h
    split at h
    case isFalse => cases h
    split at h
    · cases h
    rename_i x hxx
    obtain ⟨hx, rfl⟩ := getG_some _ _ hxx
    split at h <;> cases h
    by_cases hxg : x.gid = g.gid
    · obtain rfl := c.gid_inj hx hg hxg
      refine Or.inr ⟨⟨now, _, _, _, _, (grows_beginStopped cfg { f.s with gs := f.s.gs.filter (fun g => g.gid != x.gid) }
        x.name x.gid _ now vals).mem List.mem_cons_self⟩, fun y hy => ?_⟩
      simp only at hy
      rw [beginStopped_gs] at hy
      simpa using (List.mem_filter.1 hy).2
    · refine Or.inl ⟨g, ?_, rfl, rfl, fun _ => rfl, fun hm => absurd (Option.some.inj hm) hxg⟩
      simp only
      rw [beginStopped_gs]
      exact List.mem_filter.2 ⟨hg, by simpa using fun hh => hxg (Eq.symm hh)⟩

/-- An attempt that does not end stays open. -/
theorem FineRun.stays_open {r : FineRun cfg} {n : Nat} {a : Name} {g : Nat} (ho : openH (r.hist n) a = some g)
    (hne : ∀ k now raw f t l, .ended a g now raw f t l ∉ r.hist k) : ∀ k, n ≤ k → openH (r.hist k) a = some g := by
  refine kept ho ?_
  intro k _ h
  obtain ⟨x, hx, rfl, rfl⟩ := (freach_hinv (r.reach k)).2.openN a g h
  rcases fstep_moves (freach_hinv (r.reach k)).1 (r.next k) hx with ⟨y, hy, h1, h2, _⟩ | ⟨⟨now, raw, f, t, l, h⟩, _⟩
  · rw [← h1, ← h2]; exact (freach_hinv (r.reach (k + 1))).2.openG y hy
  · exact absurd h (hne (k + 1) _ _ _ _ _)

/-- The goroutine of an attempt that stays open ends up at one place. -/
theorem FineRun.follow {r : FineRun cfg} {n : Nat} {g : G} (hop : ∀ k, n ≤ k → openH (r.hist k) g.name = some g.gid) :
    ∃ m pc, n ≤ m ∧ ∀ k, m ≤ k → (r.op k).mover ≠ some g.gid ∧
      ∃ x ∈ (r.st k).s.gs, x.gid = g.gid ∧ x.name = g.name ∧ x.pc = pc := by
  have ex : ∀ k, n ≤ k → ∃ x ∈ (r.st k).s.gs, x.gid = g.gid ∧ x.name = g.name := by
    intro k hk
    obtain ⟨x, hx, h1, h2⟩ := (freach_hinv (r.reach k)).2.openN _ _ (hop k hk)
    exact ⟨x, hx, h2, h1⟩
  have go : ∀ k x, n ≤ k → x ∈ (r.st k).s.gs → x.gid = g.gid → x.name = g.name → FGoesOn (r.op k) x (r.st (k + 1)).s := by
    intro k x hk hx h1 h2
    rcases fstep_moves (freach_hinv (r.reach k)).1 (r.next k) hx with h | ⟨_, h⟩
    · exact h
    · obtain ⟨y, hy, h3, _⟩ := ex (k + 1) (by omega)
      exact absurd (h3.trans h1.symm) (h y hy)
  have hget : ∀ k x, x ∈ (r.st k).s.gs → x.gid = g.gid → (r.st k).s.getG g.gid = some x := fun k x hx h1 => by
    rw [← h1]; exact (freach_hinv (r.reach k)).1.getG_eq hx
  let f : Nat → Nat := fun k => match (r.st k).s.getG g.gid with
    | some x => x.pc.rank
    | none => 0
  have hf : ∀ k x, x ∈ (r.st k).s.gs → x.gid = g.gid → f k = x.pc.rank := fun k x hx h1 => by
    show (match (r.st k).s.getG g.gid with | some x => x.pc.rank | none => 0) = _
    rw [hget k x hx h1]
  obtain ⟨m, hm, hc⟩ := settles (f := f) (n := n) (by
    intro k hk
    obtain ⟨x, hx, h1, h2⟩ := ex k hk
    obtain ⟨y, hy, h3, h4, h5, h6⟩ := go k x (by omega) hx h1 h2
    rw [hf k x hx h1, hf (k + 1) y hy (h3.trans h1)]
    by_cases hmv : (r.op k).mover = some x.gid
    · exact Nat.le_of_lt (h6 hmv)
    · rw [h5 hmv]; exact Nat.le_refl _)
  have still : ∀ k, m ≤ k → (r.op k).mover ≠ some g.gid := by
    intro k hk hmv
    obtain ⟨x, hx, h1, h2⟩ := ex k (by omega)
    obtain ⟨y, hy, h3, h4, h5, h6⟩ := go k x (by omega) hx h1 h2
    have := h6 (by rw [h1]; exact hmv)
    rw [← hf k x hx h1, ← hf (k + 1) y hy (h3.trans h1), hc k hk, hc (k + 1) (by omega)] at this
    omega
  obtain ⟨x, hx, h1, h2⟩ := ex m hm
  refine ⟨m, x.pc, hm, fun k hk => ⟨still k hk, ?_⟩⟩
  exact kept (P := fun k => ∃ y ∈ (r.st k).s.gs, y.gid = g.gid ∧ y.name = g.name ∧ y.pc = x.pc) ⟨x, hx, h1, h2, rfl⟩ (by
    rintro k hk ⟨y, hy, a1, a2, a3⟩
    obtain ⟨z, hz, b1, b2, b3, _⟩ := go k y (by omega) hy a1 a2
    exact ⟨z, hz, b1.trans a1, b2.trans a2, (b3 (by rw [a1]; exact still k hk)).trans a3⟩) k hk

end Verif.Engine
