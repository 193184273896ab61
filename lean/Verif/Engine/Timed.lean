import Verif.Engine.NextDelay
import Verif.Engine.More

/-!
# Engine: time

`Engine.step` lets a delay be over whenever it likes, and takes the times of registrations and ends as arguments. Here the
engine, its loop interruptible as in `Engine/Fine`, runs against a clock (clock.Clock, engine.go:41, 527, 597, 637): time
passes between the steps, the loop reads it when it notes that a worker was started or has stopped, and a delay is not over
earlier than its length after the attempt was begun. Every event is stamped with the time at which it happens.

Simplified: a step takes no time, and the loop reads the clock when it has received the ticket.
-/

namespace Verif.Engine
open State Verif.Spec

/-- An engine, the time, and the history with the times. -/
structure TState where
  f : Fine
  now : Int
  stamps : List (Ev × Int)

/-- What the clock allows: `engine.config.Clock.Now()` is the time (engine.go:597, 637); the channel of clock.After(delay), made
after the goroutine has begun, has a value only when the delay is over (527). -/
def ClockOk (cfg : Config) (ts : TState) : FOp → Prop
  | .env (.gTimer g fuzz) => ∀ n base recent sn t0, (Ev.begin n g base recent sn, t0) ∈ ts.stamps →
      t0 + cfg.delayFn base recent fuzz ≤ ts.now
  | .started _ t => t = ts.now
  | .stopped _ t _ => t = ts.now
  | _ => True

/-- Reachable with a clock. -/
inductive TReach (cfg : Config) : TState → Prop
  | init (t0 : Int) : TReach cfg ⟨{}, t0, []⟩
  | tick {ts : TState} (t : Int) : TReach cfg ts → ts.now ≤ t → TReach cfg { ts with now := t }
  | step {ts : TState} (op : FOp) {f' : Fine} {es : List Ev} : TReach cfg ts → fstep cfg ts.f op = some f' → ClockOk cfg ts op →
      f'.s.hist = es ++ ts.f.s.hist → TReach cfg ⟨f', ts.now, es.map (fun e => (e, ts.now)) ++ ts.stamps⟩

variable {cfg : Config}

theorem TReach.reach {ts : TState} (h : TReach cfg ts) : FReach cfg ts.f := by
  induction h with
  | init t0 => exact .init
  | tick t _ _ ih => exact ih
  | step op _ hs _ _ ih => exact ih.step op hs

theorem TReach.hist {ts : TState} (h : TReach cfg ts) : ts.stamps.map Prod.fst = ts.f.s.hist := by
  induction h with
  | init t0 => rfl
  | tick t _ _ ih => exact ih
  | step op _ hs _ hh ih => rw [hh, List.map_append, ih, List.map_map]; simp [Function.comp_def]

theorem TReach.le_now {ts : TState} (h : TReach cfg ts) : ∀ x ∈ ts.stamps, x.2 ≤ ts.now := by
  induction h with
  | init t0 => nofun
  | tick t _ hle ih => intro x hx; exact Int.le_trans (ih x hx) hle
  | step op _ hs _ hh ih =>
    intro x hx
    rcases List.mem_append.1 hx with hx | hx
    · obtain ⟨e, _, rfl⟩ := List.mem_map.1 hx
      exact Int.le_refl _
    · exact ih x hx

theorem TReach.sorted {ts : TState} (h : TReach cfg ts) : ts.stamps.Pairwise (fun a b => b.2 ≤ a.2) := by
  induction h with
  | init t0 => exact .nil
  | tick t _ hle ih => exact ih
  | @step ts op s' es hr hs _ hh ih =>
    rw [List.pairwise_append]
    refine ⟨?_, ih, ?_⟩
    · rw [List.pairwise_map]
      simp only [Int.le_refl]
      clear hh
      induction es with
      | nil => exact .nil
      | cons a l ih => exact .cons (fun _ _ => trivial) ih
    · intro a ha b hb
      obtain ⟨e, _, rfl⟩ := List.mem_map.1 ha
      exact hr.le_now b hb

/-! ## Which step makes which event -/

/-- None of the events whose time matters. -/
def dull : Ev → Bool
  | .startCall .. | .registered .. | .ended .. => false
  | _ => true

theorem dull_tick (s : State) : More dull s s.tick := by
  unfold State.tick
  split
  · exact .of rfl
  · exact .one .kill rfl rfl
  · exact .of rfl

theorem dull_killWorker (s : State) (w : WRef) : More dull s (s.killWorker w) := by
  cases w with
  | self => exact (More.one (P := dull) (s' := s.log (.killW .self)) _ rfl rfl).trans (.one .kill rfl rfl)
  | obj k => exact .one _ rfl rfl

theorem dull_requestStart (s : State) (n : Name) (d : Int) : More dull s (requestStart s n d) := by
  unfold requestStart
  simp only
  have h1 : More dull s (if (s.manifolds.get? n).isNone then s.killInternal 384 n else s) := by split <;> exact .of rfl
  generalize (if (s.manifolds.get? n).isNone then s.killInternal 384 n else s) = s1 at h1
  have h2 : More dull s (if (s1.cur n).stopped then s1 else s1.killInternal 390 n) := h1.trans (by split <;> exact .of rfl)
  generalize (if (s1.cur n).stopped then s1 else s1.killInternal 390 n) = s2 at h2
  have h3 := h2.trans (dull_tick s2)
  split
  · exact h3
  · exact h3.trans (.one _ rfl rfl)

theorem dull_markStopping (s : State) (n : Name) : More dull s (markStopping s n) := by
  unfold markStopping
  simp only
  split
  · exact .one _ rfl rfl
  · exact .of rfl

theorem dull_requestStop (s : State) (n : Name) : More dull s (requestStop s n) := by
  unfold requestStop
  simp only
  split
  · exact .of rfl
  · split
    · exact (dull_markStopping s n).trans (dull_killWorker _ _)
    · exact dull_markStopping s n

theorem dull_exec (cfg : Config) (s : State) (t : Task) : More dull s (exec cfg s t).1 := by
  cases t with
  | start n d => exact dull_requestStart s n d
  | react n told err vals lost =>
    simp only [exec]
    split <;> exact .of rfl
  | remove n vals => exact .one _ rfl rfl
  | bounceAll n => exact .of rfl
  | bounce d =>
    show More dull s (if _ then _ else _)
    split
    · exact dull_requestStart _ _ _
    · exact dull_requestStop _ _
  | stop n => exact dull_requestStop s n
  | clearOneShot => exact .of rfl
  | report =>
    show More dull s (liveReport s)
    unfold liveReport
    simp only
    split <;> exact (dull_tick s).trans (.one _ rfl rfl)
  | check =>
    show More dull s (endArm s)
    unfold endArm
    simp only
    split
    · exact (dull_tick s).trans (.one .exit rfl rfl)
    · exact (dull_tick s).trans (.of rfl)

/-- What a step adds to the history, as far as times matter. -/
inductive Adds (cfg : Config) (s : State) : FOp → State → Prop
  | plain {op : FOp} {s' : State} : More dull s s' → Adds cfg s op s'
  | call {s' : State} (g : G) (fuzz : Rat) : g ∈ s.gs → 0 ≤ fuzz → fuzz < 1 →
      s'.hist = .startCall g.name g.gid (cfg.delayFn g.base g.recent fuzz) :: s.hist → Adds cfg s (.env (.gTimer g.gid fuzz)) s'
  | registered {s' : State} (n : Name) (g : Nat) (w : WRef) (t : Int) : s'.hist = .registered n g w t :: s.hist →
      Adds cfg s (.started g t) s'
  | ended {s' : State} (n : Name) (g : Nat) (t : Int) (vals : Name → List Name) (raw f : Option Err) (told : Bool) (lost : Option WRef)
      (es : List Ev) : s'.hist = es ++ .ended n g t raw f told lost :: s.hist → (∀ e ∈ es, dull e = true) →
      Adds cfg s (.stopped g t vals) s'

theorem fstep_adds {f f' : Fine} {op : FOp} (h : fstep cfg f op = some f') : Adds cfg f.s op f'.s := by
  cases op with
  | env op =>
    simp only [fstep] at h
    split at h
    · rename_i he
      obtain ⟨s', hs, rfl⟩ := Option.map_eq_some_iff.1 h
      cases op with
      | armDying | armReport | armInstall | armStarted | armStopped => cases he
      | kill => simp only [step, Option.some.injEq] at hs; subst hs; exact .plain (.one .kill rfl rfl)
      | gTimer gid fuzz =>
        simp only [step] at hs
        split at hs
        · rename_i g hg
          split at hs
          · rename_i hc
            cases hs
            obtain ⟨hm, rfl⟩ := getG_some _ _ hg
            exact .call g fuzz hm hc.2.1 hc.2.2 rfl
          · cases hs
        · cases hs
      | gRegisterDying gid =>
        simp only [step] at hs
        split at hs
        · split at hs
          · split at hs
            · cases hs
              exact .plain (More.trans (b := f.s.mapG gid _) (.of rfl) (dull_killWorker _ _))
            · cases hs
          · cases hs
        · cases hs
      | installRefused | gAbort | gGet | gStartOk | gStartErr | gSelfDone | gWaitRet | finish =>
        simp only [step] at hs
        repeat' split at hs
        all_goals first
          | (simp only [Option.some.injEq] at hs; subst hs
             exact .plain (by first | exact .of rfl | exact .one _ rfl rfl))
          | cases hs
    · cases h
  | work =>
    simp only [fstep] at h
    split at h
    · cases h
    · cases h; exact .plain (dull_exec cfg f.s _)
  | dying order =>
    simp only [fstep] at h
    split at h
    · cases h; exact .plain (.of rfl)
    · cases h
  | report =>
    simp only [fstep] at h
    split at h
    · cases h; exact .plain (.of rfl)
    · cases h
  | install n m order =>
    simp only [fstep] at h
    split at h
    · cases h
      refine .plain ?_
      show More dull f.s (beginInstall f.s n m order).1
      unfold beginInstall
      split
      · exact .one _ rfl rfl
      · split
        · exact .one _ rfl rfl
        · exact .one _ rfl rfl
    · cases h
  | started gid now =>
    simp only [fstep] at h
    split at h
    · split at h
      · cases h
      · rename_i g hg
        split at h
        · rename_i w hpc
          cases h
          dsimp only
          unfold beginStarted
          simp only
          split
          · exact .plain (More.trans (b := f.s) (.of rfl) (More.trans (b := ((f.s.mapG gid _).killInternal 584 g.name)) (.of rfl) (dull_killWorker _ _)))
          · split
            · exact .plain (More.trans (b := f.s.mapG gid _) (.of rfl) (dull_killWorker _ _))
            · split
              · exact .plain (More.trans (b := f.s.mapG gid _) (.of rfl) (dull_killWorker _ _))
              · exact .registered g.name gid w now rfl
        · cases h
    · cases h
  | stopped gid now vals =>
    simp only [fstep] at h
    split at h
    · split at h
      · cases h
      · rename_i g hg
        split at h
        · rename_i e hpc
          cases h
          dsimp only
          unfold beginStopped
          simp only
          unfold noteFatal
          split
          · exact .ended g.name gid now vals _ _ _ _ [] rfl nofun
          · split
            · exact .ended g.name gid now vals _ _ _ _ [.kill] rfl (by intro x hx; cases List.mem_singleton.1 hx; rfl)
            · exact .ended g.name gid now vals _ _ _ _ [] rfl nofun
        · cases h
    · cases h

/-! ## What is true of the stamps -/

/-- Registrations and ends carry the time at which they are recorded; a Start func is not called before the delay of its
attempt is over. -/
def TimeOk (cfg : Config) : Ev × Int → List (Ev × Int) → Prop := fun x pre => match x with
  | (.registered _ _ _ t, t1) => t = t1
  | (.ended _ _ t _ _ _ _, t1) => t = t1
  | (.startCall n g d, t1) => ∃ base recent sn fuzz t0, (Ev.begin n g base recent sn, t0) ∈ pre ∧ 0 ≤ fuzz ∧ fuzz < 1 ∧
      d = cfg.delayFn base recent fuzz ∧ t0 + d ≤ t1
  | _ => True

theorem timeOk_dull {e : Ev} {t : Int} {pre : List (Ev × Int)} (h : dull e = true) : TimeOk cfg (e, t) pre := by
  cases e <;> first | trivial | cases h

theorem atNew_dull {es : List Ev} {t : Int} {pre : List (Ev × Int)} (h : ∀ e ∈ es, dull e = true) :
    AtNew (TimeOk cfg) (es.map (fun e => (e, t))) pre := by
  induction es with
  | nil => trivial
  | cons e es ih => exact ⟨timeOk_dull (h e (.head _)), ih (fun x hx => h x (.tail _ hx))⟩

theorem TReach.times {ts : TState} (h : TReach cfg ts) : AtEvery (TimeOk cfg) ts.stamps := by
  induction h with
  | init t0 => trivial
  | tick t _ _ ih => exact ih
  | @step ts op f' es hr hs hc hh ih =>
    refine AtEvery.append ?_ ih
    generalize hs' : f'.s = s' at hh
    have ha := fstep_adds hs
    rw [hs'] at ha
    cases ha with
    | plain hd =>
      obtain ⟨fs, h1, h2⟩ := hd
      rw [hh] at h1
      have := List.append_cancel_right h1
      subst this
      exact atNew_dull h2
    | call g fuzz hg h0 h1 he =>
      rw [hh] at he
      have : es = [_] := List.append_cancel_right (bs := ts.f.s.hist) (cs := [_]) he
      subst this
      refine ⟨?_, trivial⟩
      obtain ⟨D, hl⟩ := freach_link hr.reach
      have hb := (ex_binv hl.1).2 g hg
      rw [← hr.hist] at hb
      obtain ⟨⟨e, t0⟩, hm, he⟩ := List.mem_map.1 hb
      simp only at he
      subst he
      exact ⟨_, _, _, fuzz, t0, hm, h0, h1, rfl, hc _ _ _ _ _ hm⟩
    | registered n g w t he =>
      rw [hh] at he
      have : es = [_] := List.append_cancel_right (bs := ts.f.s.hist) (cs := [_]) he
      subst this
      exact ⟨hc, trivial⟩
    | ended n g t vals raw f told lost fs he hd =>
      rw [hh] at he
      have : es = fs ++ [.ended n g t raw f told lost] := List.append_cancel_right (bs := ts.f.s.hist) (by rw [he]; simp)
      subst this
      rw [List.map_append]
      exact AtNew.append (atNew_dull hd) ⟨hc, trivial⟩

end Verif.Engine
