import Verif.Engine.Timed
import Verif.Props.EngineFine
import Verif.Props.Delay

/-!
# C84: restarts of manifolds against a clock

`TReach cfg ts` (Verif/Engine/Timed.lean): `ts` can be reached by an engine, its loop interruptible, together with a clock;
`ts.stamps` is the history with the time of every event, newest first.
-/

namespace Verif.Props
open Verif.Engine Verif.Spec

/-! ## Concrete executions with times -/

namespace FDemo

/-- What `ClockOk` says, decidably. -/
def clockB (cfg : Config) (ts : TState) : FOp → Bool
  | .env (.gTimer g fuzz) => ts.stamps.all (fun x => match x with
    | (.begin _ g' base recent _, t0) => decide (g' ≠ g) || decide (t0 + cfg.delayFn base recent fuzz ≤ ts.now)
    | _ => true)
  | .started _ t => decide (t = ts.now)
  | .stopped _ t _ => decide (t = ts.now)
  | _ => true

theorem clockB_ok {cfg : Config} {ts : TState} {op : FOp} (h : clockB cfg ts op = true) : ClockOk cfg ts op := by
  cases op with
  | env op =>
    cases op with
    | gTimer g fuzz =>
      intro n base recent sn t0 hm
      have := List.all_eq_true.1 h _ hm
      simpa using this
    | _ => trivial
  | started g t => simpa [clockB, ClockOk] using h
  | stopped g t v => simpa [clockB, ClockOk] using h
  | _ => trivial

/-- Run operations at given times; `none` if one is not enabled, or not at that time. -/
def tRun (cfg : Config) : TState → List (Int × FOp) → Option TState
  | ts, [] => some ts
  | ts, (t, op) :: ops =>
    if ts.now ≤ t then
      match fstep cfg ts.f op with
      | some f' =>
        let es := f'.s.hist.take (f'.s.hist.length - ts.f.s.hist.length)
        if clockB cfg { ts with now := t } op = true ∧ f'.s.hist = es ++ ts.f.s.hist then
          tRun cfg ⟨f', t, es.map (fun e => (e, t)) ++ ts.stamps⟩ ops
        else none
      | none => none
    else none

theorem tRun_reach {cfg : Config} : ∀ (ops : List (Int × FOp)) {ts ts' : TState}, TReach cfg ts → tRun cfg ts ops = some ts' →
    TReach cfg ts' := by
  intro ops
  induction ops with
  | nil => intro ts ts' hr h; simp only [tRun, Option.some.injEq] at h; exact h ▸ hr
  | cons x ops ih =>
    intro ts ts' hr h
    obtain ⟨t, op⟩ := x
    simp only [tRun] at h
    split at h
    · rename_i hle
      split at h
      · rename_i s' hs
        split at h
        · rename_i hc
          exact ih (.step (ts := { ts with now := t }) op (hr.tick t hle) hs (clockB_ok hc.1) hc.2) h
        · cases h
      · cases h
    · cases h

def tAfter (cfg : Config) (ops : List (Int × FOp)) : TState := (tRun cfg ⟨{}, 1, []⟩ ops).getD ⟨{}, 1, []⟩

theorem tAfter_reach (cfg : Config) (ops : List (Int × FOp)) : TReach cfg (tAfter cfg ops) := by
  unfold tAfter
  cases h : tRun cfg ⟨{}, 1, []⟩ ops with
  | none => exact .init 1
  | some s => exact tRun_reach ops (.init 1) h

/-- The delays double with every failure. -/
def cfg2 : Config := { Demo.cfg with delayFn := fun base recent _ => base * 2 ^ (recent - 1) }

/-- Manifold 0 is installed at time 5; its worker fails at 20, the next one at 25, the one after that, which has run for more
than 60, at 100. -/
def opsTimed : List (Int × FOp) :=
  [(5, .install 0 {} [0]), (5, .work), (5, .work), (6, .env (.gTimer 0 0)), (7, .env (.gStartOk 0 (.obj 10))), (8, .started 0 8), (8, .work), (8, .work),
   (20, .env (.finish 10 (some (.user 1)))), (20, .env (.gWaitRet 0)), (20, .stopped 0 20 Demo.noVals), (20, .work), (20, .work), (20, .work), (20, .work),
   (23, .env (.gTimer 1 0)), (23, .env (.gStartOk 1 (.obj 11))), (24, .started 1 24), (24, .work), (24, .work),
   (25, .env (.finish 11 (some (.user 1)))), (25, .env (.gWaitRet 1)), (25, .stopped 1 25 Demo.noVals), (25, .work), (25, .work), (25, .work), (25, .work),
   (32, .env (.gTimer 2 0)), (33, .env (.gStartOk 2 (.obj 12))), (33, .started 2 33), (33, .work), (33, .work),
   (100, .env (.finish 12 (some (.user 1)))), (100, .env (.gWaitRet 2)), (100, .stopped 2 100 Demo.noVals), (100, .work), (100, .work), (100, .work), (100, .work),
   (103, .env (.gTimer 3 0))]

end FDemo


section
variable {cfg : Config} {ts : TState}

/-! ## The base delay, from the history of the manifold alone -/

/-- C84: whatever else goes on, the base delay of every attempt is a function of what happened to its own manifold: none if it
was installed and not started since; ErrorDelay if its latest attempt failed by itself; BounceDelay otherwise. -/
theorem C84_base_delay {f : Fine} (hr : FReach cfg f) : AtEvery (fun e h => match e with
    | .begin n _ d _ _ => d = baseH cfg.errorDelay cfg.bounceDelay h n
    | _ => True) f.s.hist := (freach_sched hr).hist

-- all three
example : FReach Demo.cfg (FDemo.after Demo.cfg FDemo.opsDown) ∧
    (FDemo.after Demo.cfg FDemo.opsDown).s.hist.filterMap (fun e => match e with
      | .begin n _ d _ _ => some (n, d) | _ => none) = [(0, 3), (1, 1), (1, 0), (0, 0)] :=
  ⟨FDemo.after_reach _ _, by decide +kernel⟩

/-! ## Times -/

/-- C84: the times go up, belong to the events of the history, and are those recorded in it. -/
theorem C84_times (hr : TReach cfg ts) : ts.stamps.map Prod.fst = ts.f.s.hist ∧ ts.stamps.Pairwise (fun a b => b.2 ≤ a.2) ∧
    (∀ x ∈ ts.stamps, x.2 ≤ ts.now) ∧ (∀ n g w t t', (Ev.registered n g w t, t') ∈ ts.stamps → t = t') ∧
    ∀ n g t raw f told lost t', (Ev.ended n g t raw f told lost, t') ∈ ts.stamps → t = t' := by
  refine ⟨hr.hist, hr.sorted, hr.le_now, ?_, ?_⟩
  · intro n g w t t' hm
    obtain ⟨post, pre, hh⟩ := List.append_of_mem hm
    have := hr.times
    rw [hh] at this
    exact this.split
  · intro n g t raw f told lost t' hm
    obtain ⟨post, pre, hh⟩ := List.append_of_mem hm
    have := hr.times
    rw [hh] at this
    exact this.split

/-- The part of the history that has the given events is the part that has the given stamps. -/
theorem begin_once (hr : TReach cfg ts) {n n' : Name} {g : Nat} {b b' : Int} {r r' : Nat} {sn sn' : Snapshot} {t t' : Int}
    (h1 : (Ev.begin n g b r sn, t) ∈ ts.stamps) (h2 : (Ev.begin n' g b' r' sn', t') ∈ ts.stamps) :
    (Ev.begin n' g b' r' sn', t') = (Ev.begin n g b r sn, t) := by
  have earlier : ∀ {post pre : List (Ev × Int)} {n n' : Name} {b b' : Int} {r r' : Nat} {sn sn' : Snapshot} {t t' : Int},
      ts.stamps = post ++ (.begin n g b r sn, t) :: pre → (Ev.begin n' g b' r' sn', t') ∉ pre := by
    intro post pre n n' b b' r r' sn sn' t t' hh hm
    have hk := C81_one_at_a_time hr.reach
    rw [← hr.hist, hh] at hk
    simp only [List.map_append, List.map_cons] at hk
    have h := hk.split (e := Ev.begin n g b r sn)
    exact h.2.1 _ _ _ _ (List.mem_map.2 ⟨_, hm, rfl⟩)
  obtain ⟨post, pre, hh⟩ := List.append_of_mem h1
  have h3 := h2
  rw [hh] at h3
  rcases List.mem_append.1 h3 with h3 | h3
  · obtain ⟨q1, q2, hq⟩ := List.append_of_mem h3
    rw [hq, List.append_assoc] at hh
    exact absurd (by simp) (earlier (n' := n) (b' := b) (r' := r) (sn' := sn) (t' := t) hh)
  · rcases List.mem_cons.1 h3 with h3 | h3
    · exact h3
    · exact absurd h3 (earlier hh)

/-- C84: the Start func of an attempt is not called before its delay is over: the delay function of the base delay and the
error count with which the attempt was begun. -/
theorem C84_delay (hr : TReach cfg ts) {n n' : Name} {g : Nat} {d base : Int} {recent : Nat} {sn : Snapshot} {t0 t1 : Int}
    (h1 : (Ev.startCall n g d, t1) ∈ ts.stamps) (h2 : (Ev.begin n' g base recent sn, t0) ∈ ts.stamps) :
    ∃ fuzz, 0 ≤ fuzz ∧ fuzz < 1 ∧ d = cfg.delayFn base recent fuzz ∧ t0 + d ≤ t1 := by
  obtain ⟨post, pre, hh⟩ := List.append_of_mem h1
  have := hr.times
  rw [hh] at this
  obtain ⟨b, r, sn', fuzz, t, hm, h3, h4, h5, h6⟩ := this.split
  have hm' : (Ev.begin n g b r sn', t) ∈ ts.stamps := by rw [hh]; simp [hm]
  have := begin_once hr hm' h2
  cases this
  exact ⟨fuzz, h3, h4, h5, h6⟩

/-- An event that makes the manifold be started anew, or not at all. -/
def resets (n : Name) : Ev → Bool
  | .installed m _ | .uninstalled m => n = m
  | .ended m _ _ _ _ _ _ => n = m
  | _ => false

theorem base_quiet {e b : Int} {n : Name} {es h : List Ev} (hq : ∀ x ∈ es, resets n x = false) :
    baseH e b (es ++ h) n = baseH e b h n := by
  induction es with
  | nil => rfl
  | cons x es ih =>
    have h1 := hq x (.head _)
    have h2 := ih (fun y hy => hq y (.tail _ hy))
    cases x with
    | installed m y =>
      have h1 : n ≠ m := by simpa [resets] using h1
      simp only [List.cons_append, baseH, if_neg h1]; exact h2
    | ended m =>
      have h1 : n ≠ m := by simpa [resets] using h1
      simp only [List.cons_append, baseH, if_neg h1]; exact h2
    | _ => exact h2

theorem recent_quiet {reset : Int} {n : Name} {es h : List Ev} (hq : ∀ x ∈ es, resets n x = false) :
    recentH reset (es ++ h) n = recentH reset h n := by
  induction es with
  | nil => rfl
  | cons x es ih =>
    have h1 := hq x (.head _)
    have h2 := ih (fun y hy => hq y (.tail _ hy))
    cases x with
    | installed m y =>
      have h1 : n ≠ m := by simpa [resets] using h1
      simp only [List.cons_append, recentH, if_neg h1]; exact h2
    | uninstalled m =>
      have h1 : n ≠ m := by simpa [resets] using h1
      simp only [List.cons_append, recentH, if_neg h1]; exact h2
    | ended m =>
      have h1 : n ≠ m := by simpa [resets] using h1
      simp only [List.cons_append, recentH, if_neg h1]; exact h2
    | _ => exact h2

/-- What makes an attempt open after the manifold had none. -/
theorem engine_begin_since {mid pre : List Ev} {n : Name} {g : Nat} (h0 : openH pre n = none) (ho : openH (mid ++ pre) n = some g) :
    ∃ m1 m2 d r sn, mid = m1 ++ .begin n g d r sn :: m2 := by
  induction mid with
  | nil => rw [List.nil_append, h0] at ho; cases ho
  | cons a mid ih =>
    have old : openH (mid ++ pre) n = some g → ∃ m1 m2 d r sn, a :: mid = m1 ++ .begin n g d r sn :: m2 := by
      intro h
      obtain ⟨m1, m2, d, r, sn, h⟩ := ih h
      exact ⟨a :: m1, m2, d, r, sn, by rw [h]; rfl⟩
    cases a with
    | begin m k d r sn =>
      simp only [List.cons_append, openH] at ho
      split at ho
      · rename_i he; subst he; cases ho; exact ⟨[], mid, d, r, sn, rfl⟩
      · exact old ho
    | ended m k =>
      simp only [List.cons_append, openH] at ho
      split at ho
      · cases ho
      · exact old ho
    | _ => exact old ho

/-- The stamps of a piece of the history. -/
theorem stamps_split {st : List (Ev × Int)} {m1 m2 : List Ev} {e : Ev} (h : st.map Prod.fst = m1 ++ e :: m2) :
    ∃ n1 t n2, st = n1 ++ (e, t) :: n2 ∧ n1.map Prod.fst = m1 ∧ n2.map Prod.fst = m2 := by
  obtain ⟨n1, n2, h1, h2, h3⟩ := List.map_eq_append_iff.1 h
  obtain ⟨⟨b, t⟩, n3, h4, h5, h6⟩ := List.map_eq_cons_iff.1 h3
  simp only at h5
  subst h5
  exact ⟨n1, t, n3, by rw [h1, h4], h2, h6⟩

/-- C84: after an attempt of a manifold has ended (and nothing else has happened to the manifold than that it was begun
again), its Start func is not called before the delay is over: the delay function applied to ErrorDelay, if the attempt
failed by itself, or BounceDelay, and to the number of failures counted at the end. -/
theorem C84_restart (hr : TReach cfg ts) {post mid pre : List (Ev × Int)} {n : Name} {g g' : Nat} {d t t0 t1 : Int}
    {raw f : Option Err} {told : Bool} {lost : Option WRef}
    (hh : ts.stamps = post ++ (.startCall n g' d, t1) :: (mid ++ (.ended n g t raw f told lost, t0) :: pre))
    (hq : ∀ x ∈ mid, resets n x.1 = false) :
    ∃ fuzz, 0 ≤ fuzz ∧ fuzz < 1 ∧ t0 + d ≤ t1 ∧
      d = cfg.delayFn (if told = false ∧ ownFailure f = true then cfg.errorDelay else cfg.bounceDelay)
        (recentH cfg.backoffResetTime (.ended n g t raw f told lost :: pre.map Prod.fst) n) fuzz := by
  have hhist : ts.f.s.hist = post.map Prod.fst ++ Ev.startCall n g' d :: (mid.map Prod.fst ++ Ev.ended n g t raw f told lost :: pre.map Prod.fst) := by
    rw [← hr.hist, hh]; simp
  have hk := C81_one_at_a_time hr.reach
  rw [hhist] at hk
  have h1 := hk.split (e := Ev.startCall n g' d)
  obtain ⟨m1, m2, b, r, sn, hm⟩ := engine_begin_since (by simp [openH]) h1.1
  obtain ⟨n1, tb, n2, hmid, hn1, hn2⟩ := stamps_split hm
  have hall : ts.f.s.hist = (post.map Prod.fst ++ Ev.startCall n g' d :: m1) ++ Ev.begin n g' b r sn :: (m2 ++ Ev.ended n g t raw f told lost :: pre.map Prod.fst) := by
    rw [hhist, hm]; simp
  have hb := C84_base_delay hr.reach
  rw [hall] at hb
  have hb := hb.split (e := Ev.begin n g' b r sn)
  have hre := C81_recent_errors hr.reach
  rw [hall] at hre
  have hre := hre.split (e := Ev.begin n g' b r sn)
  have hq2 : ∀ x ∈ m2, resets n x = false := by
    intro x hx
    rw [← hn2] at hx
    obtain ⟨y, hy, rfl⟩ := List.mem_map.1 hx
    exact hq y (by rw [hmid]; simp [hy])
  simp only at hb hre
  rw [base_quiet hq2] at hb
  rw [recent_quiet hq2] at hre
  obtain ⟨fuzz, f0, f1, hd, hle⟩ := C84_delay hr (n := n) (g := g') (d := d) (t1 := t1) (by rw [hh]; simp)
    (n' := n) (base := b) (recent := r) (sn := sn) (t0 := tb) (by rw [hh, hmid]; simp)
  have hso := hr.sorted
  rw [hh, hmid, List.pairwise_append, List.pairwise_cons] at hso
  have h3 := hso.2.1.2
  rw [List.append_assoc, List.pairwise_append, List.cons_append, List.pairwise_cons] at h3
  have h4 : t0 ≤ tb := h3.2.1.1 (.ended n g t raw f told lost, t0) (by simp)
  refine ⟨fuzz, f0, f1, by omega, ?_⟩
  rw [hd, hb, hre]
  simp [baseH]

example : TReach FDemo.cfg2 (FDemo.tAfter FDemo.cfg2 FDemo.opsTimed) ∧
    ∃ post mid pre, (FDemo.tAfter FDemo.cfg2 FDemo.opsTimed).stamps =
      post ++ (.startCall 0 2 6, 32) :: (mid ++ (.ended 0 1 25 (some (.user 1)) (some (.user 1)) false (some (.obj 11)), 25) :: pre) ∧
    mid.length = 1 ∧ ∀ x ∈ mid, resets 0 x.1 = false :=
  ⟨FDemo.tAfter_reach _ _, (FDemo.tAfter FDemo.cfg2 FDemo.opsTimed).stamps.take 6, ((FDemo.tAfter FDemo.cfg2 FDemo.opsTimed).stamps.drop 7).take 1,
    (FDemo.tAfter FDemo.cfg2 FDemo.opsTimed).stamps.drop 9, by decide +kernel, by decide +kernel, by decide +kernel⟩

-- one unit earlier it is not possible
example : FDemo.tRun FDemo.cfg2 ⟨{}, 1, []⟩ (FDemo.opsTimed.take 27 ++ [(30, .env (.gTimer 2 0))]) = none ∧
    (FDemo.tRun FDemo.cfg2 ⟨{}, 1, []⟩ (FDemo.opsTimed.take 27 ++ [(31, .env (.gTimer 2 0))])).isSome = true := by decide +kernel

/-! ## How often a manifold can be started -/

theorem base_after_end {e b : Int} {n : Name} {es h : List Ev} (hi : ∀ m, .installed n m ∉ es)
    (he : ∃ g t raw f told lost, .ended n g t raw f told lost ∈ es) : baseH e b (es ++ h) n = e ∨ baseH e b (es ++ h) n = b := by
  induction es with
  | nil => obtain ⟨_, _, _, _, _, _, h⟩ := he; cases h
  | cons x es ih =>
    have old : (∃ g t raw f told lost, .ended n g t raw f told lost ∈ es) → baseH e b (es ++ h) n = e ∨ baseH e b (es ++ h) n = b :=
      ih (fun m hm => hi m (.tail _ hm))
    obtain ⟨g, t, raw, f, told, lost, hm⟩ := he
    cases x with
    | installed m y =>
      have h1 : n ≠ m := by rintro rfl; exact hi y (.head _)
      simp only [List.cons_append, baseH, if_neg h1]
      rcases List.mem_cons.1 hm with hm | hm
      · cases hm
      · exact old ⟨_, _, _, _, _, _, hm⟩
    | ended m g' t' raw' f' told' lost' =>
      simp only [List.cons_append, baseH]
      split
      · split
        · exact Or.inl rfl
        · exact Or.inr rfl
      · rename_i hne
        rcases List.mem_cons.1 hm with hm | hm
        · cases hm; exact absurd rfl hne
        · exact old ⟨_, _, _, _, _, _, hm⟩
    | _ =>
      rcases List.mem_cons.1 hm with hm | hm
      · cases hm
      · exact old ⟨_, _, _, _, _, _, hm⟩

/-- What makes an attempt be waiting for its delay after another had called Start. -/
theorem delayed_begin {mid pre : List Ev} {n : Name} (h0 : phaseH pre n ≠ .delayed) (ho : phaseH (mid ++ pre) n = .delayed) :
    ∃ m1 m2 g d r sn, mid = m1 ++ .begin n g d r sn :: m2 ∧ openH (mid ++ pre) n = some g := by
  induction mid with
  | nil => exact absurd ho h0
  | cons a mid ih =>
    have old : phaseH (mid ++ pre) n = .delayed → (∀ g, openH (mid ++ pre) n = some g → openH (a :: mid ++ pre) n = some g) →
        ∃ m1 m2 g d r sn, a :: mid = m1 ++ .begin n g d r sn :: m2 ∧ openH (a :: mid ++ pre) n = some g := by
      intro h hk
      obtain ⟨m1, m2, g, d, r, sn, h, h2⟩ := ih h
      exact ⟨a :: m1, m2, g, d, r, sn, by rw [h]; rfl, hk g h2⟩
    cases a with
    | begin m k d r sn =>
      simp only [List.cons_append, phaseH] at ho
      split at ho
      · rename_i he; subst he; exact ⟨[], mid, k, d, r, sn, rfl, by simp [openH]⟩
      · rename_i hne; exact old ho (fun g hg => by simpa [openH, hne] using hg)
    | ended m k =>
      simp only [List.cons_append, phaseH] at ho
      split at ho
      · cases ho
      · rename_i hne; exact old ho (fun g hg => by simpa [openH, hne] using hg)
    | startCall m =>
      simp only [List.cons_append, phaseH] at ho
      split at ho
      · cases ho
      · exact old ho (fun g hg => hg)
    | startOk m =>
      simp only [List.cons_append, phaseH] at ho
      split at ho
      · cases ho
      · exact old ho (fun g hg => hg)
    | startErr m =>
      simp only [List.cons_append, phaseH] at ho
      split at ho
      · cases ho
      · exact old ho (fun g hg => hg)
    | _ => exact old ho (fun g hg => hg)

/-- What makes an attempt not be open any more. -/
theorem closed_end {mid pre : List Ev} {n : Name} {g : Nat} (h0 : openH pre n = some g) (ho : openH (mid ++ pre) n = none) :
    ∃ g t raw f told lost, .ended n g t raw f told lost ∈ mid := by
  induction mid with
  | nil => rw [List.nil_append, h0] at ho; cases ho
  | cons a mid ih =>
    have old : openH (mid ++ pre) n = none → ∃ g t raw f told lost, .ended n g t raw f told lost ∈ a :: mid := by
      intro h
      obtain ⟨g, t, raw, f, told, lost, h⟩ := ih h
      exact ⟨_, _, _, _, _, _, .tail _ h⟩
    cases a with
    | begin m =>
      simp only [List.cons_append, openH] at ho
      split at ho
      · cases ho
      · exact old ho
    | ended m g t raw f told lost =>
      simp only [List.cons_append, openH] at ho
      split at ho
      · rename_i he; subst he; exact ⟨_, _, _, _, _, _, .head _⟩
      · exact old ho
    | _ => exact old ho

/-- Every delay between two attempts is at least `m`. -/
def AtLeast (cfg : Config) (m : Int) : Prop := ∀ base recent fuzz, base = cfg.errorDelay ∨ base = cfg.bounceDelay →
  0 ≤ fuzz → fuzz < 1 → m ≤ cfg.delayFn base recent fuzz

/-- C84: unless the manifold was installed anew, two calls of its Start func are at least the smallest delay apart. -/
theorem C84_apart (hr : TReach cfg ts) {m : Int} (hm : AtLeast cfg m) {post mid pre : List (Ev × Int)} {n : Name} {g g' : Nat}
    {d d' t0 t1 : Int} (hh : ts.stamps = post ++ (.startCall n g' d', t1) :: (mid ++ (.startCall n g d, t0) :: pre))
    (hi : ∀ x t, (Ev.installed n x, t) ∉ mid) : t0 + m ≤ t1 := by
  have hhist : ts.f.s.hist = post.map Prod.fst ++ Ev.startCall n g' d' :: (mid.map Prod.fst ++ Ev.startCall n g d :: pre.map Prod.fst) := by
    rw [← hr.hist, hh]; simp
  have hk := C81_one_at_a_time hr.reach
  have hk1 := hk
  rw [hhist] at hk1
  have h1 := hk1.split (e := Ev.startCall n g' d')
  have h2 : openH (pre.map Prod.fst) n = some g := by
    have e : ts.f.s.hist = (post.map Prod.fst ++ Ev.startCall n g' d' :: mid.map Prod.fst) ++ Ev.startCall n g d :: pre.map Prod.fst := by
      rw [hhist]; simp
    rw [e] at hk
    exact (hk.split (e := Ev.startCall n g d)).1
  obtain ⟨m1, m2, g2, b, r, sn, hmm, ho⟩ := delayed_begin (by simp [phaseH]) h1.2
  rw [h1.1] at ho
  cases ho
  obtain ⟨n1, tb, n2, hmid, hn1, hn2⟩ := stamps_split hmm
  have hall : ts.f.s.hist = (post.map Prod.fst ++ Ev.startCall n g' d' :: m1) ++ Ev.begin n g' b r sn :: (m2 ++ Ev.startCall n g d :: pre.map Prod.fst) := by
    rw [hhist, hmm]; simp
  have hb := C84_base_delay hr.reach
  rw [hall] at hb hk
  have hb := hb.split (e := Ev.begin n g' b r sn)
  have hopen := (hk.split (e := Ev.begin n g' b r sn)).1
  have hend := closed_end (mid := m2) (pre := Ev.startCall n g d :: pre.map Prod.fst) (g := g) h2 hopen
  have hbase := base_after_end (e := cfg.errorDelay) (b := cfg.bounceDelay) (es := m2) (h := Ev.startCall n g d :: pre.map Prod.fst) (n := n) (by
    intro x hx
    rw [← hn2] at hx
    obtain ⟨⟨y, t⟩, hy, he⟩ := List.mem_map.1 hx
    simp only at he
    subst he
    exact hi x t (by rw [hmid]; simp [hy])) hend
  obtain ⟨fuzz, f0, f1, hd, hle⟩ := C84_delay hr (n := n) (g := g') (d := d') (t1 := t1) (by rw [hh]; simp)
    (n' := n) (base := b) (recent := r) (sn := sn) (t0 := tb) (by rw [hh, hmid]; simp)
  simp only at hb
  rw [← hb] at hbase
  have h5 := hm b r fuzz hbase f0 f1
  have hso := hr.sorted
  rw [hh, hmid, List.pairwise_append, List.pairwise_cons] at hso
  have h3 := hso.2.1.2
  rw [List.append_assoc, List.pairwise_append, List.cons_append, List.pairwise_cons] at h3
  have h4 : t0 ≤ tb := h3.2.1.1 (.startCall n g d, t0) (by simp)
  omega

/-- A call of the Start func of `n`. -/
def isCall (n : Name) : Ev × Int → Bool
  | (.startCall m _ _, _) => n = m
  | _ => false

/-- C84: in a stretch of time from `a` to `b` in which a manifold is not installed anew, its Start func is called at most
`(b - a) / m + 1` times, if `m` is the smallest delay. -/
theorem C84_rate (hr : TReach cfg ts) {m : Int} (hm : AtLeast cfg m) {post mid pre : List (Ev × Int)} {n : Name} {a b : Int}
    (hh : ts.stamps = post ++ (mid ++ pre)) (hi : ∀ x t, (Ev.installed n x, t) ∉ mid) (hab : ∀ x ∈ mid, a ≤ x.2 ∧ x.2 ≤ b) :
    ((mid.countP (isCall n) : Int) - 1) * m ≤ b - a ∨ mid.countP (isCall n) = 0 := by
  have key : ∀ (mid post : List (Ev × Int)), ts.stamps = post ++ (mid ++ pre) → (∀ x t, (Ev.installed n x, t) ∉ mid) →
      (∀ x ∈ mid, a ≤ x.2) → mid.countP (isCall n) = 0 ∨ ∃ q g d t q', mid = q ++ (.startCall n g d, t) :: q' ∧
        ((mid.countP (isCall n) : Int) - 1) * m ≤ t - a := by
    intro mid
    induction mid with
    | nil => intro _ _ _ _; exact Or.inl rfl
    | cons x mid ih =>
      intro post hh hi ha
      have ih := ih (post ++ [x]) (by rw [hh]; simp) (fun y t hy => hi y t (.tail _ hy)) (fun y hy => ha y (.tail _ hy))
      by_cases hx : isCall n x = true
      · right
        obtain ⟨e, t⟩ := x
        have he : ∃ g d, e = .startCall n g d := by
          cases e with
          | startCall m g d =>
            have : n = m := by simpa [isCall] using hx
            exact ⟨g, d, by rw [this]⟩
          | _ => cases hx
        obtain ⟨g, d, rfl⟩ := he
        refine ⟨[], g, d, t, mid, rfl, ?_⟩
        rw [List.countP_cons_of_pos hx]
        rcases ih with ih | ⟨q, g0, d0, t0, q', hq, hle⟩
        · rw [ih]
          have := ha _ (.head _)
          simp only at this
          simp; omega
        · have := C84_apart hr hm (post := post) (mid := q) (pre := q' ++ pre) (n := n) (g := g0) (g' := g) (d := d0) (d' := d) (t0 := t0)
            (t1 := t) (by rw [hh, hq]; simp) (fun y u hy => hi y u (by rw [hq]; simp [hy]))
          push_cast
          have e : ((mid.countP (isCall n) : Int) + 1 - 1) * m = ((mid.countP (isCall n) : Int) - 1) * m + m := by ring
          rw [e]
          omega
      · rw [List.countP_cons_of_neg hx]
        rcases ih with ih | ⟨q, g0, d0, t0, q', hq, hle⟩
        · exact Or.inl ih
        · exact Or.inr ⟨x :: q, g0, d0, t0, q', by rw [hq]; rfl, hle⟩
  rcases key mid post hh hi (fun x hx => (hab x hx).1) with h | ⟨q, g, d, t, q', hq, h⟩
  · exact Or.inr h
  · left
    have := (hab (.startCall n g d, t) (by rw [hq]; simp)).2
    simp only at this
    omega

example : TReach FDemo.cfg2 (FDemo.tAfter FDemo.cfg2 FDemo.opsTimed) ∧ AtLeast FDemo.cfg2 1 ∧
    ∃ post mid pre, (FDemo.tAfter FDemo.cfg2 FDemo.opsTimed).stamps = post ++ (mid ++ pre) ∧ mid.countP (isCall 0) = 4 ∧
      (mid.all (fun x => match x with | (.installed _ _, _) => false | _ => true)) = true ∧
      ∀ x ∈ mid, 5 ≤ x.2 ∧ x.2 ≤ (103 : Int) := by
  refine ⟨FDemo.tAfter_reach _ _, ?_, [], (FDemo.tAfter FDemo.cfg2 FDemo.opsTimed).stamps.take 20,
    (FDemo.tAfter FDemo.cfg2 FDemo.opsTimed).stamps.drop 20, by decide +kernel, by decide +kernel, by decide +kernel, by decide +kernel⟩
  intro base recent fuzz hb _ _
  have h2 : (1 : Int) ≤ 2 ^ (recent - 1) := one_le_pow₀ (by decide)
  rcases hb with rfl | rfl
  · show (1 : Int) ≤ 3 * 2 ^ (recent - 1)
    omega
  · show (1 : Int) ≤ 1 * 2 ^ (recent - 1)
    omega

/-- C84: the smallest delay with the delays of engine.go:413-430: up to 10% and rounding, the smaller of ErrorDelay and
BounceDelay, each divided once by BackoffFactor and capped at MaxDelay. (With backoff and no MaxDelay there is none: C53.) -/
theorem C84_smallest {c : Verif.Delay.Config} (hc : ValidDelay c) (hfn : cfg.delayFn = Verif.Delay.effDelay c) (he : 0 < cfg.errorDelay)
    (hb : 0 < cfg.bounceDelay) (hcap : c.backoffFactor = 0 ∨ 0 < c.maxDelay)
    (hfit : (c.maxDelay : ℚ) * (11/10) < 2 ^ 63 ∧ (cfg.errorDelay : ℚ) * (11/10) < 2 ^ 63 ∧ (cfg.bounceDelay : ℚ) * (11/10) < 2 ^ 63) {m : Int}
    (hm : (m : ℚ) ≤ nominal c cfg.errorDelay 0 * (9/10) - 500002 ∧ (m : ℚ) ≤ nominal c cfg.bounceDelay 0 * (9/10) - 500002) :
    AtLeast cfg m := by
  have mono : ∀ (base : Int) (recent : Nat), 0 < base → nominal c base 0 ≤ nominal c base recent := by
    intro base recent hbase
    have hb' : (0:ℚ) < base := by exact_mod_cast hbase
    unfold nominal
    by_cases hf : c.backoffFactor = 0
    · simp [hf]
    · have hf1 : 1 ≤ c.backoffFactor := hc.factor.resolve_left hf
      have hpow : (base:ℚ) * c.backoffFactor ^ (((0 : Nat):ℤ) - 1) ≤ base * c.backoffFactor ^ ((recent:ℤ) - 1) :=
        mul_le_mul_of_nonneg_left (zpow_le_zpow_right₀ hf1 (by omega)) hb'.le
      simp only [hf, if_false]
      split
      · exact hpow
      · exact min_le_min_right _ hpow
  have fits : ∀ (base : Int) (recent : Nat), (base : ℚ) * (11/10) < 2 ^ 63 → nominal c base recent * (11/10) < 2 ^ 63 := by
    intro base recent hbase
    unfold nominal
    by_cases hf : c.backoffFactor = 0
    · simp only [hf, if_true]; exact hbase
    · have hmax : 0 < c.maxDelay := hcap.resolve_left hf
      rw [if_neg hf, if_neg (by omega)]
      have := min_le_right ((base:ℚ) * c.backoffFactor ^ ((recent:ℤ) - 1)) (c.maxDelay : ℚ)
      linarith [hfit.1]
  have key : ∀ (base : Int) (recent : Nat) (fuzz : ℚ), 0 < base → (base : ℚ) * (11/10) < 2 ^ 63 → 0 ≤ fuzz → fuzz < 1 →
      (m : ℚ) ≤ nominal c base 0 * (9/10) - 500002 → m ≤ Verif.Delay.effDelay c base recent fuzz := by
    intro base recent fuzz h1 h2 h3 h4 h5
    have h6 := (C52_delay_within c hc base h1 recent fuzz h3 h4 (fits base recent h2)).1
    have h7 := mono base recent h1
    have : (m : ℚ) ≤ (Verif.Delay.effDelay c base recent fuzz : ℚ) := by linarith
    exact_mod_cast this
  intro base recent fuzz hbase h0 h1
  rw [hfn]
  rcases hbase with rfl | rfl
  · exact key _ _ _ he hfit.2.1 h0 h1 hm.1
  · exact key _ _ _ hb hfit.2.2 h0 h1 hm.2

-- ErrorDelay 3 s, BounceDelay 10 ms, BackoffFactor 1.2, MaxDelay 2 min: two attempts are at least 6.9 ms apart
example : ∃ (c : Verif.Delay.Config), ValidDelay c ∧ 0 < c.maxDelay ∧ (c.maxDelay : ℚ) * (11/10) < 2 ^ 63 ∧
    ((6900000 : Int) : ℚ) ≤ nominal c 3000000000 0 * (9/10) - 500002 ∧ ((6900000 : Int) : ℚ) ≤ nominal c 10000000 0 * (9/10) - 500002 := by
  refine ⟨{ backoffFactor := 6/5, maxDelay := 120000000000 }, ⟨by right; norm_num, by norm_num⟩, by norm_num, by norm_num, ?_, ?_⟩ <;>
    norm_num [nominal]

/-! ## Counting failures by the clock -/

theorem started_stamps {st : List (Ev × Int)} (ht : AtEvery (TimeOk cfg) st) (n : Name) :
    startedH (st.map Prod.fst) n = (startedT st n).getD 0 := by
  induction st with
  | nil => rfl
  | cons x st ih =>
    obtain ⟨e, t⟩ := x
    have ih := ih ht.2
    have h1 := ht.1
    cases e with
    | registered m g w t' =>
      simp only [List.map_cons, startedH, startedT]
      split
      · exact h1
      · exact ih
    | ended m =>
      simp only [List.map_cons, startedH, startedT]
      split
      · rfl
      · exact ih
    | _ => exact ih

theorem startedT_mem {st : List (Ev × Int)} {n : Name} {t : Int} (h : startedT st n = some t) : ∃ e, (e, t) ∈ st := by
  induction st with
  | nil => cases h
  | cons x st ih =>
    obtain ⟨e, t'⟩ := x
    have old : startedT st n = some t → ∃ e', (e', t) ∈ (e, t') :: st := fun h => by
      obtain ⟨e', he⟩ := ih h
      exact ⟨e', .tail _ he⟩
    cases e with
    | registered m g w t' =>
      simp only [startedT] at h
      split at h
      · cases h; exact ⟨_, .head _⟩
      · exact old h
    | ended m =>
      simp only [startedT] at h
      split at h
      · cases h
      · exact old h
    | _ => exact old h

theorem recent_stamps {reset : Int} {st : List (Ev × Int)} (ht : AtEvery (TimeOk cfg) st) (hp : ∀ x ∈ st, x.2 ≠ 0) (n : Name) :
    recentH reset (st.map Prod.fst) n = recentT reset st n := by
  induction st with
  | nil => rfl
  | cons x st ih =>
    obtain ⟨e, t⟩ := x
    have hp' : ∀ x ∈ st, x.2 ≠ 0 := fun y hy => hp y (.tail _ hy)
    have ih := ih ht.2 hp'
    have h1 := ht.1
    cases e with
    | installed m x => simp only [List.map_cons, recentH, recentT, ih]
    | uninstalled m => simp only [List.map_cons, recentH, recentT, ih]
    | ended m g t' raw f told lost =>
      have h1 : t' = t := h1
      subst h1
      simp only [List.map_cons, recentH, recentT, ih, started_stamps ht.2]
      split
      · cases raw with
        | none => rfl
        | some r =>
          simp only
          split
          · rfl
          · have : ((startedT st n).getD 0 ≠ 0 ∧ reset ≤ t' - (startedT st n).getD 0) ↔ ∃ t0 ∈ startedT st n, reset ≤ t' - t0 := by
              cases h : startedT st n with
              | none => simp
              | some t0 =>
                obtain ⟨e, he⟩ := startedT_mem h
                have := hp' _ he
                simpa using fun _ => this
            simp only [this]
      · rfl
    | _ => exact ih

/-- C84: the failures that count for the delay are those the clock says (provided the clock does not show the zero time). -/
theorem C84_backoff (hr : TReach cfg ts) (hp : ∀ x ∈ ts.stamps, x.2 ≠ 0) : AtEvery (fun x pre => match x with
    | (.begin n _ _ recent _, _) => recent = recentT cfg.backoffResetTime pre n
    | _ => True) ts.stamps := by
  rw [atEvery_iff]
  rintro post ⟨e, t⟩ pre hh
  cases e with
  | begin n g b r sn =>
    have h := C81_recent_errors hr.reach
    rw [← hr.hist, hh, List.map_append, List.map_cons] at h
    have h := h.split (e := Ev.begin n g b r sn)
    have ht := hr.times
    rw [hh] at ht hp
    have ht : AtEvery (TimeOk cfg) pre := by
      rw [atEvery_iff] at ht ⊢
      intro p1 e1 q1 h1
      exact ht (post ++ (.begin n g b r sn, t) :: p1) e1 q1 (by rw [h1]; simp)
    exact h.trans (recent_stamps ht (fun x hx => hp x (by simp [hx])) n)
  | _ => trivial

example : (FDemo.tAfter FDemo.cfg2 FDemo.opsTimed).stamps.filterMap (fun x => match x with
      | (.begin _ _ d r _, t) => some (d, r, t) | _ => none) = [(3, 1, 100), (3, 2, 25), (3, 1, 20), (0, 0, 5)] ∧
    ∀ x ∈ (FDemo.tAfter FDemo.cfg2 FDemo.opsTimed).stamps, x.2 ≠ 0 :=
  ⟨by decide +kernel, by decide +kernel⟩

/-! ## And not later -/

/-- C84: once the delay is over, the Start func can be called, whatever the loop is doing. -/
theorem C84_goes_on (hr : TReach cfg ts) {g : G} (hg : g ∈ ts.f.s.gs) (hp : g.pc = .delaying) {fuzz : Rat} (h0 : 0 ≤ fuzz) (h1 : fuzz < 1)
    {n : Name} {base : Int} {recent : Nat} {sn : Snapshot} {t0 t : Int} (hb : (Ev.begin n g.gid base recent sn, t0) ∈ ts.stamps)
    (hd : t0 + cfg.delayFn base recent fuzz ≤ t) (hn : ts.now ≤ t) :
    ∃ f', fstep cfg ts.f (.env (.gTimer g.gid fuzz)) = some f' ∧
      TReach cfg ⟨f', t, (.startCall n g.gid (cfg.delayFn base recent fuzz), t) :: ts.stamps⟩ := by
  obtain ⟨D, hl⟩ := freach_link hr.reach
  have hget := (ex_hinv hl.1).1.getG_eq hg
  have hbe := (ex_binv hl.1).2 g hg
  rw [← hr.hist] at hbe
  obtain ⟨⟨e, t2⟩, hm, he⟩ := List.mem_map.1 hbe
  simp only at he
  subst he
  cases begin_once hr hb hm
  refine ⟨{ ts.f with s := (ts.f.s.mapG g.gid (fun g => { g with pc := .starting })).log (.startCall g.name g.gid (cfg.delayFn g.base g.recent fuzz)) }, ?_, ?_⟩
  · simp [fstep, Op.isEnv, step, hget, hp, h0, h1]
  · refine TReach.step (ts := { ts with now := t }) (es := [.startCall g.name g.gid (cfg.delayFn g.base g.recent fuzz)]) (.env (.gTimer g.gid fuzz)) (hr.tick t hn) ?_ ?_ rfl
    · simp [fstep, Op.isEnv, step, hget, hp, h0, h1]
    · intro n' b' r' sn' t0' hm'
      cases begin_once hr hb hm'
      exact hd

example : ∃ g ∈ (FDemo.tAfter FDemo.cfg2 (FDemo.opsTimed.take 27)).f.s.gs, g.pc = .delaying ∧
    ((FDemo.tAfter FDemo.cfg2 (FDemo.opsTimed.take 27)).stamps.any (fun x => match x with
      | (.begin _ k 3 2 _, 25) => k == g.gid | _ => false)) = true := by decide +kernel

end

end Verif.Props
