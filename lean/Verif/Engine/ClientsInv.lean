import Verif.Spec.EngineClients
import Verif.Engine.ExactRel
import Verif.Engine.ExactInv
import Verif.Props.EngineHist

/-!
# Calls on an engine: what is true in every state
-/

namespace Verif.Engine
open State Verif.Spec

variable {cfg : Config}

/-! ## Which step makes which answer -/

/-- Not the answer to a call. -/
def mute (e : Ev) : Bool := !answers e

/-- Not the answer to a call, and not the loop's doing. -/
def aside (e : Ev) : Bool := !answers e && foreign e

theorem mute_of_aside {e : Ev} (h : aside e = true) : mute e = true := by
  unfold aside at h; unfold mute
  cases ha : answers e <;> simp_all

theorem mute_tick (s : State) : More mute s s.tick := by
  unfold State.tick
  split
  · exact .of rfl
  · exact .one .kill rfl rfl
  · exact .of rfl

theorem aside_killWorker (s : State) (w : WRef) : More aside s (s.killWorker w) := by
  cases w with
  | self => exact (More.one (P := aside) (s' := s.log (.killW .self)) _ rfl rfl).trans (.one .kill rfl rfl)
  | obj k => exact .one _ rfl rfl

theorem mute_killWorker (s : State) (w : WRef) : More mute s (s.killWorker w) :=
  (aside_killWorker s w).mono (fun _ => mute_of_aside)

theorem mute_requestStart (s : State) (n : Name) (d : Int) : More mute s (requestStart s n d) := by
  unfold requestStart
  simp only
  have h1 : More mute s (if (s.manifolds.get? n).isNone then s.killInternal 384 n else s) := by split <;> exact .of rfl
  generalize (if (s.manifolds.get? n).isNone then s.killInternal 384 n else s) = s1 at h1
  have h2 : More mute s (if (s1.cur n).stopped then s1 else s1.killInternal 390 n) := h1.trans (by split <;> exact .of rfl)
  generalize (if (s1.cur n).stopped then s1 else s1.killInternal 390 n) = s2 at h2
  have h3 := h2.trans (mute_tick s2)
  split
  · exact h3
  · exact h3.trans (.one _ rfl rfl)

theorem mute_markStopping (s : State) (n : Name) : More mute s (markStopping s n) := by
  unfold markStopping
  simp only
  split
  · exact .one _ rfl rfl
  · exact .of rfl

theorem mute_requestStop (s : State) (n : Name) : More mute s (requestStop s n) := by
  unfold requestStop
  simp only
  split
  · exact .of rfl
  · split
    · exact (mute_markStopping s n).trans (mute_killWorker _ _)
    · exact mute_markStopping s n

theorem mute_exec (cfg : Config) (s : State) {t : Task} (ht : t ≠ .report) : More mute s (exec cfg s t).1 := by
  cases t with
  | start n d => exact mute_requestStart s n d
  | react n told err vals lost =>
    simp only [exec]
    split <;> exact .of rfl
  | remove n vals => exact .one _ rfl rfl
  | bounceAll n => exact .of rfl
  | bounce d =>
    show More mute s (if _ then _ else _)
    split
    · exact mute_requestStart _ _ _
    · exact mute_requestStop _ _
  | stop n => exact mute_requestStop s n
  | clearOneShot => exact .of rfl
  | report => exact absurd rfl ht
  | check =>
    show More mute s (endArm s)
    unfold endArm
    simp only
    split
    · exact (mute_tick s).trans (.one .exit rfl rfl)
    · exact (mute_tick s).trans (.of rfl)

/-- The loop never gives itself a report to make. -/
theorem exec_noReport (cfg : Config) (s : State) (t : Task) : Task.report ∉ (exec cfg s t).2 := by
  cases t with
  | react n told err vals lost =>
    simp only [exec]
    split
    · simp
    · rw [List.mem_append, not_or]
      constructor
      · unfold reactTasks
        repeat' split
        all_goals simp
      · split <;> simp
  | bounceAll n => simp [exec]
  | _ => simp [exec]

/-- Another goroutine or the environment answers no call, unless it is a call that is refused. -/
theorem env_aside {s s' : State} {op : Op} (he : op.isEnv = true) (hr : ∀ n, op ≠ .installRefused n)
    (hs : step cfg s op = some s') : More aside s s' := by
  cases op with
  | armDying | armReport | armInstall | armStarted | armStopped => cases he
  | installRefused n => exact absurd rfl (hr n)
  | kill => simp only [step, Option.some.injEq] at hs; subst hs; exact .one .kill rfl rfl
  | gRegisterDying gid =>
    simp only [step] at hs
    split at hs
    · split at hs
      · split at hs
        · cases hs
          exact More.trans (b := s.mapG gid _) (.of rfl) (aside_killWorker _ _)
        · cases hs
      · cases hs
    · cases hs
  | gTimer | gAbort | gGet | gStartOk | gStartErr | gSelfDone | gWaitRet | finish =>
    simp only [step] at hs
    repeat' split at hs
    all_goals first
      | (simp only [Option.some.injEq] at hs; subst hs
         first | exact .of rfl | exact .one _ rfl rfl)
      | cases hs

/-- A step that does not belong to a call answers none, and if the loop is at work it is another goroutine's. -/
theorem other_mute {f f' : Fine} {op : FOp} (ho : op.ofCall = false) (h : fstep cfg f op = some f') :
    More mute f.s f'.s ∧ (f.todo ≠ [] → More aside f.s f'.s ∧ f'.todo = f.todo) ∧
    (Task.report ∉ f.todo → Task.report ∉ f'.todo) := by
  cases op with
  | env op =>
    simp only [fstep] at h
    split at h
    · rename_i he
      obtain ⟨s', hs, rfl⟩ := Option.map_eq_some_iff.1 h
      have a := env_aside he (fun n hn => by subst hn; cases ho) hs
      exact ⟨a.mono (fun _ => mute_of_aside), fun _ => ⟨a, rfl⟩, id⟩
    · cases h
  | work | report | install => cases ho
  | dying order =>
    simp only [fstep] at h
    split at h
    · rename_i hc
      cases h
      exact ⟨.of rfl, fun hn => absurd (List.isEmpty_iff.1 hc.1) hn, fun _ => by simp⟩
    · cases h
  | started gid now =>
    simp only [fstep] at h
    split at h
    · rename_i hc
      split at h
      · cases h
      · rename_i g hg
        split at h
        · rename_i w hpc
          simp only [Option.some.injEq] at h
          subst h
          refine ⟨?_, fun hn => absurd (List.isEmpty_iff.1 hc.1) hn, fun _ => ?_⟩
          · dsimp only
            unfold beginStarted
            simp only
            split
            · exact More.trans (b := f.s) (.of rfl) (More.trans (b := ((f.s.mapG gid _).killInternal 584 g.name)) (.of rfl) (mute_killWorker _ _))
            · split
              · exact More.trans (b := f.s.mapG gid _) (.of rfl) (mute_killWorker _ _)
              · split
                · exact More.trans (b := f.s.mapG gid _) (.of rfl) (mute_killWorker _ _)
                · exact .one _ rfl rfl
          · dsimp only
            unfold beginStarted
            simp only
            repeat' split
            all_goals simp
        · cases h
    · cases h
  | stopped gid now vals =>
    simp only [fstep] at h
    split at h
    · rename_i hc
      split at h
      · cases h
      · rename_i g hg
        split at h
        · rename_i e hpc
          simp only [Option.some.injEq] at h
          subst h
          refine ⟨?_, fun hn => absurd (List.isEmpty_iff.1 hc.1) hn, fun _ => ?_⟩
          · dsimp only
            unfold beginStopped
            simp only
            unfold noteFatal
            split
            · exact .one _ rfl rfl
            · split
              · exact More.trans (b := f.s.log _) (.one _ rfl rfl) (.one .kill rfl rfl)
              · exact .one _ rfl rfl
          · dsimp only
            unfold beginStopped
            simp
        · cases h
    · cases h

/-! ## The log -/

theorem news_eq {a b : State} {es : List Ev} (h : b.hist = es ++ a.hist) : news a b = es.map .eng := by
  unfold news
  rw [h, List.length_append, Nat.add_sub_cancel, List.take_left']
  rfl

theorem engOf_append (a b : List CEv) : engOf (a ++ b) = engOf a ++ engOf b := List.filterMap_append ..

theorem engOf_map (es : List Ev) : engOf (es.map .eng) = es := by
  induction es with
  | nil => rfl
  | cons e es ih => show e :: engOf (es.map .eng) = _; rw [ih]

theorem loopAnswer_mute {e : Ev} (h : mute e = true) : loopAnswer e = false := by
  cases e <;> first | rfl | cases h

theorem mem_news_call {es : List Ev} {l : List CEv} {c : Nat} {q : Req} : .call c q ∈ es.map .eng ++ l ↔ .call c q ∈ l := by
  rw [List.mem_append]
  exact ⟨fun h => h.elim (fun h => by obtain ⟨_, _, h⟩ := List.mem_map.1 h; cases h) id, .inr⟩

theorem mem_news_ret {es : List Ev} {l : List CEv} {c : Nat} {r : Res} : .ret c r ∈ es.map .eng ++ l ↔ .ret c r ∈ l := by
  rw [List.mem_append]
  exact ⟨fun h => h.elim (fun h => by obtain ⟨_, _, h⟩ := List.mem_map.1 h; cases h) id, .inr⟩

theorem pending_mute {es : List Ev} (h : ∀ e ∈ es, loopAnswer e = false) (l : List CEv) :
    pendingH (es.map .eng ++ l) = (pendingH l).map (fun p => (es ++ p.1, p.2)) := by
  induction es with
  | nil => simp
  | cons e es ih =>
    show pendingH (.eng e :: (es.map .eng ++ l)) = _
    simp only [pendingH]
    rw [if_neg (by rw [h e (.head _)]; simp), ih (fun x hx => h x (.tail _ hx)), Option.map_map]
    rfl

/-- Adding to the log what is no answer of the loop. -/
theorem logOk_mute {es : List Ev} {l : List CEv} (h : ∀ e ∈ es, loopAnswer e = false)
    (ha : ∀ e ∈ es, answers e = true → ∃ c q, Open l c q ∧ Wants q e)
    (hf : pendingH l = none ∨ ∀ e ∈ es, foreign e = true) (hl : AtEvery (LogOk cfg) l) :
    AtEvery (LogOk cfg) (es.map .eng ++ l) := by
  induction es with
  | nil => exact hl
  | cons e es ih =>
    refine ⟨⟨fun hx => ?_, fun x a y hp => ?_⟩, ih (fun x hx => h x (.tail _ hx)) (fun x hx => ha x (.tail _ hx))
      (hf.imp id (fun k x hx => k x (.tail _ hx)))⟩
    · obtain ⟨c, q, ⟨h1, h2⟩, h3⟩ := ha e (.head _) hx
      exact ⟨c, q, ⟨mem_news_call.2 h1, fun r hr => h2 r (mem_news_ret.1 hr)⟩, h3⟩
    · refine ⟨h e (.head _), .inl ?_⟩
      rcases hf with hf | hf
      · change pendingH (es.map .eng ++ l) = _ at hp
        rw [pending_mute (fun x hx => h x (.tail _ hx)), hf] at hp
        cases hp
      · exact hf e (.head _)

/-! ## The invariant -/

/-- What the loop is doing for the call whose ticket it has. -/
def Serving (cfg : Config) (s : Clients) : Prop :=
  match s.serving with
  | none => pendingH s.log = none ∧ Task.report ∉ s.f.todo
  | some (c, none) => s.calls[c]? = some ⟨.report, .served⟩ ∧ s.f.todo = [.report, .check] ∧ pendingH s.log = none
  | some (c, some r) => ∃ q x a y, s.calls[c]? = some ⟨q, .served⟩ ∧ pendingH s.log = some (x, a, y) ∧ .call c q ∈ y ∧
      Right cfg y q a r ∧
      ((∃ n m, a = .installed n m ∧ s.f.todo = [.start n 0, .check] ∧ ∀ g b r sn, .begin n g b r sn ∉ x) ∨
       (s.f.todo = [.check] ∧ Seen s.log x a))

structure CInv (cfg : Config) (s : Clients) : Prop where
  reach : FReach cfg s.f
  hist : engOf s.log = s.f.s.hist
  called : ∀ c q, .call c q ∈ s.log ↔ ∃ p, s.calls[c]? = some ⟨q, p⟩
  ret : ∀ c, (∃ r, .ret c r ∈ s.log) ↔ ∃ q, s.calls[c]? = some ⟨q, .returned⟩
  served : ∀ c q, s.calls[c]? = some ⟨q, .served⟩ → ∃ r, s.serving = some (c, r)
  serving : Serving cfg s
  good : AtEvery (LogOk cfg) s.log

theorem CInv.init : CInv cfg {} where
  reach := .init
  hist := rfl
  called := by simp
  ret := by simp
  served := by simp
  serving := ⟨rfl, by simp⟩
  good := trivial

/-- The engine moves, and the loop answers no call. -/
theorem CInv.move' {s : Clients} (i : CInv cfg s) {f' : Fine} {op : FOp} (h : fstep cfg s.f op = some f')
    {es : List Ev} (hh : f'.s.hist = es ++ s.f.s.hist) (hm : ∀ e ∈ es, loopAnswer e = false)
    (ha : ∀ e ∈ es, answers e = true → ∃ c q, Open s.log c q ∧ Wants q e)
    (hf : s.serving = none ∨ ((∀ e ∈ es, foreign e = true) ∧ f'.todo = s.f.todo))
    (hr : s.serving = none → Task.report ∉ f'.todo) : CInv cfg (s.move f') := by
  have hl : (s.move f').log = es.map .eng ++ s.log := by
    show news s.f.s f'.s ++ s.log = _
    rw [news_eq hh]
  have hp := pending_mute hm s.log
  rw [← hl] at hp
  refine ⟨i.reach.step op h, ?_, ?_, ?_, i.served, ?_, ?_⟩
  · rw [hl, engOf_append, engOf_map, i.hist, ← hh]; rfl
  · intro c q; rw [hl, mem_news_call]; exact i.called c q
  · intro c
    simp only [hl, mem_news_ret]
    exact i.ret c
  · have k := i.serving
    unfold Serving at k ⊢
    cases hs : s.serving with
    | none =>
      rw [hs] at k
      rw [show (s.move f').serving = none from hs, hp, k.1]
      exact ⟨rfl, hr hs⟩
    | some x =>
      obtain ⟨c, r⟩ := x
      have ht : f'.todo = s.f.todo := hf.elim (fun k => by rw [hs] at k; cases k) And.right
      rw [hs] at k
      rw [show (s.move f').serving = some (c, r) from hs, hp]
      cases r with
      | none =>
        refine ⟨k.1, ht.trans k.2.1, ?_⟩
        rw [k.2.2]; rfl
      | some r =>
        obtain ⟨q, x, a, y, k1, k2, k3, k4, k5⟩ := k
        refine ⟨q, es ++ x, a, y, k1, by rw [k2]; rfl, k3, k4, ?_⟩
        rcases k5 with ⟨n, m, h1, h2, h3⟩ | ⟨h1, h2⟩
        · refine .inl ⟨n, m, h1, ht.trans h2, fun g b r sn hb => ?_⟩
          rcases List.mem_append.1 hb with hb | hb
          · rcases hf with hf | hf
            · rw [hs] at hf; cases hf
            · have := hf.1 _ hb; cases this
          · exact h3 _ _ _ _ hb
        · refine .inr ⟨ht.trans h1, ?_⟩
          unfold Seen at h2 ⊢
          split
          · simp only at h2
            rw [hl, engOf_append]
            rcases h2 with h2 | ⟨g, b, r, sn, h2⟩
            · exact .inl (List.mem_append_right _ h2)
            · exact .inr ⟨g, b, r, sn, List.mem_append_right _ h2⟩
          · trivial
  · rw [hl]
    refine logOk_mute hm ha ?_ i.good
    rcases hf with hf | hf
    · have k := i.serving
      unfold Serving at k
      rw [hf] at k
      exact .inl k.1
    · exact .inr hf.1

/-- The engine moves, and answers no call. -/
theorem CInv.move {s : Clients} (i : CInv cfg s) {f' : Fine} {op : FOp} (h : fstep cfg s.f op = some f')
    {es : List Ev} (hh : f'.s.hist = es ++ s.f.s.hist) (hm : ∀ e ∈ es, mute e = true)
    (hf : s.serving = none ∨ ((∀ e ∈ es, foreign e = true) ∧ f'.todo = s.f.todo))
    (hr : s.serving = none → Task.report ∉ f'.todo) : CInv cfg (s.move f') :=
  i.move' h hh (fun e he => loopAnswer_mute (hm e he)) (fun e he ha => by
    have := hm e he
    unfold mute at this
    rw [ha] at this
    cases this) hf hr

theorem modify_getElem? {l : List Call} {c d : Nat} {p : CPc} {x : Call} :
    (l.modify c (fun x => { x with pc := p }))[d]? = some x ↔
      (d ≠ c ∧ l[d]? = some x) ∨ (d = c ∧ ∃ y, l[c]? = some y ∧ x = { y with pc := p }) := by
  rw [List.getElem?_modify]
  by_cases h : c = d
  · subst h
    cases hl : l[c]? with
    | none => simp
    | some y => simp [eq_comm]
  · have h' : d ≠ c := fun e => h e.symm
    cases hl : l[d]? with
    | none => simp [h']
    | some y => simp [h, h']

theorem CInv.open {s : Clients} (i : CInv cfg s) {c : Nat} {q : Req} {p : CPc} (h : s.calls[c]? = some ⟨q, p⟩) (hp : p ≠ .returned) :
    Open s.log c q := by
  refine ⟨(i.called c q).2 ⟨p, h⟩, fun r hr => ?_⟩
  obtain ⟨q', h'⟩ := (i.ret c).1 ⟨r, hr⟩
  rw [h] at h'
  cases h'
  exact hp rfl

/-- The calls that have begun and returned, when `c` goes on to `p`. -/
theorem called_set {s : Clients} (i : CInv cfg s) {c : Nat} {q : Req} {p0 p : CPc} (h : s.calls[c]? = some ⟨q, p0⟩) (d : Nat) (q' : Req) :
    .call d q' ∈ s.log ↔ ∃ p', (s.setPc c p).calls[d]? = some ⟨q', p'⟩ := by
  rw [i.called]
  simp only [Clients.setPc, modify_getElem?]
  constructor
  · rintro ⟨p', h'⟩
    by_cases hd : d = c
    · subst hd
      rw [h] at h'; cases h'
      exact ⟨p, .inr ⟨rfl, _, h, rfl⟩⟩
    · exact ⟨p', .inl ⟨hd, h'⟩⟩
  · rintro ⟨p', ⟨_, h'⟩ | ⟨rfl, y, h1, h2⟩⟩
    · exact ⟨p', h'⟩
    · rw [h] at h1
      cases h1; cases h2
      exact ⟨p0, h⟩

theorem CInv.call {s : Clients} (i : CInv cfg s) (q : Req) :
    CInv cfg { s with calls := s.calls ++ [⟨q, .asking⟩], log := .call s.calls.length q :: s.log } := by
  have get : ∀ {d : Nat} {x : Call}, (s.calls ++ [⟨q, .asking⟩])[d]? = some x ↔
      s.calls[d]? = some x ∨ (d = s.calls.length ∧ x = ⟨q, .asking⟩) := by
    intro d x
    rw [List.getElem?_append]
    split
    · rename_i hd
      constructor
      · exact .inl
      · rintro (h | ⟨rfl, _⟩)
        · exact h
        · omega
    · rename_i hd
      rw [show s.calls[d]? = none from List.getElem?_eq_none (by omega), List.getElem?_singleton]
      constructor
      · intro h
        split at h
        · rename_i h0
          cases h
          exact .inr ⟨by omega, rfl⟩
        · cases h
      · rintro (h | ⟨rfl, rfl⟩)
        · cases h
        · simp
  have none : s.calls[s.calls.length]? = none := List.getElem?_eq_none (Nat.le_refl _)
  refine ⟨i.reach, i.hist, ?_, ?_, ?_, ?_, ?_⟩
  · intro d q'
    simp only [List.mem_cons, get]
    rw [i.called]
    constructor
    · rintro (h | ⟨p, h⟩)
      · cases h; exact ⟨_, .inr ⟨rfl, rfl⟩⟩
      · exact ⟨p, .inl h⟩
    · rintro ⟨p, h | ⟨rfl, h⟩⟩
      · exact .inr ⟨p, h⟩
      · cases h; exact .inl rfl
  · intro d
    simp only [List.mem_cons, reduceCtorEq, false_or, get]
    rw [i.ret]
    constructor
    · rintro ⟨q', h⟩; exact ⟨q', .inl h⟩
    · rintro ⟨q', h | ⟨_, h⟩⟩
      · exact ⟨q', h⟩
      · cases h
  · intro d q' h
    rcases get.1 h with h | ⟨_, h⟩
    · exact i.served d q' h
    · cases h
  · have k := i.serving
    unfold Serving at k ⊢
    cases hs : s.serving with
    | none => rw [hs] at k; simp only [hs]; exact k
    | some x =>
      obtain ⟨c, r⟩ := x
      rw [hs] at k
      simp only [hs]
      cases r with
      | none => exact ⟨get.2 (.inl k.1), k.2⟩
      | some r =>
        obtain ⟨q', x, a, y, k1, k2⟩ := k
        exact ⟨q', x, a, y, get.2 (.inl k1), k2⟩
  · refine ⟨⟨fun q' h => ?_, fun r h => ?_⟩, i.good⟩
    · obtain ⟨p, h⟩ := (i.called _ _).1 h
      rw [none] at h; cases h
    · obtain ⟨p, h⟩ := (i.ret _).1 ⟨r, h⟩
      rw [none] at h; cases h

theorem ret_set {s : Clients} (i : CInv cfg s) {c : Nat} {q : Req} {p : CPc} {r : Res} (h : s.calls[c]? = some ⟨q, p⟩) (d : Nat) :
    (∃ r', .ret d r' ∈ CEv.ret c r :: s.log) ↔ ∃ q', (s.setPc c .returned).calls[d]? = some ⟨q', .returned⟩ := by
  simp only [Clients.setPc, modify_getElem?, List.mem_cons]
  constructor
  · rintro ⟨r', h' | h'⟩
    · cases h'
      exact ⟨q, .inr ⟨rfl, _, h, rfl⟩⟩
    · obtain ⟨q', h'⟩ := (i.ret d).1 ⟨r', h'⟩
      by_cases hd : d = c
      · subst hd
        exact ⟨q', .inr ⟨rfl, _, h', rfl⟩⟩
      · exact ⟨q', .inl ⟨hd, h'⟩⟩
  · rintro ⟨q', ⟨_, h'⟩ | ⟨rfl, _⟩⟩
    · obtain ⟨r', h'⟩ := (i.ret d).2 ⟨q', h'⟩
      exact ⟨r', .inr h'⟩
    · exact ⟨r, .inl rfl⟩

/-- A call returns without the loop. -/
theorem CInv.answer {s : Clients} (i : CInv cfg s) {c : Nat} {q : Req} {r : Res} (h : s.calls[c]? = some ⟨q, .asking⟩)
    (hb : byLoop r = false) (hr : Returns cfg s.log c q r) : CInv cfg (s.answer c r) := by
  have hp : pendingH (.ret c r :: s.log) = pendingH s.log := by simp only [pendingH, hb]; rfl
  refine ⟨i.reach, i.hist, fun d q' => ?_, fun d => ret_set i h d, fun d q' hd => ?_, ?_, ⟨⟨q, i.open h (by simp), hr⟩, i.good⟩⟩
  · refine Iff.trans ?_ (called_set (p := .returned) i h d q')
    simp [Clients.answer]
  · rcases modify_getElem?.1 hd with ⟨_, hd⟩ | ⟨_, y, _, hy⟩
    · exact i.served d q' hd
    · cases hy
  · have other : ∀ {d : Nat} {q' : Req}, s.calls[d]? = some ⟨q', .served⟩ → (s.answer c r).calls[d]? = some ⟨q', .served⟩ := by
      intro d q' hd
      refine modify_getElem?.2 (.inl ⟨fun e => ?_, hd⟩)
      subst e
      rw [h] at hd; cases hd
    have k := i.serving
    unfold Serving at k ⊢
    cases hs : s.serving with
    | none =>
      rw [hs] at k
      rw [show (s.answer c r).serving = none from hs]
      exact ⟨hp.trans k.1, k.2⟩
    | some x =>
      obtain ⟨d, r'⟩ := x
      rw [hs] at k
      rw [show (s.answer c r).serving = some (d, r') from hs]
      cases r' with
      | none => exact ⟨other k.1, k.2.1, hp.trans k.2.2⟩
      | some r' =>
        obtain ⟨q', x, a, y, k1, k2, k3⟩ := k
        exact ⟨q', x, a, y, other k1, hp.trans k2, k3⟩

theorem handing_eq {s : Clients} {c : Nat} {r : Res} (h : s.handing = some (c, r)) :
    s.serving = some (c, some r) ∧ s.f.todo = [.check] := by
  unfold Clients.handing at h
  split at h
  · rename_i h1 h2
    cases h
    exact ⟨h1, h2⟩
  · cases h

theorem right_byLoop {y : List CEv} {q : Req} {a : Ev} {r : Res} (h : Right cfg y q a r) : byLoop r = true := by
  cases q <;> cases a <;> cases r <;> first | rfl | exact h.elim | skip
  obtain ⟨_, rfl, ⟨rfl, _⟩ | ⟨rfl, _⟩⟩ := h <;> rfl

theorem right_returns {h : List CEv} {c : Nat} {q : Req} {r : Res} {x : List Ev} {a : Ev} {y : List CEv}
    (hp : pendingH h = some (x, a, y)) (hc : .call c q ∈ y) (hr : Right cfg y q a r) (hs : Seen h x a) :
    Returns cfg h c q r := by
  have all : ∃ x a y, pendingH h = some (x, a, y) ∧ .call c q ∈ y ∧ Right cfg y q a r ∧ Seen h x a := ⟨x, a, y, hp, hc, hr, hs⟩
  have hb := right_byLoop hr
  unfold Returns
  split
  · cases hb
  · cases hb
  · cases hb
  · exact all

/-- The result is handed over. -/
theorem CInv.reply {s : Clients} (i : CInv cfg s) {c : Nat} {r : Res} (h : s.handing = some (c, r)) :
    CInv cfg ({ s with serving := none }.answer c r) := by
  obtain ⟨hs, ht⟩ := handing_eq h
  have k := i.serving
  unfold Serving at k
  rw [hs] at k
  obtain ⟨q, x, a, y, k1, k2, k3, k4, k5⟩ := k
  have hseen : Seen s.log x a := by
    rcases k5 with ⟨n, m, _, h2, _⟩ | ⟨_, h2⟩
    · rw [ht] at h2; cases h2
    · exact h2
  refine ⟨i.reach, i.hist, fun d q' => ?_, fun d => ret_set i k1 d, fun d q' hd => ?_, ?_,
    ⟨⟨q, i.open k1 (by simp), right_returns k2 k3 k4 hseen⟩, i.good⟩⟩
  · refine Iff.trans ?_ (called_set (p := .returned) i k1 d q')
    simp [Clients.answer]
  · rcases modify_getElem?.1 hd with ⟨hne, hd⟩ | ⟨_, y, _, hy⟩
    · obtain ⟨r', h'⟩ := i.served d q' hd
      rw [hs] at h'
      cases h'
      exact absurd rfl hne
    · cases hy
  · show pendingH (.ret c r :: s.log) = none ∧ Task.report ∉ s.f.todo
    refine ⟨?_, by rw [ht]; simp⟩
    simp only [pendingH, right_byLoop k4]
    rfl

theorem serving_idle {s : Clients} (i : CInv cfg s) (ht : s.f.todo = []) : s.serving = none := by
  cases hs : s.serving with
  | none => rfl
  | some x =>
    obtain ⟨d, r⟩ := x
    have k := i.serving
    unfold Serving at k
    rw [hs] at k
    cases r with
    | none => rw [ht] at k; cases k.2.1
    | some r =>
      obtain ⟨q, x, a, y, _, _, _, _, ⟨n, m, _, k, _⟩ | ⟨k, _⟩⟩ := k <;> rw [ht] at k <;> cases k

/-- The loop receives the ticket of a Report. -/
theorem CInv.takeReport {s : Clients} (i : CInv cfg s) {c : Nat} {f' : Fine} (hc : s.calls[c]? = some ⟨.report, .asking⟩)
    (h : fstep cfg s.f .report = some f') : CInv cfg { (s.move f').setPc c .served with serving := some (c, none) } := by
  have h0 := h
  simp only [fstep] at h
  split at h
  case isFalse => cases h
  rename_i hcond
  cases h
  have ht := List.isEmpty_iff.1 hcond.1
  have hn := serving_idle i ht
  have k := i.serving
  unfold Serving at k
  rw [hn] at k
  have hl : news s.f.s s.f.s ++ s.log = s.log := by rw [news_eq (es := []) rfl]; rfl
  refine ⟨i.reach.step .report h0, ?_, ?_, ?_, ?_, ?_, ?_⟩
  · show engOf (news s.f.s s.f.s ++ s.log) = _
    rw [hl]; exact i.hist
  · intro d q'
    show .call d q' ∈ news s.f.s s.f.s ++ s.log ↔ _
    rw [hl]; exact called_set i hc d q'
  · intro d
    show (∃ r, .ret d r ∈ news s.f.s s.f.s ++ s.log) ↔ ∃ q, (s.setPc c .served).calls[d]? = some ⟨q, .returned⟩
    rw [hl, i.ret]
    simp only [Clients.setPc, modify_getElem?]
    constructor
    · rintro ⟨q, hq⟩
      refine ⟨q, .inl ⟨fun e => ?_, hq⟩⟩
      subst e; rw [hc] at hq; cases hq
    · rintro ⟨q, ⟨_, hq⟩ | ⟨_, y, _, hy⟩⟩
      · exact ⟨q, hq⟩
      · cases hy
  · intro d q' hd
    rcases modify_getElem?.1 hd with ⟨_, hd⟩ | ⟨rfl, _⟩
    · obtain ⟨r, hr⟩ := i.served d q' hd
      rw [hn] at hr; cases hr
    · exact ⟨none, rfl⟩
  · refine ⟨modify_getElem?.2 (.inr ⟨rfl, _, hc, rfl⟩), rfl, ?_⟩
    show pendingH (news s.f.s s.f.s ++ s.log) = none
    rw [hl]; exact k.1
  · show AtEvery (LogOk cfg) (news s.f.s s.f.s ++ s.log)
    rw [hl]; exact i.good

/-- What the install arm does up to the start, and what Install is going to return. -/
theorem begin_install {s : State} (i : HInv cfg s) {n : Name} {m : Manifold} {order : List Name}
    (ho : isRangeOrder (s.manifolds.set n m) order = true) {y : List CEv} (hy : engOf y = s.hist) :
    ∃ a, (beginInstall s n m order).1.hist = a :: s.hist ∧ Right cfg y (.install n m) a (installAnswer s n m order) ∧
      Wants (.install n m) a ∧ answers a = true ∧ loopAnswer a = true ∧
      ((a = .installed n m ∧ (beginInstall s n m order).2 = [.start n 0, .check]) ∨
       ((beginInstall s n m order).2 = [.check] ∧ ∃ e, a = .installFailed n e)) := by
  unfold beginInstall installAnswer
  by_cases hm : (s.manifolds.get? n).isSome = true
  · refine ⟨.installFailed n (.alreadyInstalled n), ?_, ?_, rfl, rfl, rfl, .inr ⟨?_, _, rfl⟩⟩ <;> simp only [hm, if_true]
    · rfl
    · refine ⟨rfl, rfl, .inl ⟨rfl, ?_⟩⟩
      rw [hy, ← i.man]
      intro h; rw [h] at hm; cases hm
  · have hm' : manH s.hist n = none := by
      rw [← i.man]
      cases h : s.manifolds.get? n with
      | none => rfl
      | some x => rw [h] at hm; exact absurd rfl hm
    rcases acyclic_result i ((isRangeOrder_iff _ _).1 ho) with ⟨h1, h2⟩ | ⟨h1, h2⟩
    · refine ⟨.installed n m, ?_, ?_, ⟨rfl, rfl⟩, rfl, rfl, .inl ⟨rfl, ?_⟩⟩ <;> simp only [hm, h1]
      · rfl
      · refine ⟨rfl, rfl, ?_, ?_⟩ <;> rw [hy]
        · exact hm'
        · exact h2
      · rfl
    · refine ⟨.installFailed n (.wrap 0 .cycle), ?_, ?_, rfl, rfl, rfl, .inr ⟨?_, _, rfl⟩⟩ <;> simp only [hm, h1]
      · rfl
      · refine ⟨rfl, rfl, .inr ⟨rfl, ?_, ?_⟩⟩ <;> rw [hy]
        · exact hm'
        · exact h2
      · rfl

/-- The loop receives the ticket of an Install. -/
theorem CInv.takeInstall {s : Clients} (i : CInv cfg s) {c : Nat} {f' : Fine} {n : Name} {m : Manifold} {order : List Name}
    (hc : s.calls[c]? = some ⟨.install n m, .asking⟩) (h : fstep cfg s.f (.install n m order) = some f') :
    CInv cfg { (s.move f').setPc c .served with serving := some (c, some (installAnswer s.f.s n m order)) } := by
  have h0 := h
  simp only [fstep] at h
  split at h
  case isFalse => cases h
  rename_i hcond
  cases h
  have hn := serving_idle i (List.isEmpty_iff.1 hcond.1)
  have k := i.serving
  unfold Serving at k
  rw [hn] at k
  obtain ⟨a, h1, h2, h3, h4, h5, h6⟩ := begin_install (freach_hinv i.reach).2 hcond.2.2 i.hist
  have hl : news s.f.s (beginInstall s.f.s n m order).1 ++ s.log = .eng a :: s.log := by rw [news_eq (es := [a]) h1]; rfl
  refine ⟨i.reach.step (.install n m order) h0, ?_, ?_, ?_, ?_, ?_, ?_⟩
  · show engOf (news s.f.s (beginInstall s.f.s n m order).1 ++ s.log) = (beginInstall s.f.s n m order).1.hist
    rw [hl, h1, ← i.hist]; rfl
  · intro d q'
    show .call d q' ∈ news s.f.s (beginInstall s.f.s n m order).1 ++ s.log ↔ _
    rw [hl]
    refine Iff.trans ?_ (called_set (p := .served) i hc d q')
    simp
  · intro d
    show (∃ r, .ret d r ∈ news s.f.s (beginInstall s.f.s n m order).1 ++ s.log) ↔
      ∃ q, (s.setPc c .served).calls[d]? = some ⟨q, .returned⟩
    rw [hl]
    simp only [List.mem_cons, reduceCtorEq, false_or]
    rw [i.ret]
    simp only [Clients.setPc, modify_getElem?]
    constructor
    · rintro ⟨q, hq⟩
      refine ⟨q, .inl ⟨fun e => ?_, hq⟩⟩
      subst e; rw [hc] at hq; cases hq
    · rintro ⟨q, ⟨_, hq⟩ | ⟨_, y, _, hy⟩⟩
      · exact ⟨q, hq⟩
      · cases hy
  · intro d q' hd
    rcases modify_getElem?.1 hd with ⟨_, hd⟩ | ⟨rfl, _⟩
    · obtain ⟨r, hr⟩ := i.served d q' hd
      rw [hn] at hr; cases hr
    · exact ⟨_, rfl⟩
  · refine ⟨.install n m, [], a, s.log, modify_getElem?.2 (.inr ⟨rfl, _, hc, rfl⟩), ?_, (i.called _ _).2 ⟨_, hc⟩, h2, ?_⟩
    · show pendingH (news s.f.s (beginInstall s.f.s n m order).1 ++ s.log) = _
      rw [hl]
      simp only [pendingH, h5]
      rfl
    · rcases h6 with ⟨rfl, h6⟩ | ⟨h6, e, rfl⟩
      · exact .inl ⟨n, m, rfl, h6, fun _ _ _ _ h => by cases h⟩
      · exact .inr ⟨h6, trivial⟩
  · show AtEvery (LogOk cfg) (news s.f.s (beginInstall s.f.s n m order).1 ++ s.log)
    rw [hl]
    refine ⟨⟨fun _ => ⟨c, _, i.open hc (by simp), h3⟩, fun x a y hp => ?_⟩, i.good⟩
    rw [k.1] at hp; cases hp

/-- The loop, another goroutine or the environment does something that is not about a call. -/
theorem CInv.other {s : Clients} (i : CInv cfg s) {f' : Fine} {op : FOp} (ho : op.ofCall = false)
    (h : fstep cfg s.f op = some f') : CInv cfg (s.move f') := by
  obtain ⟨m, ht, hr⟩ := other_mute ho h
  by_cases hn : s.serving = none
  · obtain ⟨es, hh, hm⟩ := m
    refine i.move h hh hm (.inl hn) (fun _ => hr ?_)
    have k := i.serving
    unfold Serving at k
    rw [hn] at k
    exact k.2
  · obtain ⟨⟨es, hh, hm⟩, ht⟩ := ht (fun e => hn (serving_idle i e))
    refine i.move h hh (fun e he => mute_of_aside (hm e he)) (.inr ⟨fun e he => ?_, ht⟩) (fun e => absurd e hn)
    have := hm e he
    unfold aside at this
    rw [Bool.and_eq_true] at this
    exact this.2

/-- Install finds the engine dying. -/
theorem CInv.refuse {s : Clients} (i : CInv cfg s) {c : Nat} {f' : Fine} {n : Name} {m : Manifold}
    (hc : s.calls[c]? = some ⟨.install n m, .asking⟩) (h : fstep cfg s.f (.env (.installRefused n)) = some f') :
    CInv cfg ((s.move f').answer c (.err .shuttingDown)) := by
  have h0 := h
  simp only [fstep] at h
  split at h
  case isFalse => cases h
  obtain ⟨s', hs, rfl⟩ := Option.map_eq_some_iff.1 h
  simp only [step] at hs
  split at hs
  case isFalse => cases hs
  rename_i hd
  cases hs
  have j := i.move' (es := [.installFailed n .shuttingDown]) h0 rfl (fun e he => by cases List.mem_singleton.1 he; rfl)
    (fun e he _ => by cases List.mem_singleton.1 he; exact ⟨c, _, i.open hc (by simp), rfl⟩)
    (.inr ⟨fun e he => by cases List.mem_singleton.1 he; rfl, rfl⟩)
    (fun hn => by have k := i.serving; unfold Serving at k; rw [hn] at k; exact k.2)
  refine j.answer (q := .install n m) hc rfl ?_
  show Ev.kill ∈ engOf _
  rw [j.hist]
  exact .tail _ ((freach_hinv i.reach).2.dying.1 hd)

/-- Report and Wait find the engine dead. -/
theorem CInv.atEnd {s : Clients} (i : CInv cfg s) {c : Nat} {e : Option Err} (hw : waitResult cfg s.f.s = some e) :
    (s.calls[c]? = some ⟨.wait, .asking⟩ → CInv cfg (s.answer c (.waited e))) ∧
    (s.calls[c]? = some ⟨.report, .asking⟩ → CInv cfg (s.answer c (.stopped e (reportLines s.f.s)))) := by
  obtain ⟨D, hx⟩ := freach_ex i.reach
  obtain ⟨core, hi⟩ := ex_hinv hx
  have hr := Props.ex_wait_result hx
  rw [hw] at hr
  have he : .exit ∈ engOf s.log ∧ e = (cfg.filter.getD id) (worstH cfg.isFatal cfg.worstError (engOf s.log)) := by
    rw [i.hist]
    split at hr
    · rename_i h
      cases hr
      exact ⟨h, rfl⟩
    · cases hr
  refine ⟨fun hc => i.answer hc rfl he, fun hc => i.answer hc rfl ⟨he.1, he.2, ?_⟩⟩
  rw [lines_eq core hi, (ex_xinv hx).2.keys, i.hist]

/-- The loop does the next piece of its work. -/
theorem CInv.work {s : Clients} (i : CInv cfg s) {f' : Fine} (hg : s.handing = none) (h : fstep cfg s.f .work = some f') :
    CInv cfg { s.move f' with serving := s.noted } := by
  have h0 := h
  simp only [fstep] at h
  split at h
  · cases h
  rename_i t ts ht
  simp only [Option.some.injEq] at h
  have k := i.serving
  unfold Serving at k
  cases hs : s.serving with
  | none =>
    rw [hs] at k
    have hno : s.noted = s.serving := by unfold Clients.noted; rw [hs]
    have e : { s.move f' with serving := s.noted } = s.move f' := by rw [hno]; rfl
    rw [e]
    obtain ⟨es, hh, hm⟩ := mute_exec cfg s.f.s (t := t) (fun e => k.2 (by rw [ht, e]; exact .head _))
    refine i.move h0 (es := es) (by rw [← h]; exact hh) hm (.inl hs) (fun _ => ?_)
    rw [← h, List.mem_append, not_or]
    exact ⟨exec_noReport _ _ _, fun hr => k.2 (by rw [ht]; exact .tail _ hr)⟩
  | some x =>
    obtain ⟨c, r⟩ := x
    rw [hs] at k
    obtain ⟨D, hx⟩ := freach_link i.reach
    have htick := tick_none hx.2.1
    cases r with
    | none =>
      obtain ⟨k1, k2, k3⟩ := k
      rw [k2] at ht
      cases ht
      obtain ⟨core, hi⟩ := ex_hinv hx.1
      have e : (liveReport s.f.s).hist = reportEv s.f.s :: s.f.s.hist := by
        rw [liveReport_eq (by rw [htick]; exact core), htick]; rfl
      have hno : s.noted = some (c, some (.live s.f.s.dying (if s.f.s.dying then s.f.s.worst else none) (reportLines s.f.s))) := by
        unfold Clients.noted liveAnswer
        rw [hs, k2]
        simp only [e]
        rfl
      have hf : f' = ⟨liveReport s.f.s, [.check]⟩ := h.symm
      subst hf
      have hl : news s.f.s (liveReport s.f.s) ++ s.log = .eng (reportEv s.f.s) :: s.log := by
        rw [news_eq (es := [reportEv s.f.s]) e]; rfl
      have hlog : ({ s.move ⟨liveReport s.f.s, [.check]⟩ with serving := s.noted } : Clients).log =
          .eng (reportEv s.f.s) :: s.log := hl
      refine ⟨i.reach.step .work h0, ?_, ?_, ?_, ?_, ?_, ?_⟩
      · rw [hlog]
        show reportEv s.f.s :: engOf s.log = (liveReport s.f.s).hist
        rw [e, i.hist]
      · intro d q
        rw [hlog]
        simp only [List.mem_cons, reduceCtorEq, false_or]
        exact i.called d q
      · intro d
        rw [hlog]
        simp only [List.mem_cons, reduceCtorEq, false_or]
        exact i.ret d
      · intro d q hd
        obtain ⟨r, hr⟩ := i.served d q hd
        rw [hs] at hr
        cases hr
        exact ⟨_, hno⟩
      · unfold Serving
        rw [hlog]
        simp only [hno]
        refine ⟨.report, [], reportEv s.f.s, s.log, k1, ?_, (i.called _ _).2 ⟨_, k1⟩, ⟨rfl, rfl, rfl, ?_⟩, .inr ⟨rfl, trivial⟩⟩
        · simp only [pendingH, show loopAnswer (reportEv s.f.s) = true from rfl]; rfl
        · rw [i.hist]
          exact report_eq core hi (ex_xinv hx.1).2
      · rw [hlog]
        refine ⟨⟨fun _ => ⟨c, .report, i.open k1 (by simp), trivial⟩, fun x a y hp => ?_⟩, i.good⟩
        rw [k3] at hp; cases hp
    | some r =>
      obtain ⟨q, x, a, y, k1, k2, k3, k4, k5⟩ := k
      have hno : s.noted = s.serving := by unfold Clients.noted; rw [hs]
      obtain ⟨n, m, rfl, h2, h3⟩ := k5.resolve_right (fun h1 => by
        unfold Clients.handing at hg
        rw [hs, h1.1] at hg
        cases hg)
      rw [h2] at ht
      cases ht
      have hf : f' = ⟨requestStart s.f.s n 0, [.check]⟩ := h.symm
      subst hf
      obtain ⟨hi, hst⟩ : (s.f.s.manifolds.get? n).isSome = true ∧ (s.f.s.cur n).stopped = true := by
        have hrd := hx.2.2.2
        rw [h2] at hrd
        generalize htd : ([.start n 0, .check] : List Task) = l at hrd
        cases hrd with
        | start n' d b hi hs' =>
          simp only [List.cons.injEq, Task.start.injEq] at htd
          obtain ⟨⟨rfl, _⟩, _⟩ := htd
          exact ⟨hi, hs'⟩
        | bounces ds => cases ds <;> cases htd
        | stops ns => cases ns <;> cases htd
        | _ => cases htd
      have hi' := (freach_hinv i.reach).2
      have e := requestStart_eq hi hst 0
      rw [htick] at e
      have keep : ∀ (es : List Ev), (requestStart s.f.s n 0).hist = es ++ s.f.s.hist → (∀ z ∈ es, loopAnswer z = false) →
          AtEvery (LogOk cfg) (es.map .eng ++ s.log) → Seen (es.map .eng ++ s.log) (es ++ x) (.installed n m) →
          CInv cfg { s.move ⟨requestStart s.f.s n 0, [.check]⟩ with serving := s.noted } := by
        intro es hh hq hgood hseen
        have hlog : ({ s.move ⟨requestStart s.f.s n 0, [.check]⟩ with serving := s.noted } : Clients).log =
            es.map .eng ++ s.log := by
          show news s.f.s (requestStart s.f.s n 0) ++ s.log = _
          rw [news_eq hh]
        refine ⟨i.reach.step .work h0, ?_, ?_, ?_, ?_, ?_, ?_⟩
        · rw [hlog, engOf_append, engOf_map, i.hist]; exact hh.symm
        · intro d q; rw [hlog, mem_news_call]; exact i.called d q
        · intro d; rw [hlog]; simp only [mem_news_ret]; exact i.ret d
        · intro d q hd
          obtain ⟨r, hr⟩ := i.served d q hd
          exact ⟨r, hno.trans hr⟩
        · unfold Serving
          rw [hlog]
          simp only [hno, hs]
          refine ⟨q, es ++ x, .installed n m, y, k1, ?_, k3, k4, .inr ⟨rfl, hseen⟩⟩
          rw [pending_mute hq, k2]; rfl
        · rw [hlog]; exact hgood
      by_cases hd : s.f.s.dying = true
      · rw [if_pos hd] at e
        refine keep [] (by rw [e]; rfl) nofun i.good (.inl ?_)
        show .kill ∈ engOf s.log
        rw [i.hist]; exact hi'.dying.1 hd
      · rw [if_neg hd] at e
        refine keep [.begin n s.f.s.nextG 0 _ _] (by rw [e]; rfl) (fun z hz => by cases List.mem_singleton.1 hz; rfl) ?_
          (.inr ⟨_, _, _, _, .head _⟩)
        refine ⟨⟨fun hc => (by cases hc), fun x' a' y' hp => ?_⟩, i.good⟩
        change pendingH s.log = _ at hp
        rw [k2] at hp
        cases hp
        exact ⟨rfl, .inr ⟨n, m, _, _, _, rfl, rfl, h3⟩⟩

theorem cstep_inv {s s' : Clients} {op : COp} (i : CInv cfg s) (h : cstep cfg s op = some s') : CInv cfg s' := by
  cases op with
  | call q => simp only [cstep, Option.some.injEq] at h; subst h; exact i.call q
  | other op =>
    simp only [cstep] at h
    split at h
    · cases h
    · rename_i ho
      obtain ⟨f', hf, rfl⟩ := Option.map_eq_some_iff.1 h
      exact i.other (by simpa using ho) hf
  | work =>
    simp only [cstep] at h
    split at h
    · cases h
    · rename_i ho
      obtain ⟨f', hf, rfl⟩ := Option.map_eq_some_iff.1 h
      exact i.work (by cases hg : s.handing <;> simp_all) hf
  | take c order =>
    simp only [cstep] at h
    split at h
    · rename_i n m hc
      obtain ⟨f', hf, rfl⟩ := Option.map_eq_some_iff.1 h
      exact i.takeInstall hc hf
    · rename_i hc
      obtain ⟨f', hf, rfl⟩ := Option.map_eq_some_iff.1 h
      exact i.takeReport hc hf
    · cases h
  | reply =>
    obtain ⟨⟨c, r⟩, hx, rfl⟩ := Option.map_eq_some_iff.1 h
    exact i.reply hx
  | refuse c =>
    simp only [cstep] at h
    split at h
    · rename_i n m hc
      obtain ⟨f', hf, rfl⟩ := Option.map_eq_some_iff.1 h
      exact i.refuse hc hf
    · cases h
  | atEnd c =>
    simp only [cstep] at h
    split at h
    · rename_i hc
      obtain ⟨x, hx, rfl⟩ := Option.map_eq_some_iff.1 h
      obtain ⟨e, he, rfl⟩ := Option.map_eq_some_iff.1 hx
      exact (i.atEnd he).2 hc
    · rename_i hc
      obtain ⟨e, he, rfl⟩ := Option.map_eq_some_iff.1 h
      exact (i.atEnd he).1 hc
    · cases h

theorem creach_inv {s : Clients} (hr : CReach cfg s) : CInv cfg s := by
  induction hr with
  | init => exact CInv.init
  | step op _ h ih => exact cstep_inv ih h

end Verif.Engine
