import Verif.Spec.EngineCalls
import Verif.Engine.ClientsInv
import Verif.Engine.ExactFull

/-!
# Calls on an engine: every log is one that the specification allows
-/

namespace Verif.Engine
open State Verif.Spec

variable {cfg : Config}

/-- The call that is going to be given an answer of the loop, and the answer. -/
def Clients.owes (s : Clients) : Option (Nat × Res) :=
  match s.serving with
  | some (c, some r) => some (c, r)
  | _ => none

/-! ## The number of calls -/

theorem callsH_append (a b : List CEv) : callsH (a ++ b) = callsH a + callsH b := List.countP_append ..

theorem callsH_eng (es : List Ev) : callsH (es.map .eng) = 0 := by
  rw [callsH, List.countP_eq_zero]
  intro x hx
  obtain ⟨e, _, rfl⟩ := List.mem_map.1 hx
  simp

theorem callsH_news (a b : State) (l : List CEv) : callsH (news a b ++ l) = callsH l := by
  rw [callsH_append]
  unfold news
  rw [callsH_eng, Nat.zero_add]

theorem cstep_callsH {s s' : Clients} {op : COp} (i : s.calls.length = callsH s.log) (h : cstep cfg s op = some s') :
    s'.calls.length = callsH s'.log := by
  have set : ∀ (s : Clients) c p, (s.setPc c p).calls.length = s.calls.length := fun s c p => List.length_modify ..
  have mv : ∀ f', (s.move f').calls.length = callsH (s.move f').log := fun f' => by
    show s.calls.length = callsH (news _ _ ++ s.log)
    rw [callsH_news]; exact i
  have ans : ∀ (t : Clients) c r, t.calls.length = callsH t.log → (t.answer c r).calls.length = callsH (t.answer c r).log := by
    intro t c r ht
    show (t.setPc c .returned).calls.length = callsH (.ret c r :: t.log)
    rw [set, ht]; rfl
  cases op with
  | call q =>
    simp only [cstep, Option.some.injEq] at h; subst h
    simp only [List.length_append, List.length_singleton, i]
    unfold callsH
    rw [List.countP_cons]
    rfl
  | other op =>
    simp only [cstep] at h
    split at h
    · cases h
    · obtain ⟨f', _, rfl⟩ := Option.map_eq_some_iff.1 h
      exact mv f'
  | work =>
    simp only [cstep] at h
    split at h
    · cases h
    · obtain ⟨f', _, rfl⟩ := Option.map_eq_some_iff.1 h
      exact mv f'
  | take c order =>
    simp only [cstep] at h
    split at h
    · obtain ⟨f', _, rfl⟩ := Option.map_eq_some_iff.1 h
      exact (set _ _ _).trans (mv f')
    · obtain ⟨f', _, rfl⟩ := Option.map_eq_some_iff.1 h
      exact (set _ _ _).trans (mv f')
    · cases h
  | reply =>
    simp only [cstep] at h
    obtain ⟨x, _, rfl⟩ := Option.map_eq_some_iff.1 h
    exact ans { s with serving := none } _ _ i
  | refuse c =>
    simp only [cstep] at h
    split at h
    · obtain ⟨f', _, rfl⟩ := Option.map_eq_some_iff.1 h
      exact ans _ _ _ (mv f')
    · cases h
  | atEnd c =>
    simp only [cstep] at h
    split at h
    · obtain ⟨x, _, rfl⟩ := Option.map_eq_some_iff.1 h
      exact ans _ _ _ i
    · obtain ⟨x, _, rfl⟩ := Option.map_eq_some_iff.1 h
      exact ans _ _ _ i
    · cases h

theorem creach_calls {s : Clients} (hr : CReach cfg s) : s.calls.length = callsH s.log := by
  induction hr with
  | init => rfl
  | step op _ h ih => exact cstep_callsH ih h

/-! ## From a history to a log -/

theorem engOf_eng (e : Ev) (h : List CEv) : engOf (.eng e :: h) = e :: engOf h := rfl

theorem engOf_news (es : List Ev) (h : List CEv) : engOf (es.map .eng ++ h) = es ++ engOf h := by
  rw [engOf_append, engOf_map]

theorem from_length {h0 h : List Ev} {L0 L : Hidden} (hf : From cfg h0 L0 h L) : ∃ es, h = es ++ h0 := by
  induction hf with
  | new => exact ⟨[], rfl⟩
  | event _ _ _ ih => obtain ⟨es, rfl⟩ := ih; exact ⟨_ :: es, rfl⟩
  | forced _ _ ih => obtain ⟨es, rfl⟩ := ih; exact ⟨_ :: es, rfl⟩
  | silent _ _ _ ih => exact ih

/-- What happens while nobody is being answered. -/
theorem from_free {log : List CEv} {L L' : Hidden} {h' : List Ev} (ha : CAfter cfg log L none)
    (hf : From cfg (engOf log) L h' L') : ∀ es, h' = es ++ engOf log → (∀ e ∈ es, answers e = false) →
    CAfter cfg (es.map .eng ++ log) L' none := by
  induction hf with
  | new =>
    intro es he _
    have : es = [] := by simpa using he
    subst this; exact ha
  | @event h L1 e L2 hf hu hs ih =>
    intro es he hn
    obtain ⟨es1, rfl⟩ := from_length hf
    obtain rfl : es = e :: es1 := List.append_cancel_right he.symm
    exact CAfter.event (h := es1.map .eng ++ log) (ih es1 rfl (fun x hx => hn x (.tail _ hx))) (by rw [engOf_news]; exact hu) (by rw [engOf_news]; exact hs)
      (hn e (.head _)) (fun _ => rfl)
  | @forced h L1 e hf hu ih =>
    intro es he hn
    obtain ⟨es1, rfl⟩ := from_length hf
    obtain rfl : es = e :: es1 := List.append_cancel_right he.symm
    exact CAfter.forced (h := es1.map .eng ++ log) (ih es1 rfl (fun x hx => hn x (.tail _ hx))) (by rw [engOf_news]; exact hu)
  | silent hf hu hs ih =>
    intro es he hn
    subst he
    exact .silent (ih es rfl hn) (by rw [engOf_news]; exact hu) (by rw [engOf_news]; exact hs) (fun _ => rfl)

/-- What happens while a call is being answered: others do something. -/
theorem from_owing {log : List CEv} {L L' : Hidden} {o : Option (Nat × Res)} {h' : List Ev} (ha : CAfter cfg log L o)
    (hf : From cfg (engOf log) L h' L') : ∀ es, h' = es ++ engOf log → (∀ e ∈ es, answers e = false ∧ foreign e = true) →
    L'.loop ≠ .idle → CAfter cfg (es.map .eng ++ log) L' o := by
  induction hf with
  | new =>
    intro es he _ _
    have : es = [] := by simpa using he
    subst this; exact ha
  | @event h L1 e L2 hf hu hs ih =>
    intro es he hn hi
    obtain ⟨es1, rfl⟩ := from_length hf
    obtain rfl : es = e :: es1 := List.append_cancel_right he.symm
    have hb := hn e (.head _)
    refine CAfter.event (h := es1.map .eng ++ log) (ih es1 rfl (fun x hx => hn x (.tail _ hx)) ?_) (by rw [engOf_news]; exact hu) (by rw [engOf_news]; exact hs)
      hb.1 (fun h => by subst h; cases hb.2)
    cases hs <;> first | exact hi | (cases hb.2; done) | (cases hb.1; done)
  | @forced h L1 e hf hu ih =>
    intro es he hn hi
    obtain ⟨es1, rfl⟩ := from_length hf
    obtain rfl : es = e :: es1 := List.append_cancel_right he.symm
    exact CAfter.forced (h := es1.map .eng ++ log) (ih es1 rfl (fun x hx => hn x (.tail _ hx)) hi) (by rw [engOf_news]; exact hu)
  | silent hf hu hs ih =>
    intro es he hn hi
    subst he
    refine .silent (ih es rfl hn ?_) (by rw [engOf_news]; exact hu) (by rw [engOf_news]; exact hs) (fun h => absurd h hi)
    generalize Hidden.loop _ = l1 at hs
    intro h; subst h; cases hs

/-! ## One step -/

/-- The log is allowed, and the relation. -/
def CGood (cfg : Config) (s : Clients) : Prop :=
  ∃ L, CAfter cfg s.log L s.owes ∧ urgent cfg s.f.s.hist = none ∧ Sim cfg s.f L ∧ (s.owes ≠ none → ∃ l, L.loop = .busy l)

theorem owes_none {s : Clients} (h : s.serving = none) : s.owes = none := by unfold Clients.owes; rw [h]

theorem owes_some {s : Clients} {c : Nat} {r : Res} (h : s.serving = some (c, some r)) : s.owes = some (c, r) := by
  unfold Clients.owes; rw [h]

theorem owes_report {s : Clients} {c : Nat} (h : s.serving = some (c, none)) : s.owes = none := by unfold Clients.owes; rw [h]

theorem news_append (s : Clients) {f' : Fine} {es : List Ev} (h : f'.s.hist = es ++ s.f.s.hist) :
    (s.move f').log = es.map .eng ++ s.log := by
  show news s.f.s f'.s ++ s.log = _
  rw [news_eq h]

/-- The engine moves while nobody is being answered. -/
theorem good_free {s : Clients} (i : CInv cfg s) (k : CGood cfg s) (ho : s.owes = none) {op : FOp} {f' : Fine}
    (h : fstep cfg s.f op = some f') {es : List Ev} (hh : f'.s.hist = es ++ s.f.s.hist) (hm : ∀ e ∈ es, answers e = false) :
    ∃ L, CAfter cfg (es.map .eng ++ s.log) L none ∧ urgent cfg f'.s.hist = none ∧ Sim cfg f' L := by
  obtain ⟨L, ha, hu, sim, _⟩ := k
  rw [ho] at ha
  obtain ⟨D, hk⟩ := freach_link i.reach
  obtain ⟨L', ha', hu', sim'⟩ := arm_good hk (ex_xinv hk.1).2 .new hu sim h
  refine ⟨L', from_free ha (by rw [i.hist]; exact ha') es (by rw [i.hist]; exact hh) hm, hu', sim'⟩

/-- Others do something. -/
theorem good_env {s : Clients} (i : CInv cfg s) (k : CGood cfg s) {op : Op} {s' : State} (he : op.isEnv = true)
    (hr : ∀ n, op ≠ .installRefused n) (h : Engine.step cfg s.f.s op = some s') :
    CGood cfg (s.move ⟨s', s.f.todo⟩) := by
  obtain ⟨es, hh, hm⟩ := env_aside he hr h
  have hm : ∀ e ∈ es, answers e = false ∧ foreign e = true := by
    intro e hx
    have := hm e hx
    unfold aside at this
    cases h1 : answers e <;> simp_all
  have hl := news_append s (f' := ⟨s', s.f.todo⟩) hh
  by_cases ho : s.owes = none
  · have hf : fstep cfg s.f (.env op) = some ⟨s', s.f.todo⟩ := by simp only [fstep, he, if_true, h, Option.map_some]
    obtain ⟨L, h1, h2, h3⟩ := good_free i k ho hf hh (fun e hx => (hm e hx).1)
    refine ⟨L, ?_, h2, h3, fun h => absurd ho h⟩
    rw [hl]
    show CAfter cfg _ L s.owes
    rw [ho]; exact h1
  · obtain ⟨L, ha, hu, sim, hb⟩ := k
    obtain ⟨l, hb⟩ := hb ho
    obtain ⟨D, hk⟩ := freach_link i.reach
    obtain ⟨c, hi⟩ := ex_hinv hk.1
    obtain ⟨L', hl', ha', hu', sim'⟩ := env_good (s := s.f.s) c hi (ex_xinv hk.1).2 .new hu sim he h
    refine ⟨L', ?_, hu', sim', fun _ => ⟨l, hl'.trans hb⟩⟩
    rw [hl]
    refine from_owing ha (by rw [i.hist]; exact ha') es (by rw [i.hist]; exact hh) hm ?_
    rw [hl', hb]; nofun

theorem mute_answers {e : Ev} (h : mute e = true) : answers e = false := by
  unfold mute at h
  cases h1 : answers e <;> simp_all

theorem good_other {s : Clients} (i : CInv cfg s) (k : CGood cfg s) {op : FOp} {f' : Fine} (hc : op.ofCall = false)
    (h : fstep cfg s.f op = some f') : CGood cfg (s.move f') := by
  by_cases he : ∃ op', op = .env op'
  · obtain ⟨op, rfl⟩ := he
    simp only [fstep] at h
    split at h
    · rename_i he
      obtain ⟨s', hs, rfl⟩ := Option.map_eq_some_iff.1 h
      exact good_env i k he (fun n e => by subst e; cases hc) hs
    · cases h
  · have ht : s.f.todo = [] := by
      cases op with
      | env op => exact absurd ⟨op, rfl⟩ he
      | work | install | report => cases hc
      | dying | started | stopped =>
        simp only [fstep] at h
        split at h
        · rename_i hc; exact List.isEmpty_iff.1 hc.1
        · cases h
    have ho := owes_none (serving_idle i ht)
    obtain ⟨⟨es, hh, hm⟩, _⟩ := other_mute hc h
    obtain ⟨L, h1, h2, h3⟩ := good_free i k ho h hh (fun e hx => mute_answers (hm e hx))
    refine ⟨L, ?_, h2, h3, fun h => absurd ho h⟩
    rw [news_append s hh]
    show CAfter cfg _ L s.owes
    rw [ho]; exact h1

theorem report_idle {s : State} {l : Loop} (h : LoopRel cfg s [.report, .check] l) : l = .idle ∧ s.tomb.dead = false := by
  generalize ht : [Task.report, .check] = todo at h
  cases h with
  | report hd => exact ⟨rfl, hd⟩
  | idle | gone | check | look => cases ht
  | stops pre ns => cases ns <;> cases ht
  | busy hd ho => subst ht; cases ho

/-- The loop works. -/
theorem good_work {s : Clients} (i : CInv cfg s) (k : CGood cfg s) {f' : Fine} (hg : s.handing = none)
    (h : fstep cfg s.f .work = some f') : CGood cfg { s.move f' with serving := s.noted } := by
  have h0 := h
  simp only [fstep] at h
  split at h
  · cases h
  rename_i t ts ht
  simp only [Option.some.injEq] at h
  have hsv := i.serving
  unfold Serving at hsv
  cases hs : s.serving with
  | none =>
    rw [hs] at hsv
    have hno : s.noted = none := by unfold Clients.noted; rw [hs]
    obtain ⟨es, hh, hm⟩ := mute_exec cfg s.f.s (t := t) (fun e => hsv.2 (by rw [ht, e]; exact .head _))
    have hh : f'.s.hist = es ++ s.f.s.hist := by rw [← h]; exact hh
    obtain ⟨L, h1, h2, h3⟩ := good_free i k (owes_none hs) h0 hh (fun e hx => mute_answers (hm e hx))
    have e : ({ s.move f' with serving := s.noted } : Clients).owes = none := owes_none hno
    refine ⟨L, ?_, h2, h3, fun h => absurd e h⟩
    rw [e]
    show CAfter cfg (s.move f').log L none
    rw [news_append s hh]; exact h1
  | some x =>
    obtain ⟨c, r⟩ := x
    rw [hs] at hsv
    obtain ⟨D, hx⟩ := freach_link i.reach
    obtain ⟨core, hi⟩ := ex_hinv hx.1
    obtain ⟨L, ha, hu, sim, hb⟩ := k
    have xi := (ex_xinv hx.1).2
    cases r with
    | none =>
      obtain ⟨k1, k2, k3⟩ := hsv
      rw [k2] at ht
      cases ht
      rw [owes_report hs] at ha
      have sl := sim.loop
      rw [k2] at sl
      obtain ⟨hL, hd⟩ := report_idle sl
      have htick := tick_none hx.2.1
      have e0 : liveReport s.f.s = s.f.s.log (reportH cfg s.f.s.hist) := by
        rw [liveReport_eq (by rw [htick]; exact core), htick, report_eq core hi xi]
      have e : (liveReport s.f.s).hist = reportH cfg s.f.s.hist :: s.f.s.hist := by rw [e0]; rfl
      have hno : s.noted = some (c, some (.live (decide (.kill ∈ s.f.s.hist))
          (if .kill ∈ s.f.s.hist then worstH cfg.isFatal cfg.worstError s.f.s.hist else none)
          ((orderH s.f.s.hist).map (lineH s.f.s.hist)))) := by
        unfold Clients.noted liveAnswer
        rw [hs, k2]
        simp only [e]
        rfl
      have hf : f' = ⟨liveReport s.f.s, [.check]⟩ := h.symm
      subst hf
      have hl := news_append s (f' := ⟨liveReport s.f.s, [.check]⟩) (es := [reportH cfg s.f.s.hist]) e
      refine ⟨{ L with loop := .busy [] }, ?_, ?_, ⟨?_, ?_, ?_⟩, fun _ => ⟨[], rfl⟩⟩
      · rw [owes_some (s := { s.move ⟨liveReport s.f.s, [.check]⟩ with serving := s.noted }) hno]
        show CAfter cfg (s.move ⟨liveReport s.f.s, [.check]⟩).log _ _
        rw [hl]
        have hap : Happens cfg (engOf s.log) L (reportH cfg s.f.s.hist) { L with loop := .busy [] } := by
          rw [i.hist]; exact .report L hL
        refine CAfter.taken (h := s.log) ha (by rw [i.hist]; exact hu) hap (i.open k1 (by simp)) (q := .report) ?_
        exact ⟨rfl, rfl, rfl, by rw [i.hist]; rfl⟩
      · show urgent cfg (liveReport s.f.s).hist = none
        rw [e]; rfl
      · show L.deps = depsOf (liveReport s.f.s).dependents
        rw [e0]; exact sim.deps
      · show RefInv (liveReport s.f.s) _
        rw [e0]; exact sim.ref.same rfl (fun _ => rfl) (fun _ => rfl)
      · show LoopRel cfg (liveReport s.f.s) _ _
        rw [e0]; exact .busy hd (.done _)
    | some r =>
      obtain ⟨q, x, a, y, k1, k2, k3, k4, k5⟩ := hsv
      rcases k5 with ⟨n, m, rfl, k5, k6⟩ | ⟨k5, _⟩
      case inr =>
        unfold Clients.handing at hg
        rw [hs, k5] at hg; cases hg
      rw [k5] at ht
      cases ht
      rw [owes_some hs] at ha hb
      obtain ⟨l, hl⟩ := hb nofun
      have hno : s.noted = some (c, some r) := by unfold Clients.noted; rw [hs]
      have ho : ({ s.move f' with serving := s.noted } : Clients).owes = some (c, r) := owes_some hno
      have sl := sim.loop
      rw [k5, hl] at sl
      obtain ⟨hd, howe⟩ := sl.of_busy rfl
      cases howe with
      | start _ _ howe =>
      cases howe with
      | done =>
      have hrd := hx.2.2.2
      rw [k5] at hrd
      obtain ⟨hin, hst⟩ := ready_start hrd
      have hf' : f' = ⟨requestStart s.f.s n 0, [.check]⟩ := h.symm
      subst hf'
      have hreq := requestStart_eq (delay := 0) hin hst
      rw [tick_none hx.2.1] at hreq
      by_cases hdy : s.f.s.dying = true
      · rw [if_pos hdy] at hreq
        refine ⟨{ L with loop := .busy [] }, ?_, ?_, ⟨?_, ?_, ?_⟩, fun _ => ⟨[], rfl⟩⟩
        · rw [ho]
          show CAfter cfg (s.move ⟨requestStart s.f.s n 0, [.check]⟩).log _ _
          rw [news_append s (es := []) (by show (requestStart s.f.s n 0).hist = _; rw [hreq]; rfl)]
          exact CAfter.silent (h := s.log) ha (by rw [i.hist]; exact hu) (by rw [i.hist, hl]; exact .start n 0 [] (hi.dying.1 hdy)) nofun
        · show urgent cfg (requestStart s.f.s n 0).hist = none
          rw [hreq]; exact hu
        · show L.deps = depsOf (requestStart s.f.s n 0).dependents
          rw [hreq]; exact sim.deps
        · show RefInv (requestStart s.f.s n 0) _
          rw [hreq]; exact sim.ref
        · show LoopRel cfg (requestStart s.f.s n 0) _ _
          rw [hreq]; exact .busy hd (.done _)
      · rw [if_neg hdy] at hreq
        obtain ⟨m', hm'⟩ := man_some hi hin
        have hap := Happens.start (cfg := cfg) L n 0 [] m' hl ((not_dying hi).1 (by simpa using hdy)) hm'
        have hhalf := half_launch (cfg := cfg) (h0 := s.f.s.hist) (L0 := L) core hi xi ⟨.new, hu, sim.deps, sim.ref⟩ hm' hst hap rfl rfl
        refine ⟨{ L with loop := .busy [], refused := put L.refused n false }, ?_, ?_, ⟨?_, ?_, ?_⟩, fun _ => ⟨[], rfl⟩⟩
        · rw [ho]
          show CAfter cfg (s.move ⟨requestStart s.f.s n 0, [.check]⟩).log _ _
          rw [news_append s (es := [_]) (by
            show (requestStart s.f.s n 0).hist = _
            rw [hreq]; exact launch_event hi xi hm' 0)]
          exact CAfter.event (h := s.log) ha (by rw [i.hist]; exact hu) (by rw [i.hist]; exact hap) rfl nofun
        · show urgent cfg (requestStart s.f.s n 0).hist = none
          rw [hreq]; exact hhalf.2.1
        · show _ = depsOf (requestStart s.f.s n 0).dependents
          rw [hreq]; exact hhalf.2.2.1
        · show RefInv (requestStart s.f.s n 0) _
          rw [hreq]; exact hhalf.2.2.2
        · show LoopRel cfg (requestStart s.f.s n 0) _ _
          rw [hreq]; exact .busy hd (.done _)

/-- The loop receives the ticket of an Install. -/
theorem good_install {s : Clients} (i : CInv cfg s) (k : CGood cfg s) {c : Nat} {f' : Fine} {n : Name} {m : Manifold}
    {order : List Name} (hc : s.calls[c]? = some ⟨.install n m, .asking⟩) (h : fstep cfg s.f (.install n m order) = some f') :
    CGood cfg { (s.move f').setPc c .served with serving := some (c, some (installAnswer s.f.s n m order)) } := by
  simp only [fstep] at h
  split at h
  case isFalse => cases h
  rename_i hcond
  cases h
  have ht := List.isEmpty_iff.1 hcond.1
  have hdead : s.f.s.tomb.dead = false := hcond.2.1
  have hn := serving_idle i ht
  obtain ⟨L, ha, hu, sim, _⟩ := k
  rw [owes_none hn] at ha
  obtain ⟨D, hx⟩ := freach_link i.reach
  obtain ⟨core, hi⟩ := ex_hinv hx.1
  have sl := sim.loop
  rw [ht] at sl
  have hL := sl.ready hdead
  have ho := (isRangeOrder_iff _ _).1 hcond.2.2
  have key : ∀ (t : State) (ts : List Task) (L' : Hidden) (a : Ev), t.hist = a :: s.f.s.hist → urgent cfg (a :: s.f.s.hist) = none →
      Happens cfg s.f.s.hist L a L' → Right cfg s.log (.install n m) a (installAnswer s.f.s n m order) → Sim cfg ⟨t, ts⟩ L' →
      (∃ l, L'.loop = .busy l) →
      CGood cfg { (s.move ⟨t, ts⟩).setPc c .served with serving := some (c, some (installAnswer s.f.s n m order)) } := by
    intro t ts L' a h1 h2 h3 h4 h5 h6
    refine ⟨L', ?_, ?_, h5, fun _ => h6⟩
    · rw [owes_some (s := { (s.move ⟨t, ts⟩).setPc c .served with serving := some (c, some (installAnswer s.f.s n m order)) }) rfl]
      show CAfter cfg (s.move ⟨t, ts⟩).log _ _
      rw [news_append s (es := [a]) h1]
      exact CAfter.taken (h := s.log) ha (by rw [i.hist]; exact hu) (by rw [i.hist]; exact h3) (i.open hc (by simp)) h4
    · show urgent cfg t.hist = none
      rw [h1]; exact h2
  obtain ⟨a, h1, h2, _⟩ := begin_install hi hcond.2.2 i.hist
  have hhist := h1
  revert h1
  unfold beginInstall
  cases hm : s.f.s.manifolds.get? n with
  | some m' =>
    simp only [Option.isSome_some, if_true]
    intro h1
    injection h1 with h1 _
    subst h1
    exact key _ _ _ _ rfl rfl (.already L n hL (by rw [← hi.man, hm]; simp)) h2
      ⟨sim.deps, sim.ref.same rfl (fun _ => rfl) (fun _ => rfl), .busy hdead (.done _)⟩ ⟨[], rfl⟩
  | none =>
    simp only [Option.isSome_none, Bool.false_eq_true, if_false]
    have hm' : manH s.f.s.hist n = none := by rw [← hi.man]; exact hm
    rcases acyclic_result hi ho with ⟨e1, e2⟩ | ⟨e1, e2⟩ <;> rw [e1] <;> simp only <;> intro h1 <;> injection h1 with h1 _ <;> subst h1
    · refine key _ _ _ _ rfl rfl (.installed L n m hL hm' e2) h2 ⟨?_, record_ref core sim.ref m hm, .busy hdead (.start n 0 (.done _))⟩
        ⟨_, rfl⟩
      show (fun i => L.deps i ++ _) = depsOf (addDependents s.f.s.dependents n m.inputs)
      rw [addDependents_deps, sim.deps]
    · exact key _ _ _ _ rfl rfl (.cycle L n m hL hm' e2) h2
        ⟨sim.deps, sim.ref.same rfl (fun _ => rfl) (fun _ => rfl), .busy hdead (.done _)⟩ ⟨[], rfl⟩

/-- The loop receives the ticket of a Report. -/
theorem good_report {s : Clients} (i : CInv cfg s) (k : CGood cfg s) {c : Nat} {f' : Fine}
    (h : fstep cfg s.f .report = some f') : CGood cfg { (s.move f').setPc c .served with serving := some (c, none) } := by
  simp only [fstep] at h
  split at h
  case isFalse => cases h
  rename_i hcond
  cases h
  have ht := List.isEmpty_iff.1 hcond.1
  obtain ⟨L, ha, hu, sim, _⟩ := k
  have hn := owes_none (serving_idle i ht)
  have sl := sim.loop
  rw [ht] at sl
  have hL := sl.ready hcond.2
  have e := owes_report (s := { (s.move ⟨s.f.s, [.report, .check]⟩).setPc c .served with serving := some (c, none) }) rfl
  refine ⟨L, ?_, hu, ⟨sim.deps, sim.ref, ?_⟩, fun h => absurd e h⟩
  · rw [e]
    show CAfter cfg (s.move ⟨s.f.s, [.report, .check]⟩).log _ _
    rw [news_append s (f' := ⟨s.f.s, [.report, .check]⟩) (es := []) rfl]
    rw [hn] at ha; exact ha
  · rw [hL]; exact .report hcond.2

/-- The loop hands over. -/
theorem good_reply {s : Clients} (i : CInv cfg s) (k : CGood cfg s) {c : Nat} {r : Res} (h : s.handing = some (c, r)) :
    CGood cfg ({ s with serving := none }.answer c r) := by
  obtain ⟨h1, h2⟩ := handing_eq h
  obtain ⟨L, ha, hu, sim, hb⟩ := k
  rw [owes_some h1] at ha hb
  obtain ⟨l, hl⟩ := hb nofun
  have sl := sim.loop
  rw [h2, hl] at sl
  obtain ⟨hd, ho⟩ := sl.of_busy rfl
  cases ho
  have e : (({ s with serving := none } : Clients).answer c r).owes = none := owes_none rfl
  refine ⟨L, ?_, hu, sim, fun h => absurd e h⟩
  rw [e]
  exact .handed ha (by rw [i.hist]; exact hu) hl

/-- An Install finds the engine dying. -/
theorem good_refuse {s : Clients} (i : CInv cfg s) (k : CGood cfg s) {c : Nat} {f' : Fine} {n : Name} {m : Manifold}
    (hc : s.calls[c]? = some ⟨.install n m, .asking⟩) (h : fstep cfg s.f (.env (.installRefused n)) = some f') :
    CGood cfg ((s.move f').answer c (.err .shuttingDown)) := by
  have h0 := h
  simp only [fstep, Op.isEnv, if_true] at h
  obtain ⟨s', hs, rfl⟩ := Option.map_eq_some_iff.1 h
  obtain ⟨L, ha, hu, sim, hb⟩ := k
  obtain ⟨D, hx⟩ := freach_link i.reach
  obtain ⟨core, hi⟩ := ex_hinv hx.1
  have sim' := env_sim (s := s.f.s) (op := .installRefused n) core hi sim rfl nofun hs
  simp only [Engine.step] at hs
  split at hs
  case isFalse => cases hs
  rename_i hd
  cases hs
  refine ⟨L, ?_, rfl, sim', hb⟩
  show CAfter cfg (.ret c (.err .shuttingDown) :: (s.move ⟨s.f.s.log (.installFailed n .shuttingDown), s.f.todo⟩).log) L s.owes
  rw [news_append s (es := [.installFailed n .shuttingDown]) rfl]
  refine CAfter.refused (h := s.log) ha (by rw [i.hist]; exact hu) (i.open hc (by simp)) (fun r hr => ?_)
    (by rw [i.hist]; exact hi.dying.1 hd)
  have hsv := i.serving
  unfold Serving at hsv
  unfold Clients.owes at hr
  split at hr
  · rename_i c' r' hs
    cases hr
    rw [hs] at hsv
    obtain ⟨q, x, a, y, k1, _⟩ := hsv
    rw [hc] at k1; cases k1
  · cases hr

/-- A call finds the engine dead. -/
theorem good_atEnd {s : Clients} (i : CInv cfg s) (k : CGood cfg s) {c : Nat} {e : Option Err} (hw : waitResult cfg s.f.s = some e) :
    (s.calls[c]? = some ⟨.wait, .asking⟩ → CGood cfg (s.answer c (.waited e))) ∧
    (s.calls[c]? = some ⟨.report, .asking⟩ → CGood cfg (s.answer c (.stopped e (reportLines s.f.s)))) := by
  obtain ⟨D, hx⟩ := freach_ex i.reach
  obtain ⟨core, hi⟩ := ex_hinv hx
  have hr := Props.ex_wait_result hx
  rw [hw] at hr
  have he : .exit ∈ engOf s.log ∧ e = waitedH cfg (engOf s.log) := by
    rw [i.hist]
    split at hr
    · rename_i h
      cases hr
      exact ⟨h, rfl⟩
    · cases hr
  obtain ⟨L, ha, hu, sim, hb⟩ := k
  refine ⟨fun hc => ⟨L, ?_, hu, sim, hb⟩, fun hc => ⟨L, ?_, hu, sim, hb⟩⟩
  · rw [he.2]
    exact CAfter.waited (h := s.log) ha (by rw [i.hist]; exact hu) (i.open hc (by simp)) he.1
  · rw [lines_eq core hi, (ex_xinv hx).2.keys, ← i.hist, he.2]
    exact CAfter.stopped (h := s.log) ha (by rw [i.hist]; exact hu) (i.open hc (by simp)) he.1

theorem creach_good {s : Clients} (hr : CReach cfg s) : CGood cfg s := by
  induction hr with
  | init => exact ⟨{}, .new, rfl, ⟨rfl, nofun, .idle rfl⟩, fun h => absurd rfl h⟩
  | @step s s' op hr h k =>
    have i := creach_inv hr
    cases op with
    | call q =>
      simp only [cstep, Option.some.injEq] at h; subst h
      obtain ⟨L, ha, hu, sim, hb⟩ := k
      refine ⟨L, ?_, hu, sim, hb⟩
      simp only [creach_calls hr]
      exact CAfter.call (h := s.log) ha (by rw [i.hist]; exact hu) q
    | other op =>
      simp only [cstep] at h
      split at h
      · cases h
      · rename_i hc
        obtain ⟨f', hf, rfl⟩ := Option.map_eq_some_iff.1 h
        exact good_other i k (by simpa using hc) hf
    | work =>
      simp only [cstep] at h
      split at h
      · cases h
      · rename_i hc
        obtain ⟨f', hf, rfl⟩ := Option.map_eq_some_iff.1 h
        exact good_work i k (by simpa using hc) hf
    | take c order =>
      simp only [cstep] at h
      split at h
      · rename_i hc
        obtain ⟨f', hf, rfl⟩ := Option.map_eq_some_iff.1 h
        exact good_install i k hc hf
      · obtain ⟨f', hf, rfl⟩ := Option.map_eq_some_iff.1 h
        exact good_report i k hf
      · cases h
    | reply =>
      simp only [cstep] at h
      obtain ⟨x, hx, rfl⟩ := Option.map_eq_some_iff.1 h
      exact good_reply i k hx
    | refuse c =>
      simp only [cstep] at h
      split at h
      · rename_i hc
        obtain ⟨f', hf, rfl⟩ := Option.map_eq_some_iff.1 h
        exact good_refuse i k hc hf
      · cases h
    | atEnd c =>
      simp only [cstep] at h
      split at h
      · rename_i hc
        obtain ⟨x, hx, rfl⟩ := Option.map_eq_some_iff.1 h
        simp only [deadReport] at hx
        obtain ⟨e, he, rfl⟩ := Option.map_eq_some_iff.1 hx
        exact (good_atEnd i k he).2 hc
      · rename_i hc
        obtain ⟨x, hx, rfl⟩ := Option.map_eq_some_iff.1 h
        exact (good_atEnd i k hx).1 hc
      · cases h

end Verif.Engine
