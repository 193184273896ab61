import Verif.Runner.Fair
import Verif.Runner.Race
import Verif.Props.RunnerDemo
import Mathlib.Tactic.ByContra

/-!
# The runner while it kills its workers (C88)

killAll (runner.go:584-590) calls one worker's Kill after the other and holds runner.mu meanwhile. While a Kill has not
returned the loop does nothing, and nobody else gets the mutex.
-/

namespace Verif.Props
open Verif.Spec Verif.RSpec Verif.Runner

variable {p : Params}

/-- What only the run goroutine does, and what takes runner.mu. -/
def needsRunner : Ev → Bool
  | .accepted .. | .refused .. | .ignored .. | .begin .. | .learned .. | .stopHandled .. | .told .. | .killW .. | .ended ..
  | .removed .. | .shutdown | .exit | .report .. | .names .. => true
  | _ => false

/-- A call of StopWorker, Worker or StopAndRemoveWorker. -/
def asks : Ev → Option Nat
  | .callStop k _ | .callWorker k _ | .callRemove k _ => some k
  | _ => none

/-- A call that waits for the loop or for the mutex. -/
def Held (c : Client) : Prop := ∃ id, c.pc = .lock id ∨ c.pc = .stopSend id

structure Still (s s' : State) : Prop where
  pc : s'.tab.pc = s.tab.pc
  workers : s'.tab.workers = s.tab.workers
  es : ∃ es, s'.tab.hist = es ++ s.tab.hist ∧ ∀ e ∈ es, needsRunner e = false ∧
    ∀ k, asks e = some k → ∃ c ∈ s'.clients, c.cid = k ∧ Held c
  held : ∀ c ∈ s.clients, Held c → ∃ c' ∈ s'.clients, c'.cid = c.cid ∧ Held c'

theorem Still.of_tab {s : State} {t : Tab} (h1 : t.pc = s.tab.pc) (h2 : t.workers = s.tab.workers)
    (h3 : t.hist = s.tab.hist ∨ ∃ e, t.hist = e :: s.tab.hist ∧ needsRunner e = false ∧ asks e = none) : Still s (s.withTab t) := by
  refine ⟨h1, h2, ?_, fun c hc h => ⟨c, hc, rfl, h⟩⟩
  rcases h3 with h | ⟨e, h, he⟩
  · exact ⟨[], h, by simp⟩
  · exact ⟨[e], h, by simp [he]⟩

theorem tab_still {s : State} {op : Op} {t : Tab} (hl : op.byLoop = false) (hk : op.looks = false)
    (h : tabStep p s op = some t) : Still s (s.withTab t) := by
  cases op <;> simp only [tabStep] at h <;> try (cases h; done)
  all_goals first | (cases hl; done) | (cases hk; done) | skip
  all_goals (repeat' split at h) <;> first
    | (cases h; done)
    | (simp at h; done)
    | (cases h; exact .of_tab rfl rfl (.inl rfl))
    | (cases h; exact .of_tab rfl rfl (.inr ⟨_, rfl, rfl, rfl⟩))

theorem Still.of_client {s s' : State} {c : Client} (hnd : (s.clients.map Client.cid).Nodup) (hc : c ∈ s.clients) (f : Client → Client)
    (hcl : s'.clients = s.clients.map (fun x => if x.cid = c.cid then f x else x)) (hf : ∀ x, (f x).cid = x.cid)
    (hh : Held c → Held (f c)) (h1 : s'.tab.pc = s.tab.pc) (h2 : s'.tab.workers = s.tab.workers)
    (h3 : s'.tab.hist = s.tab.hist ∨ ∃ e, s'.tab.hist = e :: s.tab.hist ∧ needsRunner e = false ∧ asks e = none) : Still s s' := by
  refine ⟨h1, h2, ?_, ?_⟩
  · rcases h3 with h | ⟨e, h, he⟩
    · exact ⟨[], h, by simp⟩
    · exact ⟨[e], h, by simp [he]⟩
  · intro x hx hhx
    refine ⟨if x.cid = c.cid then f x else x, by rw [hcl]; exact List.mem_map.2 ⟨x, hx, rfl⟩, ?_, ?_⟩
    · split
      · exact hf x
      · rfl
    · split
      · rename_i heq
        have := cid_inj hnd hx hc heq
        subst this
        exact hh hhx
      · exact hhx

theorem not_held {c : Client} {pc : CPc} (h : c.pc = pc) (h1 : ∀ id, pc ≠ .lock id) (h2 : ∀ id, pc ≠ .stopSend id) : ¬ Held c := by
  rintro ⟨id, h3 | h3⟩
  · exact h1 id (h ▸ h3)
  · exact h2 id (h ▸ h3)

theorem client_still {s s' : State} {c : Client} {op : Op} (hr : Reach p s) (hd : s.tab.tomb.dead = false)
    (hl : op.byLoop = false) (hk : op.looks = false)
    (hc : c ∈ s.clients) (hcid : op.cid? = some c.cid) (h : clientStep s c op = some s') : Still s s' := by
  have hnd := hr.cinv.nd
  cases op <;> cases hcid <;> simp only [clientStep, hd] at h <;> try (cases h; done)
  all_goals first | (cases hl; done) | (cases hk; done) | skip
  all_goals (repeat' split at h) <;> first
    | (cases h; done)
    | (simp at h; done)
    | contradiction
    | (cases h; rename_i hpc; exact .of_client hnd hc _ rfl (fun _ => rfl) (fun hh => absurd hh (not_held hpc (by simp) (by simp))) rfl rfl (.inl rfl))
    | (cases h; rename_i hpc _; exact .of_client hnd hc _ rfl (fun _ => rfl) (fun hh => absurd hh (not_held hpc (by simp) (by simp))) rfl rfl (.inl rfl))
    | (cases h; rename_i hpc; exact .of_client hnd hc _ rfl (fun _ => rfl) (fun hh => absurd hh (not_held hpc (by simp) (by simp))) rfl rfl (.inr ⟨_, rfl, rfl, rfl⟩))
    | (cases h; rename_i hpc _; exact .of_client hnd hc _ rfl (fun _ => rfl) (fun hh => absurd hh (not_held hpc (by simp) (by simp))) rfl rfl (.inr ⟨_, rfl, rfl, rfl⟩))
    | (cases h; exact .of_client hnd hc _ rfl (fun _ => rfl) (fun hh => hh) rfl rfl (.inl rfl))
    | (cases h; exact .of_client hnd hc _ rfl (fun _ => rfl) (fun hh => hh) rfl rfl (.inr ⟨_, rfl, rfl, rfl⟩))
    | skip
  · rename_i r hpc _
    cases h
    have hn := not_held hpc (by simp) (by simp)
    unfold afterInfo
    cases r with
    | notFound => exact .of_client hnd hc _ rfl (fun _ => rfl) (fun hh => absurd hh hn) rfl rfl (.inr ⟨_, rfl, rfl, rfl⟩)
    | worker w rid =>
      simp only
      split
      · exact .of_client hnd hc _ rfl (fun _ => rfl) (fun hh => absurd hh hn) rfl rfl (.inl rfl)
      · exact .of_client hnd hc _ rfl (fun _ => rfl) (fun hh => absurd hh hn) rfl rfl (.inr ⟨_, rfl, rfl, rfl⟩)
  · rename_i r hpc _
    cases h
    have hn := not_held hpc (by simp) (by simp)
    unfold afterInfo
    cases r with
    | notFound => exact .of_client hnd hc _ rfl (fun _ => rfl) (fun hh => absurd hh hn) rfl rfl (.inr ⟨_, rfl, rfl, rfl⟩)
    | worker w rid =>
      simp only
      split
      · exact .of_client hnd hc _ rfl (fun _ => rfl) (fun hh => absurd hh hn) rfl rfl (.inl rfl)
      · exact .of_client hnd hc _ rfl (fun _ => rfl) (fun hh => absurd hh hn) rfl rfl (.inr ⟨_, rfl, rfl, rfl⟩)
  · rename_i hpc
    cases h
    have hn := not_held hpc (by simp) (by simp)
    refine ⟨rfl, rfl, ⟨[_], rfl, ?_⟩, ?_⟩
    · intro e he
      cases List.mem_singleton.1 he
      exact ⟨rfl, by intro k hk; cases hk⟩
    · intro x hx hhx
      have hne : x.cid ≠ c.cid := fun heq => hn (cid_inj hnd hx hc heq ▸ hhx)
      refine ⟨{ x with helper := x.helper.map Helper.wake }, ?_, rfl, hhx⟩
      refine List.mem_map.2 ⟨{ x with helper := x.helper.map Helper.wake }, List.mem_map.2 ⟨x, hx, rfl⟩, ?_⟩
      simp [hne]
  · rename_i hpc _ _ _
    cases h
    exact .of_client hnd hc _ rfl (fun _ => rfl) (fun hh => absurd hh (not_held hpc (by simp) (by simp))) rfl rfl (.inl rfl)

theorem new_still {s : State} (c : Client) (e : Ev) (h1 : needsRunner e = false)
    (h2 : ∀ k, asks e = some k → k = s.nextC ∧ Held c) : Still s (newClient s c e) := by
  refine ⟨rfl, rfl, ⟨[e], rfl, ?_⟩, fun x hx h => ⟨x, List.mem_cons_of_mem _ hx, rfl, h⟩⟩
  intro e' he'
  cases List.mem_singleton.1 he'
  refine ⟨h1, fun k hk => ⟨_, .head _, (h2 k hk).1.symm, (h2 k hk).2⟩⟩

/-- A step that is not the run goroutine's and does not take runner.mu. -/
theorem step_still {s s' : State} {op : Op} (hr : Reach p s) (hd : s.tab.tomb.dead = false) (hl : op.byLoop = false)
    (hk : op.looks = false) (hs : step p s op = some s') : Still s s' := by
  unfold Runner.step at hs
  split at hs
  · cases hs; exact new_still _ _ rfl (by intro k hk; cases hk)
  · cases hs; exact new_still _ _ rfl (by intro k hk; cases hk; exact ⟨rfl, _, .inr rfl⟩)
  · cases hs; exact new_still _ _ rfl (by intro k hk; cases hk; exact ⟨rfl, _, .inl rfl⟩)
  · cases hs; exact new_still _ _ rfl (by intro k hk; cases hk; exact ⟨rfl, _, .inl rfl⟩)
  · cases hl
  · cases hl
  · split at hs
    · rename_i cid hcid
      split at hs
      · rename_i c hg
        have hc : c ∈ s.clients := List.mem_of_find?_eq_some hg
        have hck : c.cid = cid := by simpa using List.find?_some hg
        exact client_still hr hd hl hk hc (by rw [hcid, hck]) hs
      · cases hs
    · obtain ⟨t, ht, rfl⟩ := Option.map_eq_some_iff.1 hs
      exact tab_still hl hk ht

theorem not_dead {s : State} (hr : Reach p s) (hp : s.tab.pc ≠ .exited) : s.tab.tomb.dead = false := by
  rw [hr.tab.hinv.tomb hp]
  unfold aliveTomb
  split <;> rfl

/-- In killAll the run goroutine does nothing but go on, and nobody else gets runner.mu. -/
theorem killing_only {s s' : State} {op : Op} {rest : List Name} (hp : s.tab.pc = .killing rest)
    (ho : op ≠ .killNext) (hs : step p s op = some s') : op.byLoop = false ∧ op.looks = false := by
  have hm : s.muFree = false := by
    cases hm : s.muFree with
    | false => rfl
    | true => rw [muFree_iff, hp] at hm; cases hm.2
  cases op <;> first | exact ⟨rfl, rfl⟩ | exact absurd rfl ho | skip
  all_goals
    simp only [Runner.step, Op.cid?, tabStep, clientStep, hp, hm] at hs
    simp_all
    try (repeat' split at hs) <;> cases hs

theorem killing_still {s s' : State} {op : Op} {rest : List Name} (hr : Reach p s) (hp : s.tab.pc = .killing rest)
    (ho : op ≠ .killNext) (hs : step p s op = some s') : Still s s' := by
  obtain ⟨hl, hk⟩ := killing_only hp ho hs
  exact step_still hr (not_dead hr (by rw [hp]; nofun)) hl hk hs

theorem Still.trans {s s1 s2 : State} (h : Still s s1) (k : Still s1 s2) : Still s s2 := by
  obtain ⟨es, he, hq⟩ := h.es
  obtain ⟨fs, hf, hq'⟩ := k.es
  refine ⟨k.pc.trans h.pc, k.workers.trans h.workers, ⟨fs ++ es, by rw [hf, he, List.append_assoc], ?_⟩, ?_⟩
  · intro e hm
    rcases List.mem_append.1 hm with hm | hm
    · exact hq' e hm
    · refine ⟨(hq e hm).1, fun i hi => ?_⟩
      obtain ⟨c, hc, hci, hh⟩ := (hq e hm).2 i hi
      obtain ⟨c', hc', h1, h2⟩ := k.held c hc hh
      exact ⟨c', hc', h1.trans hci, h2⟩
  · intro c hc hh
    obtain ⟨c1, hc1, h1, h2⟩ := h.held c hc hh
    obtain ⟨c2, hc2, h3, h4⟩ := k.held c1 hc1 h2
    exact ⟨c2, hc2, h3.trans h1, h4⟩

/-- Every operation but the return of the Kill that the loop has called. -/
def notKillReturns (op : Op) : Bool := decide (op ≠ .killNext)

theorem exec_still {cnt : Op → Bool} {n : Nat} {s s' : State} (hx : Exec p notKillReturns cnt n s s') :
    ∀ {rest}, Reach p s → s.tab.pc = .killing rest → Still s s' := by
  induction hx with
  | nil s => intro rest _ _; exact ⟨rfl, rfl, ⟨[], rfl, by simp⟩, fun c hc h => ⟨c, hc, rfl, h⟩⟩
  | one op ho hs _ ih =>
    intro rest hr hp
    have h1 := killing_still hr hp (by simpa [notKillReturns] using ho) hs
    exact h1.trans (ih (.step _ hr hs) (h1.pc.trans hp))

/-- C88: until the Kill of the worker at hand returns, the loop does nothing whatever else happens: no request is
handled, no attempt scheduled or ended, no worker told to stop, no id removed, and neither Report nor WorkerNames
returns. -/
theorem C88_still {cnt : Op → Bool} {n : Nat} {s s' : State} {rest : List Name} (hr : Reach p s) (hp : s.tab.pc = .killing rest)
    (hx : Exec p notKillReturns cnt n s s') : s'.tab.workers = s.tab.workers ∧
    ∃ es, s'.tab.hist = es ++ s.tab.hist ∧ ∀ e ∈ es, needsRunner e = false := by
  have h := exec_still hx hr hp
  obtain ⟨es, he, hq⟩ := h.es
  exact ⟨h.workers, es, he, fun e hm => (hq e hm).1⟩

/-- C88: so a call of StopWorker, Worker or StopAndRemoveWorker made meanwhile, by the Kill itself for instance, does
not return before the Kill does. -/
theorem C88_calls {cnt : Op → Bool} {n : Nat} {s s' : State} {rest : List Name} (hr : Reach p s) (hp : s.tab.pc = .killing rest)
    (hx : Exec p notKillReturns cnt n s s') {es : List Ev} (he : s'.tab.hist = es ++ s.tab.hist) {k : Nat} {id : Name}
    (hc : .callStop k id ∈ es ∨ .callWorker k id ∈ es ∨ .callRemove k id ∈ es) (r : Ret) : .ret k r ∉ s'.tab.hist := by
  have h := exec_still hx hr hp
  obtain ⟨fs, hf, hq⟩ := h.es
  have : fs = es := List.append_cancel_right (hf.symm.trans he)
  subst this
  have key : ∃ c ∈ s'.clients, c.cid = k ∧ Held c := by
    rcases hc with hc | hc | hc
    · exact (hq _ hc).2 k rfl
    · exact (hq _ hc).2 k rfl
    · exact (hq _ hc).2 k rfl
  obtain ⟨c, hcm, rfl, i, hh⟩ := key
  have hr' := hx.reach hr
  refine (hr'.cinv.ok c hcm).ret ?_ r
  intro r' hr'
  rcases hh with hh | hh <;> rw [hr'] at hh <;> cases hh

/-- Ids 7 and 8 are running as 10 and 11; the runner is killed and has called 11's Kill. -/
def opsKilling : List Op := RDemo.opsTwo ++ [.kill, .loopTop, .recvDying, .killAll [8, 7], .killNext]

/-- Meanwhile Worker is called, 10 finishes and its attempt is about to say so. -/
def opsMeanwhile : List Op := [.callWorker 7, .kill, .finish 10 none, .gWaitRet 0]

example : (RDemo.after RDemo.prm opsKilling).tab.pc = .killing [7] ∧
    .killW 8 11 ∈ (RDemo.after RDemo.prm opsKilling).tab.hist ∧
    (∀ op ∈ opsMeanwhile, notKillReturns op = true) ∧
    (RDemo.after RDemo.prm (opsKilling ++ opsMeanwhile)).tab.hist =
      [.finished 10 none, .kill, .callWorker 2 7] ++ (RDemo.after RDemo.prm opsKilling).tab.hist := by
  refine ⟨by decide +kernel, by decide +kernel, by decide +kernel, by decide +kernel⟩

theorem exec_run {ops : List Op} : ∀ {s s' : State}, RDemo.run p s ops = some s' → (∀ op ∈ ops, notKillReturns op = true) →
    Exec p notKillReturns (fun _ => true) ops.length s s' := by
  induction ops with
  | nil => intro s s' h _; cases h; exact .nil _
  | cons op ops ih =>
    intro s s' h ha
    simp only [RDemo.run] at h
    split at h
    · rename_i s1 h1
      exact .one (n := ops.length) op (ha op (.head _)) h1 (ih h (fun o ho => ha o (.tail _ ho)))
    · cases h

example : Exec RDemo.prm notKillReturns (fun _ => true) 4 (RDemo.after RDemo.prm opsKilling)
    (RDemo.after RDemo.prm (opsKilling ++ opsMeanwhile)) :=
  exec_run (ops := opsMeanwhile) (by decide +kernel) (by decide +kernel)

end Verif.Props
