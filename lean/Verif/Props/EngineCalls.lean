import Verif.Engine.ClientsFull
import Verif.Props.EngineClients
import Verif.Props.EngineExact

/-!
# C102: exactly which logs an engine and its clients can have

`CAfter cfg h L o` is an account of an engine and the calls on it as those who call see it. The log of every execution is one that
it allows. All that it allows happens in some execution.
-/

namespace Verif.Props
open Verif.Engine Verif.Spec

variable {cfg : Config} {h : List CEv}

/-- C102: each entry in the log of an engine and its clients is one that is possible after those before it. -/
theorem C102_sound {s : Clients} (hr : CReach cfg s) : urgent cfg (engOf s.log) = none ∧ ∃ L o, CAfter cfg s.log L o := by
  obtain ⟨L, ha, hu, _⟩ := creach_good hr
  refine ⟨?_, L, _, ha⟩
  rw [(creach_inv hr).hist]; exact hu

/-- C102: a log is one of an engine and its clients if and only if each of its entries is possible after those before it, and what
has to follow the last one at once has happened. -/
theorem C102_exact : (∃ s, CReach cfg s ∧ s.log = h) ↔ urgent cfg (engOf h) = none ∧ ∃ L o, CAfter cfg h L o := by
  constructor
  · rintro ⟨s, hr, rfl⟩; exact C102_sound hr
  · rintro ⟨hu, L, o, ha⟩
    obtain ⟨s, k, x⟩ := cafter_canon ha
    exact ⟨s, k.reach, x.eq hu⟩

/-- C102: whatever is true of the log of every execution follows from the specification. -/
theorem C102_complete (P : List CEv → Prop) :
    (∀ s, CReach cfg s → P s.log) ↔ ∀ h L o, CAfter cfg h L o → urgent cfg (engOf h) = none → P h :=
  ⟨fun hP h L o ha hu => let ⟨s, hr, he⟩ := C102_exact.2 ⟨hu, L, o, ha⟩; he ▸ hP s hr,
   fun hP _ hr => let ⟨hu, L, o, ha⟩ := C102_sound hr; hP _ L o ha hu⟩

/-- C102: what the engine does is what it can do when nobody looks at the calls. -/
theorem C102_engine {y : List Ev} (hu : urgent cfg y = none) :
    (∃ h L o, CAfter cfg h L o ∧ engOf h = y) ↔ ∃ L, After cfg y L := by
  constructor
  · rintro ⟨h, L, o, ha, rfl⟩
    obtain ⟨s, hr, rfl⟩ := C102_exact.2 ⟨hu, L, o, ha⟩
    rw [(C100_engine hr).2]
    exact (C96_sound (C100_engine hr).1).2
  · rintro ⟨L, ha⟩
    obtain ⟨f, hr, rfl⟩ := C96_exact.2 ⟨hu, L, ha⟩
    obtain ⟨s, hs, rfl⟩ := C100_contains hr
    obtain ⟨_, L', o, h'⟩ := C102_sound hs
    exact ⟨s.log, L', o, h', (C100_engine hs).2⟩

/-- C102: what a call may return next, and when. -/
theorem C102_returns {c : Nat} {r : Res} : (∃ s, CReach cfg s ∧ s.log = .ret c r :: h) ↔
    urgent cfg (engOf h) = none ∧
      ((∃ L, CAfter cfg h L (some (c, r)) ∧ L.loop = .busy []) ∨
       (∃ L o n m y, CAfter cfg y L o ∧ urgent cfg (engOf y) = none ∧ h = .eng (.installFailed n .shuttingDown) :: y ∧
          r = .err .shuttingDown ∧ Open y c (.install n m) ∧ (∀ r, o ≠ some (c, r)) ∧ .kill ∈ engOf y) ∨
       (∃ L o, CAfter cfg h L o ∧ .exit ∈ engOf h ∧
          ((Open h c .report ∧ r = .stopped (waitedH cfg (engOf h)) ((orderH (engOf h)).map (lineH (engOf h)))) ∨
           (Open h c .wait ∧ r = .waited (waitedH cfg (engOf h)))))) := by
  rw [C102_exact]
  show urgent cfg (engOf h) = none ∧ _ ↔ _
  refine and_congr_right (fun hu => ?_)
  constructor
  · rintro ⟨L, o, ha⟩
    generalize he : CEv.ret c r :: h = h' at ha
    induction ha with
    | new | call | event | forced | taken => cases he
    | silent _ _ _ _ ih => exact ih he
    | handed ha hu hl => cases he; exact .inl ⟨_, ha, hl⟩
    | refused ha hy ho hc hk => cases he; exact .inr (.inl ⟨_, _, _, _, _, ha, hy, rfl, rfl, ho, hc, hk⟩)
    | stopped ha hu ho hx => cases he; exact .inr (.inr ⟨_, _, ha, hx, .inl ⟨ho, rfl⟩⟩)
    | waited ha hu ho hx => cases he; exact .inr (.inr ⟨_, _, ha, hx, .inr ⟨ho, rfl⟩⟩)
  · rintro (⟨L, ha, hl⟩ | ⟨L, o, n, m, y, ha, hy, rfl, rfl, ho, hc, hk⟩ | ⟨L, o, ha, hx, ⟨ho, rfl⟩ | ⟨ho, rfl⟩⟩)
    · exact ⟨_, _, .handed ha hu hl⟩
    · exact ⟨_, _, .refused ha hy ho hc hk⟩
    · exact ⟨_, _, .stopped ha hu ho hx⟩
    · exact ⟨_, _, .waited ha hu ho hx⟩

/-- Somebody installs a manifold and somebody else waits. The engine is killed before the Install returns. -/
def briefCalls : List CEv :=
  [.ret 1 (.waited none), .eng .exit, .eng (.ended 0 0 3 (some .aborted) (some .aborted) false none), .ret 0 .ok, .eng .kill,
   .eng (.begin 0 0 0 0 {}), .call 1 .wait, .eng (.installed 0 {}), .call 0 (.install 0 {})]

/- C102_exact, from right to left: each entry is checked against the specification. So there is such an engine with such clients. -/
example : ∃ s, CReach Demo.cfg s ∧ s.log = briefCalls := by
  refine C102_exact.2 ⟨rfl, ?_⟩
  have hc : ¬ CyclicH [.installed 0 {}] := by
    rintro ⟨n, hn⟩
    obtain ⟨m, hm⟩ := Relation.TransGen.head'_iff.1 hn
    obtain ⟨⟨x, hx, hi⟩, _⟩ := hm
    revert hx hi
    by_cases e : n = 0 <;> simp [manH, e]
    rintro rfl; simp
  have h1 := CAfter.call (cfg := Demo.cfg) .new rfl (.install 0 {})
  have h2 := CAfter.taken (q := .install 0 {}) (r := .ok) h1 rfl (.installed {} 0 {} rfl rfl hc)
    (c := 0) ⟨by decide +kernel, by simp⟩ ⟨rfl, rfl, rfl, hc⟩
  have h3 := CAfter.call h2 rfl .wait
  have h4 := CAfter.event h3 rfl (.start _ 0 0 [] {} rfl (by simp [engOf]) rfl) rfl nofun
  have h5 := CAfter.event h4 rfl (.kill _) rfl nofun
  have h6 := CAfter.handed h5 rfl rfl
  have h7 := CAfter.silent h6 rfl (.ready (by
    rintro ⟨_, h⟩
    rcases h 0 with h | ⟨k, h, _⟩ <;> revert h <;> decide +kernel)) (fun _ => rfl)
  have h8 := CAfter.event h7 rfl (.ended _ 0 0 3 (some .aborted) {} (fun _ => []) rfl rfl ⟨rfl, .inr (by decide +kernel)⟩ rfl
    (by intro i; simp)) rfl nofun
  have h9 := CAfter.silent h8 rfl (.drop _ (by decide +kernel)) nofun
  have h10 := CAfter.event h9 rfl (.exit _ (.inl rfl) (by decide +kernel) (by
    intro n; left
    by_cases e : n = 0 <;> simp [engOf, openH, e])) rfl (fun _ => rfl)
  have h11 := CAfter.waited (c := 1) h10 rfl ⟨by decide +kernel, by simp [callsH]⟩ (by decide +kernel)
  exact ⟨_, _, h11⟩

/- C102_returns, from left to right: no call returns before the engine has done something. -/
example (q : Req) (r : Res) : ¬ ∃ s, CReach cfg s ∧ s.log = [.ret 0 r, .call 0 q] := by
  have none_of : ∀ {h L o}, CAfter cfg h L o → (∀ x ∈ h, ∃ c q, x = .call c q) → o = none := by
    intro h L o ha
    induction ha with
    | new => exact fun _ => rfl
    | call _ _ _ ih => exact fun hh => ih (fun x hx => hh x (.tail _ hx))
    | silent _ _ _ _ ih => exact ih
    | event | forced | taken | handed | refused | stopped | waited => exact fun hh => by obtain ⟨_, _, h⟩ := hh _ (.head _); cases h
  rw [C102_returns]
  rintro ⟨_, ⟨L, ha, _⟩ | ⟨_, _, _, _, _, _, _, h, _⟩ | ⟨_, _, _, hx, _⟩⟩
  · exact absurd (none_of ha (by simp)) (by simp)
  · cases h
  · simp [engOf] at hx

/- C102_sound, C102_engine: the log of an execution in which every kind of call returns, and the history in it. -/
example : (∃ L o, CAfter Demo.cfg (ClDemo.after Demo.cfg ClDemo.opsEnd).log L o) ∧
    (ClDemo.after Demo.cfg ClDemo.opsEnd).log.length = 22 ∧ ∃ L, After Demo.cfg (engOf (ClDemo.after Demo.cfg ClDemo.opsEnd).log) L :=
  have h := C102_sound (ClDemo.after_reach Demo.cfg ClDemo.opsEnd)
  ⟨h.2, by decide +kernel, (C102_engine h.1).1 (let ⟨L, o, ha⟩ := h.2; ⟨_, L, o, ha, rfl⟩)⟩

end Verif.Props
