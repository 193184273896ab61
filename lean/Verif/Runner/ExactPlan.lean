import Verif.Runner.ExactLook

/-!
# Runner: when lookups can have looked
-/

namespace Verif.Runner
open Tab State RSpec Spec

variable {p : Params} {T : Choice}

/-! ## What is due -/

/-- The events that are due at times. -/
def IsDue : Ev → Prop
  | .begin .. | .told _ | .killW .. | .removed .. | .shutdown => True
  | _ => False

theorem IsDue.evCid {e : Ev} (h : IsDue e) : evCid e = none := by cases e <;> first | rfl | cases h

theorem IsDue.evCall {e : Ev} (h : IsDue e) : evCall e = none := by cases e <;> first | rfl | cases h

theorem killing_due {h : List Ev} {id : Name} {x : Ev} (hm : x ∈ RSpec.killing h id) : IsDue x := by
  unfold RSpec.killing at hm
  split at hm
  · rw [List.mem_singleton.1 hm]; trivial
  · cases hm

theorem caused_due {e : Ev} {h : List Ev} {x : Ev} (hm : x ∈ caused p e h) : IsDue x := by
  cases e with
  | accepted => rw [List.mem_singleton.1 hm]; trivial
  | learned =>
    simp only [caused] at hm
    split at hm
    · simp only [List.mem_cons, List.not_mem_nil, or_false] at hm
      rcases hm with rfl | rfl <;> trivial
    · cases hm
  | stopHandled =>
    simp only [caused] at hm
    split at hm
    · rcases List.mem_cons.1 hm with rfl | hm
      · trivial
      · exact killing_due hm
    · cases hm
  | told => exact killing_due hm
  | ended =>
    simp only [caused] at hm
    split at hm
    · split at hm
      · rw [List.mem_singleton.1 hm]; trivial
      · cases hm
    · split at hm
      · rcases List.mem_cons.1 hm with rfl | hm
        · trivial
        · split at hm
          · rw [List.mem_singleton.1 hm]; trivial
          · cases hm
      · cases hm
  | _ => cases hm

theorem dueH_due : ∀ {h : List Ev} {x : Ev}, x ∈ dueH p h → IsDue x
  | [], _, hm => by cases hm
  | e :: h, x, hm => by
    have ih := @dueH_due h x
    simp only [dueH] at hm
    cases hd : dueH p h with
    | nil => rw [hd] at hm; exact caused_due hm
    | cons d l => rw [hd] at hm ih; exact ih (List.mem_cons_of_mem _ hm)

/-- What is due is done in order. -/
theorem dueH_caused {e : Ev} {h : List Ev} (hd : dueH p h = []) : ∀ (a b : List Ev), caused p e h = a.reverse ++ b → dueH p (a ++ e :: h) = b
  | [], b, hc => by
    show dueH p (e :: h) = b
    simp only [dueH, hd]
    exact hc
  | x :: a, b, hc => by
    have ih := dueH_caused hd a (x :: b) (by rw [hc, List.reverse_cons, List.append_assoc]; rfl)
    show dueH p (x :: (a ++ e :: h)) = b
    simp only [dueH, ih]

/-- An event either is due, or can happen by itself. -/
theorem possible_cases {e : Ev} {h : List Ev} (hp : Possible p T e h) : (dueH p h = [] ∧ Can p T e h) ∨ IsDue e := by
  unfold Possible at hp
  split at hp
  · rename_i hd; exact .inl ⟨hd, hp⟩
  · rename_i d l hd
    exact .inr (hp ▸ dueH_due (p := p) (h := h) (by rw [hd]; exact List.mem_cons_self))

/-- Calls are numbered. -/
theorem calls_lt : ∀ {h : List Ev}, AtEvery (Possible p T) h → ∀ {k : Nat}, (callH h k).isSome = true → k < calls h
  | [], _, _, hc => by cases hc
  | e :: h, ha, k, hc => by
    have ih := calls_lt ha.2 (k := k)
    have hle : calls h ≤ calls (e :: h) := by cases e <;> simp only [calls] <;> omega
    rcases Decidable.em (evCall e = some k) with he | he
    · rcases possible_cases ha.1 with ⟨_, hcan⟩ | hdue
      · cases e <;> first
          | (cases he; done)
          | (simp only [evCall, Option.some.injEq] at he
             subst he
             have hk : _ = calls h := hcan
             simp only [calls]
             omega)
      · rw [hdue.evCall] at he; cases he
    · rw [callH_cons he] at hc
      exact Nat.lt_of_lt_of_le (ih hc) hle

/-- A call gets one worker to stop. -/
theorem kill_once : ∀ {h : List Ev}, AtEvery (Possible p T) h → ∀ {k w w' : Nat}, .clientKillW k w ∈ h → .clientKillW k w' ∈ h → w = w'
  | [], _, _, _, _, h1, _ => by cases h1
  | e :: h, ha, k, w, w', h1, h2 => by
    have key : ∀ w w', e = .clientKillW k w → .clientKillW k w' ∉ h := by
      rintro w w' rfl hm
      rcases possible_cases ha.1 with ⟨_, _, _, _, hn, _⟩ | hdue
      · exact hn w' hm
      · exact hdue
    rcases List.mem_cons.1 h1 with h1 | h1
    · rcases List.mem_cons.1 h2 with h2 | h2
      · have := h1.trans h2.symm; injection this
      · exact absurd h2 (key _ _ h1.symm)
    · rcases List.mem_cons.1 h2 with h2 | h2
      · exact absurd h1 (key _ _ h2.symm)
      · exact kill_once ha.2 h1 h2

/-- Who has called has still done so. -/
theorem call_next {e : Ev} {h : List Ev} (ha : AtEvery (Possible p T) h) (hc : Can p T e h) {k : Nat} {c : Call} (hk : callH h k = some c) :
    callH ((caused p e h).reverse ++ e :: h) k = some c := by
  rw [callH_append (fun x hx => by rw [(caused_due (List.mem_reverse.1 hx)).evCall]; nofun), callH_cons, hk]
  intro he
  have hlt := calls_lt ha (k := k) (by rw [hk]; rfl)
  cases e <;> first
    | (cases he; done)
    | (simp only [evCall, Option.some.injEq] at he
       subst he
       have hk : _ = calls h := hc
       omega)

/-- What is seen after the event has been seen before it, or is the case now. -/
theorem seen_next {e : Ev} {h : List Ev} (hd : dueH p h = []) {cid : Nat} {P : List Ev → Prop} (hs : Sees p ((caused p e h).reverse ++ e :: h) cid P) :
    (CanLook p ((caused p e h).reverse ++ e :: h) ∧ P ((caused p e h).reverse ++ e :: h)) ∨ Sees p h cid P := by
  obtain ⟨mid, pre, h1, h2, h3, h4⟩ := hs
  have within : ∀ bs, (caused p e h).reverse = mid ++ bs → pre = bs ++ e :: h →
      CanLook p ((caused p e h).reverse ++ e :: h) ∧ P ((caused p e h).reverse ++ e :: h) := by
    rintro bs hb rfl
    cases mid with
    | nil => rw [hb]; exact ⟨h3, h4⟩
    | cons x mid =>
      have hr := congrArg List.reverse hb
      rw [List.reverse_reverse, List.reverse_append] at hr
      have := dueH_caused hd bs _ hr
      rw [h3.1] at this
      simp at this
  rcases List.append_eq_append_iff.1 h1 with ⟨as, h5, h6⟩ | ⟨bs, h5, h6⟩
  · cases as with
    | nil => exact .inl (within [] (by rw [h5, List.append_nil, List.append_nil]) h6.symm)
    | cons x as =>
      rw [List.cons_append, List.cons.injEq] at h6
      exact .inr ⟨as, pre, h6.2, h2, h3, h4⟩
  · exact .inl (within bs h5 h6)

theorem Sees.called {h : List Ev} {cid : Nat} {P : List Ev → Prop} (hs : Sees p h cid P) : (callH h cid).isSome = true := by
  obtain ⟨mid, pre, rfl, h2, _⟩ := hs
  induction mid with
  | nil => exact h2
  | cons e mid ih => exact callH_stays ih e

/-! ## How far a lookup may be -/

/-- The call is looking for a worker. -/
def Pending (h : List Ev) (cid : Nat) (id : Name) : Prop :=
  (∀ r, .ret cid r ∉ h) ∧ NoKill h cid ∧ (callH h cid = some (.worker id) ∨ callH h cid = some (.remove id))

def StFor (p : Params) (T : Choice) (h : List Ev) (cid : Nat) (id : Name) : Stat → Prop
  | .lock => True
  | .imm r => Sees p h cid (fun h' => foundH h' id r)
  | .wait => Waits p h cid id
  | .got w rid => callH h cid = some (.worker id) ∧ Sees p h cid (fun h' => HasW h' id w rid ∧ Waits p h' cid id)
  | .kill w => callH h cid = some (.remove id) ∧ Gets p h cid id w (T.reg cid)

def StOk1 (p : Params) (T : Choice) (h : List Ev) (cid : Nat) (x : Stat) : Prop :=
  (callH h cid = none → x = .lock) ∧ ∀ id, Pending h cid id → StFor p T h cid id x

def StOk (p : Params) (T : Choice) (h : List Ev) (st : Nat → Stat) : Prop := ∀ cid, StOk1 p T h cid (st cid)

theorem stOk1_lock (h : List Ev) (cid : Nat) : StOk1 p T h cid .lock := ⟨fun _ => rfl, fun _ _ => trivial⟩

theorem stOk1_of {h : List Ev} {cid : Nat} {id : Name} {x : Stat} (hf : StFor p T h cid id x)
    (hc : callH h cid = some (.worker id) ∨ callH h cid = some (.remove id)) : StOk1 p T h cid x := by
  refine ⟨fun hn => (by rcases hc with hc | hc <;> (rw [hn] at hc; cases hc)), fun id' hp => ?_⟩
  have : id' = id := by
    rcases hc with hc | hc <;> rcases hp.2.2 with hp | hp <;> (rw [hc] at hp; cases hp) <;> rfl
  subst this
  exact hf

/-- It was no further before the event than it could be. -/
theorem demote {e : Ev} {h : List Ev} (ha : AtEvery (Possible p T) h) (hd : dueH p h = []) (hc : Can p T e h) {cid : Nat} {id : Name} {x : Stat}
    (hca : callH ((caused p e h).reverse ++ e :: h) cid = some (.worker id) ∨ callH ((caused p e h).reverse ++ e :: h) cid = some (.remove id))
    (hf : StFor p T ((caused p e h).reverse ++ e :: h) cid id x) :
    ∃ x0, StOk1 p T h cid x0 ∧
      (x0 = x ∨ (CanLook p ((caused p e h).reverse ++ e :: h) ∧ Adv p T ((caused p e h).reverse ++ e :: h) cid id x0 x)) := by
  have back : (callH h cid).isSome = true → callH h cid = callH ((caused p e h).reverse ++ e :: h) cid := by
    intro hs
    obtain ⟨c, hk⟩ := Option.isSome_iff_exists.1 hs
    rw [call_next ha hc hk, hk]
  have ok : ∀ {x : Stat}, (callH h cid).isSome = true → StFor p T h cid id x → StOk1 p T h cid x :=
    fun hs hf => stOk1_of hf (by rw [back hs]; exact hca)
  have waits : ∀ {w rid}, HasW ((caused p e h).reverse ++ e :: h) id w rid → Waits p ((caused p e h).reverse ++ e :: h) cid id → Waits p h cid id := by
    intro w rid h1 h2
    rcases seen_next hd h2 with ⟨_, h3⟩ | h3
    · rw [h1.1] at h3; cases h3.2
    · exact h3
  cases x with
  | lock => exact ⟨.lock, stOk1_lock _ _, .inl rfl⟩
  | imm r =>
    rcases seen_next hd hf with ⟨h1, h2⟩ | h1
    · exact ⟨.lock, stOk1_lock _ _, .inr ⟨h1, .imm r h2⟩⟩
    · exact ⟨.imm r, ok (Sees.called h1) h1, .inl rfl⟩
  | wait =>
    rcases seen_next hd hf with ⟨h1, h2⟩ | h1
    · exact ⟨.lock, stOk1_lock _ _, .inr ⟨h1, .wait h2⟩⟩
    · exact ⟨.wait, ok (Sees.called h1) h1, .inl rfl⟩
  | got w rid =>
    rcases seen_next hd hf.2 with ⟨h1, h2, h3⟩ | h1
    · have h4 := waits h2 h3
      exact ⟨.wait, ok (Sees.called h4) h4, .inr ⟨h1, .got w rid h2⟩⟩
    · have hs := Sees.called h1
      exact ⟨.got w rid, ok hs ⟨by rw [back hs]; exact hf.1, h1⟩, .inl rfl⟩
  | kill w =>
    rcases seen_next hd hf.2 with ⟨h1, h2, h3 | h3⟩ | h1
    · exact ⟨.lock, stOk1_lock _ _, .inr ⟨h1, .kill w hf.1 h2 h3⟩⟩
    · have h4 := waits h2 h3
      exact ⟨.wait, ok (Sees.called h4) h4, .inr ⟨h1, .gotKill w hf.1 h2⟩⟩
    · have hs := Sees.called h1
      exact ⟨.kill w, ok hs ⟨by rw [back hs]; exact hf.1, h1⟩, .inl rfl⟩

end Verif.Runner
