import Verif.Spec.EngineCount
import Verif.Props.EngineExact
import Verif.Props.EngineConverge

/-!
# C99: how often an engine starts a manifold
-/

namespace Verif.Props.Count
open Verif.Engine Verif.Spec

variable {cfg : Config} {h : List Ev} {e : Ev} {L L' : Hidden}

/-! ## The invariant -/

/-- Attempts of `n` that a duty may bring about. -/
def dutyN (n : Name) : Duty → Nat
  | .start m _ => if n = m then 1 else 0
  | .tell m => if n = m then 1 else 0
  | .remove .. => 0

def listN (n : Name) : List Duty → Nat
  | [] => 0
  | t :: l => dutyN n t + listN n l

def loopL : Loop → List Duty
  | .look l | .busy l => l
  | _ => []

def toldN (h : List Ev) (n : Name) : Nat := match openH h n with
  | some g => if .cancelled g ∈ h then 1 else 0
  | none => 0

def NoRem (l : List Duty) : Prop := ∀ t ∈ l, ∀ n o, t ≠ .remove n o

/-- Only the first duty removes a manifold, and what is left then is right. -/
def RemOk (h : List Ev) : List Duty → Prop
  | [] => True
  | t :: l => NoRem l ∧ ∀ n order, t = .remove n order →
      ∀ i d, (order i).count d ≤ if d = n then 0 else (inputsH h d).count i

structure CInv (h : List Ev) (L : Hidden) : Prop where
  fresh : ∀ g, .cancelled g ∈ h → g < beginsH h
  opened : ∀ n g, openH h n = some g → g < beginsH h ∧ nameH h g = some n
  deps : ∀ i d, (L.deps i).count d ≤ (inputsH h d).count i
  rem : RemOk h (loopL L.loop)
  main : .kill ∉ h → ∀ n, attemptsH h n + listN n (loopL L.loop) + toldN h n ≤ causesH h n + newsH h n
  bound : ∀ n, attemptsH h n ≤ causesH h n + newsH h n

theorem listN_append (n : Name) (a b : List Duty) : listN n (a ++ b) = listN n a + listN n b := by
  induction a with
  | nil => simp [listN]
  | cons t a ih => simp only [List.cons_append, listN, ih]; omega

theorem listN_tell (n : Name) (l : List Name) : listN n (l.map .tell) = l.count n := by
  induction l with
  | nil => rfl
  | cons d l ih =>
    simp only [List.map_cons, listN, dutyN, ih, List.count_cons, beq_iff_eq]
    by_cases hd : n = d
    · subst hd; simp; omega
    · rw [if_neg hd, if_neg (fun h => hd h.symm)]; omega

theorem noRem_tell (l : List Name) : NoRem (l.map .tell) := by
  intro t ht n o he
  obtain ⟨d, _, rfl⟩ := List.mem_map.1 ht
  cases he

theorem NoRem.ok (hn : NoRem l) : RemOk h l := by
  cases l with
  | nil => trivial
  | cons t l => exact ⟨fun x hx => hn x (List.mem_cons_of_mem _ hx), fun n o ht => absurd ht (hn t List.mem_cons_self n o)⟩

theorem RemOk.tail (hr : RemOk h (t :: l)) : NoRem l := hr.1

theorem RemOk.congr (hr : RemOk h l) (hi : ∀ d, inputsH h' d = inputsH h d) : RemOk h' l := by
  cases l with
  | nil => trivial
  | cons t l => exact ⟨hr.1, fun n o ht i d => by rw [hi]; exact hr.2 n o ht i d⟩

/-- Events that do not matter here. -/
def plain : Ev → Bool
  | .installed .. | .begin .. | .registered .. | .cancelled _ | .ended .. | .uninstalled _ => false
  | _ => true

theorem plain_open (hp : plain e = true) (n : Name) : openH (e :: h) n = openH h n := by
  cases e <;> first | rfl | cases hp

theorem plain_inputs (hp : plain e = true) (n : Name) : inputsH (e :: h) n = inputsH h n := by
  cases e <;> first | rfl | cases hp

theorem plain_begins (hp : plain e = true) : beginsH (e :: h) = beginsH h := by
  cases e <;> first | rfl | cases hp

theorem plain_name (hp : plain e = true) (g : Nat) : nameH (e :: h) g = nameH h g := by
  cases e <;> first | rfl | cases hp

theorem plain_counts (hp : plain e = true) (n : Name) : attemptsH (e :: h) n = attemptsH h n ∧
    causesH (e :: h) n = causesH h n ∧ newsH (e :: h) n = newsH h n := by
  cases e <;> first | exact ⟨rfl, rfl, rfl⟩ | cases hp

theorem plain_cancelled (hp : plain e = true) (g : Nat) : .cancelled g ∈ e :: h ↔ .cancelled g ∈ h := by
  cases e <;> first | cases hp; done | simp

theorem toldN_congr {h h' : List Ev} {n : Name} (ho : openH h' n = openH h n)
    (hc : ∀ g, openH h n = some g → (.cancelled g ∈ h' ↔ .cancelled g ∈ h)) : toldN h' n = toldN h n := by
  unfold toldN
  rw [ho]
  cases hg : openH h n with
  | none => rfl
  | some g =>
    simp only [hc g hg]

theorem CInv.plain (i : CInv h L) (hp : plain e = true) (hd : L'.deps = L.deps)
    (hl : ∀ n, listN n (loopL L'.loop) ≤ listN n (loopL L.loop)) (hr : RemOk h (loopL L'.loop)) : CInv (e :: h) L' := by
  refine ⟨?_, ?_, ?_, ?_, ?_, ?_⟩
  · intro g hg; rw [plain_begins hp]; exact i.fresh g ((plain_cancelled hp g).1 hg)
  · intro n g hg; rw [plain_begins hp, plain_name hp]; rw [plain_open hp] at hg; exact i.opened n g hg
  · intro a d; rw [hd, plain_inputs hp]; exact i.deps a d
  · exact hr.congr (fun d => plain_inputs hp d)
  · intro hk n
    have := i.main (fun h => hk (List.mem_cons_of_mem _ h)) n
    have h2 := hl n
    obtain ⟨e1, e2, e3⟩ := plain_counts (h := h) hp n
    rw [e1, e2, e3, toldN_congr (plain_open hp n) (fun g _ => plain_cancelled hp g)]
    omega
  · intro n
    obtain ⟨e1, e2, e3⟩ := plain_counts (h := h) hp n
    rw [e1, e2, e3]; exact i.bound n

theorem CInv.silent (i : CInv h L) {l : Loop}
    (hl : ∀ n, listN n (loopL l) ≤ listN n (loopL L.loop)) (hr : RemOk h (loopL l)) : CInv h { L with loop := l } :=
  ⟨i.fresh, i.opened, i.deps, hr, fun hk n => by have := i.main hk n; have := hl n; simp only; omega, i.bound⟩

/-- An attempt begins. -/
theorem CInv.begin (i : CInv h L) {n : Name} {t : Duty} {l : List Duty} {b : Int} {r : Nat} {sn : Snapshot} {ref : Name → Bool}
    (hl : L.loop = .busy (t :: l)) (ht : dutyN n t = 1) (hk : .kill ∉ h) :
    CInv (.begin n (beginsH h) b r sn :: h) { L with loop := .busy l, refused := ref } := by
  have hmem : ∀ g, .cancelled g ∈ Ev.begin n (beginsH h) b r sn :: h ↔ .cancelled g ∈ h := fun g => by simp
  have hin : ∀ d, inputsH (.begin n (beginsH h) b r sn :: h) d = inputsH h d := fun d => rfl
  have hrem := i.rem
  rw [hl] at hrem
  have hopen : ∀ x, openH (.begin n (beginsH h) b r sn :: h) x = if x = n then some (beginsH h) else openH h x := fun x => rfl
  have hmain : ∀ x, attemptsH (.begin n (beginsH h) b r sn :: h) x + listN x l +
      toldN (.begin n (beginsH h) b r sn :: h) x ≤ causesH h x + newsH h x := by
    intro x
    have h1 := i.main hk x
    rw [hl] at h1
    simp only [loopL, listN] at h1
    simp only [attemptsH]
    by_cases hx : x = n
    · subst hx
      have h0 : toldN (.begin x (beginsH h) b r sn :: h) x = 0 := by
        unfold toldN
        rw [hopen, if_pos rfl]
        simp only [hmem]
        rw [if_neg (fun hc => absurd (i.fresh _ hc) (Nat.lt_irrefl _))]
      rw [h0, if_pos rfl]; omega
    · rw [if_neg hx, toldN_congr (by rw [hopen, if_neg hx]) (fun g _ => hmem g)]; omega
  refine ⟨?_, ?_, i.deps, hrem.tail.ok, fun _ x => hmain x, fun x => ?_⟩
  · intro g hg
    have := i.fresh g ((hmem g).1 hg)
    show g < beginsH h + 1
    omega
  · intro x g hg
    rw [hopen] at hg
    show g < beginsH h + 1 ∧ (if g = beginsH h then some n else nameH h g) = some x
    split at hg
    · rename_i hx; cases hg; exact ⟨Nat.lt_succ_self _, by rw [if_pos rfl, hx]⟩
    · have := i.opened x g hg
      exact ⟨by omega, by rw [if_neg (by omega)]; exact this.2⟩
  · have := hmain x
    show attemptsH (.begin n (beginsH h) b r sn :: h) x ≤ causesH h x + newsH h x
    omega

/-- An attempt is told to stop. -/
theorem CInv.cancel (i : CInv h L) {n : Name} {g : Nat} {l : List Duty} (ho : openH h n = some g)
    (hn : NoRem l) (hl : .kill ∈ h ∨ ∀ x, listN x l + (if x = n then 1 else 0) ≤ listN x (loopL L.loop)) :
    CInv (.cancelled g :: h) { L with loop := .busy l } := by
  refine ⟨?_, i.opened, i.deps, hn.ok, ?_, i.bound⟩
  · intro g' hg'
    rcases List.mem_cons.1 hg' with he | hm
    · cases he; exact (i.opened n g ho).1
    · exact i.fresh g' hm
  · intro hk x
    have hk' : .kill ∉ h := fun h => hk (List.mem_cons_of_mem _ h)
    have h1 := i.main hk' x
    have h2 := (hl.resolve_left hk') x
    show attemptsH h x + listN x l + toldN (.cancelled g :: h) x ≤ causesH h x + newsH h x
    by_cases hx : x = n
    · rw [if_pos hx] at h2
      have : toldN (.cancelled g :: h) x ≤ 1 := by
        unfold toldN; split
        · split <;> omega
        · omega
      omega
    · rw [if_neg hx] at h2
      have : toldN (.cancelled g :: h) x = toldN h x := by
        refine toldN_congr rfl (fun g' hg' => ?_)
        have hne : g' ≠ g := by
          rintro rfl
          have e1 := (i.opened x g' hg').2
          rw [(i.opened n g' ho).2] at e1
          exact hx (Option.some.inj e1).symm
        simp [hne]
      omega

theorem inputsH_installed (n : Name) (m : Manifold) (d : Name) :
    inputsH (.installed n m :: h) d = if d = n then m.inputs else inputsH h d := by
  by_cases hd : d = n <;> simp [inputsH, manH, hd]

theorem inputsH_uninstalled (n d : Name) : inputsH (.uninstalled n :: h) d = if d = n then [] else inputsH h d := by
  by_cases hd : d = n <;> simp [inputsH, manH, hd]

theorem reaction_count (told : Bool) (f : Option Err) (order : Name → List Name) (n x : Name) :
    listN x (reaction cfg n told f order) = if x = n ∧ (told = true ∨ retried f = true) then 1 else 0 := by
  unfold reaction retried
  cases told with
  | true => simp [listN, dutyN]
  | false =>
    cases f with
    | none => simp [listN]
    | some r =>
      by_cases h1 : .aborted ∈ r.tree <;> by_cases h2 : .missing ∈ r.tree <;> by_cases h3 : .bounce ∈ r.tree <;>
        by_cases h4 : .uninstall ∈ r.tree <;> simp [h1, h2, h3, h4, listN, dutyN]

theorem reaction_rem (told : Bool) (f : Option Err) (order : Name → List Name) (n : Name) :
    NoRem (reaction cfg n told f order) ∨ reaction cfg n told f order = [.remove n order] := by
  have nil : NoRem [] := fun t ht => by cases ht
  have one : ∀ b, NoRem [.start n b] := by
    intro b t ht m o he
    rw [List.mem_singleton.1 ht] at he; cases he
  unfold reaction
  split
  · exact Or.inl (one _)
  · split
    · exact Or.inl nil
    · split
      · exact Or.inl nil
      · split
        · exact Or.inl (one _)
        · split
          · exact Or.inr rfl
          · exact Or.inl (one _)

theorem NoRem.append (ha : NoRem a) (hb : NoRem b) : NoRem (a ++ b) := by
  intro t ht
  rcases List.mem_append.1 ht with ht | ht
  · exact ha t ht
  · exact hb t ht

/-- An attempt ends. -/
theorem CInv.ended (i : CInv h L) {n : Name} {g : Nat} {now : Int} {raw f : Option Err} {lost : Option WRef}
    {order : Name → List Name} (hl : L.loop = .idle) (ho : openH h n = some g)
    (hv : ∀ a, (order a).Nodup ∧ ∀ d, d ∈ order a ↔ d ∈ L.deps a ∧ d ≠ n) :
    CInv (.ended n g now raw f (decide (.cancelled g ∈ h)) lost :: h)
      { L with loop := .look (duties cfg L.deps order n (decide (.cancelled g ∈ h)) f lost) } := by
  have hmem : ∀ g', .cancelled g' ∈ Ev.ended n g now raw f (decide (.cancelled g ∈ h)) lost :: h ↔ .cancelled g' ∈ h :=
    fun g' => by simp
  have hopen : ∀ x, openH (.ended n g now raw f (decide (.cancelled g ∈ h)) lost :: h) x =
      if x = n then none else openH h x := fun x => rfl
  have hord : ∀ a d, (order a).count d ≤ if d = n then 0 else (inputsH h d).count a := by
    intro a d
    by_cases hd : d ∈ order a
    · rw [(hv a).1.count, if_pos hd, if_neg (((hv a).2 d).1 hd).2]
      have h1 := i.deps a d
      have h2 := List.count_pos_iff.2 (((hv a).2 d).1 hd).1
      omega
    · rw [List.count_eq_zero.2 hd]; exact Nat.zero_le _
  have htell : ∀ x, listN x (if lost = none then [] else (if removes (decide (.cancelled g ∈ h)) f then order n else L.deps n).map .tell) ≤
      if lost = none then 0 else (inputsH h x).count n := by
    intro x
    split
    · exact Nat.le_refl _
    · rw [listN_tell]
      split
      · refine Nat.le_trans (hord n x) ?_
        split <;> omega
      · exact i.deps n x
  refine ⟨?_, ?_, i.deps, ?_, ?_, ?_⟩
  · intro g' hg'; exact i.fresh g' ((hmem g').1 hg')
  · intro x g' hg'
    rw [hopen] at hg'
    split at hg'
    · cases hg'
    · exact i.opened x g' hg'
  · show RemOk _ (duties cfg L.deps order n (decide (.cancelled g ∈ h)) f lost)
    unfold duties
    have ht : NoRem (if lost = none then [] else (if removes (decide (.cancelled g ∈ h)) f then order n else L.deps n).map .tell) := by
      split
      · intro t ht; cases ht
      · exact noRem_tell _
    rcases reaction_rem (cfg := cfg) (decide (.cancelled g ∈ h)) f order n with hr | hr
    · exact (hr.append ht).ok
    · rw [hr]
      refine ⟨ht, ?_⟩
      intro n' o' he a d
      cases he
      exact hord a d
  · intro hk x
    have h1 := i.main (fun h => hk (List.mem_cons_of_mem _ h)) x
    rw [hl] at h1
    simp only [loopL, listN, Nat.add_zero] at h1
    have h2 := htell x
    show attemptsH h x + listN x (duties cfg L.deps order n (decide (.cancelled g ∈ h)) f lost) + _ ≤
      (causesH h x + if x = n ∧ decide (.cancelled g ∈ h) = false ∧ retried f = true then 1 else 0) +
      (newsH h x + if lost = none then 0 else (inputsH h x).count n)
    unfold duties
    rw [listN_append, reaction_count]
    by_cases hx : x = n
    · subst hx
      have h0 : toldN (.ended x g now raw f (decide (.cancelled g ∈ h)) lost :: h) x = 0 := by
        unfold toldN; rw [hopen, if_pos rfl]
      rw [h0]
      have h3 : toldN h x = if .cancelled g ∈ h then 1 else 0 := by unfold toldN; rw [ho]
      rw [h3] at h1
      by_cases hc : .cancelled g ∈ h
      · simp only [hc, decide_true, if_true, true_or, and_true, reduceCtorEq, false_and, and_false, if_false] at *
        omega
      · simp only [hc, decide_false, if_false, reduceCtorEq, false_or, true_and] at *
        omega
    · rw [toldN_congr (by rw [hopen, if_neg hx]) (fun g' _ => hmem g')]
      simp only [hx, false_and, if_false] at *
      omega
  · intro x
    have := i.bound x
    show attemptsH h x ≤ (causesH h x + _) + (newsH h x + _)
    omega

theorem count_replicate_le (n d : Name) (k : Nat) : (List.replicate k n).count d = if d = n then k else 0 := by
  by_cases hd : d = n
  · subst hd; simp
  · rw [if_neg hd, List.count_eq_zero]
    intro hm; exact hd (List.eq_of_mem_replicate hm)

theorem happens_inv (i : CInv h L) (hs : Happens cfg h L e L') : CInv (e :: h) L' := by
  cases hs with
  | kill => exact i.plain rfl rfl (fun _ => Nat.le_refl _) i.rem
  | finished => exact i.plain rfl rfl (fun _ => Nat.le_refl _) i.rem
  | refuseInstall => exact i.plain rfl rfl (fun _ => Nat.le_refl _) i.rem
  | startCall => exact i.plain rfl rfl (fun _ => Nat.le_refl _) i.rem
  | get => exact i.plain rfl rfl (fun _ => Nat.le_refl _) i.rem
  | getLate => exact i.plain rfl rfl (fun _ => Nat.le_refl _) i.rem
  | startOk => exact i.plain rfl rfl (fun _ => Nat.le_refl _) i.rem
  | startErr => exact i.plain rfl rfl (fun _ => Nat.le_refl _) i.rem
  | refuse => exact i.plain rfl rfl (fun _ => Nat.le_refl _) i.rem
  | installed n m hl hm hc =>
    have hn : inputsH h n = [] := by simp only [inputsH, hm]
    refine ⟨?_, i.opened, ?_, ?_, ?_, ?_⟩
    · intro g hg; exact i.fresh g (by simpa using hg)
    · intro a d
      rw [inputsH_installed, List.count_append, count_replicate_le]
      have h1 := i.deps a d
      by_cases hd : d = n
      · subst hd
        rw [hn] at h1
        simp only [List.count_nil, if_true] at *
        omega
      · rw [if_neg hd, if_neg hd]; omega
    · refine ⟨?_, ?_⟩
      · intro t ht; cases ht
      · intro n' o he; cases he
    · intro hk x
      have h1 := i.main (fun h => hk (List.mem_cons_of_mem _ h)) x
      rw [hl] at h1
      simp only [loopL, listN, dutyN, Nat.add_zero] at h1 ⊢
      show attemptsH h x + (if x = n then 1 else 0) + toldN (.installed n m :: h) x ≤
        (causesH h x + if x = n then 1 else 0) + (newsH h x + 0)
      rw [toldN_congr (h := h) (h' := .installed n m :: h) rfl (fun g _ => by simp)]
      omega
    · intro x
      have := i.bound x
      show attemptsH h x ≤ (causesH h x + _) + (newsH h x + 0)
      omega
  | already n hl => exact i.plain rfl rfl (fun _ => Nat.zero_le _) trivial
  | cycle n m hl => exact i.plain rfl rfl (fun _ => Nat.zero_le _) trivial
  | report hl => exact i.plain rfl rfl (fun _ => Nat.zero_le _) trivial
  | registered n g w now hl hk ho hp hw hr hc =>
    refine ⟨?_, i.opened, i.deps, (noRem_tell _).ok, ?_, ?_⟩
    · intro g hg; exact i.fresh g (by simpa using hg)
    · intro hk x
      have h1 := i.main (fun h => hk (List.mem_cons_of_mem _ h)) x
      rw [hl] at h1
      simp only [loopL, listN, Nat.add_zero, listN_tell] at h1 ⊢
      show attemptsH h x + (L.deps n).count x + toldN (.registered n g w now :: h) x ≤
        causesH h x + (newsH h x + (inputsH h x).count n)
      rw [toldN_congr (h := h) (h' := .registered n g w now :: h) rfl (fun g _ => by simp)]
      have := i.deps n x
      omega
    · intro x
      have := i.bound x
      show attemptsH h x ≤ causesH h x + (newsH h x + _)
      omega
  | ended n g now raw m order hl ho he hm hv => exact i.ended hl ho hv
  | dying n g order pre l hl hk ho hc hn hi he hp => exact i.cancel ho (noRem_tell _) (Or.inl hk)
  | start n b l m hl hk hm => exact i.begin hl (by simp [dutyN]) hk
  | restart n l m hl ho hk hm => exact i.begin hl (by simp [dutyN]) hk
  | cancelled n g l hl ho hc =>
    have hrem := i.rem
    rw [hl] at hrem
    refine i.cancel ho hrem.tail (Or.inr fun x => ?_)
    rw [hl]; simp only [loopL, listN, dutyN]
    omega
  | uninstalled n order l hl =>
    have hrem := i.rem
    rw [hl] at hrem
    have ho := hrem.2 n order rfl
    refine ⟨?_, i.opened, ?_, hrem.tail.ok, ?_, i.bound⟩
    · intro g hg; exact i.fresh g (by simpa using hg)
    · intro a d
      rw [inputsH_uninstalled]
      have := ho a d
      split <;> simp_all
    · intro hk x
      have h1 := i.main (fun h => hk (List.mem_cons_of_mem _ h)) x
      rw [hl] at h1
      simp only [loopL, listN, dutyN] at h1 ⊢
      show attemptsH h x + listN x l + toldN (.uninstalled n :: h) x ≤ causesH h x + (newsH h x + 0)
      rw [toldN_congr (h := h) (h' := .uninstalled n :: h) rfl (fun g _ => by simp)]
      omega
  | exit hl hk ha => exact i.plain rfl rfl (fun _ => Nat.zero_le _) trivial

theorem after_inv (ha : After cfg h L) : CInv h L := by
  induction ha with
  | new => exact ⟨nofun, nofun, fun _ _ => Nat.zero_le _, trivial, fun _ _ => Nat.le_refl _, fun _ => Nat.le_refl _⟩
  | event _ _ hs ih => exact happens_inv ih hs
  | @forced h L e _ hu ih =>
    have hp : plain e = true := by
      unfold urgent at hu
      split at hu
      · split at hu
        · cases hw : workerH _ _ with
          | none => rw [hw] at hu; cases hu
          | some w => rw [hw] at hu; cases hu; rfl
        · cases hu
      · cases hu; rfl
      · split at hu <;> cases hu; rfl
      · cases hu
    exact ih.plain hp rfl (fun _ => Nat.le_refl _) ih.rem
  | @silent h L l _ _ hs ih =>
    have hrem := ih.rem
    generalize hL : L.loop = l0 at hs hrem
    cases hs with
    | look l => exact ih.silent (fun n => by rw [hL]; exact Nat.le_refl _) hrem
    | drop l => exact ih.silent (fun n => Nat.zero_le _) trivial
    | start n b l => exact ih.silent (fun x => by rw [hL]; exact Nat.le_add_left _ _) hrem.tail.ok
    | tell n l => exact ih.silent (fun x => by rw [hL]; exact Nat.le_add_left _ _) hrem.tail.ok
    | ready => exact ih.silent (fun n => Nat.zero_le _) trivial

/-! ## Registrations -/

/-- How often a worker of the manifold was registered. -/
def regsH : List Ev → Name → Nat
  | [], _ => 0
  | .registered m _ _ _ :: h, n => regsH h n + if n = m then 1 else 0
  | _ :: h, n => regsH h n

/-- How often a registered worker of the manifold was lost. -/
def lossesH : List Ev → Name → Nat
  | [], _ => 0
  | .ended m _ _ _ _ _ lost :: h, n => lossesH h n + if n = m ∧ lost ≠ none then 1 else 0
  | _ :: h, n => lossesH h n

structure RInv (h : List Ev) : Prop where
  regs : ∀ n, regsH h n + (if openH h n ≠ none ∧ workerH h n = none then 1 else 0) ≤ attemptsH h n
  losses : ∀ n, lossesH h n + (if workerH h n ≠ none then 1 else 0) ≤ regsH h n

theorem RInv.same (i : RInv h) (h1 : ∀ n, openH (e :: h) n = openH h n) (h2 : ∀ n, workerH (e :: h) n = workerH h n)
    (h3 : ∀ n, attemptsH (e :: h) n = attemptsH h n) (h4 : ∀ n, regsH (e :: h) n = regsH h n)
    (h5 : ∀ n, lossesH (e :: h) n = lossesH h n) : RInv (e :: h) :=
  ⟨fun n => by rw [h1, h2, h3, h4]; exact i.regs n, fun n => by rw [h2, h4, h5]; exact i.losses n⟩

theorem happens_reg (i : RInv h) (hs : Happens cfg h L e L') : RInv (e :: h) := by
  cases hs
  case start n b l m hl hk hm =>
    refine ⟨fun x => ?_, i.losses⟩
    have h1 := i.regs x
    show regsH h x + (if (if x = n then some (beginsH h) else openH h x) ≠ none ∧ workerH h x = none then 1 else 0) ≤
      attemptsH h x + if x = n then 1 else 0
    by_cases hx : x = n
    · simp only [hx, if_true] at *
      have : regsH h n ≤ attemptsH h n := by omega
      split <;> omega
    · simp only [hx, if_false] at *; omega
  case restart n l m hl ho hk hm =>
    refine ⟨fun x => ?_, i.losses⟩
    have h1 := i.regs x
    show regsH h x + (if (if x = n then some (beginsH h) else openH h x) ≠ none ∧ workerH h x = none then 1 else 0) ≤
      attemptsH h x + if x = n then 1 else 0
    by_cases hx : x = n
    · simp only [hx, if_true] at *
      have : regsH h n ≤ attemptsH h n := by omega
      split <;> omega
    · simp only [hx, if_false] at *; omega
  case registered n g w now hl hk ho hp hw hr hc =>
    refine ⟨fun x => ?_, fun x => ?_⟩
    · have h1 := i.regs x
      show (regsH h x + if x = n then 1 else 0) + (if openH h x ≠ none ∧ (if x = n then some w else workerH h x) = none then 1 else 0) ≤
        attemptsH h x
      by_cases hx : x = n
      · subst hx
        simp [ho, hw] at *
        omega
      · simp only [hx, if_false] at *; omega
    · have h1 := i.losses x
      show lossesH h x + (if (if x = n then some w else workerH h x) ≠ none then 1 else 0) ≤ regsH h x + if x = n then 1 else 0
      by_cases hx : x = n
      · subst hx
        simp [hw] at *
        omega
      · simp only [hx, if_false] at *; omega
  case ended n g now raw m order hl ho he hm hv =>
    refine ⟨fun x => ?_, fun x => ?_⟩
    · have h1 := i.regs x
      show regsH h x + (if (if x = n then none else openH h x) ≠ none ∧ (if x = n then none else workerH h x) = none then 1 else 0) ≤
        attemptsH h x
      by_cases hx : x = n
      · subst hx
        simp at *
        omega
      · simp only [hx, if_false] at *; omega
    · have h1 := i.losses x
      show (lossesH h x + if x = n ∧ workerH h n ≠ none then 1 else 0) + (if (if x = n then none else workerH h x) ≠ none then 1 else 0) ≤
        regsH h x
      by_cases hx : x = n
      · subst hx
        simp at *
        omega
      · simp only [hx, if_false, false_and] at *; omega
  all_goals exact i.same (fun _ => rfl) (fun _ => rfl) (fun _ => rfl) (fun _ => rfl) (fun _ => rfl)

theorem urgent_plain (hu : urgent cfg h = some e) : (∃ w, e = .killW w) ∨ e = .kill := by
  unfold urgent at hu
  split at hu
  · split at hu
    · cases hw : workerH _ _ with
      | none => rw [hw] at hu; cases hu
      | some w => rw [hw] at hu; cases hu; exact Or.inl ⟨_, rfl⟩
    · cases hu
  · cases hu; exact Or.inr rfl
  · split at hu <;> cases hu; exact Or.inr rfl
  · cases hu

theorem after_reg (ha : After cfg h L) : RInv h := by
  induction ha with
  | new => exact ⟨fun _ => Nat.le_refl _, fun _ => Nat.le_refl _⟩
  | event _ _ hs ih => exact happens_reg ih hs
  | forced _ hu ih =>
    rcases urgent_plain hu with ⟨w, rfl⟩ | rfl
    · exact ih.same (fun _ => rfl) (fun _ => rfl) (fun _ => rfl) (fun _ => rfl) (fun _ => rfl)
    · exact ih.same (fun _ => rfl) (fun _ => rfl) (fun _ => rfl) (fun _ => rfl) (fun _ => rfl)
  | silent _ _ _ ih => exact ih

/-! ## Without removals -/

structure UInv (h : List Ev) : Prop where
  never : ∀ n, manH h n = none → causesH h n = 0
  once : ∀ n, manH h n ≠ none → 1 ≤ causesH h n
  news : ∀ n, newsH h n ≤ ((inputsH h n).map (fun i => regsH h i + lossesH h i)).sum

theorem UInv.same (i : UInv h) (h1 : ∀ n, manH (e :: h) n = manH h n) (h2 : ∀ n, causesH (e :: h) n = causesH h n)
    (h3 : ∀ n, newsH (e :: h) n = newsH h n) (h4 : ∀ n, regsH (e :: h) n = regsH h n)
    (h5 : ∀ n, lossesH (e :: h) n = lossesH h n) : UInv (e :: h) := by
  have h6 : ∀ n, inputsH (e :: h) n = inputsH h n := fun n => by unfold inputsH; rw [h1]
  refine ⟨fun n => by rw [h1, h2]; exact i.never n, fun n => by rw [h1, h2]; exact i.once n, fun n => ?_⟩
  rw [h3, h6]; simp only [h4, h5]; exact i.news n

theorem sum_bump (l : List Name) (f : Name → Nat) (n : Name) (k : Nat) :
    (l.map (fun i => f i + if i = n then k else 0)).sum = (l.map f).sum + k * l.count n := by
  induction l with
  | nil => simp
  | cons a l ih =>
    simp only [List.map_cons, List.sum_cons, ih, List.count_cons, beq_iff_eq]
    by_cases ha : a = n
    · subst ha; simp [Nat.mul_add]; omega
    · simp [ha]; omega

theorem happens_uninst (i : UInv h) (hs : Happens cfg h L e L') (hn : ∀ n, e ≠ .uninstalled n) : UInv (e :: h) := by
  cases hs
  case installed n m hl hm hc =>
    refine ⟨fun x hx => ?_, fun x hx => ?_, fun x => ?_⟩
    · have hx' : (if x = n then some m else manH h x) = none := hx
      show causesH h x + (if x = n then 1 else 0) = 0
      split at hx'
      · cases hx'
      · rename_i hne; rw [if_neg hne]; exact i.never x hx'
    · have hx' : (if x = n then some m else manH h x) ≠ none := hx
      show 1 ≤ causesH h x + if x = n then 1 else 0
      split at hx'
      · rename_i he; rw [if_pos he]; omega
      · have := i.once x hx'; omega
    · rw [inputsH_installed]
      show newsH h x + 0 ≤ _
      have h1 := i.news x
      split
      · rename_i hx
        have : inputsH h x = [] := by simp only [inputsH, hx, hm]
        rw [this] at h1
        simp only [List.map_nil, List.sum_nil, Nat.le_zero] at h1
        rw [h1]; exact Nat.zero_le _
      · exact h1
  case registered n g w now hl hk ho hp hw hr hc =>
    refine ⟨i.never, i.once, fun x => ?_⟩
    show newsH h x + (inputsH h x).count n ≤ ((inputsH h x).map (fun j => (regsH h j + if j = n then 1 else 0) + lossesH h j)).sum
    have e1 : (fun j => (regsH h j + if j = n then 1 else 0) + lossesH h j) =
        (fun j => (regsH h j + lossesH h j) + if j = n then 1 else 0) := by
      funext j; omega
    rw [e1, sum_bump]
    have := i.news x
    omega
  case ended n g now raw m order hl ho he hm hv =>
    refine ⟨fun x hx => ?_, fun x hx => ?_, fun x => ?_⟩
    · have h1 := i.never x hx
      show causesH h x + (if _ then 1 else 0) = 0
      rw [h1, if_neg]
      rintro ⟨rfl, _⟩
      rw [show manH h x = none from hx] at hm; cases hm
    · have := i.once x hx
      show 1 ≤ causesH h x + _
      omega
    · show newsH h x + (if workerH h n = none then 0 else (inputsH h x).count n) ≤
        ((inputsH h x).map (fun j => regsH h j + (lossesH h j + if j = n ∧ workerH h n ≠ none then 1 else 0))).sum
      have h1 := i.news x
      by_cases hw : workerH h n = none
      · simp only [hw, if_true, ne_eq, not_true, and_false, if_false, Nat.add_zero]; exact h1
      · simp only [hw, if_false, ne_eq, not_false_iff, and_true]
        have e1 : (fun j => regsH h j + (lossesH h j + if j = n then 1 else 0)) =
            (fun j => (regsH h j + lossesH h j) + if j = n then 1 else 0) := by
          funext j; omega
        rw [e1, sum_bump]
        omega
  case uninstalled n order l hl => exact absurd rfl (hn n)
  all_goals exact i.same (fun _ => rfl) (fun _ => rfl) (fun _ => rfl) (fun _ => rfl) (fun _ => rfl)

theorem after_uninst (ha : After cfg h L) : (∀ n, .uninstalled n ∉ h) → UInv h := by
  induction ha with
  | new => exact fun _ => ⟨fun _ _ => rfl, fun _ h => absurd rfl h, fun _ => Nat.le_refl _⟩
  | event _ _ hs ih =>
    intro hu
    exact happens_uninst (ih fun n hn => hu n (List.mem_cons_of_mem _ hn)) hs
      (fun n he => hu n (he ▸ List.mem_cons_self))
  | forced _ hf ih =>
    intro hu
    have ih := ih fun n hn => hu n (List.mem_cons_of_mem _ hn)
    rcases urgent_plain hf with ⟨w, rfl⟩ | rfl
    · exact ih.same (fun _ => rfl) (fun _ => rfl) (fun _ => rfl) (fun _ => rfl) (fun _ => rfl)
    · exact ih.same (fun _ => rfl) (fun _ => rfl) (fun _ => rfl) (fun _ => rfl) (fun _ => rfl)
  | silent _ _ _ ih => exact ih

theorem sum_le (l : List Name) (f g : Name → Nat) (hfg : ∀ i ∈ l, f i ≤ g i) : (l.map f).sum ≤ (l.map g).sum := by
  induction l with
  | nil => exact Nat.le_refl _
  | cons a l ih =>
    have h1 := hfg a List.mem_cons_self
    have h2 := ih (fun i hi => hfg i (List.mem_cons_of_mem _ hi))
    simp only [List.map_cons, List.sum_cons]
    omega

theorem le_sum (l : List Name) (f : Name → Nat) (hi : i ∈ l) : f i ≤ (l.map f).sum := by
  induction l with
  | nil => cases hi
  | cons a l ih =>
    simp only [List.map_cons, List.sum_cons]
    rcases List.mem_cons.1 hi with rfl | hi
    · omega
    · have := ih hi; omega

theorem sum_double (l : List Name) (f : Name → Nat) : (l.map (fun i => 2 * f i)).sum = 2 * (l.map f).sum := by
  induction l with
  | nil => rfl
  | cons a l ih => simp only [List.map_cons, List.sum_cons, ih]; omega

end Verif.Props.Count

namespace Verif.Props
open Verif.Engine Verif.Spec Count

variable {cfg : Config} {f : Fine}

/-- C99: an engine begins an attempt of a manifold at most once for each time that the manifold was installed, that it ended
by itself with an error after which it is tried again, and that one of its inputs was registered or lost. -/
theorem C99_attempts (hr : FReach cfg f) (n : Name) : attemptsH f.s.hist n ≤ causesH f.s.hist n + newsH f.s.hist n := by
  obtain ⟨_, L, ha⟩ := C96_sound hr
  exact (after_inv ha).bound n

/-- C99: and the news are at most two for each attempt of an input, in an engine from which nothing has been removed. -/
theorem C99_news (hr : FReach cfg f) (hu : ∀ n, .uninstalled n ∉ f.s.hist) (n : Name) :
    newsH f.s.hist n ≤ 2 * ((inputsH f.s.hist n).map (attemptsH f.s.hist)).sum := by
  obtain ⟨_, L, ha⟩ := C96_sound hr
  have r := after_reg ha
  refine Nat.le_trans ((after_uninst ha hu).news n) ?_
  rw [← sum_double]
  refine sum_le _ _ _ (fun i _ => ?_)
  have h1 := r.regs i
  have h2 := r.losses i
  omega

/-- C99: so, whatever the order of events and the delays, an engine from which nothing has been removed has begun at most
`b n` attempts of `n`, if `b` allows for each manifold its own causes and twice what it allows for its inputs. -/
theorem C99_bound (hr : FReach cfg f) (hu : ∀ n, .uninstalled n ∉ f.s.hist) (b : Name → Nat)
    (hb : ∀ n m, manH f.s.hist n = some m → causesH f.s.hist n + 2 * (m.inputs.map b).sum ≤ b n) (n : Name) :
    attemptsH f.s.hist n ≤ b n := by
  obtain ⟨_, L, ha⟩ := C96_sound hr
  have u := after_uninst ha hu
  generalize hk : b n = k
  induction k using Nat.strongRecOn generalizing n with
  | _ k ih =>
    subst hk
    have h1 := C99_attempts hr n
    have h2 := C99_news hr hu n
    cases hm : manH f.s.hist n with
    | none =>
      have h3 := u.never n hm
      rw [show inputsH f.s.hist n = [] by simp only [inputsH, hm]] at h2
      simp only [List.map_nil, List.sum_nil] at h2
      omega
    | some m =>
      have h3 := u.once n (by rw [hm]; nofun)
      have h4 := hb n m hm
      rw [show inputsH f.s.hist n = m.inputs by simp only [inputsH, hm]] at h2
      have h5 : (m.inputs.map (attemptsH f.s.hist)).sum ≤ (m.inputs.map b).sum := by
        refine sum_le _ _ _ (fun i hi => ?_)
        have h6 := le_sum m.inputs b hi
        exact ih (b i) (by omega) i rfl
      omega

/-- C99: there is such a `b` for every execution, with equality: the graph of manifolds has no cycles. -/
theorem C99_least (hr : FReach cfg f) : ∃ b : Name → Nat,
    ∀ n m, manH f.s.hist n = some m → b n = causesH f.s.hist n + 2 * (m.inputs.map b).sum := by
  have hwf : WellFounded (fun j n => Declares f.s.hist n j) := by
    obtain ⟨D, hl⟩ := freach_link hr
    obtain ⟨_, i⟩ := ex_hinv hl.1
    refine wf_right f.s.manifolds.keys ?_ ?_
    · rintro j n ⟨m, hm, _⟩
      rw [← i.man] at hm
      exact AMap.mem_keys_of_get? hm
    · intro n h
      exact ex_acyclic hl.1 ⟨n, Relation.transGen_swap.1 h⟩
  let b : Name → Nat := hwf.fix (fun n rec => causesH f.s.hist n +
    2 * ((inputsH f.s.hist n).attach.map (fun i => if hi : Declares f.s.hist n i.1 then rec i.1 hi else 0)).sum)
  refine ⟨b, fun n m hm => ?_⟩
  have e : b n = causesH f.s.hist n +
      2 * ((inputsH f.s.hist n).attach.map (fun i => if Declares f.s.hist n i.1 then b i.1 else 0)).sum := by
    show hwf.fix _ n = _
    rw [WellFounded.fix_eq]
    rfl
  rw [e]
  have hin : inputsH f.s.hist n = m.inputs := by simp only [inputsH, hm]
  have e2 : (inputsH f.s.hist n).attach.map (fun i => if Declares f.s.hist n i.1 then b i.1 else 0) =
      (inputsH f.s.hist n).attach.map (fun i => b i.1) := by
    refine List.map_congr_left (fun i _ => ?_)
    rw [if_pos ⟨m, hm, hin ▸ i.2⟩]
  rw [e2, List.attach_map_val (f := b), hin]

/-- Manifold 1 uses manifold 0. The worker of 0 fails once, and later ends; each time 1 follows, and it tries in between. -/
def FDemo.opsOften : List FOp := FDemo.opsUp ++
  [ .env (.finish 10 (some (.user 1))), .env (.gWaitRet 0), .stopped 0 100 Demo.vals01, .work, .work, .work, .work, .work,
    .env (.finish 11 none), .env (.gWaitRet 2), .stopped 2 101 Demo.noVals, .work, .work, .work, .work,
    .env (.gTimer 4 0), .env (.gStartErr 4 .missing), .stopped 4 102 Demo.noVals, .work, .work,
    .env (.gTimer 3 0), .env (.gStartOk 3 (.obj 12)), .started 3 103, .work, .work, .work,
    .env (.gTimer 5 0), .env (.gStartOk 5 (.obj 13)), .started 5 104, .work, .work,
    .env (.finish 12 none), .env (.gWaitRet 3), .stopped 3 105 Demo.vals01, .work, .work, .work, .work,
    .env (.finish 13 none), .env (.gWaitRet 5), .stopped 5 106 Demo.noVals, .work, .work, .work, .work ]

/-- C99: the bound is reached. -/
theorem C99_reached : ∃ (cfg : Config) (f : Fine), FReach cfg f ∧ (∀ n, .uninstalled n ∉ f.s.hist) ∧
    manH f.s.hist 1 = some { inputs := [0] } ∧ manH f.s.hist 0 = some {} ∧ causesH f.s.hist 0 = 2 ∧ attemptsH f.s.hist 0 = 2 ∧
    causesH f.s.hist 1 = 1 ∧ attemptsH f.s.hist 1 = 1 + 2 * 2 := by
  refine ⟨Demo.cfg, _, FDemo.after_reach _ FDemo.opsOften, ?_, by decide +kernel, by decide +kernel, by decide +kernel,
    by decide +kernel, by decide +kernel, by decide +kernel⟩
  have h : (FDemo.after Demo.cfg FDemo.opsOften).s.hist.all (fun e => match e with
    | .uninstalled _ => false
    | _ => true) = true := by decide +kernel
  intro n hn
  exact absurd (List.all_eq_true.1 h _ hn) (by simp)

/- The hypotheses of C99_bound. -/
example : ∀ n m, manH (FDemo.after Demo.cfg FDemo.opsOften).s.hist n = some m →
    causesH (FDemo.after Demo.cfg FDemo.opsOften).s.hist n + 2 * (m.inputs.map (fun i => if i = 0 then 2 else 5)).sum ≤
      if n = 0 then 2 else 5 := by
  intro n m hm
  by_cases h0 : n = 0
  · subst h0
    have e : manH (FDemo.after Demo.cfg FDemo.opsOften).s.hist 0 = some {} := by decide +kernel
    rw [e] at hm; cases hm
    decide +kernel
  · by_cases h1 : n = 1
    · subst h1
      have e : manH (FDemo.after Demo.cfg FDemo.opsOften).s.hist 1 = some { inputs := [0] } := by decide +kernel
      rw [e] at hm; cases hm
      decide +kernel
    · exfalso
      have h : (FDemo.after Demo.cfg FDemo.opsOften).s.hist.all (fun e => match e with
        | .installed n _ => n = 0 || n = 1
        | _ => true) = true := by decide +kernel
      revert hm h
      generalize (FDemo.after Demo.cfg FDemo.opsOften).s.hist = hs
      induction hs with
      | nil => intro hm; cases hm
      | cons e hs ih =>
        intro hm h
        rw [List.all_cons, Bool.and_eq_true] at h
        cases e <;> simp only [manH] at hm <;> try exact ih hm h.2
        · rename_i n' m'
          split at hm
          · rename_i he; subst he; simp [h0, h1] at h
          · exact ih hm h.2
        · split at hm
          · cases hm
          · exact ih hm h.2

end Verif.Props
