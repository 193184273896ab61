import Verif.Validate
import Verif.Spec.Graph

namespace Verif.Validate
open Relation Spec

variable {inputs : AMap (List Name)}

/-- Number of keys not on the recursion stack. -/
def free (inputs : AMap (List Name)) (s : VState) : Nat :=
  (inputs.keys.filter (fun k => !s.isDoing k)).length

/-- What holds of the shared maps before and after each `visit`. -/
structure VInv (inputs : AMap (List Name)) (s : VState) : Prop where
  disj : ∀ n, s.isDone n = true → s.isDoing n = false
  closed : ∀ a b, s.isDone a = true → DependsOn inputs a b → s.isDone b = true
  acyc : ∀ a, s.isDone a = true → ¬ TransGen (DependsOn inputs) a a

/-- What a successful visit does to the maps. -/
structure VPost (s s' : VState) : Prop where
  doing : ∀ n, s'.isDoing n = s.isDoing n
  mono : ∀ n, s.isDone n = true → s'.isDone n = true

theorem VPost.refl (s : VState) : VPost s s := ⟨fun _ => rfl, fun _ h => h⟩
theorem VPost.trans {a b c : VState} (h : VPost a b) (g : VPost b c) : VPost a c :=
  ⟨fun n => (g.doing n).trans (h.doing n), fun n hn => g.mono n (h.mono n hn)⟩

theorem free_congr {s s' : VState} (h : ∀ n, s'.isDoing n = s.isDoing n) :
    free inputs s' = free inputs s := by
  unfold free; congr 2; funext k; rw [h]

theorem isDoing_set (s : VState) (n m : Name) (b : Bool) :
    VState.isDoing { s with doing := s.doing.set n b } m = if m = n then b else s.isDoing m := by
  unfold VState.isDoing; rw [AMap.get?_set]; split <;> rfl

theorem countP_lt_of_imp {α : Type} {l : List α} {p q : α → Bool} (h : ∀ x ∈ l, p x = true → q x = true)
    {a : α} (ha : a ∈ l) (hp : p a = false) (hq : q a = true) : l.countP p < l.countP q := by
  induction l with
  | nil => simp at ha
  | cons x l ih =>
    have hmono : l.countP p ≤ l.countP q := List.countP_mono_left (fun y hy => h y (by simp [hy]))
    rw [List.countP_cons, List.countP_cons]
    rcases List.mem_cons.1 ha with rfl | ha'
    · simp [hp, hq]; omega
    · have := ih (fun y hy => h y (by simp [hy])) ha'
      have := h x (by simp)
      cases hx : p x
      · simp; split <;> omega
      · simp [this hx]; omega

theorem free_set (s : VState) (n : Name) (hn : n ∈ inputs.keys) (hd : s.isDoing n = false) :
    free inputs { s with doing := s.doing.set n true } < free inputs s := by
  unfold free
  rw [← List.countP_eq_length_filter, ← List.countP_eq_length_filter]
  refine countP_lt_of_imp (a := n) ?_ hn ?_ ?_
  · intro x _ hx
    rw [isDoing_set] at hx
    split at hx <;> simp_all
  · simp [isDoing_set]
  · simp [hd]

theorem mem_getD_inputs {n m : Name} : m ∈ (inputs.get? n).getD [] ↔ DependsOn inputs n m := by
  unfold DependsOn
  cases h : inputs.get? n <;> simp

/-- Combined correctness of a successful visit. -/
theorem visit_ok : ∀ (fuel : Nat) (s s' : VState) (n : Name), VInv inputs s →
    visit inputs fuel s n = .ok s' → VPost s s' ∧ VInv inputs s' ∧ s'.isDone n = true := by
  intro fuel
  induction fuel with
  | zero => intro s s' n _ h; simp [visit] at h
  | succ fuel ih =>
    intro s s' n hs h
    simp only [visit] at h
    split at h
    · cases h
    rename_i hdoing
    have hdoing : s.isDoing n = false := by simpa using hdoing
    split at h
    · rename_i hdone
      simp only [VRes.ok.injEq] at h; subst h
      exact ⟨VPost.refl _, hs, hdone⟩
    rename_i hdone
    have hdone : s.isDone n = false := by simpa using hdone
    generalize hs1 : ({ s with doing := s.doing.set n true } : VState) = s1 at h
    have hd1 : ∀ m, s1.isDoing m = if m = n then true else s.isDoing m := by
      intro m; subst hs1; exact isDoing_set ..
    have he1 : ∀ m, s1.isDone m = s.isDone m := by intro m; subst hs1; rfl
    have hinv1 : VInv inputs s1 := by
      refine ⟨?_, ?_, ?_⟩
      · intro m hm
        rw [he1] at hm
        rw [hd1]
        split
        · rename_i e; subst e; simp [hdone] at hm
        · exact hs.disj m hm
      · intro a b ha hab; rw [he1] at ha ⊢; exact hs.closed a b ha hab
      · intro a ha; rw [he1] at ha; exact hs.acyc a ha
    cases hv : visitAll (visit inputs fuel) s1 ((inputs.get? n).getD []) with
    | cycle _ _ => rw [hv] at h; cases h
    | outOfFuel => rw [hv] at h; cases h
    | ok t =>
      rw [hv] at h
      simp only [VRes.ok.injEq] at h
      -- generalised statement over the loop: every visited input ends up done
      have loop : ∀ (ns : List Name) (a b : VState), VInv inputs a →
          visitAll (visit inputs fuel) a ns = .ok b →
          VPost a b ∧ VInv inputs b ∧ ∀ m ∈ ns, b.isDone m = true := by
        intro ns
        induction ns with
        | nil => intro a b ha hb; simp [visitAll] at hb; subst hb; exact ⟨VPost.refl _, ha, by simp⟩
        | cons m ms ihm =>
          intro a b ha hb
          simp only [visitAll] at hb
          cases hvm : visit inputs fuel a m with
          | cycle _ _ => rw [hvm] at hb; cases hb
          | outOfFuel => rw [hvm] at hb; cases hb
          | ok c =>
            rw [hvm] at hb
            obtain ⟨p1, i1, d1⟩ := ih a c m ha hvm
            obtain ⟨p2, i2, d2⟩ := ihm c b i1 hb
            refine ⟨p1.trans p2, i2, ?_⟩
            intro x hx
            rcases List.mem_cons.1 hx with rfl | hx
            · exact p2.mono _ d1
            · exact d2 x hx
      obtain ⟨pt, it, dt⟩ := loop _ s1 t hinv1 hv
      have hnt : t.isDone n = false := by
        cases hc : t.isDone n with
        | false => rfl
        | true =>
          have := it.disj n hc
          rw [pt.doing n, hd1 n] at this; simp at this
      have hchild : ∀ m, DependsOn inputs n m → t.isDone m = true :=
        fun m hm => dt m (mem_getD_inputs.2 hm)
      have hreach : ∀ a b, t.isDone a = true → TransGen (DependsOn inputs) a b → t.isDone b = true := by
        intro a b ha hab
        induction hab with
        | single h => exact it.closed _ _ ha h
        | tail _ h ihh => exact it.closed _ _ ihh h
      have hdone' : ∀ m, s'.isDone m = if m = n then true else t.isDone m := by
        intro m; subst h
        simp only [VState.isDone]; rw [AMap.get?_set]; split <;> rfl
      have hdoing' : ∀ m, s'.isDoing m = if m = n then false else t.isDoing m := by
        intro m; subst h
        simp only [VState.isDoing]; rw [AMap.get?_set]; split <;> rfl
      refine ⟨⟨?_, ?_⟩, ⟨?_, ?_, ?_⟩, by simp [hdone']⟩
      · intro m
        rw [hdoing', pt.doing, hd1]
        by_cases hm : m = n
        · subst hm; simp [hdoing]
        · simp [hm]
      · intro m hm
        rw [hdone']; split
        · rfl
        · exact pt.mono m (by rw [he1]; exact hm)
      · intro m hm
        rw [hdone'] at hm; rw [hdoing']
        by_cases e : m = n
        · simp [e]
        · simp only [e, if_false] at hm ⊢; exact it.disj m hm
      · intro a b ha hab
        rw [hdone'] at ha ⊢
        by_cases eb : b = n
        · simp [eb]
        · simp only [eb, if_false]
          by_cases ea : a = n
          · subst ea; exact hchild b hab
          · simp only [ea, if_false] at ha; exact it.closed a b ha hab
      · intro a ha hcyc
        rw [hdone'] at ha
        by_cases ea : a = n
        · subst ea
          -- n →+ n would make n done already
          rcases TransGen.head'_iff.1 hcyc with ⟨c, hac, hca⟩
          have hc := hchild c hac
          rcases reflTransGen_iff_eq_or_transGen.1 hca with e | hca
          · rw [e] at hnt; simp [hc] at hnt
          · have := hreach c a hc hca; simp [this] at hnt
        · simp only [ea, if_false] at ha
          exact it.acyc a ha hcyc

/-- A reported cycle is a cycle. `hstack`: everything on the recursion stack reaches the node visited. -/
theorem visit_cycle : ∀ (fuel : Nat) (s : VState) (n : Name), VInv inputs s →
    (∀ d, s.isDoing d = true → TransGen (DependsOn inputs) d n) →
    ∀ x t, visit inputs fuel s n = .cycle x t →
      t.isDoing x = true ∧ ∀ d, t.isDoing d = true → TransGen (DependsOn inputs) d x := by
  intro fuel
  induction fuel with
  | zero => intro s n _ _ x t h; simp [visit] at h
  | succ fuel ih =>
    intro s n hs hstack x t h
    simp only [visit] at h
    split at h
    · rename_i hd; cases h; exact ⟨hd, hstack⟩
    rename_i hdoing
    have hdoing : s.isDoing n = false := by simpa using hdoing
    split at h
    · cases h
    rename_i hdone
    have hdone : s.isDone n = false := by simpa using hdone
    generalize hs1 : ({ s with doing := s.doing.set n true } : VState) = s1 at h
    have hd1 : ∀ m, s1.isDoing m = if m = n then true else s.isDoing m := by
      intro m; subst hs1; exact isDoing_set ..
    have he1 : ∀ m, s1.isDone m = s.isDone m := by intro m; subst hs1; rfl
    have hinv1 : VInv inputs s1 := by
      refine ⟨?_, ?_, ?_⟩
      · intro m hm
        rw [he1] at hm
        rw [hd1]
        split
        · rename_i e; subst e; simp [hdone] at hm
        · exact hs.disj m hm
      · intro a b ha hab; rw [he1] at ha ⊢; exact hs.closed a b ha hab
      · intro a ha; rw [he1] at ha; exact hs.acyc a ha
    have loop : ∀ (ns : List Name) (a : VState), VInv inputs a →
        (∀ m ∈ ns, DependsOn inputs n m) →
        (∀ d, a.isDoing d = true → d = n ∨ TransGen (DependsOn inputs) d n) →
        visitAll (visit inputs fuel) a ns = .cycle x t →
          t.isDoing x = true ∧ ∀ d, t.isDoing d = true → TransGen (DependsOn inputs) d x := by
      intro ns
      induction ns with
      | nil => intro a _ _ _ hb; simp [visitAll] at hb
      | cons m ms ihm =>
        intro a ha hdep hst hb
        simp only [visitAll] at hb
        have hnm : DependsOn inputs n m := hdep m (by simp)
        cases hvm : visit inputs fuel a m with
        | outOfFuel => rw [hvm] at hb; cases hb
        | cycle x' t' =>
          rw [hvm] at hb; cases hb
          refine ih a m ha ?_ _ _ hvm
          intro d hd
          rcases hst d hd with rfl | hdn
          · exact TransGen.single hnm
          · exact TransGen.tail hdn hnm
        | ok c =>
          rw [hvm] at hb
          obtain ⟨p1, i1, _⟩ := visit_ok fuel a c m ha hvm
          refine ihm c i1 (fun x hx => hdep x (by simp [hx])) ?_ hb
          intro d hd
          rw [p1.doing] at hd
          exact hst d hd
    cases hv : visitAll (visit inputs fuel) s1 ((inputs.get? n).getD []) with
    | ok t' => rw [hv] at h; cases h
    | outOfFuel => rw [hv] at h; cases h
    | cycle x' t' =>
      rw [hv] at h; cases h
      refine loop _ s1 hinv1 (fun m hm => mem_getD_inputs.1 hm) ?_ hv
      intro d hd
      rw [hd1] at hd
      by_cases e : d = n
      · exact Or.inl e
      · simp only [e, if_false] at hd; exact Or.inr (hstack d hd)

/-- The recursion bound is never reached. -/
theorem visit_fuel : ∀ (fuel : Nat) (s : VState) (n : Name), VInv inputs s →
    free inputs s + 1 ≤ fuel → visit inputs fuel s n ≠ .outOfFuel := by
  intro fuel
  induction fuel with
  | zero => intro s n _ h; omega
  | succ fuel ih =>
    intro s n hs hf h
    simp only [visit] at h
    split at h
    · cases h
    rename_i hdoing
    have hdoing : s.isDoing n = false := by simpa using hdoing
    split at h
    · cases h
    rename_i hdone
    have hdone : s.isDone n = false := by simpa using hdone
    cases hin : inputs.get? n with
    | none => simp [hin, visitAll] at h
    | some l =>
      have hmem : n ∈ inputs.keys := AMap.mem_keys_of_get? hin
      have hlt := free_set s n hmem hdoing
      generalize hs1 : ({ s with doing := s.doing.set n true } : VState) = s1 at h hlt
      have hd1 : ∀ m, s1.isDoing m = if m = n then true else s.isDoing m := by
        intro m; subst hs1; exact isDoing_set ..
      have he1 : ∀ m, s1.isDone m = s.isDone m := by intro m; subst hs1; rfl
      have hinv1 : VInv inputs s1 := by
        refine ⟨?_, ?_, ?_⟩
        · intro m hm
          rw [he1] at hm
          rw [hd1]
          split
          · rename_i e; subst e; simp [hdone] at hm
          · exact hs.disj m hm
        · intro a b ha hab; rw [he1] at ha ⊢; exact hs.closed a b ha hab
        · intro a ha; rw [he1] at ha; exact hs.acyc a ha
      have loop : ∀ (ns : List Name) (a : VState), VInv inputs a → free inputs a + 1 ≤ fuel →
          visitAll (visit inputs fuel) a ns ≠ .outOfFuel := by
        intro ns
        induction ns with
        | nil => intro a _ _ hb; simp [visitAll] at hb
        | cons m ms ihm =>
          intro a ha hfa hb
          simp only [visitAll] at hb
          cases hvm : visit inputs fuel a m with
          | outOfFuel => exact ih a m ha hfa hvm
          | cycle _ _ => rw [hvm] at hb; cases hb
          | ok c =>
            rw [hvm] at hb
            obtain ⟨p1, i1, _⟩ := visit_ok fuel a c m ha hvm
            exact ihm c i1 (by rw [free_congr p1.doing]; exact hfa) hb
      cases hv : visitAll (visit inputs fuel) s1 ((inputs.get? n).getD []) with
      | ok t => rw [hv] at h; cases h
      | cycle _ _ => rw [hv] at h; cases h
      | outOfFuel => exact loop _ s1 hinv1 (by omega) hv

theorem vinv_init : VInv inputs {} := by
  refine ⟨?_, ?_, ?_⟩ <;> intro a <;> simp [VState.isDone]

/-- All three facts about a run over any list of nodes. -/
theorem run_facts (fuel : Nat) : ∀ (order : List Name) (s : VState), VInv inputs s →
    (∀ d, s.isDoing d = false) → free inputs s + 1 ≤ fuel →
    (visitAll (visit inputs fuel) s order ≠ .outOfFuel) ∧
    (∀ x t, visitAll (visit inputs fuel) s order = .cycle x t →
      t.isDoing x = true ∧ ∀ d, t.isDoing d = true → TransGen (DependsOn inputs) d x) ∧
    (∀ t, visitAll (visit inputs fuel) s order = .ok t →
      VInv inputs t ∧ (∀ n, s.isDone n = true → t.isDone n = true) ∧ ∀ n ∈ order, t.isDone n = true) := by
  intro order
  induction order with
  | nil =>
    intro s hs _ _
    refine ⟨by simp [visitAll], by simp [visitAll], ?_⟩
    intro t ht; simp [visitAll] at ht; subst ht; exact ⟨hs, fun _ h => h, by simp⟩
  | cons n ns ih =>
    intro s hs hd hf
    simp only [visitAll]
    cases hv : visit inputs fuel s n with
    | outOfFuel => exact absurd hv (visit_fuel fuel s n hs hf)
    | cycle x t =>
      refine ⟨by simp, fun x' t' h => ?_, by simp⟩
      cases h
      refine visit_cycle fuel s n hs ?_ _ _ hv
      intro d hdd; simp [hd d] at hdd
    | ok c =>
      obtain ⟨p1, i1, d1⟩ := visit_ok fuel s c n hs hv
      obtain ⟨a1, a2, a3⟩ := ih c i1 (fun d => by rw [p1.doing]; exact hd d)
        (by rw [free_congr p1.doing]; exact hf)
      refine ⟨a1, a2, ?_⟩
      intro t ht
      obtain ⟨b1, b2, b3⟩ := a3 t ht
      refine ⟨b1, fun m hm => b2 m (p1.mono m hm), ?_⟩
      intro m hm
      rcases List.mem_cons.1 hm with rfl | hm
      · exact b2 _ d1
      · exact b3 m hm

theorem free_init : free inputs {} = inputs.keys.length := by
  unfold free
  rw [List.filter_eq_self.2]
  intro a _; simp [VState.isDoing]

/-- `Validate` returns an error iff there is a cycle, and its recursion bound is never reached. -/
theorem validate_cases (order : List Name) (ho : ∀ k ∈ inputs.keys, k ∈ order) :
    (validate inputs order = none ∧ ¬ HasCycle inputs) ∨
    (validate inputs order = some .cycle ∧ HasCycle inputs) := by
  obtain ⟨h1, h2, h3⟩ := run_facts (inputs := inputs) (inputs.keys.length + 1) order {} vinv_init
    (by simp [VState.isDoing]) (by rw [free_init]; exact Nat.le_refl _)
  unfold validate run
  cases hv : visitAll (visit inputs (inputs.keys.length + 1)) {} order with
  | outOfFuel => exact absurd hv h1
  | cycle x t => exact Or.inr ⟨rfl, x, (h2 x t hv).2 x (h2 x t hv).1⟩
  | ok t =>
    left
    refine ⟨rfl, ?_⟩
    obtain ⟨it, _, dt⟩ := h3 t hv
    rintro ⟨n, hn⟩
    have : ∃ c, DependsOn inputs n c := by
      rcases TransGen.head'_iff.1 hn with ⟨c, hc, _⟩; exact ⟨c, hc⟩
    obtain ⟨c, l, hl, _⟩ := this
    exact it.acyc n (dt n (ho n (AMap.mem_keys_of_get? hl))) hn

end Verif.Validate
