import Verif.Props.EngineStep
import Verif.Props.EngineDemo

/-!
# C50: dependency.Install into an engine

dependency/util.go:22-29: `Install` calls the installer's Install for each manifold of a map, in the unspecified
order of a range over the map, and stops at the first error. Here the installer is the engine, and anything that
neither installs nor uninstalls a manifold may happen between the calls.
-/

namespace Verif.Props
open Verif.Spec Verif.Engine

variable {cfg : Config} {s s' : State}

/-- dependency/util.go:22-29: one execution of `Install(engine, manifolds)`, with the manifolds in the order in
which the range goes through them, from state `s` to `s'`; the last argument is the result. -/
inductive InstallRun (cfg : Config) : State → List (Name × Manifold) → State → Option Err → Prop
  /-- 28: the range is exhausted -/
  | done (s : State) : InstallRun cfg s [] s none
  /-- something else happens, which does not change the set of installed manifolds -/
  | other {s s1 s' : State} {l : List (Name × Manifold)} {r : Option Err} (op : Op) (h : step cfg s op = some s1)
      (hm : ∀ x, manH s1.hist x = manH s.hist x) (k : InstallRun cfg s1 l s' r) : InstallRun cfg s l s' r
  /-- 24: the engine's loop handles the call, and it returns nil -/
  | ok {s s1 s' : State} {n : Name} {m : Manifold} {l : List (Name × Manifold)} {r : Option Err}
      {order : List Name} {pend : Option Nat} {delta : List Ev}
      (h : step cfg s (.armInstall n m order pend) = some s1) (he : s1.hist = delta ++ .installed n m :: s.hist)
      (k : InstallRun cfg s1 l s' r) : InstallRun cfg s ((n, m) :: l) s' r
  /-- 24-26: the engine's loop handles the call, and it returns an error -/
  | fail {s s1 : State} {n : Name} {m : Manifold} {l : List (Name × Manifold)} {e : Err} {order : List Name}
      {pend : Option Nat} {delta : List Ev} (h : step cfg s (.armInstall n m order pend) = some s1)
      (he : s1.hist = delta ++ .installFailed n e :: s.hist) : InstallRun cfg s ((n, m) :: l) s1 (some e)
  /-- 24-26: the call returns because the engine is shutting down -/
  | refused {s s1 : State} {n : Name} {m : Manifold} {l : List (Name × Manifold)}
      (h : step cfg s (.installRefused n) = some s1) :
      InstallRun cfg s ((n, m) :: l) s1 (some .shuttingDown)

/-- `a` declares `b` in the table or in the list. -/
def DeclaresAll (t : Name → Option Manifold) (l : List (Name × Manifold)) (a b : Name) : Prop :=
  ∃ m, (t a = some m ∨ (a, m) ∈ l) ∧ b ∈ m.inputs

/-- The manifolds of `l` can be added to the table: no name is taken, and there is no cycle in all of them. -/
def CanAddAll (t : Name → Option Manifold) (l : List (Name × Manifold)) : Prop :=
  (∀ p ∈ l, t p.1 = none) ∧ ¬ ∃ n, Relation.TransGen (DeclaresAll t l) n n

theorem canAddAll_nil (hr : Reach cfg s) : CanAddAll (manH s.hist) [] := by
  refine ⟨by simp, ?_⟩
  rintro ⟨n, h⟩
  refine C35_acyclic hr ⟨n, Relation.TransGen.mono ?_ _ _ h⟩
  rintro a b ⟨m, h | h, hb⟩
  · exact ⟨m, h, hb⟩
  · cases h

theorem canAddAll_cons {h : List Ev} {n : Name} {m : Manifold} {l : List (Name × Manifold)} {t : Name → Option Manifold}
    (hnd : n ∉ l.map Prod.fst) (ht : ∀ x, t x = if x = n then some m else manH h x) :
    CanAddAll (manH h) ((n, m) :: l) ↔ MayInstall h n m ∧ CanAddAll t l := by
  have hnl : ∀ p ∈ l, p.1 ≠ n := fun p hp he => hnd (he ▸ List.mem_map.2 ⟨p, hp, rfl⟩)
  have hdecl : manH h n = none → ∀ a b, DeclaresAll t l a b ↔ DeclaresAll (manH h) ((n, m) :: l) a b := by
    intro hn a b
    unfold DeclaresAll
    refine exists_congr fun x => and_congr_left fun _ => ?_
    rw [ht a]
    by_cases ha : a = n
    · subst ha
      rw [if_pos rfl, hn]
      simp only [List.mem_cons, Prod.mk.injEq, Option.some.injEq, reduceCtorEq, false_or, true_and]
      rw [eq_comm (a := m)]
    · rw [if_neg ha]
      simp [ha]
  constructor
  · rintro ⟨h1, h2⟩
    have hn := h1 (n, m) (by simp)
    refine ⟨⟨hn, ?_⟩, ?_, ?_⟩
    · rintro ⟨x, hx⟩
      refine h2 ⟨x, Relation.TransGen.mono ?_ _ _ hx⟩
      rintro a b ⟨y, hy, hb⟩
      simp only [manH] at hy
      refine ⟨y, ?_, hb⟩
      split at hy
      · rename_i ha; cases hy; right; rw [ha]; simp
      · exact Or.inl hy
    · intro p hp
      rw [ht, if_neg (hnl p hp)]; exact h1 p (by simp [hp])
    · rintro ⟨x, hx⟩
      exact h2 ⟨x, Relation.TransGen.mono (fun a b hab => (hdecl hn a b).1 hab) _ _ hx⟩
  · rintro ⟨⟨hn, _⟩, h1, h2⟩
    refine ⟨?_, ?_⟩
    · intro p hp
      rcases List.mem_cons.1 hp with rfl | hp
      · exact hn
      · have := h1 p hp
        rw [ht, if_neg (hnl p hp)] at this; exact this
    · rintro ⟨x, hx⟩
      exact h2 ⟨x, Relation.TransGen.mono (fun a b hab => (hdecl hn a b).2 hab) _ _ hx⟩

theorem installed_iff_may (hr : Reach cfg s) {n : Name} {m : Manifold} {order : List Name} {pend : Option Nat}
    (h : step cfg s (.armInstall n m order pend) = some s') :
    ((∃ delta, s'.hist = delta ++ .installed n m :: s.hist) → MayInstall s.hist n m) ∧
    ((∃ delta e, s'.hist = delta ++ .installFailed n e :: s.hist) → ¬ MayInstall s.hist n m) := by
  have uniq : ∀ (d d' : List Ev) (e e' : Ev), d ++ e :: s.hist = d' ++ e' :: s.hist → e = e' := by
    intro d d' e e' h
    have h1 : (d ++ [e]) ++ s.hist = (d' ++ [e']) ++ s.hist := by simpa using h
    have h2 := List.append_cancel_right h1
    have := List.append_inj_right' h2 rfl
    simpa using this
  constructor
  · rintro ⟨delta, hd⟩
    refine Classical.byContradiction fun hm => ?_
    obtain ⟨q, _, hq, _⟩ := C36_install_refused hr h hm
    exact absurd (uniq _ _ _ _ (hd.symm.trans hq)) nofun
  · rintro ⟨delta, e, hd⟩ hm
    obtain ⟨q, hq, _⟩ := C36_install_accepted hr h hm
    exact absurd (uniq _ _ _ _ (hd.symm.trans hq)) nofun

/-- C50. For every order in which dependency.Install goes through the manifolds, and whatever else happens: unless
the engine shuts down it succeeds iff no name is taken and the graph of all the manifolds together is acyclic; and
the manifolds then installed are those installed before and a prefix of the order, which is all of it iff the result
is nil. -/
theorem C50_install {l : List (Name × Manifold)} {r : Option Err} (hr : Reach cfg s)
    (hl : (l.map Prod.fst).Nodup) (h : InstallRun cfg s l s' r) :
    (r ≠ some .shuttingDown → (r = none ↔ CanAddAll (manH s.hist) l)) ∧
    ∃ pre post, l = pre ++ post ∧ (r = none ↔ post = []) ∧
      ∀ x m, manH s'.hist x = some m ↔ manH s.hist x = some m ∨ (x, m) ∈ pre := by
  induction h with
  | done s => exact ⟨fun _ => by simp [canAddAll_nil hr], [], [], rfl, by simp, by simp⟩
  | other op h hm k ih =>
    have := ih (hr.step op h) hl
    have hf : manH _ = manH _ := funext hm
    rw [hf] at this
    exact this
  | @ok s s1 s' n m l r order pend delta h he k ih =>
    have hmay := (installed_iff_may hr h).1 ⟨_, he⟩
    obtain ⟨_, _, _, hman⟩ := C36_install_accepted hr h hmay
    rw [List.map_cons, List.nodup_cons] at hl
    obtain ⟨h1, pre, post, hpp, hpo, htab⟩ := ih (hr.step _ h) hl.2
    refine ⟨fun hr' => ?_, (n, m) :: pre, post, by rw [hpp]; rfl, hpo, fun x y => ?_⟩
    · rw [h1 hr', canAddAll_cons hl.1 hman]
      exact ⟨fun h => ⟨hmay, h⟩, fun h => h.2⟩
    · rw [htab, hman]
      by_cases hx : x = n
      · subst hx
        rw [if_pos rfl, hmay.1]
        simp only [Option.some.injEq, reduceCtorEq, false_or, List.mem_cons, Prod.mk.injEq, true_and]
        rw [eq_comm (a := m)]
      · rw [if_neg hx]; simp [hx]
  | @fail s s1 n m l e order pend delta h he =>
    have hmay := (installed_iff_may hr h).2 ⟨_, _, he⟩
    obtain ⟨q, hq, hh, hman, _⟩ := C36_install_refused hr h hmay
    rw [List.map_cons, List.nodup_cons] at hl
    obtain ⟨_, i⟩ := reach_hinv hr
    obtain ⟨_, i'⟩ := reach_hinv (hr.step _ h)
    refine ⟨fun _ => ?_, [], (n, m) :: l, rfl, by simp, fun x y => ?_⟩
    · simp only [reduceCtorEq, false_iff]
      rw [canAddAll_cons (t := fun x => if x = n then some m else manH s.hist x) hl.1 (fun _ => rfl)]
      exact fun h => hmay h.1
    · rw [← i'.man, hman, i.man]; simp
  | @refused s s1 n m l h =>
    obtain ⟨_, rfl⟩ := C36_install_dying hr h
    exact ⟨fun h => absurd rfl h, [], (n, m) :: l, rfl, by simp, fun x y => by simp [State.log, manH]⟩

-- two manifolds that depend on each other: the first is installed, the second is refused, in either order
example : ∃ s', InstallRun Demo.cfg init [(0, { inputs := [1] }), (1, { inputs := [0] })] s' (some (.wrap 0 .cycle)) :=
  ⟨_, .ok (order := [0]) (pend := none) (delta := [.begin 0 0 0 0 ⟨⟨[(1, none)]⟩, ⟨[(1, none)]⟩⟩])
    (s1 := (step Demo.cfg init (.armInstall 0 { inputs := [1] } [0] none)).getD init)
    (by decide +kernel) (by decide +kernel)
    (.fail (order := [0, 1]) (pend := none) (delta := [])
      (s1 := (Demo.run Demo.cfg init [.armInstall 0 { inputs := [1] } [0] none,
        .armInstall 1 { inputs := [0] } [0, 1] none]).getD init) (by decide +kernel) (by decide +kernel))⟩

example : ∃ s', InstallRun Demo.cfg init [(1, { inputs := [0] }), (0, { inputs := [1] })] s' (some (.wrap 0 .cycle)) :=
  ⟨_, .ok (order := [1]) (pend := none) (delta := [.begin 1 0 0 0 ⟨⟨[(0, none)]⟩, ⟨[(0, none)]⟩⟩])
    (s1 := (step Demo.cfg init (.armInstall 1 { inputs := [0] } [1] none)).getD init)
    (by decide +kernel) (by decide +kernel)
    (.fail (order := [0, 1]) (pend := none) (delta := [])
      (s1 := (Demo.run Demo.cfg init [.armInstall 1 { inputs := [0] } [1] none,
        .armInstall 0 { inputs := [1] } [0, 1] none]).getD init) (by decide +kernel) (by decide +kernel))⟩

/-- C50: the outcome does not depend on the iteration order. -/
theorem C50_order_independent {l l' : List (Name × Manifold)} {r r' : Option Err} {t t' : State} (hr : Reach cfg s)
    (hl : (l.map Prod.fst).Nodup) (hp : l.Perm l') (h : InstallRun cfg s l t r) (h' : InstallRun cfg s l' t' r')
    (hne : r ≠ some .shuttingDown) (hne' : r' ≠ some .shuttingDown) : (r = none ↔ r' = none) ∧
      (r = none → ∀ x, manH t.hist x = manH t'.hist x) := by
  have hl' : (l'.map Prod.fst).Nodup := (hp.map Prod.fst).nodup_iff.1 hl
  have hd : DeclaresAll (manH s.hist) l = DeclaresAll (manH s.hist) l' := by
    funext a b
    refine propext (exists_congr fun m => and_congr_left fun _ => or_congr_right hp.mem_iff)
  obtain ⟨h1, pre, post, hpp, hpo, htab⟩ := C50_install hr hl h
  obtain ⟨h1', pre', post', hpp', hpo', htab'⟩ := C50_install hr hl' h'
  have hiff : r = none ↔ r' = none := by
    rw [h1 hne, h1' hne']
    unfold CanAddAll
    rw [hd]
    refine and_congr_left fun _ => ⟨fun h p hp' => h p (hp.mem_iff.2 hp'), fun h p hp' => h p (hp.mem_iff.1 hp')⟩
  refine ⟨hiff, fun hn x => ?_⟩
  have e1 := hpo.1 hn
  have e2 := hpo'.1 (hiff.1 hn)
  subst e1 e2
  rw [List.append_nil] at hpp hpp'
  subst hpp hpp'
  refine Option.ext fun m => ?_
  rw [htab, htab']
  exact or_congr_right hp.mem_iff

end Verif.Props
