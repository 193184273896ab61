/-!
# Properties of every event of a history
-/

namespace Verif.Spec

/-- `P e h` holds for every event `e` of the history, `h` being everything that happened before it. -/
def AtEvery {α : Type} (P : α → List α → Prop) : List α → Prop
  | [] => True
  | e :: h => P e h ∧ AtEvery P h

theorem AtEvery.split {α : Type} {P : α → List α → Prop} {post pre : List α} {e : α}
    (h : AtEvery P (post ++ e :: pre)) : P e pre := by
  induction post with
  | nil => exact h.1
  | cons _ _ ih => exact ih h.2

theorem atEvery_iff {α : Type} (P : α → List α → Prop) (l : List α) :
    AtEvery P l ↔ ∀ post e pre, l = post ++ e :: pre → P e pre := by
  constructor
  · intro h post e pre hl; subst hl; exact h.split
  · induction l with
    | nil => intro _; trivial
    | cons e l ih =>
      intro h
      exact ⟨h [] e l rfl, ih (fun post e' pre hl => h (e :: post) e' pre (by rw [hl]; rfl))⟩

theorem AtEvery.mono {α : Type} {P Q : α → List α → Prop} {l : List α} (hPQ : ∀ e h, P e h → Q e h)
    (h : AtEvery P l) : AtEvery Q l := by
  induction l with
  | nil => trivial
  | cons e l ih => exact ⟨hPQ _ _ h.1, ih h.2⟩

theorem AtEvery.and {α : Type} {P Q : α → List α → Prop} {l : List α} (h : AtEvery P l) (k : AtEvery Q l) :
    AtEvery (fun e h => P e h ∧ Q e h) l := by
  induction l with
  | nil => trivial
  | cons e l ih => exact ⟨⟨h.1, k.1⟩, ih h.2 k.2⟩

/-- `P` holds for every event of `es`, which happened after `h`. -/
def AtNew {α : Type} (P : α → List α → Prop) : List α → List α → Prop
  | [], _ => True
  | e :: es, h => P e (es ++ h) ∧ AtNew P es h

theorem AtEvery.append {α : Type} {P : α → List α → Prop} {es h : List α} (h1 : AtNew P es h) (h2 : AtEvery P h) :
    AtEvery P (es ++ h) := by
  induction es with
  | nil => exact h2
  | cons e es ih => exact ⟨h1.1, ih h1.2⟩

theorem AtNew.append {α : Type} {P : α → List α → Prop} {es fs h : List α} (h1 : AtNew P fs (es ++ h))
    (h2 : AtNew P es h) : AtNew P (fs ++ es) h := by
  induction fs with
  | nil => exact h2
  | cons f fs ih => exact ⟨by have := h1.1; rw [← List.append_assoc] at this; exact this, ih h1.2⟩

/-- `R e pre post` holds for every event `e` of the history, `pre` being what happened before it and `post` what has
happened after it (newest first). -/
def Followed {α : Type} (R : α → List α → List α → Prop) (l : List α) : Prop :=
  ∀ post e pre, l = post ++ e :: pre → R e pre post

/-- `R` for every event of `es`, which happened after `h`. -/
def FollowNew {α : Type} (R : α → List α → List α → Prop) (es h : List α) : Prop :=
  ∀ post e rest, es = post ++ e :: rest → R e (rest ++ h) post

theorem Followed.append {α : Type} {R : α → List α → List α → Prop} {es h : List α}
    (mono : ∀ e pre post fs, R e pre post → R e pre (fs ++ post))
    (h1 : FollowNew R es h) (h2 : Followed R h) : Followed R (es ++ h) := by
  intro post e pre heq
  rcases List.append_eq_append_iff.1 heq with ⟨as, rfl, hh⟩ | ⟨bs, rfl, hh⟩
  · exact mono _ _ _ _ (h2 as e pre hh)
  · cases bs with
    | nil => simpa using mono e pre [] post (h2 [] e pre (by simpa using hh.symm))
    | cons b bs =>
      simp only [List.cons_append, List.cons.injEq] at hh
      obtain ⟨rfl, rfl⟩ := hh
      exact h1 post e bs rfl

theorem followNew_nil {α : Type} {R : α → List α → List α → Prop} {h : List α} : FollowNew R [] h := by
  intro post e rest heq; cases post <;> cases heq

theorem followNew_cons {α : Type} {R : α → List α → List α → Prop} {a : α} {es h : List α}
    (h0 : R a (es ++ h) []) (h1 : ∀ post e rest, es = post ++ e :: rest → R e (rest ++ h) (a :: post)) :
    FollowNew R (a :: es) h := by
  intro post e rest heq
  cases post with
  | nil => cases heq; exact h0
  | cons b post =>
    simp only [List.cons_append, List.cons.injEq] at heq
    obtain ⟨rfl, rfl⟩ := heq
    exact h1 post e rest rfl

theorem follow1 {α : Type} {R : α → List α → List α → Prop} {a : α} {h : List α} (h0 : R a h []) :
    FollowNew R [a] h :=
  followNew_cons h0 (fun post e rest hx => by cases post <;> cases hx)

theorem follow2 {α : Type} {R : α → List α → List α → Prop} {a b : α} {h : List α} (h0 : R a (b :: h) [])
    (h1 : R b h [a]) : FollowNew R [a, b] h := by
  refine followNew_cons h0 (fun post e rest hx => ?_)
  cases post with
  | nil => cases hx; exact h1
  | cons c post => cases post <;> cases hx

theorem follow3 {α : Type} {R : α → List α → List α → Prop} {a b c : α} {h : List α} (h0 : R a (b :: c :: h) [])
    (h1 : R b (c :: h) [a]) (h2 : R c h [a, b]) : FollowNew R [a, b, c] h := by
  refine followNew_cons h0 (fun post e rest hx => ?_)
  cases post with
  | nil => cases hx; exact h1
  | cons d post =>
    cases post with
    | nil => cases hx; exact h2
    | cons d post => cases post <;> cases hx

/-- New events none of which `R` says anything about. -/
theorem followNew_of {α : Type} {R : α → List α → List α → Prop} {es h : List α}
    (h0 : ∀ e ∈ es, ∀ pre post, R e pre post) : FollowNew R es h := by
  intro post e rest heq
  exact h0 e (by rw [heq]; simp) _ _

theorem Followed.split {α : Type} {R : α → List α → List α → Prop} {post pre : List α} {e : α}
    (h : Followed R (post ++ e :: pre)) : R e pre post := h _ _ _ rfl

end Verif.Spec
