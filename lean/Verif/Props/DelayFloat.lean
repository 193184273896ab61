import Verif.DelayFloat
import Verif.Props.Delay
import Mathlib.Data.Int.Log
import Mathlib.Algebra.Order.Round

/-!
# C83: restart delays, with rounding errors and overflows of float64
-/

namespace Verif.Props
open Verif.Delay

/-- What is assumed of the floating point unit and of `math.Pow`: a result is off by at most 2^-53 of itself, or by 2^-200 if it
is very small; a power, by at most `η` of itself, or 2^-200; and only results of 2^200 and more are infinite. -/
structure FloatOk (u : Fpu) (η : ℚ) : Prop where
  rd_err : ∀ x y, u.rd x = some y → |y - x| ≤ |x| * (1/2)^53 + (1/2)^200
  rd_inf : ∀ x, u.rd x = none → 2^200 ≤ |x|
  pow_err : ∀ (x : ℚ) (n : ℤ) y, 1 ≤ x → u.pow x n = some y → |y - x ^ n| ≤ x ^ n * η + (1/2)^200
  pow_inf : ∀ (x : ℚ) (n : ℤ), 1 ≤ x → u.pow x n = none → 2^200 ≤ x ^ n

variable {u : Fpu} {η : ℚ} {c : Config}

/-- Rounding a number that is not negative. -/
theorem FloatOk.rd_nonneg (h : FloatOk u η) {x : ℚ} (h0 : 0 ≤ x) (h1 : x < 2^200) :
    ∃ y, u.rd x = some y ∧ x - x * (1/2)^53 - (1/2)^200 ≤ y ∧ y ≤ x + x * (1/2)^53 + (1/2)^200 := by
  cases hr : u.rd x with
  | none =>
    have := h.rd_inf x hr
    rw [abs_of_nonneg h0] at this
    exact absurd (this) (by linarith)
  | some y =>
    have := h.rd_err x y hr
    rw [abs_of_nonneg h0] at this
    have := abs_le.1 this
    exact ⟨y, rfl, by linarith [this.1], by linarith [this.2]⟩

/-- The fuzz is between 0.9 and 1.1, up to rounding. -/
theorem FloatOk.fuzz (h : FloatOk u η) {r : ℚ} (h0 : 0 ≤ r) (h1 : r < 1) :
    ∃ f, u.fuzz r = some f ∧ 9/10 - (1/2)^50 ≤ f ∧ f ≤ 11/10 + (1/2)^50 := by
  obtain ⟨a, ha, ha1, ha2⟩ := h.rd_nonneg (x := 2/10) (by norm_num) (by norm_num)
  obtain ⟨b, hb, hb1, hb2⟩ := h.rd_nonneg (x := 9/10) (by norm_num) (by norm_num)
  norm_num at ha1 ha2 hb1 hb2
  have hra0 : 0 ≤ r * a := mul_nonneg h0 (by linarith)
  have hra1 : r * a ≤ a := by nlinarith
  obtain ⟨p, hp, hp1, hp2⟩ := h.rd_nonneg (x := r * a) hra0 (by norm_num; linarith)
  norm_num at hp1 hp2
  obtain ⟨f, hf, hf1, hf2⟩ := h.rd_nonneg (x := p + b) (by linarith) (by norm_num; linarith)
  norm_num at hf1 hf2
  refine ⟨f, ?_, ?_, ?_⟩
  · simp only [Fpu.fuzz, Fpu.mul, Fpu.add, ha, hb, hp, hf]
  · norm_num; linarith
  · norm_num; linarith

/-- The product of the delay and the power. -/
theorem FloatOk.product (h : FloatOk u η) (h0 : 0 ≤ η) (h1 : η ≤ 1/100) (hf : 1 ≤ c.backoffFactor) {base : Int} (hb : 0 < base)
    (hb' : base < 2 ^ 63) {x : ℚ} (n : ℤ) (hx : x = (base:ℚ) * c.backoffFactor ^ n) :
    (u.mul (u.rd base) (u.pow c.backoffFactor n) = none ∧ 2^100 ≤ x) ∨
    ∃ y, u.mul (u.rd base) (u.pow c.backoffFactor n) = some y ∧ x - x * (2 * η) - x * (1/2)^50 - 1/1000 ≤ y ∧
      y ≤ x + x * (2 * η) + x * (1/2)^50 + 1/1000 := by
  have hb1 : (1:ℚ) ≤ base := by exact_mod_cast hb
  have hb2 : (base:ℚ) < 2 ^ 63 := by exact_mod_cast hb'
  have hq : (0:ℚ) < c.backoffFactor ^ n := zpow_pos (by linarith) _
  obtain ⟨d, hd, hd1, hd2⟩ := h.rd_nonneg (x := base) (by linarith) (by linarith)
  rw [hd]
  cases hp : u.pow c.backoffFactor n with
  | none =>
    refine Or.inl ⟨rfl, ?_⟩
    have := h.pow_inf _ n hf hp
    rw [hx]
    nlinarith
  | some p =>
    have he := abs_le.1 (h.pow_err _ n p hf hp)
    generalize c.backoffFactor ^ n = q at *
    have hx1 : q ≤ x := by rw [hx]; nlinarith
    have hqe : 0 ≤ q * η := mul_nonneg hq.le h0
    norm_num at hd1 hd2 he
    have hd0 : 0 ≤ d := by linarith
    have hdl : base - base * (1/2)^52 ≤ d := by norm_num; linarith
    have hdu : d ≤ base + base * (1/2)^52 := by norm_num; linarith
    have hA : x * η = base * (q * η) := by rw [hx]; ring
    have hA0 : 0 ≤ x * η := by rw [hA]; exact mul_nonneg (by linarith) hqe
    have hA1 : x * η ≤ x * (1/100) := mul_le_mul_of_nonneg_left h1 (by linarith)
    have hXl : x - x * (1/2)^52 ≤ d * q := by
      have := mul_le_mul_of_nonneg_right hdl hq.le
      calc x - x * (1/2)^52 = (base - base * (1/2)^52) * q := by rw [hx]; ring
        _ ≤ d * q := this
    have hXu : d * q ≤ x + x * (1/2)^52 := by
      have := mul_le_mul_of_nonneg_right hdu hq.le
      calc d * q ≤ (base + base * (1/2)^52) * q := this
        _ = x + x * (1/2)^52 := by rw [hx]; ring
    have hY0 : 0 ≤ d * (q * η) := mul_nonneg hd0 hqe
    have hYu : d * (q * η) ≤ x * η + x * η * (1/2)^52 := by
      have := mul_le_mul_of_nonneg_right hdu hqe
      calc d * (q * η) ≤ (base + base * (1/2)^52) * (q * η) := this
        _ = x * η + x * η * (1/2)^52 := by rw [hA]; ring
    have hl : d * q - d * (q * η) - 1/1000000 ≤ d * p := by
      have : d * (q - q * η - (1/2)^200) ≤ d * p := mul_le_mul_of_nonneg_left (by norm_num; linarith [he.1]) hd0
      have : d * (1/2)^200 ≤ 1/1000000 := by norm_num at hdu ⊢; linarith
      nlinarith
    have hu : d * p ≤ d * q + d * (q * η) + 1/1000000 := by
      have : d * p ≤ d * (q + q * η + (1/2)^200) := mul_le_mul_of_nonneg_left (by norm_num; linarith [he.2]) hd0
      have : d * (1/2)^200 ≤ 1/1000000 := by norm_num at hdu ⊢; linarith
      nlinarith
    have habs : |d * p| ≤ d * q + d * (q * η) + 1/1000000 := abs_le.2 ⟨by
      norm_num at hXl hYu ⊢; linarith, hu⟩
    have hgoal : x * (2 * η) = 2 * (x * η) := by ring
    rw [hgoal]
    generalize x * η = A at *
    generalize d * (q * η) = Y at *
    generalize d * q = X at *
    cases hr : u.mul (some d) (some p) with
    | none =>
      refine Or.inl ⟨rfl, ?_⟩
      have := (h.rd_inf _ hr).trans habs
      norm_num at this hXu hYu ⊢
      linarith
    | some y =>
      refine Or.inr ⟨y, rfl, ?_⟩
      have := abs_le.1 (h.rd_err _ y hr)
      generalize |d * p| = B at *
      norm_num at this hXu hXl hYu ⊢
      constructor <;> linarith

/-- The conversion to an integer, in range. -/
theorem toDuration_inRange (u : Fpu) {y : ℚ} (hy0 : -1/2 ≤ y) (hy : y < 2 ^ 63) : y - 1 ≤ ((u.toDuration (some y) : Int) : ℚ) ∧
    ((u.toDuration (some y) : Int) : ℚ) ≤ y + 1/2 ∧ 0 ≤ u.toDuration (some y) := by
  unfold Fpu.toDuration
  simp only
  rw [if_pos ⟨by linarith, hy⟩]
  by_cases hy1 : 0 ≤ y
  · obtain ⟨a, b, d⟩ := trunc_nonneg hy1
    exact ⟨a.le, by linarith, d⟩
  · have : trunc y = 0 := by
      unfold trunc
      rw [if_neg hy1]
      have h2 : y < 0 := not_le.1 hy1
      rw [Rat.ceil_eq_neg_floor_neg]
      have : ⌊-y⌋ = 0 := Int.floor_eq_iff.2 ⟨by push_cast; linarith, by push_cast; linarith⟩
      exact neg_eq_zero.2 this
    rw [this]
    exact ⟨by push_cast; linarith, by push_cast; linarith, le_refl _⟩

/-- The delay before fuzzing. -/
theorem FloatOk.preFuzz (h : FloatOk u η) (h0 : 0 ≤ η) (h1 : η ≤ 1/100) (hc : ValidDelay c) {base : Int} (hb : 0 < base)
    (hb' : base < 2 ^ 63) (hmax : c.maxDelay < 2 ^ 63) (recent : Nat) {N : ℚ} (hN : N = nominal c base recent) (hfit : N * (12/10) < 2 ^ 63) :
    N - N * (2 * η) - N * (1/2)^49 - 2 ≤ (u.preFuzz c base recent : ℚ) ∧
    (u.preFuzz c base recent : ℚ) ≤ N + N * (2 * η) + N * (1/2)^49 + 1 ∧ 0 ≤ u.preFuzz c base recent := by
  have hn := nominal_nonneg hc hb recent
  have hbq : (1:ℚ) ≤ base := by exact_mod_cast hb
  rw [← hN] at hn
  have hNe : 0 ≤ N * η := mul_nonneg hn h0
  have hNe1 : N * η ≤ N * (1/100) := mul_le_mul_of_nonneg_left h1 hn
  have hNe2 : N * (2 * η) = 2 * (N * η) := by ring
  unfold Fpu.preFuzz
  unfold nominal at hN
  by_cases hf : c.backoffFactor = 0
  · simp only [hf, if_true, gt_iff_lt, lt_irrefl, if_false] at hN ⊢
    subst hN
    norm_num
    exact ⟨by linarith, by linarith, hb.le⟩
  have hf1 : 1 ≤ c.backoffFactor := hc.factor.resolve_left hf
  have hfpos : c.backoffFactor > 0 := by linarith
  simp only [hf, if_false, hfpos, if_true] at hN ⊢
  have hX := h.product h0 h1 hf1 hb hb' ((recent:ℤ) - 1) rfl
  have hx : 0 < (base:ℚ) * c.backoffFactor ^ ((recent:ℤ) - 1) := mul_pos (by linarith) (zpow_pos (by linarith) _)
  generalize (base:ℚ) * c.backoffFactor ^ ((recent:ℤ) - 1) = x at *
  have hxe : 0 ≤ x * η := mul_nonneg hx.le h0
  have hxe1 : x * η ≤ x * (1/100) := mul_le_mul_of_nonneg_left h1 hx.le
  have hxe2 : x * (2 * η) = 2 * (x * η) := by ring
  rw [hxe2] at hX
  rw [hNe2]
  generalize u.mul (u.rd base) (u.pow c.backoffFactor ((recent:ℤ) - 1)) = fd at *
  by_cases hm : c.maxDelay = 0
  · simp only [hm, if_true, gt_iff_lt, lt_irrefl, false_and, if_false] at hN ⊢
    subst hN
    rcases hX with ⟨_, hX⟩ | ⟨y, rfl, hy1, hy2⟩
    · exfalso; norm_num at hX hfit; linarith
    · norm_num at hy1 hy2 hfit ⊢
      obtain ⟨a, b, d⟩ := toDuration_inRange u (y := y) (by linarith) (by norm_num; linarith)
      exact ⟨by linarith, by linarith, d⟩
  · have hmpos : c.maxDelay > 0 := by have := hc.maxDelay; omega
    have hm1 : (1:ℚ) ≤ c.maxDelay := by exact_mod_cast hmpos
    simp only [hm, if_false, hmpos, true_and] at hN ⊢
    generalize hM : (c.maxDelay : ℚ) = M at *
    have hM63 : M < 2 ^ 63 := by rw [← hM]; exact_mod_cast hmax
    obtain ⟨m, hm', hm1', hm2'⟩ := h.rd_nonneg (x := M) (by linarith) (by norm_num at hM63 ⊢; linarith)
    rw [hm']
    rcases hX with ⟨rfl, hX⟩ | ⟨y, rfl, hy1, hy2⟩
    · rw [if_pos (show Fpu.gt none (some m) = true from rfl), hM]
      rw [min_eq_right (by norm_num at hX hM63; linarith)] at hN
      subst hN
      norm_num
      exact ⟨by linarith, by linarith, hmpos.le⟩
    · unfold Fpu.gt
      simp only [decide_eq_true_eq]
      norm_num at hy1 hy2 hfit hm1' hm2'
      by_cases hgt : y > m
      · rw [if_pos hgt, hM]
        norm_num
        refine ⟨?_, ?_, hmpos.le⟩
        · have : N ≤ M := by rw [hN]; exact min_le_right _ _
          linarith
        · rcases le_total x M with hle | hle
          · rw [min_eq_left hle] at hN
            subst hN
            linarith
          · rw [min_eq_right hle] at hN
            linarith
      · rw [if_neg hgt]
        norm_num
        have hNx : N ≤ x := by rw [hN]; exact min_le_left _ _
        have hNM : N ≤ M := by rw [hN]; exact min_le_right _ _
        have hge : N - 2 * (N * η) - N * (1/2)^50 - 1/1000 ≤ y := by
          have h2 : 0 ≤ (x - N) * (1 - 2 * η - (1/2)^50) := mul_nonneg (by linarith) (by norm_num; linarith)
          norm_num at h2 ⊢
          linarith
        have hle : y ≤ N + 2 * (N * η) + N * (1/2)^50 + 1/1000 := by
          norm_num
          rcases le_total x M with hle | hle
          · rw [min_eq_left hle] at hN
            subst hN
            linarith
          · rw [min_eq_right hle] at hN
            linarith
        norm_num at hge hle
        obtain ⟨a, b, d⟩ := toDuration_inRange u (y := y) (by linarith) (by norm_num; linarith)
        exact ⟨by linarith, by linarith, d⟩

/-- C83: for a valid config, a positive base delay and any random number, with all the rounding errors and overflows of float64,
the delay used is within 10% of the nominal delay, up to half a millisecond of rounding, 5 ns, and a relative error of
2^-47 (that of a float64 operation is 2^-53) and three times that of `math.Pow`; provided 1.2 times the nominal delay fits an int64. It is
never negative. -/
theorem C83_delay_within (h : FloatOk u η) (h0 : 0 ≤ η) (h1 : η ≤ 1/100) (hc : ValidDelay c) (hmax : c.maxDelay < 2 ^ 63) {base : Int}
    (hb : 0 < base) (hb' : base < 2 ^ 63) (recent : Nat) {r : ℚ} (hr0 : 0 ≤ r) (hr1 : r < 1)
    (hfit : nominal c base recent * (12/10) < 2 ^ 63) :
    nominal c base recent * (9/10 - 3 * η - (1/2)^47) - 5 - 500000 ≤ (u.effDelay c base recent r : ℚ) ∧
    (u.effDelay c base recent r : ℚ) ≤ nominal c base recent * (11/10 + 3 * η + (1/2)^47) + 5 + 500000 ∧
    0 ≤ u.effDelay c base recent r := by
  obtain ⟨p1, p2, p3⟩ := h.preFuzz h0 h1 hc hb hb' hmax recent rfl hfit
  obtain ⟨f, hf, hf1, hf2⟩ := h.fuzz hr0 hr1
  have hn := nominal_nonneg hc hb recent
  unfold Fpu.effDelay
  rw [if_pos hb, hf]
  have p3' : (0:ℚ) ≤ u.preFuzz c base recent := by exact_mod_cast p3
  generalize u.preFuzz c base recent = p at *
  generalize nominal c base recent = N at *
  have hNe : 0 ≤ N * η := mul_nonneg hn h0
  have hNe1 : N * η ≤ N * (1/100) := mul_le_mul_of_nonneg_left h1 hn
  have e1 : N * (2 * η) = 2 * (N * η) := by ring
  have e2 : N * (9/10 - 3 * η - (1/2)^47) = N * (9/10) - 3 * (N * η) - N * (1/2)^47 := by ring
  have e3 : N * (11/10 + 3 * η + (1/2)^47) = N * (11/10) + 3 * (N * η) + N * (1/2)^47 := by ring
  rw [e1] at p1 p2
  rw [e2, e3]
  generalize N * η = A at *
  norm_num at p1 p2 hf1 hf2 hfit ⊢
  have hp : (p:ℚ) < 2 ^ 200 := by norm_num; linarith
  obtain ⟨q, hq, hq1, hq2⟩ := h.rd_nonneg p3' hp
  norm_num at hq1 hq2
  rw [hq]
  have zu : q * f ≤ (p + p * (1/2)^53 + (1/2)^200) * (11/10 + (1/2)^50) := by
    refine (mul_le_mul_of_nonneg_right (b := q) (c := p + p * (1/2)^53 + (1/2)^200) (by norm_num; linarith) (by linarith)).trans ?_
    exact mul_le_mul_of_nonneg_left (by norm_num; linarith) (by positivity)
  have zl : p * (1 - (1/2)^53) * (9/10 - (1/2)^50) - 1/1000 ≤ q * f := by
    have a1 : (p - p * (1/2)^53 - (1/2)^200) * f ≤ q * f := mul_le_mul_of_nonneg_right (by norm_num; linarith) (by linarith)
    have a2 : p * (1 - (1/2)^53) * (9/10 - (1/2)^50) ≤ p * (1 - (1/2)^53) * f :=
      mul_le_mul_of_nonneg_left (by norm_num; linarith) (mul_nonneg p3' (by norm_num))
    norm_num at a1 a2 ⊢
    nlinarith
  norm_num at zu zl
  have hz : |q * f| ≤ p * (11/10) + p * (1/2)^49 + 1/100 := abs_le.2 ⟨by norm_num; linarith, by norm_num; linarith⟩
  norm_num at hz
  rw [show u.mul (some q) (some f) = u.rd (q * f) from rfl]
  cases hr : u.rd (q * f) with
  | none =>
    have := h.rd_inf _ hr
    norm_num at this
    linarith
  | some w =>
    have hw := abs_le.1 (h.rd_err _ w hr)
    norm_num at hw
    generalize |q| * |f| = B at *
    generalize q * f = z at *
    obtain ⟨t1, t2, t3⟩ := toDuration_inRange u (y := w) (by linarith) (by norm_num; linarith)
    have htm : u.toDuration (some w) ≤ maxDuration := by
      have : (u.toDuration (some w) : ℚ) < 2 ^ 63 := by norm_num; linarith
      have : u.toDuration (some w) < 2 ^ 63 := by exact_mod_cast this
      unfold maxDuration; omega
    obtain ⟨r1, r2, r3⟩ := roundMs_bounds t3 htm
    generalize u.toDuration (some w) = t at *
    have r2' : (roundMs t : ℚ) ≤ t + 500000 := by exact_mod_cast r2
    have r3' : (t : ℚ) - 500000 ≤ roundMs t := by exact_mod_cast r3
    exact ⟨by linarith, by linarith, r1⟩

/-- C83: with backoff and a MaxDelay the delay never exceeds 1.1 times MaxDelay plus rounding, whatever the number of errors, even
if the power overflows. -/
theorem C83_delay_capped (h : FloatOk u η) (h0 : 0 ≤ η) (h1 : η ≤ 1/100) (hc : ValidDelay c) (hfac : 1 ≤ c.backoffFactor)
    (hmax : 0 < c.maxDelay) (hfit : (c.maxDelay : ℚ) * (12/10) < 2 ^ 63) {base : Int} (hb : 0 < base) (hb' : base < 2 ^ 63)
    (recent : Nat) {r : ℚ} (hr0 : 0 ≤ r) (hr1 : r < 1) :
    (u.effDelay c base recent r : ℚ) ≤ (c.maxDelay : ℚ) * (11/10 + 3 * η + (1/2)^47) + 5 + 500000 ∧
    0 ≤ u.effDelay c base recent r := by
  have hle : nominal c base recent ≤ c.maxDelay := by
    unfold nominal
    rw [if_neg (by intro h; rw [h] at hfac; norm_num at hfac), if_neg (by omega)]
    exact min_le_right _ _
  have h63 : c.maxDelay < 2 ^ 63 := by
    have : (0:ℚ) < c.maxDelay := by exact_mod_cast hmax
    have : (c.maxDelay : ℚ) < 2 ^ 63 := by linarith
    exact_mod_cast this
  obtain ⟨_, h2, h3⟩ := C83_delay_within h h0 h1 hc h63 hb hb' recent hr0 hr1 (by linarith)
  refine ⟨h2.trans ?_, h3⟩
  have : nominal c base recent * (11/10 + 3 * η + (1/2)^47) ≤ c.maxDelay * (11/10 + 3 * η + (1/2)^47) :=
    mul_le_mul_of_nonneg_right hle (by positivity)
  linarith

/-! ## Two floating point units -/

/-- Exact arithmetic. -/
def exact (conv : ℚ → Int) : Fpu where
  rd := some
  pow x n := some (x ^ n)
  conv
    | some q => conv q
    | none => 0

/-- C83: with exact arithmetic this is the delay of `Verif.Delay`, which C52, C53 and C54 are about. -/
theorem C83_exact (c : Config) (delay : Int) (recent : Nat) (r : ℚ) :
    (exact c.conv).effDelay c delay recent r = effDelay c delay recent r := by
  have hd : ∀ q, (exact c.conv).toDuration (some q) = toDuration c.conv q := fun q => rfl
  have hp : (exact c.conv).preFuzz c delay recent = preFuzz c delay recent := by
    unfold Fpu.preFuzz preFuzz
    split
    · simp only [exact, Fpu.mul, Fpu.gt, decide_eq_true_eq, gt_iff_lt]
      split
      · rfl
      · exact hd _
    · rfl
  unfold Fpu.effDelay effDelay
  rw [hp]
  split
  · rfl
  · rfl

/-- Round to nearest, to 53 binary digits (as float64 does for results between 2^-1022 and 2^1023, except that half-way cases
are rounded up and not to even). -/
def round53 (x : ℚ) : ℚ :=
  (round (x / 2 ^ (Int.log 2 |x| - 52)) : ℚ) * 2 ^ (Int.log 2 |x| - 52)

theorem round53_err (x : ℚ) : |round53 x - x| ≤ |x| * (1/2)^53 := by
  by_cases hx : x = 0
  · subst hx; simp [round53]
  have hx' : 0 < |x| := abs_pos.2 hx
  unfold round53
  generalize he : Int.log 2 |x| = e
  have h1 : (2:ℚ) ^ e ≤ |x| := by have := Int.zpow_log_le_self (R := ℚ) (b := 2) (by norm_num) hx'; rw [he] at this; exact_mod_cast this
  have hu : (0:ℚ) < 2 ^ (e - 52) := by positivity
  have h2 : (2:ℚ) ^ (e - 52) = 2 ^ e * (1/2)^52 := by rw [zpow_sub₀ (by norm_num)]; norm_num; ring
  generalize (2:ℚ) ^ (e - 52) = v at *
  have h3 := abs_sub_round (x / v)
  have h4 : (round (x / v) : ℚ) * v - x = -(x / v - round (x / v)) * v := by field_simp; ring
  rw [h4, abs_mul, abs_neg, abs_of_pos hu]
  calc |x / v - round (x / v)| * v ≤ 1/2 * v := mul_le_mul_of_nonneg_right h3 hu.le
    _ = 2 ^ e * (1/2)^53 := by rw [h2]; ring
    _ ≤ |x| * (1/2)^53 := mul_le_mul_of_nonneg_right h1 (by positivity)

/-- A floating point unit with 53 binary digits, in which everything from 2^1023 on is infinite. -/
def fpu53 : Fpu where
  rd x := if |x| < 2 ^ 1023 then some (round53 x) else none
  pow x n := if x ^ n < 2 ^ 1023 then some (round53 (x ^ n)) else none

theorem fpu53_ok : FloatOk fpu53 ((1/2)^53) := by
  have big : (2:ℚ)^200 ≤ 2^1023 := pow_le_pow_right₀ (by norm_num) (by norm_num)
  refine ⟨?_, ?_, ?_, ?_⟩
  · intro x y h
    simp only [fpu53] at h
    split at h
    · cases h
      have := round53_err x
      have : (0:ℚ) < (1/2)^200 := by positivity
      linarith
    · cases h
  · intro x h
    simp only [fpu53] at h
    split at h
    · cases h
    · rename_i hh; exact big.trans (not_lt.1 hh)
  · intro x n y h1 h
    simp only [fpu53] at h
    split at h
    · cases h
      have h2 := round53_err (x ^ n)
      rw [abs_of_pos (zpow_pos (by linarith) n : 0 < x ^ n)] at h2
      have : (0:ℚ) < (1/2)^200 := by positivity
      linarith
    · cases h
  · intro x n h1 h
    simp only [fpu53] at h
    split at h
    · cases h
    · rename_i hh; exact big.trans (not_lt.1 hh)

/-- A typical configuration: the third delay is 4.32 s. -/
example : FloatOk fpu53 ((1/2)^53) ∧ ValidDelay typical ∧ nominal typical 3000000000 3 = 4320000000 ∧
    nominal typical 3000000000 3 * (12/10) < 2 ^ 63 ∧ (typical.maxDelay : ℚ) * (12/10) < 2 ^ 63 :=
  ⟨fpu53_ok, ⟨by right; norm_num [typical], by norm_num [typical]⟩, by norm_num [nominal, typical], by norm_num [nominal, typical],
    by norm_num [typical]⟩

example : fpu53.effDelay typical 3000000000 3 (1/2) = 4320000000 := by decide +kernel

/-- After 6001 errors the power is infinite, and the delay is the maximum. -/
example : fpu53.pow typical.backoffFactor 6000 = none ∧ fpu53.effDelay typical 3000000000 6001 (1/2) = 300000000000 := by
  decide +kernel

end Verif.Props
