import Verif.Delay
import Mathlib.Tactic.Linarith
import Mathlib.Tactic.NormNum
import Mathlib.Tactic.Positivity

/-!
# C52, C53: restart delays; C54 (first half): backoff is monotone

Specification: the nominal delay `base * factor^(recent-1)`, capped at MaxDelay.
-/

namespace Verif.Props
open Verif.Delay

/-- What EngineConfig.Validate (dependency/engine.go:92-125) demands of the fields used here. -/
structure ValidDelay (c : Config) : Prop where
  factor : c.backoffFactor = 0 ∨ 1 ≤ c.backoffFactor
  maxDelay : 0 ≤ c.maxDelay

/-- The documented delay before randomisation (dependency/engine.go:53-79): multiplied by the factor for each
consecutive error after the first, never more than MaxDelay. A factor of 0 switches backoff off. -/
def nominal (c : Config) (base : Int) (recent : Nat) : ℚ :=
  if c.backoffFactor = 0 then base
  else if c.maxDelay = 0 then base * c.backoffFactor ^ ((recent : ℤ) - 1)
  else min (base * c.backoffFactor ^ ((recent : ℤ) - 1)) c.maxDelay

theorem trunc_nonneg {q : ℚ} (h : 0 ≤ q) : q - 1 < (trunc q : ℚ) ∧ (trunc q : ℚ) ≤ q ∧ 0 ≤ trunc q := by
  unfold trunc
  rw [if_pos h]
  have h1 := Int.floor_le q
  have h2 := Int.sub_one_lt_floor q
  have h3 := Int.floor_nonneg.2 h
  exact ⟨h2, h1, h3⟩

theorem roundMs_bounds {d : Int} (h : 0 ≤ d) (hm : d ≤ maxDuration) :
    0 ≤ roundMs d ∧ roundMs d ≤ d + 500000 ∧ d - 500000 ≤ roundMs d := by
  unfold roundMs
  rw [if_neg (by omega)]
  simp only [ms, maxDuration] at *
  have := Int.emod_nonneg d (b := 1000000) (by omega)
  have := Int.emod_lt_of_pos d (b := 1000000) (by omega)
  by_cases h1 : d % 1000000 + d % 1000000 < 1000000
  · simp only [h1, if_true]; omega
  · by_cases h2 : d + 1000000 - d % 1000000 ≤ 2 ^ 63 - 1
    · simp only [h1, h2, if_true, if_false]; omega
    · simp only [h1, h2, if_false]; omega

theorem nominal_nonneg {c : Config} (hc : ValidDelay c) {base : Int} (hb : 0 < base) (recent : Nat) :
    0 ≤ nominal c base recent := by
  have hb' : (0:ℚ) < base := by exact_mod_cast hb
  have hm : (0:ℚ) ≤ c.maxDelay := by exact_mod_cast hc.maxDelay
  unfold nominal
  split
  · exact hb'.le
  · rename_i hf
    have hf1 : 1 ≤ c.backoffFactor := hc.factor.resolve_left hf
    have : 0 < (base:ℚ) * c.backoffFactor ^ ((recent:ℤ) - 1) :=
      mul_pos hb' (zpow_pos (by linarith) _)
    split
    · exact this.le
    · exact le_min this.le hm

/-- The value before fuzzing is the nominal delay rounded down to a nanosecond, if that fits an int64. -/
theorem preFuzz_bounds {c : Config} (hc : ValidDelay c) {base : Int} (hb : 0 < base) (recent : Nat)
    (hfit : nominal c base recent < 2 ^ 63) :
    nominal c base recent - 1 < (preFuzz c base recent : ℚ) ∧
    (preFuzz c base recent : ℚ) ≤ nominal c base recent ∧ 0 ≤ preFuzz c base recent := by
  have hn := nominal_nonneg hc hb recent
  have hb' : (0:ℚ) < base := by exact_mod_cast hb
  unfold nominal at hfit hn ⊢
  unfold preFuzz
  by_cases hf : c.backoffFactor = 0
  · simp only [hf, if_true, gt_iff_lt, lt_irrefl, if_false]
    exact ⟨by linarith, le_refl _, by omega⟩
  · have hf1 : 1 ≤ c.backoffFactor := hc.factor.resolve_left hf
    have hfpos : c.backoffFactor > 0 := by linarith
    simp only [hf, if_false, hfpos, if_true] at hfit hn ⊢
    have hx : 0 < (base:ℚ) * c.backoffFactor ^ ((recent:ℤ) - 1) :=
      mul_pos hb' (zpow_pos (by linarith) _)
    generalize (base:ℚ) * c.backoffFactor ^ ((recent:ℤ) - 1) = x at *
    by_cases hm : c.maxDelay = 0
    · simp only [hm, if_true, gt_iff_lt, lt_irrefl, false_and, if_false] at hfit hn ⊢
      unfold toDuration
      rw [if_pos ⟨by linarith, hfit⟩]
      exact trunc_nonneg hn
    · have hmpos : c.maxDelay > 0 := by have := hc.maxDelay; omega
      have hmq : (0:ℚ) < c.maxDelay := by exact_mod_cast hmpos
      simp only [hm, if_false, hmpos, true_and] at hfit hn ⊢
      by_cases hgt : x > c.maxDelay
      · rw [if_pos hgt, min_eq_right hgt.le]
        exact ⟨by linarith, le_refl _, by omega⟩
      · have hle : x ≤ c.maxDelay := not_lt.1 hgt
        rw [if_neg hgt]
        rw [min_eq_left hle] at hfit hn ⊢
        unfold toDuration
        rw [if_pos ⟨by linarith, hfit⟩]
        exact trunc_nonneg hn

/-- C52. For a valid config, a positive base delay and any fuzz in [0,1), the delay used is within 10% of the
nominal delay, up to 2 ns of truncation and half a millisecond of rounding, provided 1.1 times the nominal
delay fits an int64. -/
theorem C52_delay_within (c : Config) (hc : ValidDelay c) (base : Int) (hb : 0 < base) (recent : Nat)
    (fuzz : ℚ) (hf0 : 0 ≤ fuzz) (hf1 : fuzz < 1)
    (hfit : nominal c base recent * (11/10) < 2 ^ 63) :
    nominal c base recent * (9/10) - 2 - 500000 ≤ (effDelay c base recent fuzz : ℚ) ∧
    (effDelay c base recent fuzz : ℚ) ≤ nominal c base recent * (11/10) + 500000 ∧
    0 ≤ effDelay c base recent fuzz := by
  have hn := nominal_nonneg hc hb recent
  obtain ⟨p1, p2, p3⟩ := preFuzz_bounds hc hb recent (by linarith)
  unfold effDelay
  rw [if_pos hb]
  have p3' : (0:ℚ) ≤ preFuzz c base recent := by exact_mod_cast p3
  generalize preFuzz c base recent = p at *
  generalize nominal c base recent = n at *
  have hlow : (p:ℚ) * (9/10) ≤ p * (fuzz * (2/10) + 9/10) :=
    mul_le_mul_of_nonneg_left (by linarith) p3'
  have hupp : (p:ℚ) * (fuzz * (2/10) + 9/10) ≤ p * (11/10) :=
    mul_le_mul_of_nonneg_left (by linarith) p3'
  have hnn : 0 ≤ (p:ℚ) * (fuzz * (2/10) + 9/10) := by linarith
  generalize (p:ℚ) * (fuzz * (2/10) + 9/10) = x at *
  have hx : x < 2 ^ 63 := by linarith
  have ht : toDuration c.conv x = trunc x := by
    unfold toDuration; rw [if_pos ⟨by linarith, hx⟩]
  rw [ht]
  obtain ⟨t1, t2, t3⟩ := trunc_nonneg hnn
  have htm : trunc x ≤ maxDuration := by
    have : (trunc x : ℚ) < 2 ^ 63 := lt_of_le_of_lt t2 hx
    have : trunc x < 2 ^ 63 := by exact_mod_cast this
    unfold maxDuration; omega
  obtain ⟨r1, r2, r3⟩ := roundMs_bounds t3 htm
  have r2' : (roundMs (trunc x) : ℚ) ≤ trunc x + 500000 := by exact_mod_cast r2
  have r3' : (trunc x : ℚ) - 500000 ≤ roundMs (trunc x) := by exact_mod_cast r3
  exact ⟨by linarith, by linarith, r1⟩

/-- C52: with backoff and a MaxDelay the delay never exceeds 1.1 * MaxDelay plus rounding, whatever the number
of errors. -/
theorem C52_delay_capped (c : Config) (hc : ValidDelay c) (hfac : 1 ≤ c.backoffFactor)
    (hmax : 0 < c.maxDelay) (hfit : (c.maxDelay : ℚ) * (11/10) < 2 ^ 63)
    (base : Int) (hb : 0 < base) (recent : Nat) (fuzz : ℚ) (hf0 : 0 ≤ fuzz) (hf1 : fuzz < 1) :
    (effDelay c base recent fuzz : ℚ) ≤ (c.maxDelay : ℚ) * (11/10) + 500000 ∧
    0 ≤ effDelay c base recent fuzz := by
  have hle : nominal c base recent ≤ c.maxDelay := by
    unfold nominal
    rw [if_neg (by intro h; rw [h] at hfac; norm_num at hfac), if_neg (by omega)]
    exact min_le_right _ _
  obtain ⟨_, h2, h3⟩ := C52_delay_within c hc base hb recent fuzz hf0 hf1 (by linarith)
  exact ⟨by linarith, h3⟩

/-- C52: a base delay of zero is never delayed. -/
theorem C52_zero_delay (c : Config) (recent : Nat) (fuzz : ℚ) : effDelay c 0 recent fuzz = 0 := by
  simp [effDelay]

/-- A typical juju configuration: 3 s error delay, factor 1.2, 5 min maximum. -/
def typical : Config := { backoffFactor := 6/5, maxDelay := 300000000000 }

example : ValidDelay typical := ⟨by right; norm_num [typical], by norm_num [typical]⟩
example : nominal typical 3000000000 3 = 4320000000 := by norm_num [nominal, typical]
example : nominal typical 3000000000 3 * (11/10) < 2 ^ 63 := by norm_num [nominal, typical]
example : nominal typical 3000000000 2000 * (11/10) < 2 ^ 63 := by
  have : nominal typical 3000000000 2000 ≤ 300000000000 := by
    unfold nominal; rw [if_neg (by norm_num [typical]), if_neg (by norm_num [typical])]
    exact (min_le_right _ _).trans (by norm_num [typical])
  linarith

/-- Concrete values: 3 errors, fuzz 1/2 gives exactly the nominal 4.32 s. -/
example : effDelay typical 3000000000 3 (1/2) = 4320000000 := by decide +kernel

/-! ## C53: the documented maximum -/

/-- C53 (negation): "MaxDelay is the maximum delay that the engine will wait" is false: the fuzz is applied
after the cap. -/
theorem C53_maxDelay_exceeded :
    ∃ (c : Config) (base : Int) (recent : Nat) (fuzz : ℚ), ValidDelay c ∧ 0 < base ∧ base ≤ c.maxDelay ∧
      0 ≤ fuzz ∧ fuzz < 1 ∧ c.maxDelay < effDelay c base recent fuzz := by
  refine ⟨typical, 3000000000, 30, 9/10, ⟨by right; norm_num [typical], by norm_num [typical]⟩, by norm_num,
    by norm_num [typical], by norm_num, by norm_num, ?_⟩
  decide +kernel

/-- C53 (negation): without backoff MaxDelay is not applied at all. -/
theorem C53_maxDelay_ignored_without_backoff :
    ∃ (c : Config) (base : Int) (recent : Nat) (fuzz : ℚ), ValidDelay c ∧ 0 < c.maxDelay ∧ 0 < base ∧
      0 ≤ fuzz ∧ fuzz < 1 ∧ 5 * c.maxDelay < effDelay c base recent fuzz := by
  refine ⟨{ maxDelay := 1000000000 }, 10000000000, 1, 1/2, ⟨by left; rfl, by norm_num⟩, by norm_num, by norm_num,
    by norm_num, by norm_num, ?_⟩
  decide +kernel

/-- C53 (negation): without MaxDelay the backoff leaves the int64 range; with amd64's conversion the delay is
then negative, that is: no delay at all. -/
theorem C53_backoff_overflows :
    ∃ (c : Config) (base : Int) (recent : Nat) (fuzz : ℚ), ValidDelay c ∧ c.maxDelay = 0 ∧ 0 < base ∧
      0 ≤ fuzz ∧ fuzz < 1 ∧ effDelay c base recent fuzz < 0 := by
  refine ⟨{ backoffFactor := 2 }, 3000000000, 40, 0, ⟨by right; norm_num, by norm_num⟩, rfl, by norm_num,
    by norm_num, by norm_num, ?_⟩
  decide +kernel

/-- C52/C53: `recentErrors = 0` (which happens when a worker that had just ended with nil is bounced, as
`gotStopped` sets it to 0 on a clean exit) makes the delay *shorter* than the base delay. -/
theorem C53_recent_zero_shortens :
    ∃ (c : Config) (base : Int) (fuzz : ℚ), ValidDelay c ∧ 0 < base ∧ 0 ≤ fuzz ∧ fuzz < 1 ∧
      2 * effDelay c base 0 fuzz < base := by
  refine ⟨{ backoffFactor := 10 }, 3000000000, 0, ⟨by right; norm_num, by norm_num⟩, by norm_num,
    by norm_num, by norm_num, ?_⟩
  decide +kernel

/-! ## C54: monotone in the number of errors -/

/-- C54: before fuzzing, the delay never decreases as the number of recent errors grows, as long as the nominal
delay fits an int64 (always the case with a MaxDelay). -/
theorem C54_monotone (c : Config) (hc : ValidDelay c) (base : Int) (hb : 0 < base) (m n : Nat) (hmn : m ≤ n)
    (hfit : nominal c base n < 2 ^ 63) : preFuzz c base m ≤ preFuzz c base n := by
  have hb' : (0:ℚ) < base := by exact_mod_cast hb
  by_cases hf : c.backoffFactor = 0
  · simp [preFuzz, hf]
  have hf1 : 1 ≤ c.backoffFactor := hc.factor.resolve_left hf
  have hfpos : c.backoffFactor > 0 := by linarith
  have hpow : (base:ℚ) * c.backoffFactor ^ ((m:ℤ) - 1) ≤ base * c.backoffFactor ^ ((n:ℤ) - 1) :=
    mul_le_mul_of_nonneg_left (zpow_le_zpow_right₀ hf1 (by omega)) hb'.le
  have hx : 0 < (base:ℚ) * c.backoffFactor ^ ((m:ℤ) - 1) := mul_pos hb' (zpow_pos (by linarith) _)
  have hfl : ∀ {x y : ℚ}, 0 ≤ x → x ≤ y → trunc x ≤ trunc y := by
    intro x y h0 hxy
    unfold trunc
    rw [if_pos h0, if_pos (h0.trans hxy)]
    exact Int.floor_le_floor hxy
  unfold nominal at hfit
  unfold preFuzz
  simp only [hf, if_false, hfpos, if_true] at hfit ⊢
  generalize (base:ℚ) * c.backoffFactor ^ ((m:ℤ) - 1) = x at *
  generalize (base:ℚ) * c.backoffFactor ^ ((n:ℤ) - 1) = y at *
  have hrange : ∀ {z : ℚ}, 0 < z → z < 2 ^ 63 → toDuration c.conv z = trunc z := by
    intro z hz hz'; unfold toDuration; rw [if_pos ⟨by linarith, hz'⟩]
  by_cases hm : c.maxDelay = 0
  · simp only [hm, if_true, gt_iff_lt, lt_irrefl, false_and, if_false] at hfit ⊢
    rw [hrange hx (by linarith), hrange (by linarith) hfit]
    exact hfl hx.le hpow
  · have hmpos : c.maxDelay > 0 := by have := hc.maxDelay; omega
    simp only [hm, if_false, hmpos, true_and] at hfit ⊢
    by_cases hgx : x > c.maxDelay
    · rw [if_pos hgx, if_pos (lt_of_lt_of_le hgx hpow)]
    · rw [if_neg hgx]
      have hxm : x ≤ c.maxDelay := not_lt.1 hgx
      by_cases hgy : y > c.maxDelay
      · rw [if_pos hgy]
        rw [min_eq_right hgy.le] at hfit
        rw [hrange hx (by linarith)]
        have := (trunc_nonneg hx.le).2.1
        exact_mod_cast this.trans hxm
      · rw [if_neg hgy]
        rw [min_eq_left (not_lt.1 hgy)] at hfit
        rw [hrange hx (by linarith), hrange (by linarith) hfit]
        exact hfl hx.le hpow

example : preFuzz typical 3000000000 2 = 3600000000 ∧ preFuzz typical 3000000000 3 = 4320000000 := by
  decide +kernel

end Verif.Props
