import Verif.Spec.Libm
import Mathlib.Analysis.SpecialFunctions.Pow.Real
import Mathlib.Analysis.SpecialFunctions.Log.Base

/-! # Accuracy assumed of the platform's `pow(10, ·)` and `log10` -/

namespace Verif

/-- `pow(10, y)` has relative error at most `2^-45` for `|y| ≤ 32`, and so has `log10` of positive numbers (plus `2^-200`). -/
structure DbAccurate [Libm F64] : Prop where
  pow10 : ∀ (y : F64) (q : ℚ), y.Is q → |q| ≤ 32 →
    ∃ p : ℚ, (Libm.pow (lit 10) y).Is p ∧ |(p : ℝ) - (10 : ℝ) ^ (q : ℝ)| ≤ (2 ^ 45)⁻¹ * (10 : ℝ) ^ (q : ℝ)
  log10 : ∀ (x : F64) (q : ℚ), x.Is q → 0 < q →
    ∃ l : ℚ, (Libm.log10 x).Is l ∧ |(l : ℝ) - Real.logb 10 q| ≤ (2 ^ 45)⁻¹ * |Real.logb 10 q| + (2 ^ 200)⁻¹

/-- Every real of moderate size is near a float. -/
private theorem near_float (c : ℝ) (h : |c| ≤ 2 ^ 120) : ∃ (x : F64) (p : ℚ), x.Is p ∧ |(p : ℝ) - c| ≤ (2 ^ 48)⁻¹ * |c| + (2 ^ 220)⁻¹ := by
  obtain ⟨r, hr⟩ := exists_rat_near c (show (0 : ℝ) < (2 ^ 230)⁻¹ by positivity)
  rw [abs_sub_comm] at hr
  have hrc : |(r : ℝ)| ≤ |c| + (2 ^ 230)⁻¹ := by
    have := abs_sub_abs_le_abs_sub (r : ℝ) c
    linarith
  have hr1 : |r| ≤ 2 ^ 121 := by
    have : ((|r| : ℚ) : ℝ) ≤ ((2 ^ 121 : ℚ) : ℝ) := by
      push_cast
      have h1 : ((2 : ℝ) ^ 230)⁻¹ ≤ 1 := by norm_num
      norm_num at h ⊢
      linarith
    exact Rat.cast_le.mp this
  refine ⟨lit r, _, Fl.lit_is (Fmt.fits64 (hr1.trans (pow_le_pow_right₀ (by norm_num) (by norm_num)))), ?_⟩
  have h1 := b64.abs_rnd_sub_le_mixed r
  have h2 : |b64.rnd r - r| ≤ (2 ^ 50)⁻¹ * |r| + (2 ^ 230)⁻¹ := by
    refine h1.trans (add_le_add (mul_le_mul_of_nonneg_right (by decide +kernel) (abs_nonneg _)) (by decide +kernel))
  have h3 : |((b64.rnd r : ℚ) : ℝ) - r| ≤ (2 ^ 50)⁻¹ * |(r : ℝ)| + (2 ^ 230)⁻¹ := by
    have : ((|b64.rnd r - r| : ℚ) : ℝ) ≤ (((2 ^ 50)⁻¹ * |r| + (2 ^ 230)⁻¹ : ℚ) : ℝ) := Rat.cast_le.mpr h2
    push_cast at this
    exact this
  have h4 := abs_sub_le ((b64.rnd r : ℚ) : ℝ) r c
  have h5 : ((2 : ℝ) ^ 50)⁻¹ * |(r : ℝ)| ≤ (2 ^ 50)⁻¹ * (|c| + (2 ^ 230)⁻¹) := mul_le_mul_of_nonneg_left hrc (by positivity)
  have h6 : ((2 : ℝ) ^ 50)⁻¹ * |c| ≤ (2 ^ 48)⁻¹ * |c| := mul_le_mul_of_nonneg_right (by norm_num) (abs_nonneg _)
  have h7 : ((2 : ℝ) ^ 50)⁻¹ * (2 ^ 230)⁻¹ + (2 ^ 230)⁻¹ + (2 ^ 230)⁻¹ ≤ (2 ^ 220)⁻¹ := by norm_num
  linarith

/-- ... to relative accuracy if it is not tiny. -/
private theorem near_float_rel (c : ℝ) (h : |c| ≤ 2 ^ 120) (h0 : (2 ^ 110)⁻¹ ≤ |c|) :
    ∃ (x : F64) (p : ℚ), x.Is p ∧ |(p : ℝ) - c| ≤ (2 ^ 45)⁻¹ * |c| := by
  obtain ⟨x, p, h1, h2⟩ := near_float c h
  refine ⟨x, p, h1, h2.trans ?_⟩
  have h3 : ((2 : ℝ) ^ 220)⁻¹ ≤ (2 ^ 48)⁻¹ * (2 ^ 110)⁻¹ := by norm_num
  have h4 : ((2 : ℝ) ^ 48)⁻¹ * (2 ^ 110)⁻¹ ≤ (2 ^ 48)⁻¹ * |c| := mul_le_mul_of_nonneg_left h0 (by positivity)
  have h5 : ((2 : ℝ) ^ 48)⁻¹ * |c| + (2 ^ 48)⁻¹ * |c| ≤ (2 ^ 45)⁻¹ * |c| := by
    rw [← add_mul]; exact mul_le_mul_of_nonneg_right (by norm_num) (abs_nonneg _)
  linarith

private theorem pow_range {q : ℚ} (h : |q| ≤ 32) : |(10 : ℝ) ^ (q : ℝ)| ≤ 2 ^ 120 ∧ (2 ^ 110)⁻¹ ≤ |(10 : ℝ) ^ (q : ℝ)| := by
  obtain ⟨h1, h2⟩ := abs_le.mp h
  have h1' : (-32 : ℝ) ≤ q := by exact_mod_cast h1
  have h2' : (q : ℝ) ≤ 32 := by exact_mod_cast h2
  rw [abs_of_pos (Real.rpow_pos_of_pos (by norm_num) _)]
  have e1 : (10 : ℝ) ^ (32 : ℝ) = 10 ^ 32 := by exact_mod_cast Real.rpow_natCast (10 : ℝ) 32
  have e2 : (10 : ℝ) ^ (-32 : ℝ) = (10 ^ 32)⁻¹ := by rw [Real.rpow_neg (by norm_num), e1]
  constructor
  · have := Real.rpow_le_rpow_of_exponent_le (show (1 : ℝ) ≤ 10 by norm_num) h2'
    rw [e1] at this
    have h3 : (10 : ℝ) ^ 32 ≤ 2 ^ 107 := by norm_num
    have h4 : (2 : ℝ) ^ 107 ≤ 2 ^ 120 := pow_le_pow_right₀ (by norm_num) (by norm_num)
    linarith
  · have := Real.rpow_le_rpow_of_exponent_le (show (1 : ℝ) ≤ 10 by norm_num) h1'
    rw [e2] at this
    have h3 : ((2 : ℝ) ^ 110)⁻¹ ≤ (10 ^ 32)⁻¹ := by norm_num
    linarith

/-- Logarithms of floats are moderate. -/
theorem log10_range {x : F64} {q : ℚ} (hx : x.Is q) (h0 : 0 < q) : |Real.logb 10 (q : ℝ)| ≤ 2 ^ 11 := by
  have hq := hx.abs_lt
  rw [abs_of_pos h0] at hq
  have hqr : (q : ℝ) ≤ 2 ^ 1024 := by
    have e : ((pow2 (b64.emax + 1) : ℚ) : ℝ) = 2 ^ 1024 := by
      rw [show b64.emax + 1 = ((1024 : ℕ) : ℤ) by decide, pow2_eq, zpow_natCast]; push_cast; rfl
    exact le_of_le_of_eq (Rat.cast_le.mpr hq.le) e
  obtain ⟨m, e, hm, hm1, he⟩ := hx.repr
  have hlow : ((2 : ℝ) ^ 1074)⁻¹ ≤ q := by
    have h1 : pow2 (-1074) ≤ q := by
      rw [hm]
      have hm0 : 0 < m := by
        by_contra hneg
        have : (m : ℚ) ≤ 0 := by exact_mod_cast not_lt.mp hneg
        have := mul_nonpos_of_nonpos_of_nonneg this (pow2_pos e).le
        rw [← hm] at this
        linarith
      have : (1 : ℚ) ≤ m := by exact_mod_cast hm0
      calc pow2 (-1074) ≤ pow2 e := pow2_le he
        _ ≤ m * pow2 e := le_mul_of_one_le_left (pow2_pos e).le this
    have e : ((pow2 (-1074) : ℚ) : ℝ) = (2 ^ 1074)⁻¹ := by
      rw [show (-1074 : ℤ) = -((1074 : ℕ) : ℤ) from rfl, pow2_eq, zpow_neg, zpow_natCast]; push_cast; rfl
    rw [← e]
    exact Rat.cast_le.mpr h1
  have hq0 : (0 : ℝ) < q := by exact_mod_cast h0
  have big : ∀ n : ℕ, Real.logb 10 ((2 : ℝ) ^ n) ≤ n := by
    intro n
    rw [Real.logb_le_iff_le_rpow (by norm_num) (by positivity), Real.rpow_natCast]
    exact pow_le_pow_left₀ (by norm_num) (by norm_num) n
  have h1 : Real.logb 10 (q : ℝ) ≤ 1024 := by
    have := Real.logb_le_logb_of_le (b := 10) (by norm_num) hq0 hqr
    exact this.trans (by exact_mod_cast big 1024)
  have h2 : -1074 ≤ Real.logb 10 (q : ℝ) := by
    have := Real.logb_le_logb_of_le (b := 10) (by norm_num) (by positivity) hlow
    rw [Real.logb_inv] at this
    have := big 1074
    push_cast at this
    linarith
  refine abs_le.mpr ⟨?_, ?_⟩
  · norm_num; linarith
  · norm_num; linarith

open Classical in
@[reducible] private noncomputable def libmDb : Libm F64 :=
  ⟨id, id, id,
    fun x => if h : ∃ z : F64, ∃ q : ℚ, x.Is q ∧ 0 < q ∧ ∃ l : ℚ, z.Is l ∧ |(l : ℝ) - Real.logb 10 q| ≤ (2 ^ 45)⁻¹ * |Real.logb 10 q| + (2 ^ 200)⁻¹
      then h.choose else x,
    fun x y => if h : ∃ z : F64, ∃ q : ℚ, y.Is q ∧ ∃ p : ℚ, z.Is p ∧ |(p : ℝ) - (10 : ℝ) ^ (q : ℝ)| ≤ (2 ^ 45)⁻¹ * (10 : ℝ) ^ (q : ℝ)
      then h.choose else x⟩

/-- The assumption can be met. -/
theorem dbAccurate_exists : ∃ l : Libm F64, @DbAccurate l := by
  let _ := libmDb
  refine ⟨libmDb, DbAccurate.mk ?_ ?_⟩
  · intro y q hy hq
    have h : ∃ z : F64, ∃ q : ℚ, y.Is q ∧ ∃ p : ℚ, z.Is p ∧ |(p : ℝ) - (10 : ℝ) ^ (q : ℝ)| ≤ (2 ^ 45)⁻¹ * (10 : ℝ) ^ (q : ℝ) := by
      obtain ⟨z, p, h1, h2⟩ := near_float_rel _ (pow_range hq).1 (pow_range hq).2
      rw [abs_of_pos (Real.rpow_pos_of_pos (by norm_num) _)] at h2
      exact ⟨z, q, hy, p, h1, h2⟩
    have e : (Libm.pow (lit 10) y : F64) = h.choose := dif_pos h
    obtain ⟨q', h1, p, h2, h3⟩ := h.choose_spec
    rw [e]
    exact ⟨p, h2, by rw [hy.unique h1]; exact h3⟩
  · intro x q hx hq
    have h : ∃ z : F64, ∃ q : ℚ, x.Is q ∧ 0 < q ∧ ∃ l : ℚ, z.Is l ∧ |(l : ℝ) - Real.logb 10 q| ≤ (2 ^ 45)⁻¹ * |Real.logb 10 q| + (2 ^ 200)⁻¹ := by
      obtain ⟨z, p, h1, h2⟩ := near_float _ ((log10_range hx hq).trans (by norm_num))
      refine ⟨z, q, hx, hq, p, h1, h2.trans ?_⟩
      have h3 : ((2 : ℝ) ^ 220)⁻¹ ≤ (2 ^ 200)⁻¹ := by norm_num
      have h4 : ((2 : ℝ) ^ 48)⁻¹ * |Real.logb 10 (q : ℝ)| ≤ (2 ^ 45)⁻¹ * |Real.logb 10 (q : ℝ)| :=
        mul_le_mul_of_nonneg_right (by norm_num) (abs_nonneg _)
      linarith
    have e : (Libm.log10 x : F64) = h.choose := dif_pos h
    obtain ⟨q', h1, -, p, h2, h3⟩ := h.choose_spec
    rw [e]
    exact ⟨p, h2, by rw [hx.unique h1]; exact h3⟩

end Verif
