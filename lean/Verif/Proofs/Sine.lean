import Verif.Proofs.Osc
import Verif.Model.ArithReal
import Mathlib.Analysis.Convex.Deriv
import Mathlib.Analysis.SpecialFunctions.Trigonometric.Deriv
import Mathlib.Analysis.SpecialFunctions.Trigonometric.Bounds

/-! # Lemmas for the wavetable oscillator -/

namespace Verif
open Fl

/-- `as usize` of a finite float. -/
theorem Fl.Is.toUsize {f : Fmt} {x : Fl f} {a : ℚ} (hx : x.Is a) :
    toUsize x = (max 0 (min (2 ^ 64 - 1) (truncQ a))).toNat := by
  unfold Verif.toUsize
  rw [hx.toInt]

theorem Fl.Is.toUsize_int {f : Fmt} {x : Fl f} {n : ℤ} (hx : x.Is n) (h : n < 2 ^ 64) : Verif.toUsize x = n.toNat := by
  rw [hx.toUsize, truncQ_int, min_eq_right (by omega)]
  omega

/-- `as usize` of a real. -/
theorem real_toUsize_nonneg {x : ℝ} (h0 : 0 ≤ x) (h1 : x < 2 ^ 64) : toUsize x = ⌊x⌋.toNat := by
  unfold toUsize
  show (max 0 (min (2 ^ 64 - 1) (if x < 0 then ⌈x⌉ else ⌊x⌋))).toNat = _
  rw [if_neg (not_lt.mpr h0)]
  have h2 : ⌊x⌋ < 2 ^ 64 := by rw [Int.floor_lt]; push_cast; norm_num at h1; exact h1
  have h3 : 0 ≤ ⌊x⌋ := Int.floor_nonneg.mpr h0
  omega

theorem real_toUsize_neg {x : ℝ} (h0 : x < 0) : toUsize x = 0 := by
  unfold toUsize
  show (max 0 (min (2 ^ 64 - 1) (if x < 0 then ⌈x⌉ else ⌊x⌋))).toNat = _
  rw [if_pos h0]
  have : ⌈x⌉ ≤ 0 := Int.ceil_le.mpr (by simpa using h0.le)
  omega

private theorem convex_sin_add : ConvexOn ℝ Set.univ (fun x : ℝ => Real.sin x + x ^ 2 / 2) := by
  have d1 : deriv (fun x : ℝ => Real.sin x + x ^ 2 / 2) = fun x => Real.cos x + x := by
    funext x
    have h := (Real.hasDerivAt_sin x).add ((hasDerivAt_pow 2 x).div_const 2)
    refine h.deriv.trans ?_
    push_cast; ring
  have d2 : deriv (fun x : ℝ => Real.cos x + x) = fun x => -Real.sin x + 1 := by
    funext x
    exact ((Real.hasDerivAt_cos x).add (hasDerivAt_id x)).deriv
  refine convexOn_univ_of_deriv2_nonneg (by fun_prop) (by rw [d1]; fun_prop) ?_
  intro x
  show 0 ≤ deriv (deriv _) x
  rw [d1, d2]
  linarith [Real.sin_le_one x]

private theorem concave_sin_sub : ConvexOn ℝ Set.univ (fun x : ℝ => -Real.sin x + x ^ 2 / 2) := by
  have d1 : deriv (fun x : ℝ => -Real.sin x + x ^ 2 / 2) = fun x => -Real.cos x + x := by
    funext x
    have h := (Real.hasDerivAt_sin x).neg.add ((hasDerivAt_pow 2 x).div_const 2)
    refine h.deriv.trans ?_
    push_cast; ring
  have d2 : deriv (fun x : ℝ => -Real.cos x + x) = fun x => Real.sin x + 1 := by
    funext x
    have h := ((Real.hasDerivAt_cos x).neg.add (hasDerivAt_id x)).deriv
    rw [neg_neg] at h
    exact h
  refine convexOn_univ_of_deriv2_nonneg (by fun_prop) (by rw [d1]; fun_prop) ?_
  intro x
  show 0 ≤ deriv (deriv _) x
  rw [d1, d2]
  linarith [Real.neg_one_le_sin x]

/-- Linear interpolation of the sine between `a` and `a + h` is off by at most `h²/8`. -/
theorem sin_interp_error (a h t : ℝ) (ht0 : 0 ≤ t) (ht1 : t ≤ 1) :
    |((1 - t) * Real.sin a + t * Real.sin (a + h)) - Real.sin (a + t * h)| ≤ h ^ 2 / 8 := by
  have c1 := convex_sin_add.2 (Set.mem_univ a) (Set.mem_univ (a + h)) (by linarith : 0 ≤ 1 - t) ht0 (by ring)
  have c2 := concave_sin_sub.2 (Set.mem_univ a) (Set.mem_univ (a + h)) (by linarith : 0 ≤ 1 - t) ht0 (by ring)
  simp only [smul_eq_mul] at c1 c2
  rw [show (1 - t) * a + t * (a + h) = a + t * h by ring] at c1 c2
  have hb : t * (1 - t) ≤ 1 / 4 := by nlinarith [sq_nonneg (t - 1 / 2)]
  have hh : t * (1 - t) * h ^ 2 ≤ 1 / 4 * h ^ 2 := mul_le_mul_of_nonneg_right hb (sq_nonneg h)
  rw [abs_le]
  constructor <;> nlinarith

end Verif
