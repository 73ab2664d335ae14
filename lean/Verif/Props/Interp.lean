import Verif.Model.ArithReal
import Verif.Model.Utils
import Verif.Model.Debug
import Verif.Proofs.Codec

/-! # Interpolation, time, decibels, comparison: C18-C22, C32 -/

namespace Verif
open Fl

/-! ## C18 clerp -/

private theorem lerp_between {x x1 x2 y1 y2 : ℝ} (h : x1 ≠ x2) (h1 : min x1 x2 ≤ x) (h2 : x ≤ max x1 x2) :
    min y1 y2 ≤ lerp x x1 x2 y1 y2 ∧ lerp x x1 x2 y1 y2 ≤ max y1 y2 := by
  have e : lerp x x1 x2 y1 y2 = (1 - (x - x1) / (x2 - x1)) * y1 + (x - x1) / (x2 - x1) * y2 := by
    unfold lerp; real_simp; ring
  have ht : 0 ≤ (x - x1) / (x2 - x1) ∧ (x - x1) / (x2 - x1) ≤ 1 := by
    rcases lt_or_gt_of_ne h with hl | hl
    · rw [min_eq_left hl.le] at h1
      rw [max_eq_right hl.le] at h2
      constructor
      · apply div_nonneg <;> linarith
      · rw [div_le_one (by linarith)]; linarith
    · rw [min_eq_right hl.le] at h1
      rw [max_eq_left hl.le] at h2
      constructor
      · apply div_nonneg_of_nonpos <;> linarith
      · rw [div_le_one_of_neg (by linarith)]; linarith
  rw [e]
  generalize (x - x1) / (x2 - x1) = t at ht
  obtain ⟨ht0, ht1⟩ := ht
  constructor
  · nlinarith [min_le_left y1 y2, min_le_right y1 y2]
  · nlinarith [le_max_left y1 y2, le_max_right y1 y2]

private theorem clamp_real (x x1 x2 : ℝ) : clamp x x1 x2 = max (min x1 x2) (min (max x1 x2) x) := by
  unfold clamp
  by_cases h : x2 < x1
  · have e : (x2 <? x1) = true := (real_lt _ _).mpr h
    simp only [e, if_true]
    real_simp
    rw [min_eq_right h.le, max_eq_left h.le]
    split_ifs with a b
    · rw [min_eq_left a.le, max_eq_right h.le]
    · rw [min_eq_right (not_lt.mp a), max_eq_left b.le]
    · rw [min_eq_right (not_lt.mp a), max_eq_right (not_lt.mp b)]
  · have e : ¬ (x2 <? x1) = true := fun h' => h ((real_lt _ _).mp h')
    simp only [e]
    real_simp
    have h' := not_lt.mp h
    rw [min_eq_left h', max_eq_right h']
    simp only [Bool.false_eq_true, if_false]
    split_ifs with a b
    · rw [min_eq_left a.le, max_eq_right h']
    · rw [min_eq_right (not_lt.mp a), max_eq_left b.le]
    · rw [min_eq_right (not_lt.mp a), max_eq_right (not_lt.mp b)]

/-- The result lies between the end values for every `x`, whatever the order of the end points. -/
theorem C18_clerp_range (x x1 x2 y1 y2 : ℝ) (h : x1 ≠ x2) :
    min y1 y2 ≤ clerp x x1 x2 y1 y2 ∧ clerp x x1 x2 y1 y2 ≤ max y1 y2 := by
  unfold clerp
  rw [clamp_real]
  apply lerp_between h
  · exact le_max_left _ _
  · exact max_le (min_le_max) (min_le_left _ _)

example : (-1 : ℝ) ≤ clerp 5 0 2 (-1) 7 ∧ clerp (5 : ℝ) 0 2 (-1) 7 ≤ 7 := by
  have := C18_clerp_range 5 0 2 (-1) 7 (by norm_num)
  norm_num at this
  exact this

/-- Inside the interval it is `lerp`. -/
theorem C18_clerp_inside (x x1 x2 y1 y2 : ℝ) (h1 : min x1 x2 ≤ x) (h2 : x ≤ max x1 x2) :
    clerp x x1 x2 y1 y2 = lerp x x1 x2 y1 y2 := by
  unfold clerp
  rw [clamp_real, min_eq_right h2, max_eq_right h1]

example : clerp (1 : ℝ) 0 2 (-1) 7 = lerp 1 0 2 (-1) 7 := C18_clerp_inside _ _ _ _ _ (by norm_num) (by norm_num)

/-- Beyond an end point it is that end's value. -/
theorem C18_clerp_outside (x x1 x2 y1 y2 : ℝ) (h : x1 < x2) :
    (x ≤ x1 → clerp x x1 x2 y1 y2 = y1) ∧ (x2 ≤ x → clerp x x1 x2 y1 y2 = y2) ∧
    (x ≤ x1 → clerp x x2 x1 y2 y1 = y1) ∧ (x2 ≤ x → clerp x x2 x1 y2 y1 = y2) := by
  unfold clerp
  simp only [clamp_real, min_eq_left h.le, max_eq_right h.le, min_eq_right h.le, max_eq_left h.le]
  have h12 : x2 - x1 ≠ 0 := by linarith
  have h21 : x1 - x2 ≠ 0 := by linarith
  refine ⟨fun hx => ?_, fun hx => ?_, fun hx => ?_, fun hx => ?_⟩
  · rw [min_eq_right (by linarith), max_eq_left hx]; unfold lerp; real_simp; ring
  · rw [min_eq_left hx, max_eq_right h.le]; unfold lerp; real_simp; field_simp; ring
  · rw [min_eq_right (by linarith), max_eq_left hx]; unfold lerp; real_simp; field_simp; ring
  · rw [min_eq_left hx, max_eq_right h.le]; unfold lerp; real_simp; ring

example : clerp (5 : ℝ) 0 2 (-1) 7 = 7 ∧ clerp (5 : ℝ) 2 0 7 (-1) = 7 :=
  ⟨(C18_clerp_outside 5 0 2 (-1) 7 (by norm_num)).2.1 (by norm_num),
   (C18_clerp_outside 5 0 2 (-1) 7 (by norm_num)).2.2.2 (by norm_num)⟩

/-! ## C19 lerp -/

/-- The line passes through both end points. -/
theorem C19_endpoints (x1 x2 y1 y2 : ℝ) (h : x1 ≠ x2) :
    lerp x1 x1 x2 y1 y2 = y1 ∧ lerp x2 x1 x2 y1 y2 = y2 := by
  have h12 : x2 - x1 ≠ 0 := sub_ne_zero.mpr h.symm
  constructor
  · unfold lerp; real_simp; ring
  · unfold lerp; real_simp; field_simp; ring

example : lerp (0 : ℝ) 0 2 (-1) 7 = -1 ∧ lerp (2 : ℝ) 0 2 (-1) 7 = 7 := C19_endpoints _ _ _ _ (by norm_num)

/-- Monotone in `x` for increasing end points. -/
theorem C19_monotone (x x' x1 x2 y1 y2 : ℝ) (h : x1 < x2) (hy : y1 ≤ y2) (hx : x ≤ x') :
    lerp x x1 x2 y1 y2 ≤ lerp x' x1 x2 y1 y2 := by
  have : 0 ≤ (y2 - y1) / (x2 - x1) := div_nonneg (by linarith) (by linarith)
  unfold lerp
  real_simp
  nlinarith

example : lerp (1 : ℝ) 0 2 (-1) 7 ≤ lerp 5 0 2 (-1) 7 := C19_monotone _ _ _ _ _ _ (by norm_num) (by norm_num) (by norm_num)

/-- IEEE: at `x1` the result is exactly `y1` (as a value; `-0` may come back as `+0`), for every
format, whenever the computed slope is finite. -/
theorem C19_ieee_left {f : Fmt} (x1 x2 y1 y2 : Fl f) (a b m : ℚ) (hx : x1.Is a) (hy : y1.Is b)
    (hm : ((y2 - y1) / (x2 - x1)).Is m) : (lerp x1 x1 x2 y1 y2).Is b := by
  have f0 : f.Fits 0 := Fmt.fits_of_repr f.repr_zero (by rw [abs_zero]; exact pow2_pos _)
  have h0 : (x1 - x1).Is 0 := by
    have := Is.sub hx hx (by rw [sub_self]; exact f0)
    rwa [sub_self, f.rnd_zero] at this
  have h1 : ((y2 - y1) / (x2 - x1) * (x1 - x1)).Is 0 := by
    have := Is.mul hm h0 (by rw [mul_zero]; exact f0)
    rwa [mul_zero, f.rnd_zero] at this
  have := Is.add h1 hy (by rw [zero_add]; exact hy.fits)
  rwa [zero_add, hy.rnd] at this

example : ((lit 5 - lit 2) / (lit 4 - lit 1) : F64).Is 1 ∧ (lerp (lit 1) (lit 1) (lit 4) (lit 2) (lit 5) : F64) = lit 2 := by
  decide +kernel

/-! ## C22 decibels -/

/-- Inverse functions. -/
theorem C22_inverse (x g : ℝ) (hg : 0 < g) :
    linearToDb (dbToLinear x) = x ∧ dbToLinear (linearToDb g) = g := by
  unfold linearToDb dbToLinear
  real_simp
  constructor
  · rw [Real.logb_rpow (by norm_num) (by norm_num)]; ring
  · rw [mul_div_cancel_left₀ _ (by norm_num), Real.rpow_logb (by norm_num) (by norm_num) hg]

example : linearToDb (dbToLinear (-6 : ℝ)) = -6 ∧ dbToLinear (linearToDb (1 / 2 : ℝ)) = 1 / 2 := C22_inverse _ _ (by norm_num)

/-- 0 dB is unity and adding decibels multiplies gains. -/
theorem C22_homomorphism (x y g h : ℝ) (hg : 0 < g) (hh : 0 < h) :
    dbToLinear (0 : ℝ) = 1 ∧ dbToLinear (x + y) = dbToLinear x * dbToLinear y ∧
    linearToDb (g * h) = linearToDb g + linearToDb h := by
  unfold linearToDb dbToLinear
  real_simp
  refine ⟨by simp, ?_, ?_⟩
  · rw [add_div, Real.rpow_add (by norm_num)]
  · rw [Real.logb_mul hg.ne' hh.ne']; ring

example : dbToLinear (-12 : ℝ) = dbToLinear (-6) * dbToLinear (-6) := by
  have := (C22_homomorphism (-6) (-6) 1 1 one_pos one_pos).2.1
  rwa [show (-6 : ℝ) + -6 = -12 by norm_num] at this

/-- Both directions are strictly increasing and gains are positive. -/
theorem C22_monotone (x y g h : ℝ) (hg : 0 < g) :
    0 < dbToLinear x ∧ (x < y → dbToLinear x < dbToLinear y) ∧ (g < h → linearToDb g < linearToDb h) := by
  unfold linearToDb dbToLinear
  real_simp
  refine ⟨Real.rpow_pos_of_pos (by norm_num) _, fun hxy => ?_, fun hgh => ?_⟩
  · exact Real.rpow_lt_rpow_of_exponent_lt (by norm_num) (by linarith)
  · have := Real.logb_lt_logb (b := 10) (by norm_num) hg hgh
    linarith

example : dbToLinear (-6 : ℝ) < dbToLinear 0 ∧ linearToDb (1 / 2 : ℝ) < linearToDb 1 :=
  ⟨(C22_monotone (-6) 0 1 1 one_pos).2.1 (by norm_num), (C22_monotone 0 0 (1 / 2) 1 (by norm_num)).2.2 (by norm_num)⟩

/-- The familiar values: 20 dB is a factor 10, -20 dB a factor 1/10. -/
theorem C22_values : dbToLinear (20 : ℝ) = 10 ∧ dbToLinear (-20 : ℝ) = 1 / 10 ∧ linearToDb (1 : ℝ) = 0 := by
  unfold linearToDb dbToLinear
  real_simp
  refine ⟨by norm_num, ?_, by simp⟩
  rw [show ((-20 : ℝ) / 20) = -1 by norm_num, Real.rpow_neg_one]
  norm_num

/-! ## C32 float_equal -/

/-- Exact arithmetic: the test is `|a-b| < e`. -/
theorem C32_real (a b e : ℝ) : floatEqual a b e Flt.abs = true ↔ |a - b| < e := by
  unfold floatEqual
  real_simp

/-- IEEE, any format: the test compares the rounded difference, so a positive answer implies
`|a-b| < e`, and `|a-b| < e` implies a positive answer unless the difference rounds up to `e` or beyond. -/
theorem C32_ieee {f : Fmt} (x y e : Fl f) (a b q : ℚ) (hx : x.Is a) (hy : y.Is b) (he : e.Is q) :
    (floatEqual x y e Flt.abs = true → |a - b| < q) ∧
    (f.rnd |a - b| < q → floatEqual x y e Flt.abs = true) := by
  unfold floatEqual
  have hq := he.repr
  by_cases hf : f.Fits (a - b)
  · have h := (Is.sub hx hy hf).abs
    rw [h.lt he, f.abs_rnd, decide_eq_true_iff]
    refine ⟨fun h1 => ?_, id⟩
    by_contra h2
    exact absurd h1 (not_lt.mpr (f.repr_le_rnd hq (not_lt.mp h2)))
  · have h : ∃ s, x - y = .inf s := by
      obtain ⟨s, h1, rfl⟩ := is_iff.mp hx
      obtain ⟨t, h2, rfl⟩ := is_iff.mp hy
      refine ⟨_, ofQ_not_fits (f := f) _ (by rwa [← sub_eq_add_neg])⟩
    obtain ⟨s, h⟩ := h
    obtain ⟨t, h2, rfl⟩ := is_iff.mp he
    rw [h]
    refine ⟨fun h1 => ?_, fun h1 => ?_⟩
    · exact absurd h1 (by simp [Flt.abs, Flt.lt, Fl.abs, Fl.lt])
    · exfalso
      apply hf
      have hr := f.rnd_nonneg (abs_nonneg (a - b))
      unfold Fmt.Fits
      rw [f.abs_rnd]
      exact (h1.trans_le (le_abs_self q)).trans h2.2.1

example : floatEqual (lit 1 : F32) (lit (5 / 4)) (lit (1 / 2)) Flt.abs = true :=
  (C32_ieee _ _ _ 1 (5 / 4) (1 / 2) (by decide +kernel) (by decide +kernel) (by decide +kernel)).2 (by decide +kernel)

/-- Symmetric for all data, NaN and infinities included. -/
theorem C32_symm {f : Fmt} (x y e : Fl f) : floatEqual x y e Flt.abs = floatEqual y x e Flt.abs := by
  unfold floatEqual
  congr 1
  cases x with
  | nan => cases y <;> rfl
  | inf s =>
    cases y with
    | nan => rfl
    | inf t => cases s <;> cases t <;> rfl
    | fin t b hb => rfl
  | fin s a ha =>
    cases y with
    | nan => rfl
    | inf t => rfl
    | fin t b hb =>
      show Fl.abs (ofQ _ (a + -b)) = Fl.abs (ofQ _ (b + -a))
      have e : b + -a = -(a + -b) := by ring
      rw [e]
      generalize a + -b = q
      by_cases h : f.Fits q
      · have h' : f.Fits (-q) := h.neg
        unfold ofQ
        unfold Fmt.Fits at h h'
        rw [dif_pos h, dif_pos h']
        simp only [Fl.abs, f.rnd_neg, abs_neg]
      · rw [ofQ_not_fits _ h, ofQ_not_fits _ (fun h' => h (by simpa using h'.neg))]
        rfl

/-- Reflexive on finite values for positive tolerance. -/
theorem C32_refl {f : Fmt} (x e : Fl f) (a q : ℚ) (hx : x.Is a) (he : e.Is q) (hq : 0 < q) :
    floatEqual x x e Flt.abs = true :=
  (C32_ieee x x e a a q hx hx he).2 (by simpa using hq)

example : floatEqual (lit 1 : F32) (lit 1) (lit (1 / 10 ^ 30)) Flt.abs = true :=
  C32_refl _ _ 1 (b32.rnd (1 / 10 ^ 30)) (by decide +kernel) (by decide +kernel) (by decide +kernel)

/-- False whenever an argument is NaN. -/
theorem C32_nan {f : Fmt} (x e : Fl f) : floatEqual .nan x e Flt.abs = false ∧
    floatEqual x .nan e Flt.abs = false ∧ floatEqual x x .nan Flt.abs = false := by
  refine ⟨?_, ?_, ?_⟩
  · cases x <;> rfl
  · cases x <;> rfl
  · exact lt_nan_right _

example : floatEqual (lit (1 / 3) : F32) (lit (1 / 3 + 1 / 10 ^ 6)) (lit (1 / 10 ^ 5)) Flt.abs = true ∧
    floatEqual (lit 1 : F32) (lit 2) (lit (1 / 2)) Flt.abs = false := by decide +kernel

end Verif
