import Verif.Props.DbF64

/-! # Moving a sound between the speakers: C163

`Panner::to_sample_format` (stereo.rs 63-101) with a position that changes while the sound plays. Panned sounds are expected to move
without a click, to move to the right as to the left, and to keep their loudness. -/

namespace Verif
open Fl Flt

/-- Levels in dB. -/
private noncomputable def lvL (g : ℝ) : ℝ := if g ≤ 0 then -3 - 117 * (max (-1) g + 1) else -3 * min g 1
private noncomputable def lvR (g : ℝ) : ℝ := if 0 ≤ g then -3 - 117 * min g 1 else -3 * (max (-1) g + 1)

private theorem pan_lv (s g : ℝ) : Stereo.panM s g = ⟨gainOf (lvL g) * s, gainOf (lvR g) * s⟩ := by
  have hL : (if g ≤? (lit 0 : ℝ) then clerp g (-lit 1) (lit 0) (-lit 3) (-lit 120) else clerp g (lit 0) (lit 1) (lit 0) (-lit 3)) = lvL g := by
    unfold lvL clerp clamp lerp
    real_simp
    rcases le_or_gt g 0 with h | h
    · rw [if_pos h, if_pos h]
      rcases le_or_gt (-1) g with h1 | h1
      · rw [max_eq_right h1]; norm_num [h, h1, not_lt.mpr h1, not_lt.mpr h]; ring
      · rw [max_eq_left h1.le]; norm_num [h1, not_lt.mpr (by linarith : g ≤ 0)]
    · rw [if_neg (not_le.mpr h), if_neg (not_le.mpr h)]
      rcases le_or_gt g 1 with h1 | h1
      · rw [min_eq_left h1]; norm_num [h.le, h1, not_lt.mpr h1, not_lt.mpr h.le]
      · rw [min_eq_right h1.le]; norm_num [h1, not_lt.mpr h.le]
  have hR : (if (lit 0 : ℝ) ≤? g then clerp g (lit 0) (lit 1) (-lit 3) (-lit 120) else clerp g (-lit 1) (lit 0) (lit 0) (-lit 3)) = lvR g := by
    unfold lvR clerp clamp lerp
    real_simp
    rcases le_or_gt 0 g with h | h
    · rw [if_pos h, if_pos h]
      rcases le_or_gt g 1 with h1 | h1
      · rw [min_eq_left h1]; norm_num [h, h1, not_lt.mpr h1, not_lt.mpr h]; ring
      · rw [min_eq_right h1.le]; norm_num [h1, not_lt.mpr h]
    · rw [if_neg (not_le.mpr h), if_neg (not_le.mpr h)]
      rcases le_or_gt (-1) g with h1 | h1
      · rw [max_eq_right h1]; norm_num [h.le, h1, not_lt.mpr h1, not_lt.mpr h.le]
      · rw [max_eq_left h1.le]; norm_num [h1, not_lt.mpr (by linarith : g ≤ 0)]
  unfold Stereo.panM
  rw [hL, hR]
  unfold dbToLinear gainOf
  real_simp

private theorem log_ten' : Real.log 10 ≤ 12 / 5 := by
  have h := Real.exp_one_gt_d9
  have h1 : (10 : ℝ) ^ 5 ≤ Real.exp (12 / 5) ^ 5 := by
    rw [← Real.exp_nat_mul, show ((5 : ℕ) : ℝ) * (12 / 5) = ((12 : ℕ) : ℝ) * 1 by norm_num, Real.exp_nat_mul]
    refine le_trans ?_ (pow_le_pow_left₀ (by norm_num) (show (2.7 : ℝ) ≤ Real.exp 1 by linarith) 12)
    norm_num
  rw [Real.log_le_iff_le_exp (by norm_num)]
  exact le_of_pow_le_pow_left₀ (by norm_num) (Real.exp_pos _).le h1

private theorem gain3' : gainOf (-3) ≤ 708 / 1000 ∧ 707 / 1000 ≤ gainOf (-3) := by
  have e : gainOf (-3) ^ 20 = (1000 : ℝ)⁻¹ := by
    unfold gainOf
    rw [← Real.rpow_natCast, ← Real.rpow_mul (by norm_num), show (-3 : ℝ) / 20 * ((20 : ℕ) : ℝ) = ((-3 : ℤ) : ℝ) by norm_num, Real.rpow_intCast]
    norm_num
  have h0 := (gainOf_pos (-3)).le
  constructor
  · refine le_of_pow_le_pow_left₀ (n := 20) (by norm_num) (by norm_num) ?_
    rw [e]; norm_num
  · refine le_of_pow_le_pow_left₀ (n := 20) (by norm_num) h0 ?_
    rw [e]; norm_num

private theorem gainOf_zero : gainOf 0 = 1 := by simp [gainOf]

private theorem gainOf_le' {a b : ℝ} (h : a ≤ b) : gainOf a ≤ gainOf b :=
  Real.rpow_le_rpow_of_exponent_le (by norm_num) (by linarith)

private theorem gainOf_step {a b : ℝ} (h : b ≤ a) : gainOf a - gainOf b ≤ gainOf a * (3 / 25 * (a - b)) := by
  have e : gainOf b = gainOf a * Real.exp (Real.log 10 * ((b - a) / 20)) := by
    unfold gainOf
    rw [← Real.rpow_def_of_pos (by norm_num), ← Real.rpow_add (by norm_num)]
    congr 1; ring
  have h1 := Real.add_one_le_exp (Real.log 10 * ((b - a) / 20))
  have h2 : Real.log 10 * ((a - b) / 20) ≤ 12 / 5 * ((a - b) / 20) := mul_le_mul_of_nonneg_right log_ten' (by linarith)
  have h3 : gainOf a * (1 - 3 / 25 * (a - b)) ≤ gainOf b := by
    rw [e]
    refine mul_le_mul_of_nonneg_left ?_ (gainOf_pos a).le
    refine le_trans ?_ h1
    have : Real.log 10 * ((b - a) / 20) = -(Real.log 10 * ((a - b) / 20)) := by ring
    rw [this]; linarith
  linarith

/-- A level that falls from `t` by at most `d` per unit of position gives gains that differ by at most `10` per unit of position. -/
private theorem gain_lip {a b k : ℝ} {x y t : ℝ} (ht : gainOf t * (3 / 25 * k) ≤ 10) (ha : a ≤ t) (hb : b ≤ t)
    (hab : |a - b| ≤ k * |x - y|) : |gainOf a - gainOf b| ≤ 10 * |x - y| := by
  wlog h : b ≤ a generalizing a b x y
  · rw [abs_sub_comm, abs_sub_comm x]
    exact this hb ha (by rw [abs_sub_comm, abs_sub_comm y]; exact hab) (le_of_not_ge h)
  rw [abs_of_nonneg (sub_nonneg.mpr (gainOf_le' h))]
  rw [abs_of_nonneg (sub_nonneg.mpr h)] at hab
  have h1 := gainOf_step h
  have h2 : gainOf a * (3 / 25 * (a - b)) ≤ gainOf t * (3 / 25 * (k * |x - y|)) :=
    mul_le_mul (gainOf_le' ha) (by linarith) (by linarith) (gainOf_pos _).le
  have h3 : gainOf t * (3 / 25 * k) * |x - y| ≤ 10 * |x - y| := mul_le_mul_of_nonneg_right ht (abs_nonneg _)
  calc _ ≤ _ := h1
    _ ≤ _ := h2
    _ = gainOf t * (3 / 25 * k) * |x - y| := by ring
    _ ≤ _ := h3

private theorem lip117 : gainOf (-3) * (3 / 25 * 117) ≤ 10 := by have := gain3'.1; linarith
private theorem lip3 : gainOf 0 * (3 / 25 * 3) ≤ 10 := by rw [gainOf_zero]; norm_num

private theorem abs_min_sub (x y : ℝ) : |min x 1 - min y 1| ≤ |x - y| := by
  have := abs_min_sub_min_le_max x 1 y 1
  simpa using this
private theorem abs_max_sub (x y : ℝ) : |max (-1) x - max (-1) y| ≤ |x - y| := by
  have := abs_max_sub_max_le_max (-1) x (-1) y
  simpa using this

private theorem smooth_left_neg {x y : ℝ} (hx : x ≤ 0) (hy : y ≤ 0) : |gainOf (lvL x) - gainOf (lvL y)| ≤ 10 * |x - y| := by
  refine gain_lip (k := 117) (t := -3) lip117 ?_ ?_ ?_
  · unfold lvL; rw [if_pos hx]; have : -1 ≤ max (-1) x := le_max_left _ _; linarith
  · unfold lvL; rw [if_pos hy]; have : -1 ≤ max (-1) y := le_max_left _ _; linarith
  · unfold lvL; rw [if_pos hx, if_pos hy]
    rw [show -3 - 117 * (max (-1) x + 1) - (-3 - 117 * (max (-1) y + 1)) = -(117 * (max (-1) x - max (-1) y)) by ring, abs_neg, abs_mul, abs_of_pos (by norm_num : (0 : ℝ) < 117)]
    have := abs_max_sub x y
    linarith

private theorem smooth_left_pos {x y : ℝ} (hx : 0 < x) (hy : 0 < y) : |gainOf (lvL x) - gainOf (lvL y)| ≤ 10 * |x - y| := by
  refine gain_lip (k := 3) (t := 0) lip3 ?_ ?_ ?_
  · unfold lvL; rw [if_neg (not_le.mpr hx)]; have : 0 ≤ min x 1 := le_min hx.le (by norm_num); linarith
  · unfold lvL; rw [if_neg (not_le.mpr hy)]; have : 0 ≤ min y 1 := le_min hy.le (by norm_num); linarith
  · unfold lvL; rw [if_neg (not_le.mpr hx), if_neg (not_le.mpr hy)]
    rw [show -3 * min x 1 - -3 * min y 1 = -(3 * (min x 1 - min y 1)) by ring, abs_neg, abs_mul, abs_of_pos (by norm_num : (0 : ℝ) < 3)]
    have := abs_min_sub x y
    linarith

private theorem smooth_right_pos {x y : ℝ} (hx : 0 ≤ x) (hy : 0 ≤ y) : |gainOf (lvR x) - gainOf (lvR y)| ≤ 10 * |x - y| := by
  refine gain_lip (k := 117) (t := -3) lip117 ?_ ?_ ?_
  · unfold lvR; rw [if_pos hx]; have : 0 ≤ min x 1 := le_min hx (by norm_num); linarith
  · unfold lvR; rw [if_pos hy]; have : 0 ≤ min y 1 := le_min hy (by norm_num); linarith
  · unfold lvR; rw [if_pos hx, if_pos hy]
    rw [show -3 - 117 * min x 1 - (-3 - 117 * min y 1) = -(117 * (min x 1 - min y 1)) by ring, abs_neg, abs_mul, abs_of_pos (by norm_num : (0 : ℝ) < 117)]
    have := abs_min_sub x y
    linarith

private theorem lvR_nonpos {x : ℝ} (hx : x ≤ 0) : lvR x = -3 * (max (-1) x + 1) := by
  unfold lvR
  split_ifs with h
  · rw [le_antisymm hx h]; norm_num
  · rfl

private theorem smooth_right_neg {x y : ℝ} (hx : x ≤ 0) (hy : y ≤ 0) : |gainOf (lvR x) - gainOf (lvR y)| ≤ 10 * |x - y| := by
  rw [lvR_nonpos hx, lvR_nonpos hy]
  refine gain_lip (k := 3) (t := 0) lip3 ?_ ?_ ?_
  · have : -1 ≤ max (-1) x := le_max_left _ _; linarith
  · have : -1 ≤ max (-1) y := le_max_left _ _; linarith
  · rw [show -3 * (max (-1) x + 1) - -3 * (max (-1) y + 1) = -(3 * (max (-1) x - max (-1) y)) by ring, abs_neg, abs_mul, abs_of_pos (by norm_num : (0 : ℝ) < 3)]
    have := abs_max_sub x y
    linarith

private theorem smooth_right (x y : ℝ) : |gainOf (lvR x) - gainOf (lvR y)| ≤ 10 * |x - y| := by
  rcases le_total 0 x with hx | hx <;> rcases le_total 0 y with hy | hy
  · exact smooth_right_pos hx hy
  · have h1 := smooth_right_pos hx le_rfl
    have h2 := smooth_right_neg le_rfl hy
    have h3 := abs_sub_le (gainOf (lvR x)) (gainOf (lvR 0)) (gainOf (lvR y))
    have h4 : |x - y| = |x - 0| + |0 - y| := by rw [abs_of_nonneg (by linarith), abs_of_nonneg (by linarith), abs_of_nonneg (by linarith)]; ring
    linarith
  · have h1 := smooth_right_neg hx le_rfl
    have h2 := smooth_right_pos le_rfl hy
    have h3 := abs_sub_le (gainOf (lvR x)) (gainOf (lvR 0)) (gainOf (lvR y))
    have h4 : |x - y| = |x - 0| + |0 - y| := by rw [abs_of_nonpos (by linarith), abs_of_nonpos (by linarith), abs_of_nonpos (by linarith)]; ring
    linarith
  · exact smooth_right_neg hx hy

/-! ## Clicks -/

/-- The property fails in exact arithmetic: the smallest move to the right of the centre takes the left speaker from a millionth of the
sample to more than 0.7 of it. -/
theorem C163_click_violated (s g : ℝ) (hg : 0 < g) :
    (Stereo.panM s (0 : ℝ)).left = s / 10 ^ 6 ∧ 7 / 10 * |s| ≤ |(Stereo.panM s g).left| := by
  rw [pan_lv, pan_lv]
  dsimp only
  constructor
  · rw [show lvL 0 = -120 by unfold lvL; norm_num]
    unfold gainOf
    rw [show ((-120 : ℝ) / 20) = ((-6 : ℤ) : ℝ) by norm_num, Real.rpow_intCast]
    norm_num
    ring
  · rw [abs_mul, abs_of_pos (gainOf_pos _)]
    refine mul_le_mul_of_nonneg_right ?_ (abs_nonneg _)
    have : gainOf (-3) ≤ gainOf (lvL g) := by
      apply gainOf_le'
      unfold lvL; rw [if_neg (not_le.mpr hg)]
      have : min g 1 ≤ 1 := min_le_right _ _
      linarith
    have := gain3'.2
    linarith

example : (0 : ℝ) < 1 / 10 ^ 300 := by positivity

/-- What holds in exact arithmetic: the right speaker always, and the left one on each side of the centre, changes by at most ten times
the change of the position (over the whole way, 2, the gain is at most 1 everywhere). Missing: the left speaker across the centre. -/
theorem C163_smooth_partial (s x y : ℝ) :
    |(Stereo.panM s x).right - (Stereo.panM s y).right| ≤ 10 * |x - y| * |s| ∧
    ((x ≤ 0 ↔ y ≤ 0) → |(Stereo.panM s x).left - (Stereo.panM s y).left| ≤ 10 * |x - y| * |s|) := by
  rw [pan_lv, pan_lv]
  dsimp only
  constructor
  · rw [← sub_mul, abs_mul]
    exact mul_le_mul_of_nonneg_right (smooth_right x y) (abs_nonneg _)
  · intro h
    rw [← sub_mul, abs_mul]
    refine mul_le_mul_of_nonneg_right ?_ (abs_nonneg _)
    rcases le_or_gt x 0 with hx | hx
    · exact smooth_left_neg hx (h.mp hx)
    · exact smooth_left_pos hx (not_le.mp fun hy => absurd (h.mpr hy) (not_le.mpr hx))

example : ((1 / 10 : ℝ) ≤ 0 ↔ (1 / 5 : ℝ) ≤ 0) := by norm_num

/-! ## Mirror images -/

/-- The property fails in exact arithmetic: the opposite position is the mirror image at `±1/2` only. -/
theorem C163_mirror_violated (s g : ℝ) (hs : s ≠ 0) (h0 : 0 < g) (h1 : g ≤ 1) :
    ((Stereo.panM s (-g)).left = (Stereo.panM s g).right ↔ g = 1 / 2) ∧
    ((Stereo.panM s (-g)).right = (Stereo.panM s g).left ↔ g = 1 / 2) := by
  have inj : ∀ {a b : ℝ}, gainOf a * s = gainOf b * s ↔ a = b := by
    intro a b
    rw [mul_left_inj' hs]
    constructor
    · intro h
      rcases lt_trichotomy a b with h' | h' | h'
      · exact absurd h (gainOf_lt h').ne
      · exact h'
      · exact absurd h (gainOf_lt h').ne'
    · rintro rfl; rfl
  rw [pan_lv, pan_lv]
  dsimp only
  rw [inj, inj]
  unfold lvL lvR
  rw [if_pos (by linarith : -g ≤ 0), if_pos h0.le, if_neg (by linarith : ¬ (0 ≤ -g)), if_neg (by linarith : ¬ (g ≤ 0)), min_eq_left h1, max_eq_right (by linarith : -1 ≤ -g)]
  constructor <;> constructor <;> intro h <;> linarith

example : (1 / 2 : ℝ) ≠ 0 ∧ (0 : ℝ) < 1 / 4 ∧ (1 / 4 : ℝ) ≤ 1 := by norm_num

/-- What holds in exact arithmetic: a position right of the centre is the mirror image of the one a whole unit further left. Missing: the
opposite position. -/
theorem C163_mirror_partial (s g : ℝ) (h0 : 0 < g) (h1 : g ≤ 1) :
    (Stereo.panM s (g - 1)).left = (Stereo.panM s g).right ∧ (Stereo.panM s (g - 1)).right = (Stereo.panM s g).left := by
  rw [pan_lv, pan_lv]
  dsimp only
  rw [lvR_nonpos (by linarith : g - 1 ≤ 0)]
  unfold lvL lvR
  rw [if_pos (by linarith : g - 1 ≤ 0), if_pos h0.le, if_neg (by linarith : ¬ (g ≤ 0)), min_eq_left h1, max_eq_right (by linarith : -1 ≤ g - 1)]
  constructor <;> congr 2 <;> ring

example : (0 : ℝ) < 3 / 4 ∧ (3 / 4 : ℝ) ≤ 1 := by norm_num

/-! ## Loudness -/

/-- The property fails in exact arithmetic: just right of the centre a sound has three times the power it has at the centre. -/
theorem C163_power_violated (s : ℝ) (hs : s ≠ 0) :
    ∃ d > 0, ∀ g : ℝ, 0 < g → g < d →
      29 / 10 * ((Stereo.panM s (0 : ℝ)).left ^ 2 + (Stereo.panM s (0 : ℝ)).right ^ 2) < (Stereo.panM s g).left ^ 2 + (Stereo.panM s g).right ^ 2 := by
  refine ⟨1 / 1000, by norm_num, fun g h0 h1 => ?_⟩
  have hs2 : 0 < s ^ 2 := by positivity
  rw [pan_lv, pan_lv]
  dsimp only
  simp only [mul_pow, ← add_mul]
  rw [← mul_assoc]
  refine mul_lt_mul_of_pos_right ?_ hs2
  have a0 : lvL 0 = -120 := by unfold lvL; norm_num
  have b0 : lvR 0 = -3 := by unfold lvR; norm_num
  have a1 : lvL g = -3 * g := by unfold lvL; rw [if_neg (by linarith), min_eq_left (by linarith)]
  have b1 : lvR g = -3 - 117 * g := by unfold lvR; rw [if_pos h0.le, min_eq_left (by linarith)]
  rw [a0, b0, a1, b1]
  have g120 : gainOf (-120) = (10 ^ 6)⁻¹ := by
    unfold gainOf
    rw [show ((-120 : ℝ) / 20) = ((-6 : ℤ) : ℝ) by norm_num, Real.rpow_intCast]
    norm_num
  obtain ⟨u1, u2⟩ := gain3'
  have s1 := gainOf_step (a := 0) (b := -3 * g) (by linarith)
  have s2 := gainOf_step (a := -3) (b := -3 - 117 * g) (by linarith)
  rw [gainOf_zero] at s1
  have l1 : 999 / 1000 ≤ gainOf (-3 * g) := by linarith
  have l2 : 69 / 100 ≤ gainOf (-3 - 117 * g) := by
    have : gainOf (-3) * (3 / 25 * (-3 - (-3 - 117 * g))) ≤ 708 / 1000 * (3 / 25 * (117 / 1000)) :=
      mul_le_mul u1 (by linarith) (by linarith) (by norm_num)
    linarith
  have q1 : (999 / 1000 : ℝ) ^ 2 ≤ gainOf (-3 * g) ^ 2 := pow_le_pow_left₀ (by norm_num) l1 2
  have q2 : (69 / 100 : ℝ) ^ 2 ≤ gainOf (-3 - 117 * g) ^ 2 := pow_le_pow_left₀ (by norm_num) l2 2
  have q3 : gainOf (-3) ^ 2 ≤ (708 / 1000) ^ 2 := pow_le_pow_left₀ (gainOf_pos _).le u1 2
  rw [g120]
  norm_num at *
  linarith

/-- What holds in exact arithmetic: the power stays between 0.49 and 1.51 times that of the sample, a range of 4.9 dB. Missing: that it is
constant. -/
theorem C163_power_partial (s g : ℝ) :
    49 / 100 * s ^ 2 ≤ (Stereo.panM s g).left ^ 2 + (Stereo.panM s g).right ^ 2 ∧
    (Stereo.panM s g).left ^ 2 + (Stereo.panM s g).right ^ 2 ≤ 151 / 100 * s ^ 2 := by
  rw [pan_lv]
  dsimp only
  simp only [mul_pow, ← add_mul]
  obtain ⟨u1, u2⟩ := gain3'
  -- one speaker is between -3 and 0 dB, the other at most at -3 dB
  have key : ∀ a b : ℝ, -3 ≤ a → a ≤ 0 → b ≤ -3 → 49 / 100 ≤ gainOf a ^ 2 + gainOf b ^ 2 ∧ gainOf a ^ 2 + gainOf b ^ 2 ≤ 151 / 100 := by
    intro a b h1 h2 h3
    have c1 := gainOf_le' h1
    have c2 := gainOf_le' h2
    have c3 := gainOf_le' h3
    rw [gainOf_zero] at c2
    have d1 : (7 / 10 : ℝ) ^ 2 ≤ gainOf a ^ 2 := pow_le_pow_left₀ (by norm_num) (by linarith) 2
    have d2 : gainOf a ^ 2 ≤ 1 ^ 2 := pow_le_pow_left₀ (gainOf_pos _).le c2 2
    have d3 : gainOf b ^ 2 ≤ (708 / 1000) ^ 2 := pow_le_pow_left₀ (gainOf_pos _).le (by linarith) 2
    have d4 : 0 ≤ gainOf b ^ 2 := sq_nonneg _
    constructor
    · linarith
    · norm_num at d3; linarith
  suffices h : 49 / 100 ≤ gainOf (lvL g) ^ 2 + gainOf (lvR g) ^ 2 ∧ gainOf (lvL g) ^ 2 + gainOf (lvR g) ^ 2 ≤ 151 / 100 from
    ⟨mul_le_mul_of_nonneg_right h.1 (sq_nonneg _), mul_le_mul_of_nonneg_right h.2 (sq_nonneg _)⟩
  rcases le_or_gt g 0 with h | h
  · have e1 : lvL g = -3 - 117 * (max (-1) g + 1) := by unfold lvL; rw [if_pos h]
    have e2 := lvR_nonpos h
    have m1 : -1 ≤ max (-1) g := le_max_left _ _
    have m2 : max (-1) g ≤ 0 := max_le (by norm_num) h
    have := key (lvR g) (lvL g) (by linarith) (by linarith) (by linarith)
    rwa [add_comm] at this
  · have e1 : lvL g = -3 * min g 1 := by unfold lvL; rw [if_neg (not_le.mpr h)]
    have e2 : lvR g = -3 - 117 * min g 1 := by unfold lvR; rw [if_pos h.le]
    have m1 : min g 1 ≤ 1 := min_le_right _ _
    have m2 : 0 ≤ min g 1 := le_min h.le (by norm_num)
    exact key (lvL g) (lvR g) (by linarith) (by linarith) (by linarith)

/-! ## In floating point -/

private theorem levelL_eq (p : ℚ) : ((levelL p : ℚ) : ℝ) = lvL p := by
  unfold levelL lvL
  by_cases h : p ≤ 0
  · rw [if_pos h, if_pos (by exact_mod_cast h)]; push_cast; ring
  · rw [if_neg h, if_neg (by exact_mod_cast h)]; push_cast; ring
private theorem levelR_eq (p : ℚ) : ((levelR p : ℚ) : ℝ) = lvR p := by
  unfold levelR lvR
  by_cases h : 0 ≤ p
  · rw [if_pos h, if_pos (by exact_mod_cast h)]; push_cast; ring
  · rw [if_neg h, if_neg (by exact_mod_cast h)]; push_cast; ring

private theorem lv_le (x : ℝ) : lvL x ≤ 0 ∧ lvR x ≤ 0 := by
  have h1 : -1 ≤ max (-1) x := le_max_left _ _
  unfold lvL lvR
  constructor
  · split_ifs with h
    · linarith
    · have : 0 ≤ min x 1 := le_min (not_le.mp h).le (by norm_num); linarith
  · split_ifs with h
    · have : 0 ≤ min x 1 := le_min h (by norm_num); linarith
    · linarith

/-- IEEE: any positive position, however close to the centre, has the left speaker at 0.7 of the sample or more, and the centre has it at
two millionths at most. -/
theorem C163_click_f64_violated [Libm F64] (hA : DbAccurate) (s : F32) (g : F64) (σ p : ℚ) (hs : s.Is σ) (hσ : (2 ^ 100)⁻¹ ≤ |σ|) (hg : g.Is p) (hp : 0 < p) :
    (∃ l : ℚ, (Stereo.panM s (lit 0 : F64)).left.Is l ∧ |l| ≤ 2 / 10 ^ 6 * |σ|) ∧
    (∃ l : ℚ, (Stereo.panM s g).left.Is l ∧ 7 / 10 * |σ| ≤ |l|) := by
  refine ⟨?_, ?_⟩
  · obtain ⟨-, -, l, -, h, -, h', -⟩ := C16_pan_f64_violated hA s σ hs hσ
    exact ⟨l, h, h'⟩
  obtain ⟨⟨l, h1, h2, -⟩, -⟩ := C117_pan hA s g σ p hs hg
  refine ⟨l, h1, ?_⟩
  have hσ' : ((2 : ℝ) ^ 100)⁻¹ ≤ |(σ : ℝ)| := by
    have : (((2 ^ 100)⁻¹ : ℚ) : ℝ) ≤ ((|σ| : ℚ) : ℝ) := Rat.cast_le.mpr hσ
    push_cast at this
    exact this
  rw [levelL_eq] at h2
  have g1 : 707 / 1000 ≤ gainOf (lvL p) := by
    refine le_trans gain3'.2 (gainOf_le' ?_)
    unfold lvL; rw [if_neg (by exact_mod_cast not_le.mpr hp)]
    have : min (p : ℝ) 1 ≤ 1 := min_le_right _ _
    linarith
  have g2 : 707 / 1000 * |(σ : ℝ)| ≤ gainOf (lvL p) * |(σ : ℝ)| := mul_le_mul_of_nonneg_right g1 (abs_nonneg _)
  have h5 := abs_sub_abs_le_abs_sub (gainOf (lvL p) * (σ : ℝ)) l
  rw [abs_sub_comm (gainOf (lvL p) * (σ : ℝ)), abs_mul, abs_of_pos (gainOf_pos _)] at h5
  have : 7 / 10 * |(σ : ℝ)| ≤ |(l : ℝ)| := by
    generalize gainOf (lvL p) * |(σ : ℝ)| = x at *
    generalize |(l : ℝ) - gainOf (lvL p) * σ| = y at *
    norm_num at *
    linarith
  have h6 : ((7 / 10 * |σ| : ℚ) : ℝ) ≤ ((|l| : ℚ) : ℝ) := by push_cast; exact this
  exact Rat.cast_le.mp h6

/-- Full scale and the smallest positive number. -/
example : (lit 1 : F32).Is 1 ∧ ((2 : ℚ) ^ 100)⁻¹ ≤ |1| ∧ (lit (1 / 2 ^ 1074) : F64).Is (1 / 2 ^ 1074) ∧ (0 : ℚ) < 1 / 2 ^ 1074 :=
  ⟨by decide +kernel, by norm_num, by decide +kernel, by positivity⟩

/-- IEEE: away from the centre the speakers change by at most ten times the change of the position, and the rounding of the two samples.
Missing: the left speaker across the centre. -/
theorem C163_smooth_f64_partial [Libm F64] (hA : DbAccurate) (s : F32) (x y : F64) (σ p q : ℚ) (hs : s.Is σ) (hx : x.Is p) (hy : y.Is q) :
    (∃ a b : ℚ, (Stereo.panM s x).right.Is a ∧ (Stereo.panM s y).right.Is b ∧ |a - b| ≤ (10 * |p - q| + (2 ^ 22)⁻¹) * |σ| + (2 ^ 148)⁻¹) ∧
    ((p ≤ 0 ↔ q ≤ 0) →
      ∃ a b : ℚ, (Stereo.panM s x).left.Is a ∧ (Stereo.panM s y).left.Is b ∧ |a - b| ≤ (10 * |p - q| + (2 ^ 22)⁻¹) * |σ| + (2 ^ 148)⁻¹) := by
  obtain ⟨⟨l1, hl1, el1, -⟩, r1, hr1, er1, -⟩ := C117_pan hA s x σ p hs hx
  obtain ⟨⟨l2, hl2, el2, -⟩, r2, hr2, er2, -⟩ := C117_pan hA s y σ q hs hy
  rw [levelL_eq] at el1 el2
  rw [levelR_eq] at er1 er2
  have fin : ∀ (u v : ℝ) (a b : ℚ), u ≤ 0 → v ≤ 0 → |gainOf u - gainOf v| ≤ 10 * |(p : ℝ) - q| →
      |(a : ℝ) - gainOf u * σ| ≤ (2 ^ 24)⁻¹ * (1 + (2 ^ 16)⁻¹) * (gainOf u * |(σ : ℝ)|) + (2 ^ 149)⁻¹ →
      |(b : ℝ) - gainOf v * σ| ≤ (2 ^ 24)⁻¹ * (1 + (2 ^ 16)⁻¹) * (gainOf v * |(σ : ℝ)|) + (2 ^ 149)⁻¹ →
      |a - b| ≤ (10 * |p - q| + (2 ^ 22)⁻¹) * |σ| + (2 ^ 148)⁻¹ := by
    intro u v a b hu hv huv ha hb
    have n0 := abs_nonneg (σ : ℝ)
    have u1 : gainOf u * |(σ : ℝ)| ≤ 1 * |(σ : ℝ)| := mul_le_mul_of_nonneg_right (by have := gainOf_le' hu; rwa [gainOf_zero] at this) n0
    have v1 : gainOf v * |(σ : ℝ)| ≤ 1 * |(σ : ℝ)| := mul_le_mul_of_nonneg_right (by have := gainOf_le' hv; rwa [gainOf_zero] at this) n0
    have d : |gainOf u * (σ : ℝ) - gainOf v * σ| ≤ 10 * |(p : ℝ) - q| * |(σ : ℝ)| := by
      rw [← sub_mul, abs_mul]; exact mul_le_mul_of_nonneg_right huv n0
    have t : |(a : ℝ) - b| ≤ |(a : ℝ) - gainOf u * σ| + |gainOf u * (σ : ℝ) - gainOf v * σ| + |(b : ℝ) - gainOf v * σ| := by
      rw [abs_sub_comm (b : ℝ)]
      have e : (a : ℝ) - b = ((a : ℝ) - gainOf u * σ) + (gainOf u * (σ : ℝ) - gainOf v * σ) + (gainOf v * (σ : ℝ) - b) := by ring
      rw [e]
      exact abs_add_three _ _ _
    have r : |(a : ℝ) - b| ≤ (10 * |(p : ℝ) - q| + (2 ^ 22)⁻¹) * |(σ : ℝ)| + (2 ^ 148)⁻¹ := by
      rw [add_mul]
      generalize |(a : ℝ) - gainOf u * σ| = X at *
      generalize |(b : ℝ) - gainOf v * σ| = Y at *
      generalize |gainOf u * (σ : ℝ) - gainOf v * σ| = Z at *
      generalize 10 * |(p : ℝ) - q| * |(σ : ℝ)| = W at *
      generalize gainOf u * |(σ : ℝ)| = U at *
      generalize gainOf v * |(σ : ℝ)| = V at *
      generalize |(σ : ℝ)| = Q at *
      generalize |(a : ℝ) - b| = T at *
      have : (2 ^ 24 : ℝ)⁻¹ * (1 + (2 ^ 16)⁻¹) * U ≤ (2 ^ 24)⁻¹ * (1 + (2 ^ 16)⁻¹) * Q := mul_le_mul_of_nonneg_left (by linarith) (by positivity)
      have : (2 ^ 24 : ℝ)⁻¹ * (1 + (2 ^ 16)⁻¹) * V ≤ (2 ^ 24)⁻¹ * (1 + (2 ^ 16)⁻¹) * Q := mul_le_mul_of_nonneg_left (by linarith) (by positivity)
      have : 2 * ((2 ^ 24 : ℝ)⁻¹ * (1 + (2 ^ 16)⁻¹) * Q) ≤ (2 ^ 22)⁻¹ * Q := by norm_num; linarith
      have : 2 * (2 ^ 149 : ℝ)⁻¹ = (2 ^ 148)⁻¹ := by norm_num
      linarith
    have r' : ((|a - b| : ℚ) : ℝ) ≤ (((10 * |p - q| + (2 ^ 22)⁻¹) * |σ| + (2 ^ 148)⁻¹ : ℚ) : ℝ) := by push_cast; exact r
    exact Rat.cast_le.mp r'
  refine ⟨⟨r1, r2, hr1, hr2, fin _ _ _ _ (lv_le _).2 (lv_le _).2 (smooth_right _ _) er1 er2⟩, fun h => ⟨l1, l2, hl1, hl2, fin _ _ _ _ (lv_le _).1 (lv_le _).1 ?_ el1 el2⟩⟩
  rcases le_or_gt p 0 with hp | hp
  · exact smooth_left_neg (by exact_mod_cast hp) (by exact_mod_cast h.mp hp)
  · have hq : 0 < q := not_le.mp fun hq => absurd (h.mpr hq) (not_le.mpr hp)
    exact smooth_left_pos (by exact_mod_cast hp) (by exact_mod_cast hq)

example : (∃ l : Libm F64, @DbAccurate l) ∧ (lit 1 : F32).Is 1 ∧ (lit (1 / 4) : F64).Is (1 / 4) ∧ (lit (1 / 2) : F64).Is (1 / 2) ∧
    ((1 / 4 : ℚ) ≤ 0 ↔ (1 / 2 : ℚ) ≤ 0) := ⟨dbAccurate_exists, by decide +kernel, by decide +kernel, by decide +kernel, by norm_num⟩

end Verif
