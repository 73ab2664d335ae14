import Verif.Proofs.Time
import Verif.Model.Utils

/-! # Interpolation in floating point: C104 -/

set_option exponentiation.threshold 400

namespace Verif
open Fl

private theorem mixed64 (q : ℚ) : |b64.rnd q - q| ≤ (2 ^ 53)⁻¹ * |q| + (2 ^ 300)⁻¹ := by
  have h := b64.abs_rnd_sub_le_mixed q
  have e1 : pow2 (-(b64.p : ℤ)) = (2 ^ 53)⁻¹ := by decide +kernel
  have e2 : pow2 (b64.emin - 1) ≤ (2 ^ 300)⁻¹ := by decide +kernel
  rw [e1] at h
  linarith

/-- `clamp` selects. -/
private theorem clamp_is {x x1 x2 : F64} {p a b : ℚ} (hx : x.Is p) (h1 : x1.Is a) (h2 : x2.Is b) :
    (clamp x x1 x2).Is (max (min a b) (min (max a b) p)) := by
  have key : ∀ (u v : F64) (a b : ℚ), u.Is a → v.Is b → a ≤ b → (if v <? x then v else if x <? u then u else x).Is (max a (min b p)) := by
    intro u v a b hu hv hab
    rw [hv.lt hx, hx.lt hu]
    by_cases c1 : b < p
    · simp only [c1, decide_true, if_true]
      rw [min_eq_left c1.le, max_eq_right hab]; exact hv
    · simp only [c1, decide_false, Bool.false_eq_true, if_false]
      rw [min_eq_right (not_lt.mp c1)]
      by_cases c2 : p < a
      · simp only [c2, decide_true, if_true]
        rw [max_eq_left c2.le]; exact hu
      · simp only [c2, decide_false, Bool.false_eq_true, if_false]
        rw [max_eq_right (not_lt.mp c2)]; exact hx
  unfold clamp
  rw [h2.lt h1]
  by_cases c : b < a
  · simp only [c, decide_true, if_true]
    rw [min_eq_right c.le, max_eq_left c.le]
    exact key x2 x1 b a h2 h1 c.le
  · simp only [c, decide_false, Bool.false_eq_true, if_false]
    rw [min_eq_left (not_lt.mp c), max_eq_right (not_lt.mp c)]
    exact key x1 x2 a b h1 h2 (not_lt.mp c)

/-- `lerp` at a position between the end points. -/
private theorem lerp_err {x x1 x2 y1 y2 : F64} {p a b c d M : ℚ} (hx : x.Is p) (h1 : x1.Is a) (h2 : x2.Is b) (h3 : y1.Is c) (h4 : y2.Is d)
    (ha : |a| ≤ 2 ^ 60) (hb : |b| ≤ 2 ^ 60) (hc : |c| ≤ M) (hd : |d| ≤ M) (hM : M ≤ 2 ^ 60) (hab : (2 ^ 60)⁻¹ ≤ |b - a|)
    (hp : |p - a| ≤ |b - a|) :
    ∃ z, (lerp x x1 x2 y1 y2).Is z ∧ |z - ((d - c) / (b - a) * (p - a) + c)| ≤ (2 ^ 49)⁻¹ * M + (2 ^ 150)⁻¹ := by
  have M0 : 0 ≤ M := (abs_nonneg _).trans hc
  have ab : |b - a| ≤ 2 ^ 61 := (abs_sub _ _).trans (by norm_num at ha hb ⊢; linarith)
  have dc : |d - c| ≤ 2 * M := (abs_sub _ _).trans (by linarith)
  -- the four intermediate values
  have i1 := Is.sub h4 h3 (fits64' 61 (by norm_num) (dc.trans (by norm_num at hM ⊢; linarith)))
  have i2 := Is.sub h2 h1 (fits64' 61 (by norm_num) ab)
  have i3 := Is.sub hx h1 (fits64' 61 (by norm_num) (hp.trans ab))
  have e1 := mixed64 (d - c)
  have e2 := b64.abs_rnd_sub_le_rel (q := b - a) ((show pow2 (b64.emin + b64.p - 1) ≤ (2 ^ 60)⁻¹ by decide +kernel).trans hab)
  rw [show pow2 (-(b64.p : ℤ)) = (2 ^ 53)⁻¹ by decide +kernel] at e2
  have e3 := mixed64 (p - a)
  have hdD : |b64.rnd (p - a)| ≤ |b64.rnd (b - a)| := by
    rw [b64.abs_rnd, b64.abs_rnd]; exact b64.rnd_mono hp
  set Y := b64.rnd (d - c)
  set D := b64.rnd (b - a)
  set δ := b64.rnd (p - a)
  have aD : |b - a| * (1 - (2 ^ 53)⁻¹) ≤ |D| := by
    have := abs_sub_abs_le_abs_sub (b - a) D
    rw [abs_sub_comm (b - a) D] at this
    linarith
  have aY : |Y| ≤ |d - c| * (1 + (2 ^ 53)⁻¹) + (2 ^ 300)⁻¹ := by
    have := abs_sub_abs_le_abs_sub Y (d - c)
    linarith
  have D0 : (2 ^ 61)⁻¹ ≤ |D| := by
    refine le_trans ?_ aD
    norm_num at hab ⊢; linarith
  have Dp : 0 < |D| := lt_of_lt_of_le (by positivity) D0
  have Dne : D ≠ 0 := abs_pos.mp Dp
  have Dinv : |D|⁻¹ ≤ 2 ^ 61 := by
    rw [inv_le_comm₀ Dp (by positivity)]; exact D0
  have abp : 0 < |b - a| := lt_of_lt_of_le (by positivity) hab
  have abne : b - a ≠ 0 := abs_pos.mp abp
  have Y1 : |Y| ≤ 2 * M * (1 + (2 ^ 53)⁻¹) + (2 ^ 300)⁻¹ := aY.trans (add_le_add (mul_le_mul_of_nonneg_right dc (by positivity)) le_rfl)
  have Y2 : |Y| ≤ 2 ^ 62 := by norm_num at Y1 hM ⊢; linarith
  have YD : |Y / D| ≤ 2 ^ 123 := by
    rw [abs_div, div_eq_mul_inv]
    calc |Y| * |D|⁻¹ ≤ 2 ^ 62 * 2 ^ 61 := mul_le_mul Y2 Dinv (by positivity) (by positivity)
      _ = _ := by norm_num
  have i4 := Is.div i1 i2 Dne (fits64' 123 (by norm_num) YD)
  have e4 := mixed64 (Y / D)
  set s := b64.rnd (Y / D)
  -- relative position
  have τ1 : |(p - a) / (b - a)| ≤ 1 := by rw [abs_div, div_le_one abp]; exact hp
  have t1 : |δ / D| ≤ 1 := by rw [abs_div, div_le_one Dp]; exact hdD
  have tτ : |δ / D - (p - a) / (b - a)| ≤ (2 ^ 53)⁻¹ * (2 + (2 ^ 50)⁻¹) + (2 ^ 239)⁻¹ := by
    have : δ / D - (p - a) / (b - a) = ((δ - (p - a)) - (p - a) / (b - a) * (D - (b - a))) / D := by field_simp; ring
    rw [this, abs_div, div_le_iff₀ Dp]
    have q1 : |(p - a) / (b - a) * (D - (b - a))| ≤ 1 * ((2 ^ 53)⁻¹ * |b - a|) := by
      rw [abs_mul]; exact mul_le_mul τ1 e2 (abs_nonneg _) (by norm_num)
    refine (abs_sub _ _).trans ((add_le_add e3 q1).trans ?_)
    norm_num at aD D0 hp ⊢
    linarith
  generalize hτ : (p - a) / (b - a) = τ at *
  have sδ : |s * δ - Y * (δ / D)| ≤ (2 ^ 53)⁻¹ * |Y| + (2 ^ 230)⁻¹ := by
    have e : s * δ - Y * (δ / D) = (s - Y / D) * δ := by field_simp
    have δ1 : |δ| ≤ 2 ^ 62 := by
      refine hdD.trans ?_
      have := abs_sub_abs_le_abs_sub D (b - a)
      norm_num at this e2 ab ⊢
      linarith
    rw [e, abs_mul]
    have q : |Y / D| * |δ| ≤ |Y| := by
      rw [← abs_mul, show Y / D * δ = Y * (δ / D) by field_simp, abs_mul]
      exact mul_le_of_le_one_right (abs_nonneg _) t1
    calc |s - Y / D| * |δ| ≤ ((2 ^ 53)⁻¹ * |Y / D| + (2 ^ 300)⁻¹) * |δ| := mul_le_mul_of_nonneg_right e4 (abs_nonneg _)
      _ = (2 ^ 53)⁻¹ * (|Y / D| * |δ|) + (2 ^ 300)⁻¹ * |δ| := by ring
      _ ≤ (2 ^ 53)⁻¹ * |Y| + (2 ^ 300)⁻¹ * 2 ^ 62 := by gcongr
      _ ≤ _ := by norm_num
  have main : |s * δ - (d - c) * τ| ≤ (2 ^ 53)⁻¹ * 9 * M + (2 ^ 170)⁻¹ := by
    have e : s * δ - (d - c) * τ = (s * δ - Y * (δ / D)) + Y * (δ / D - τ) + (Y - (d - c)) * τ := by ring
    have q1 : |Y * (δ / D - τ)| ≤ |Y| * ((2 ^ 53)⁻¹ * (2 + (2 ^ 50)⁻¹)) + 2 ^ 62 * (2 ^ 239)⁻¹ := by
      rw [abs_mul]
      calc |Y| * |δ / D - τ| ≤ |Y| * ((2 ^ 53)⁻¹ * (2 + (2 ^ 50)⁻¹) + (2 ^ 239)⁻¹) := mul_le_mul_of_nonneg_left tτ (abs_nonneg _)
        _ = |Y| * ((2 ^ 53)⁻¹ * (2 + (2 ^ 50)⁻¹)) + |Y| * (2 ^ 239)⁻¹ := by ring
        _ ≤ _ := by gcongr
    have q2 : |(Y - (d - c)) * τ| ≤ ((2 ^ 53)⁻¹ * |d - c| + (2 ^ 300)⁻¹) * 1 := by
      rw [abs_mul]; exact mul_le_mul e1 τ1 (abs_nonneg _) (by positivity)
    rw [e]
    refine (abs_add_le _ _).trans ((add_le_add (abs_add_le _ _) le_rfl).trans ((add_le_add (add_le_add sδ q1) q2).trans ?_))
    norm_num at Y1 dc ⊢
    linarith
  have ex : |(d - c) * τ| ≤ 2 * M := by
    rw [abs_mul]; exact (mul_le_of_le_one_right (abs_nonneg _) τ1).trans dc
  have sδ2 : |s * δ| ≤ 2 * M * (1 + (2 ^ 49)⁻¹) + (2 ^ 170)⁻¹ := by
    have := abs_sub_abs_le_abs_sub (s * δ) ((d - c) * τ)
    norm_num at this main ex ⊢
    linarith
  have i5 := Is.mul i4 i3 (fits64' 62 (by norm_num) (sδ2.trans (by norm_num at hM ⊢; linarith)))
  have e5 := mixed64 (s * δ)
  set r := b64.rnd (s * δ)
  have r2 : |r| ≤ 3 * M + (2 ^ 160)⁻¹ := by
    have := abs_sub_abs_le_abs_sub r (s * δ)
    norm_num at this e5 sδ2 ⊢
    linarith
  have rc : |r + c| ≤ 4 * M + (2 ^ 160)⁻¹ := (abs_add_le _ _).trans (by linarith)
  have i6 := Is.add i5 h3 (fits64' 63 (by norm_num) (rc.trans (by norm_num at hM ⊢; linarith)))
  have e6 := mixed64 (r + c)
  refine ⟨_, i6, ?_⟩
  have ee : b64.rnd (r + c) - ((d - c) / (b - a) * (p - a) + c) =
      (b64.rnd (r + c) - (r + c)) + (r - s * δ) + (s * δ - (d - c) * τ) := by rw [← hτ]; ring
  rw [ee]
  refine (abs_add_le _ _).trans ((add_le_add (abs_add_le _ _) le_rfl).trans ((add_le_add (add_le_add e6 e5) main).trans ?_))
  norm_num at rc sδ2 ⊢
  linarith

/-- IEEE binary64: for end points at least `2^-60` apart and numbers of magnitude at most `2^60`, `clerp` is within
`2^-49*max(|y1|,|y2|)` (plus `2^-150`) of the exact interpolation at the clamped position. -/
theorem C104_clerp_f64 {x x1 x2 y1 y2 : F64} {p a b c d : ℚ} (hx : x.Is p) (h1 : x1.Is a) (h2 : x2.Is b) (h3 : y1.Is c) (h4 : y2.Is d)
    (ha : |a| ≤ 2 ^ 60) (hb : |b| ≤ 2 ^ 60) (hc : |c| ≤ 2 ^ 60) (hd : |d| ≤ 2 ^ 60) (hab : (2 ^ 60)⁻¹ ≤ |b - a|) :
    ∃ z, (clerp x x1 x2 y1 y2).Is z ∧
      |z - (c + (d - c) * ((max (min a b) (min (max a b) p) - a) / (b - a)))| ≤ (2 ^ 49)⁻¹ * max |c| |d| + (2 ^ 150)⁻¹ := by
  have hcl := clamp_is hx h1 h2
  set q := max (min a b) (min (max a b) p)
  have q0 : min a b ≤ q := le_max_left _ _
  have q1 : q ≤ max a b := max_le (min_le_max) (min_le_left _ _)
  have hq : |q - a| ≤ |b - a| := by
    rcases le_total a b with h | h
    · rw [min_eq_left h] at q0; rw [max_eq_right h] at q1
      rw [abs_of_nonneg (by linarith), abs_of_nonneg (by linarith)]; linarith
    · rw [min_eq_right h] at q0; rw [max_eq_left h] at q1
      rw [abs_of_nonpos (by linarith), abs_of_nonpos (by linarith)]; linarith
  obtain ⟨z, hz, ez⟩ := lerp_err hcl h1 h2 h3 h4 ha hb (le_max_left _ _) (le_max_right _ _) (max_le hc hd) hab hq
  refine ⟨z, hz, ?_⟩
  rwa [show c + (d - c) * ((q - a) / (b - a)) = (d - c) / (b - a) * (q - a) + c by ring]

/-- Between 0 and 1, from -3 to -120, at 1/2. -/
example : ∃ z, (clerp (lit (1 / 2) : F64) (lit 0) (lit 1) (lit (-3)) (lit (-120))).Is z ∧
    |z - (-3 + (-120 - -3) * ((max (min 0 1) (min (max 0 1) (1 / 2)) - 0) / (1 - 0)))| ≤ (2 ^ 49)⁻¹ * max |-3| |-120| + (2 ^ 150)⁻¹ :=
  C104_clerp_f64 (by decide +kernel) (by decide +kernel) (by decide +kernel) (by decide +kernel) (by decide +kernel) (by norm_num) (by norm_num) (by norm_num) (by norm_num)
    (by norm_num)

/-- The error cannot be 0: the right end point of `[0, 7]` mapped to `[0, 29]` gives more than 29. -/
theorem C104_overshoot : (lit 29 : F64) <? clerp (lit 7 : F64) (lit 0) (lit 7) (lit 0) (lit 29) := by decide +kernel

/-- The case of the panner: `clerp(g, 0, 1, -3, -120)` for `g = 1/2`. -/
example : (lit (1 / 2) : F64).Is (1 / 2) ∧ (lit 0 : F64).Is 0 ∧ (lit 1 : F64).Is 1 ∧ (-lit 3 : F64).Is (-3) ∧ (-lit 120 : F64).Is (-120) ∧
    |(-120 : ℚ)| ≤ 2 ^ 60 ∧ ((2 : ℚ) ^ 60)⁻¹ ≤ |1 - 0| := by
  refine ⟨by decide +kernel, by decide +kernel, by decide +kernel, by decide +kernel, by decide +kernel, by norm_num, by norm_num⟩

end Verif
