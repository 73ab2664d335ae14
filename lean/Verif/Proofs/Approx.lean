import Verif.Float.Order
import Verif.Spec.Libm
import Mathlib.Analysis.Real.Pi.Bounds
import Mathlib.Tactic.Linarith
import Mathlib.Tactic.FieldSimp

/-! # Relative error of float expressions -/

namespace Verif

/-- `x` is finite and within relative error `ε` of the real `b`. -/
def App {f : Fmt} (x : Fl f) (ε b : ℝ) : Prop := ∃ a : ℚ, x.Is a ∧ |(a : ℝ) - b| ≤ ε * |b|

/-- Magnitudes far from over- and underflow in both formats. -/
def Mid (b : ℝ) : Prop := (2 ^ 100)⁻¹ ≤ |b| ∧ |b| ≤ 2 ^ 100

namespace App
variable {f : Fmt} {x y : Fl f} {ε ε' δ b b' : ℝ}

theorem mono (h : App x ε b) (he : ε ≤ δ) : App x δ b := by
  obtain ⟨a, h1, h2⟩ := h
  exact ⟨a, h1, h2.trans (mul_le_mul_of_nonneg_right he (abs_nonneg b))⟩

theorem of_is {q : ℚ} (h : x.Is q) (e : (q : ℝ) = b) : App x 0 b := ⟨q, h, by rw [e]; simp⟩

theorem neg (h : App x ε b) : App (-x) ε (-b) := by
  obtain ⟨a, h1, h2⟩ := h
  exact ⟨-a, h1.neg, by push_cast; rwa [abs_neg, ← neg_sub_neg, abs_sub_comm, neg_neg, neg_neg]⟩

private theorem cast_pow2 (k : ℤ) : ((pow2 k : ℚ) : ℝ) = (2 : ℝ) ^ k := by rw [pow2_eq]; push_cast; rfl

/-- One rounding adds at most the unit roundoff of the perturbed value. -/
private theorem rnd_err {a : ℚ} (hp : f.emin + f.p - 1 ≤ -101) (hm : 101 ≤ f.emax) (h : |(a : ℝ) - b| ≤ ε * |b|)
    (hε : ε ≤ 1 / 2) (hb : Mid b) (hδ : ε + (1 + ε) * (2 : ℝ) ^ (-(f.p : ℤ)) ≤ δ) :
    f.Fits a ∧ |((f.rnd a : ℚ) : ℝ) - b| ≤ δ * |b| := by
  obtain ⟨lo, hi⟩ := hb
  have hb0 : 0 < |b| := lt_of_lt_of_le (by positivity) lo
  have h' : |(a : ℝ) - b| ≤ 1 / 2 * |b| := h.trans (mul_le_mul_of_nonneg_right hε hb0.le)
  have h1 : |b| / 2 ≤ |(a : ℝ)| := by
    have := abs_sub_abs_le_abs_sub b (a : ℝ)
    rw [abs_sub_comm] at this
    linarith
  have h2' : |(a : ℝ)| ≤ (1 + ε) * |b| := by
    have := abs_sub_abs_le_abs_sub (a : ℝ) b
    linarith
  have h2 : |(a : ℝ)| ≤ 2 * |b| := by
    have := abs_sub_abs_le_abs_sub (a : ℝ) b
    linarith
  have l1 : pow2 (-101) ≤ |a| := by
    have : ((pow2 (-101) : ℚ) : ℝ) ≤ ((|a| : ℚ) : ℝ) := by
      rw [cast_pow2]; push_cast
      have e : (2 : ℝ) ^ (-101 : ℤ) = (2 ^ 100)⁻¹ / 2 := by norm_num
      rw [e]; linarith
    exact_mod_cast this
  have l2 : |a| ≤ pow2 101 := by
    have : ((|a| : ℚ) : ℝ) ≤ ((pow2 101 : ℚ) : ℝ) := by
      rw [cast_pow2]; push_cast
      have e : (2 : ℝ) ^ (101 : ℤ) = 2 ^ 100 * 2 := by norm_num
      rw [e]; linarith
    exact_mod_cast this
  refine ⟨Fmt.fits_of_le_pow2 (k := 101) (by have := f.hz; omega) hm l2, ?_⟩
  have r := f.abs_rnd_sub_le_rel ((pow2_le hp).trans l1)
  have r' : |((f.rnd a : ℚ) : ℝ) - a| ≤ (2 : ℝ) ^ (-(f.p : ℤ)) * |(a : ℝ)| := by
    have : ((|f.rnd a - a| : ℚ) : ℝ) ≤ ((pow2 (-f.p) * |a| : ℚ) : ℝ) := Rat.cast_le.mpr r
    push_cast at this
    rwa [cast_pow2] at this
  have hu : (0 : ℝ) < (2 : ℝ) ^ (-(f.p : ℤ)) := by positivity
  calc |((f.rnd a : ℚ) : ℝ) - b| ≤ |((f.rnd a : ℚ) : ℝ) - a| + |(a : ℝ) - b| := abs_sub_le _ _ _
    _ ≤ (2 : ℝ) ^ (-(f.p : ℤ)) * ((1 + ε) * |b|) + ε * |b| := add_le_add (r'.trans (mul_le_mul_of_nonneg_left h2' hu.le)) h
    _ = (ε + (1 + ε) * (2 : ℝ) ^ (-(f.p : ℤ))) * |b| := by ring
    _ ≤ δ * |b| := mul_le_mul_of_nonneg_right hδ hb0.le

private theorem rnd64 {a : ℚ} (h : |(a : ℝ) - b| ≤ ε * |b|) (hε : ε ≤ 1 / 2) (hb : Mid b) (hδ : ε + (2 ^ 52)⁻¹ ≤ δ) :
    b64.Fits a ∧ |((b64.rnd a : ℚ) : ℝ) - b| ≤ δ * |b| := by
  refine rnd_err (by decide) (by decide) h hε hb (le_trans ?_ hδ)
  have : (2 : ℝ) * 2 ^ (-(b64.p : ℤ)) = (2 ^ 52)⁻¹ := by
    show (2 : ℝ) * 2 ^ (-(53 : ℤ)) = (2 ^ 52)⁻¹
    norm_num
  rw [← this]
  have : (0 : ℝ) < 2 ^ (-(b64.p : ℤ)) := by positivity
  nlinarith

/-- Sum of numbers of the same sign. -/
theorem add {x y : F64} (hx : App x ε b) (hy : App y ε b') (hs : |b| + |b'| = |b + b'|) (hb : Mid (b + b'))
    (hε : ε ≤ 1 / 2) (hδ : ε + (2 ^ 52)⁻¹ ≤ δ) : App (x + y) δ (b + b') := by
  obtain ⟨p, hp, h1⟩ := hx
  obtain ⟨q, hq, h2⟩ := hy
  obtain ⟨hf, h3⟩ := rnd64 (a := p + q) (b := b + b') (ε := ε) (δ := δ) (by
    push_cast
    rw [show (p : ℝ) + q - (b + b') = (p - b) + (q - b') by ring, ← hs, mul_add]
    exact (abs_add_le _ _).trans (add_le_add h1 h2)) hε hb hδ
  exact ⟨_, hp.add hq hf, h3⟩

/-- Difference of numbers of opposite sign. -/
theorem sub {x y : F64} (hx : App x ε b) (hy : App y ε b') (hs : |b| + |b'| = |b - b'|) (hb : Mid (b - b'))
    (hε : ε ≤ 1 / 2) (hδ : ε + (2 ^ 52)⁻¹ ≤ δ) : App (x - y) δ (b - b') := by
  obtain ⟨p, hp, h1⟩ := hx
  obtain ⟨q, hq, h2⟩ := hy
  obtain ⟨hf, h3⟩ := rnd64 (a := p - q) (b := b - b') (ε := ε) (δ := δ) (by
    push_cast
    rw [show (p : ℝ) - q - (b - b') = (p - b) - (q - b') by ring, ← hs, mul_add]
    exact (abs_sub _ _).trans (add_le_add h1 h2)) hε hb hδ
  exact ⟨_, hp.sub hq hf, h3⟩

/-- Difference of exactly known numbers. -/
theorem sub_exact {x y : F64} {p q : ℚ} (hp : x.Is p) (hq : y.Is q) (hb : Mid ((p : ℝ) - q)) :
    App (x - y) ((2 ^ 52)⁻¹) ((p : ℝ) - q) := by
  obtain ⟨hf, h3⟩ := rnd64 (a := p - q) (b := (p : ℝ) - q) (ε := 0) (δ := (2 ^ 52)⁻¹) (by push_cast; simp) (by norm_num) hb (by norm_num)
  exact ⟨_, hp.sub hq hf, h3⟩

theorem mul {x y : F64} (hx : App x ε b) (hy : App y ε' b') (hb : Mid (b * b')) (h0 : 0 ≤ ε)
    (hε : ε + ε' + ε * ε' ≤ 1 / 2) (hδ : ε + ε' + ε * ε' + (2 ^ 52)⁻¹ ≤ δ) : App (x * y) δ (b * b') := by
  obtain ⟨p, hp, h1⟩ := hx
  obtain ⟨q, hq, h2⟩ := hy
  obtain ⟨hf, h3⟩ := rnd64 (a := p * q) (b := b * b') (ε := ε + ε' + ε * ε') (δ := δ) (by
    push_cast
    rw [show (p : ℝ) * q - b * b' = (p - b) * b' + b * (q - b') + (p - b) * (q - b') by ring, abs_mul]
    calc |(p - b) * b' + b * (q - b') + (p - b) * (q - b')|
        ≤ |(p - b) * b'| + |b * (q - b')| + |((p : ℝ) - b) * (q - b')| := abs_add_three _ _ _
      _ = |(p : ℝ) - b| * |b'| + |b| * |q - b'| + |(p : ℝ) - b| * |q - b'| := by rw [abs_mul, abs_mul, abs_mul]
      _ ≤ (ε * |b|) * |b'| + |b| * (ε' * |b'|) + (ε * |b|) * (ε' * |b'|) := by
        refine add_le_add (add_le_add ?_ ?_) ?_
        · exact mul_le_mul_of_nonneg_right h1 (abs_nonneg _)
        · exact mul_le_mul_of_nonneg_left h2 (abs_nonneg _)
        · exact mul_le_mul h1 h2 (abs_nonneg _) (by positivity)
      _ = (ε + ε' + ε * ε') * (|b| * |b'|) := by ring) hε hb hδ
  exact ⟨_, hp.mul hq hf, h3⟩

theorem div {x y : F64} (hx : App x ε b) (hy : App y ε' b') (hb0 : b' ≠ 0) (hb : Mid (b / b')) (he : ε' ≤ 1 / 2)
    (hε : 2 * (ε + ε') ≤ 1 / 2) (hδ : 2 * (ε + ε') + (2 ^ 52)⁻¹ ≤ δ) : App (x / y) δ (b / b') := by
  obtain ⟨p, hp, h1⟩ := hx
  obtain ⟨q, hq, h2⟩ := hy
  have hb' : 0 < |b'| := abs_pos.mpr hb0
  have h4 : |b'| / 2 ≤ |(q : ℝ)| := by
    have := abs_sub_abs_le_abs_sub b' (q : ℝ)
    rw [abs_sub_comm] at this
    have := mul_le_mul_of_nonneg_right he hb'.le
    linarith
  have hq0 : (q : ℝ) ≠ 0 := abs_pos.mp (by linarith)
  obtain ⟨hf, h3⟩ := rnd64 (a := p / q) (b := b / b') (ε := 2 * (ε + ε')) (δ := δ) (by
    push_cast
    rw [show (p : ℝ) / q - b / b' = ((p - b) * b' - b * (q - b')) / (q * b') by field_simp; ring, abs_div, abs_div, abs_mul]
    rw [div_le_iff₀ (by positivity)]
    have e1 : |((p : ℝ) - b) * b' - b * (q - b')| ≤ (ε + ε') * (|b| * |b'|) := by
      calc |((p : ℝ) - b) * b' - b * (q - b')| ≤ |((p : ℝ) - b) * b'| + |b * (q - b')| := abs_sub _ _
        _ = |(p : ℝ) - b| * |b'| + |b| * |q - b'| := by rw [abs_mul, abs_mul]
        _ ≤ (ε * |b|) * |b'| + |b| * (ε' * |b'|) :=
          add_le_add (mul_le_mul_of_nonneg_right h1 (abs_nonneg _)) (mul_le_mul_of_nonneg_left h2 (abs_nonneg _))
        _ = _ := by ring
    have e2 : 2 * (ε + ε') * (|b| / |b'|) * (|(q : ℝ)| * |b'|) = (ε + ε') * (|b| * (2 * |(q : ℝ)|)) := by field_simp
    rw [e2]
    refine e1.trans ?_
    have h5 : 0 ≤ (ε + ε') * (|b| * |b'|) := (abs_nonneg _).trans e1
    rcases eq_or_lt_of_le (abs_nonneg b) with hz | hz
    · rw [← hz]; simp
    · have h6 : 0 ≤ ε + ε' := by
        by_contra hn
        have := mul_neg_of_neg_of_pos (not_le.mp hn) (mul_pos hz hb')
        linarith
      exact mul_le_mul_of_nonneg_left (mul_le_mul_of_nonneg_left (by linarith) hz.le) h6) hε hb hδ
  exact ⟨_, hp.div hq (by exact_mod_cast hq0) hf, h3⟩

/-- Narrowing, with the full error of one rounding. -/
theorem down' {x : F64} (hx : App x ε b) (hb : Mid b) (hε : ε ≤ 1 / 2) (hδ : ε + (1 + ε) * (2 ^ 24)⁻¹ ≤ δ) :
    App (SM.down x : F32) δ b := by
  obtain ⟨p, hp, h1⟩ := hx
  have e : (2 : ℝ) ^ (-(b32.p : ℤ)) = (2 ^ 24)⁻¹ := by
    show (2 : ℝ) ^ (-(24 : ℤ)) = (2 ^ 24)⁻¹
    norm_num
  obtain ⟨hf, h3⟩ := rnd_err (f := b32) (a := p) (δ := δ) (by decide) (by decide) h1 hε hb (by rw [e]; exact hδ)
  exact ⟨_, hp.down hf, h3⟩

theorem down {x : F64} (hx : App x ε b) (hb : Mid b) (hε : ε ≤ 1 / 2) (hδ : ε + (2 ^ 23)⁻¹ ≤ δ) :
    App (SM.down x : F32) δ b := by
  refine down' hx hb hε (le_trans ?_ hδ)
  norm_num
  linarith

end App

/-- The constant π of the standard library. -/
theorem app_pi : App (SM.piM F32 : F64) ((2 ^ 52)⁻¹) Real.pi := by
  refine ⟨884279719003555 / 281474976710656, by decide +kernel, ?_⟩
  have h1 := Real.pi_gt_d20
  have h2 := Real.pi_lt_d20
  rw [abs_of_pos Real.pi_pos, abs_le]
  push_cast
  constructor <;> norm_num at h1 h2 ⊢ <;> linarith

end Verif
