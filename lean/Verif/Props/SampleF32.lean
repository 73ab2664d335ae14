import Verif.Model.Stereo
import Verif.Proofs.Time

/-! # Mono/Stereo conversion in floating point: C106 -/

namespace Verif
open Fl

private theorem u24 : pow2 (-(b32.p : ℤ)) = (2 ^ 24)⁻¹ := by decide +kernel

/-- The `f32` square root of one half. -/
private theorem half : (Flt.sqrt (Flt.lit (1 / 2)) : F32).Is (11863283 / 16777216) := by decide +kernel

private theorem relRnd {q : ℚ} (h : (2 ^ 120)⁻¹ ≤ |q|) : |b32.rnd q - q| ≤ (2 ^ 24)⁻¹ * |q| := by
  have := b32.abs_rnd_sub_le_rel (q := q) (le_trans (by decide +kernel) h)
  rwa [u24] at this

/-- One channel: `|left - c x| ≤ 2^-24 c |x|`. -/
private theorem chan {x : F32} {q : ℚ} (hx : x.Is q) (h0 : (2 ^ 100)⁻¹ ≤ |q|) (h1 : |q| ≤ 2 ^ 100) :
    ∃ v : ℚ, (x * Flt.sqrt (Flt.lit (1 / 2))).Is v ∧ |v - q * (11863283 / 16777216)| ≤ (2 ^ 24)⁻¹ * (|q| * (11863283 / 16777216)) := by
  have ha : |q * (11863283 / 16777216)| = |q| * (11863283 / 16777216) := by rw [abs_mul]; norm_num
  refine ⟨_, Is.mul hx half (fits32' 100 (by norm_num) ?_), ?_⟩
  · rw [ha]; norm_num at h1 ⊢; linarith
  · have h := relRnd (q := q * (11863283 / 16777216)) (by rw [ha]; norm_num at h0 ⊢; linarith)
    rwa [ha] at h

/-- IEEE: for every sample with magnitude in `[2^-100, 2^100]` the two channels are the same value `v`, with the sign of
the sample and `|2 v² - q²| ≤ 2^-22 q²`. -/
theorem C106_equal_power {x : F32} {q : ℚ} (hx : x.Is q) (h0 : (2 ^ 100)⁻¹ ≤ |q|) (h1 : |q| ≤ 2 ^ 100) :
    ∃ v : ℚ, (Stereo.fromSample x).left.Is v ∧ (Stereo.fromSample x).right.Is v ∧ 0 < v * q ∧
      |v ^ 2 + v ^ 2 - q ^ 2| ≤ (2 ^ 22)⁻¹ * q ^ 2 := by
  obtain ⟨v, hv, he⟩ := chan hx h0 h1
  refine ⟨v, hv, hv, ?_, ?_⟩
  · have hq : 0 < |q| := lt_of_lt_of_le (by positivity) h0
    rcases abs_cases q with ⟨e, -⟩ | ⟨e, -⟩ <;> rw [e] at he hq <;> obtain ⟨e1, e2⟩ := abs_le.mp he
    · exact mul_pos (by norm_num at e1 ⊢; linarith) hq
    · exact mul_pos_of_neg_of_neg (by norm_num at e2 ⊢; linarith) (by linarith)
  · have hq : q ^ 2 = |q| ^ 2 := (sq_abs q).symm
    have hv2 : v ^ 2 = |v| ^ 2 := (sq_abs v).symm
    have hq0 : 0 < |q| := lt_of_lt_of_le (by positivity) h0
    have ha : |q * (11863283 / 16777216)| = |q| * (11863283 / 16777216) := by rw [abs_mul]; norm_num
    have h := (abs_abs_sub_abs_le v (q * (11863283 / 16777216))).trans he
    rw [ha] at h
    rw [hq, hv2]
    generalize |q| = a at *
    generalize |v| = w at *
    obtain ⟨e1, e2⟩ := abs_le.mp h
    have w0 : 0 ≤ w := by norm_num at e1 hq0 ⊢; linarith
    have l1 : a * (11863283 / 16777216 * (1 - (2 ^ 24)⁻¹)) ≤ w := by linarith
    have l2 : w ≤ a * (11863283 / 16777216 * (1 + (2 ^ 24)⁻¹)) := by linarith
    have p1 := pow_le_pow_left₀ w0 l2 2
    have p2 := pow_le_pow_left₀ (mul_nonneg hq0.le (by norm_num)) l1 2
    have s0 : 0 < a ^ 2 := by positivity
    rw [mul_pow] at p1 p2
    rw [abs_le]
    norm_num at p1 p2 ⊢
    constructor <;> linarith

example : ∃ v : ℚ, (Stereo.fromSample (Flt.lit (1 / 2) : F32)).left.Is v ∧ (Stereo.fromSample (Flt.lit (1 / 2) : F32)).right.Is v ∧ 0 < v * (1 / 2) ∧
    |v ^ 2 + v ^ 2 - (1 / 2) ^ 2| ≤ (2 ^ 22)⁻¹ * (1 / 2) ^ 2 := C106_equal_power (by decide +kernel) (by norm_num) (by norm_num)

/-- IEEE: converting to Stereo and back gives twice the sample, up to relative error `2^-22`. -/
theorem C106_roundtrip {x : F32} {q : ℚ} (hx : x.Is q) (h0 : (2 ^ 100)⁻¹ ≤ |q|) (h1 : |q| ≤ 2 ^ 97) :
    ∃ v : ℚ, (Stereo.fromSample x).intoSample.Is v ∧ |v - 2 * q| ≤ (2 ^ 22)⁻¹ * (2 * |q|) := by
  obtain ⟨v, hv, he⟩ := chan hx h0 (h1.trans (by norm_num))
  have hq0 : 0 < |q| := lt_of_lt_of_le (by positivity) h0
  have hav : |v| ≤ 2 ^ 97 := by
    have h := abs_sub_abs_le_abs_sub v (q * (11863283 / 16777216))
    rw [abs_mul, abs_of_pos (by norm_num : (0 : ℚ) < 11863283 / 16777216)] at h
    norm_num at h he h1 ⊢
    linarith
  have hvl : (2 ^ 101)⁻¹ ≤ |v| := by
    have h := abs_sub_abs_le_abs_sub (q * (11863283 / 16777216)) v
    rw [abs_mul, abs_of_pos (by norm_num : (0 : ℚ) < 11863283 / 16777216), abs_sub_comm] at h
    norm_num at h he h0 ⊢
    linarith
  have a2 : |v + v| = 2 * |v| := by rw [← two_mul, abs_mul]; norm_num
  have hs := Is.add hv hv (fits32' 100 (by norm_num) (by rw [a2]; norm_num at hav ⊢; linarith))
  have es := relRnd (q := v + v) (by rw [a2]; norm_num at hvl ⊢; linarith)
  rw [a2] at es
  generalize b32.rnd (v + v) = w at *
  have hw : |w| ≤ 2 * |v| * (1 + (2 ^ 24)⁻¹) := by
    have h := abs_sub_abs_le_abs_sub w (v + v)
    rw [a2] at h; linarith
  have hwl : 2 * |v| * (1 - (2 ^ 24)⁻¹) ≤ |w| := by
    have h := abs_sub_abs_le_abs_sub (v + v) w
    rw [a2, abs_sub_comm] at h; linarith
  have ad : |w / (11863283 / 16777216)| = |w| / (11863283 / 16777216) := by rw [abs_div]; norm_num
  have hd := Is.div hs half (by norm_num) (fits32' 100 (by norm_num) (by rw [ad]; norm_num at hw hav ⊢; linarith))
  have ed := relRnd (q := w / (11863283 / 16777216)) (by rw [ad]; norm_num at hwl hvl ⊢; linarith)
  refine ⟨_, hd, ?_⟩
  rw [ad] at ed
  generalize b32.rnd (w / (11863283 / 16777216)) = z at *
  have hvu : |v| ≤ |q| * (11863283 / 16777216) * (1 + (2 ^ 24)⁻¹) := by
    have h := abs_sub_abs_le_abs_sub v (q * (11863283 / 16777216))
    rw [abs_mul, abs_of_pos (by norm_num : (0 : ℚ) < 11863283 / 16777216)] at h
    linarith
  rw [abs_le] at ed es he ⊢
  norm_num at ed es he hw hvu ⊢
  constructor <;> linarith

/-- One half is such a sample. -/
example : ∃ x : F32, x.Is (1 / 2) ∧ ((2 : ℚ) ^ 100)⁻¹ ≤ |(1 / 2 : ℚ)| ∧ |(1 / 2 : ℚ)| ≤ 2 ^ 97 :=
  ⟨Flt.lit (1 / 2), by decide +kernel, by norm_num, by norm_num⟩

end Verif
