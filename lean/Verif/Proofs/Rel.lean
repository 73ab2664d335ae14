import Verif.Proofs.Osc

/-! # Relative errors, and rounding inside a binade -/

namespace Verif
open Fl

/-- `a` is `b` up to a relative error. -/
def Rel (ε a b : ℚ) : Prop := |a - b| ≤ ε * b

namespace Rel

theorem refl {a : ℚ} : Rel 0 a a := by simp [Rel]

theorem mono {ε δ a b : ℚ} (h : Rel ε a b) (hb : 0 ≤ b) (he : ε ≤ δ) : Rel δ a b :=
  le_trans h (mul_le_mul_of_nonneg_right he hb)

theorem trans {ε δ a b c : ℚ} (hδ : 0 ≤ δ) (h : Rel ε a b) (h' : Rel δ c a) : Rel (ε + δ + ε * δ) c b := by
  unfold Rel at *
  have h1 := (abs_le.mp h).2
  have : |c - b| ≤ |c - a| + |a - b| := by rw [show c - b = (c - a) + (a - b) by ring]; exact abs_add_le _ _
  nlinarith

theorem add {ε a b c d : ℚ} (h : Rel ε a b) (h' : Rel ε c d) : Rel ε (a + c) (b + d) := by
  unfold Rel at *
  rw [show a + c - (b + d) = (a - b) + (c - d) by ring, mul_add]
  exact (abs_add_le _ _).trans (add_le_add h h')

theorem mul {ε δ a b c d : ℚ} (hb : 0 < b) (hd : 0 < d) (hε : 0 ≤ ε) (h : Rel ε a b) (h' : Rel δ c d) :
    Rel (ε + δ + ε * δ) (a * c) (b * d) := by
  unfold Rel at *
  have e : a * c - b * d = (a - b) * (c - d) + (a - b) * d + b * (c - d) := by ring
  rw [e]
  have := abs_add_le ((a - b) * (c - d) + (a - b) * d) (b * (c - d))
  have := abs_add_le ((a - b) * (c - d)) ((a - b) * d)
  rw [abs_mul] at *
  have h1 : |a - b| * |c - d| ≤ (ε * b) * (δ * d) := mul_le_mul h h' (abs_nonneg _) (by positivity)
  have h2 : |a - b| * |d| ≤ ε * b * d := by rw [abs_of_pos hd]; exact mul_le_mul_of_nonneg_right h hd.le
  have h3 : |b| * |c - d| ≤ b * (δ * d) := by rw [abs_of_pos hb]; exact mul_le_mul_of_nonneg_left h' hb.le
  rw [abs_mul] at *
  nlinarith

theorem mul_const {ε a b k : ℚ} (hk : 0 ≤ k) (h : Rel ε a b) : Rel ε (a * k) (b * k) := by
  unfold Rel at *
  rw [← sub_mul, abs_mul, abs_of_nonneg hk, ← mul_assoc]
  exact mul_le_mul_of_nonneg_right h hk

theorem inv {ε a b : ℚ} (hb : 0 < b) (hε : 0 ≤ ε) (h1 : ε ≤ 1 / 2) (h : Rel ε a b) : Rel (ε + 2 * ε ^ 2) (1 / a) (1 / b) := by
  unfold Rel at *
  obtain ⟨l, u⟩ := abs_le.mp h
  have ha : (1 - ε) * b ≤ a := by linarith
  have hap : 0 < a := lt_of_lt_of_le (mul_pos (by linarith) hb) ha
  rw [show 1 / a - 1 / b = -(a - b) / (a * b) by field_simp; ring, abs_div, abs_neg, abs_of_pos (mul_pos hap hb), div_le_iff₀ (mul_pos hap hb),
    show (ε + 2 * ε ^ 2) * (1 / b) * (a * b) = (ε + 2 * ε ^ 2) * a by field_simp]
  refine h.trans ?_
  have h2 : (ε + 2 * ε ^ 2) * ((1 - ε) * b) ≤ (ε + 2 * ε ^ 2) * a := mul_le_mul_of_nonneg_left ha (by positivity)
  refine le_trans ?_ h2
  have : ε * b + (ε ^ 2 * (1 - 2 * ε)) * b = (ε + 2 * ε ^ 2) * ((1 - ε) * b) := by ring
  have h3 : 0 ≤ (ε ^ 2 * (1 - 2 * ε)) * b := mul_nonneg (mul_nonneg (by positivity) (by linarith)) hb.le
  linarith

theorem bounds {ε a b : ℚ} (hb : 0 < b) (hε : ε ≤ 1 / 2) (h : Rel ε a b) : b / 2 ≤ a ∧ a ≤ 2 * b := by
  unfold Rel at h
  obtain ⟨h1, h2⟩ := abs_le.mp h
  constructor <;> nlinarith

theorem rnd32 {q : ℚ} (h : q = 0 ∨ (2 ^ 120)⁻¹ ≤ q) : Rel (2 ^ 24)⁻¹ (b32.rnd q) q := by
  rcases h with rfl | h
  · simp [Rel]
  have h0 : 0 < q := lt_of_lt_of_le (by positivity) h
  have := b32.abs_rnd_sub_le_rel (q := q) (by rw [abs_of_pos h0]; exact le_trans (by decide +kernel) h)
  rwa [show pow2 (-(b32.p : ℤ)) = (2 ^ 24)⁻¹ by decide +kernel, abs_of_pos h0] at this

theorem rnd64 {q : ℚ} (h : q = 0 ∨ (2 ^ 120)⁻¹ ≤ q) : Rel (2 ^ 53)⁻¹ (b64.rnd q) q := by
  rcases h with rfl | h
  · simp [Rel]
  have h0 : 0 < q := lt_of_lt_of_le (by positivity) h
  have := b64.abs_rnd_sub_le_rel (q := q) (by rw [abs_of_pos h0]; exact le_trans (by decide +kernel) h)
  rwa [show pow2 (-(b64.p : ℤ)) = (2 ^ 53)⁻¹ by decide +kernel, abs_of_pos h0] at this

end Rel

theorem mixed32 (q : ℚ) : |b32.rnd q - q| ≤ (2 ^ 24)⁻¹ * |q| + (2 ^ 150)⁻¹ := by
  have h := b32.abs_rnd_sub_le_mixed q
  rwa [show pow2 (-(b32.p : ℤ)) = (2 ^ 24)⁻¹ by decide +kernel, show pow2 (b32.emin - 1) = (2 ^ 150)⁻¹ by decide +kernel] at h

/-- Rounding between `2^k` and `2^(k+1)`, where the floats are the multiples of `2^(k-23)`. -/
theorem rnd_binade {k : ℤ} (hk : -120 ≤ k) (M : ℤ) (q : ℚ) (h0 : (2 : ℚ) ^ k ≤ q) (h1 : q < 2 ^ (k + 1))
    (hq : |q / 2 ^ (k - 23) - M| < 1 / 2) : b32.rnd q = M * 2 ^ (k - 23) := by
  have qp : 0 < q := lt_of_lt_of_le (by positivity) h0
  have hl : ilog2 q = k := by
    have a1 := le_ilog2_of qp.ne' (k := k) (by rw [pow2_eq, abs_of_pos qp]; exact h0)
    have a2 := ilog2_lt_of qp.ne' (k := k + 1) (by rw [pow2_eq, abs_of_pos qp]; exact h1)
    omega
  have hu : b32.ue q = k - 23 := by
    unfold Fmt.ue
    rw [hl]
    show max (k - ((24 : ℕ) - 1)) (-149) = _
    push_cast
    omega
  unfold Fmt.rnd
  rw [hu, pow2_neg, pow2_eq, ← div_eq_mul_inv, rne_eq_of_abs_lt (n := M) hq]

/-- An upper bound for a run of additions of the same number within a binade: if `c` is the number of units closest to `s`, the sum advances by at
most `c` units. -/
theorem rnd_add_le {k : ℤ} (hk : -120 ≤ k) {s : ℚ} {c : ℕ} (hc : |s / 2 ^ (k - 23) - c| < 1 / 2) (hs : 0 ≤ s) {p : ℚ} {M : ℕ} (hM0 : 2 ^ 23 ≤ M)
    (hM : M + c + 1 ≤ 2 ^ 24) (hp : p ≤ M * 2 ^ (k - 23)) : b32.rnd (p + s) ≤ (M + c : ℕ) * 2 ^ (k - 23) := by
  have g0 : (0 : ℚ) < 2 ^ (k - 23) := by positivity
  have hg : (2 : ℚ) ^ k = 2 ^ 23 * 2 ^ (k - 23) := by
    rw [← zpow_natCast, ← zpow_add₀ (by norm_num)]; congr 1; push_cast; ring
  have hg1 : (2 : ℚ) ^ (k + 1) = 2 ^ 24 * 2 ^ (k - 23) := by
    rw [← zpow_natCast, ← zpow_add₀ (by norm_num)]; congr 1; push_cast; ring
  set g : ℚ := (2 : ℚ) ^ (k - 23) with hgd
  have q0 : (2 : ℚ) ^ 23 ≤ M := by exact_mod_cast hM0
  have q1 : (M : ℚ) + c + 1 ≤ 2 ^ 24 := by exact_mod_cast hM
  obtain ⟨c1, c2⟩ := abs_lt.mp hc
  have sg : s / g * g = s := by field_simp
  have s1 : s < (c + 1 / 2) * g := by nlinarith
  refine (b32.rnd_mono (show p + s ≤ M * g + s by linarith)).trans ?_
  rw [rnd_binade hk ((M + c : ℕ) : ℤ) (M * g + s) (by rw [hg]; nlinarith) (by rw [hg1]; nlinarith)]
  · rw [← hgd]; push_cast; exact le_refl _
  · rw [← hgd]
    have : (M * g + s) / g - (((M + c : ℕ) : ℤ) : ℚ) = s / g - c := by
      push_cast
      field_simp
      ring
    rw [this]; exact hc

end Verif
