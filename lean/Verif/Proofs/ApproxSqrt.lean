import Verif.Proofs.Approx
import Verif.Proofs.Rel
import Verif.Props.Ieee

/-! # Relative error of a floating-point square root -/

namespace Verif
open Fl

/-- A square root is accurate to 2^-52. -/
theorem sqrt64_err {x : F64} {q : ℚ} (hx : x.Is q) (h0 : (2 ^ 110)⁻¹ ≤ q) (h1 : q ≤ 2 ^ 110) :
    ∃ v : ℚ, (Flt.sqrt x : F64).Is v ∧ |(v : ℝ) - Real.sqrt q| ≤ (2 ^ 52)⁻¹ * Real.sqrt q := by
  have q0 : 0 < q := lt_of_lt_of_le (by positivity) h0
  have h0R : ((2 : ℝ) ^ 110)⁻¹ ≤ q := by
    have := (Rat.cast_le (K := ℝ)).mpr h0; push_cast at this; exact this
  have h1R : (q : ℝ) ≤ 2 ^ 110 := by
    have := (Rat.cast_le (K := ℝ)).mpr h1; push_cast at this; exact this
  set s := Real.sqrt q with hs
  have s1 : s ≤ 2 ^ 55 := by
    rw [hs, Real.sqrt_le_left (by positivity)]
    calc (q : ℝ) ≤ 2 ^ 110 := h1R
      _ = (2 ^ 55) ^ 2 := by norm_num
  have s0 : ((2 : ℝ) ^ 55)⁻¹ ≤ s := by
    rw [hs, Real.le_sqrt' (by positivity)]
    calc (((2 : ℝ) ^ 55)⁻¹) ^ 2 = (2 ^ 110)⁻¹ := by norm_num
      _ ≤ q := h0R
  have hq : pow2 b64.emin ≤ q := le_trans (by decide +kernel) h0
  have z := (ieee_sqrt b64 hq b64.repr_zero).2
  set v := b64.rnd (sqrtQ b64 q) with hv
  rw [← hs] at z
  have v1 : (v : ℝ) ≤ 2 ^ 56 := by
    have := (abs_le.mp z).2
    have e : |((0 : ℚ) : ℝ) - s| = s := by
      push_cast; rw [zero_sub, abs_neg, abs_of_pos (lt_of_lt_of_le (by positivity) s0)]
    rw [e] at this
    calc (v : ℝ) ≤ 2 * s := by linarith
      _ ≤ 2 ^ 56 := by linarith
  have v0 : (0 : ℝ) ≤ v := by
    have := (abs_le.mp z).1
    have e : |((0 : ℚ) : ℝ) - s| = s := by
      push_cast; rw [zero_sub, abs_neg, abs_of_pos (lt_of_lt_of_le (by positivity) s0)]
    rw [e] at this
    linarith
  have hfit : b64.Fits (sqrtQ b64 q) := by
    unfold Fmt.Fits
    rw [← hv]
    have a : |v| ≤ 2 ^ 56 := by
      have : ((|v| : ℚ) : ℝ) ≤ ((2 ^ 56 : ℚ) : ℝ) := by push_cast; rw [abs_of_nonneg v0]; exact v1
      exact_mod_cast this
    exact lt_of_le_of_lt a (by decide +kernel)
  refine ⟨v, ?_, ?_⟩
  · obtain ⟨sg, hk, rfl⟩ := is_iff.mp hx
    show (if q < 0 then Fl.nan else if q = 0 then Fl.fin sg q hk else ofQ false (sqrtQ b64 q) : F64).Is v
    rw [if_neg (not_lt.mpr q0.le), if_neg q0.ne']
    exact ofQ_is _ hfit
  · -- compare with the rounding of a rational close to the root
    obtain ⟨w, hw⟩ := exists_rat_near s (show (0 : ℝ) < (2 ^ 110)⁻¹ by positivity)
    obtain ⟨w1, w2⟩ := abs_lt.mp hw
    have wl : ((2 : ℝ) ^ 56)⁻¹ ≤ w := by norm_num at *; linarith
    have wl' : (2 ^ 56)⁻¹ ≤ w := by
      have : (((2 ^ 56)⁻¹ : ℚ) : ℝ) ≤ ((w : ℚ) : ℝ) := by push_cast; exact wl
      exact_mod_cast this
    have hr := Rel.rnd64 (q := w) (.inr (le_trans (by norm_num) wl'))
    unfold Rel at hr
    have hrR : |((b64.rnd w : ℚ) : ℝ) - w| ≤ (2 ^ 53)⁻¹ * w := by
      have := (Rat.cast_le (K := ℝ)).mpr hr; push_cast at this; exact this
    have near := (ieee_sqrt b64 hq (b64.repr_rnd w)).2
    rw [← hs, ← hv] at near
    have t := abs_add_le (((b64.rnd w : ℚ) : ℝ) - w) ((w : ℝ) - s)
    rw [sub_add_sub_cancel, abs_sub_comm (w : ℝ)] at t
    have w3 := hw.le
    norm_num at *
    linarith

namespace App

theorem sqrt {x : F64} {ε δ b : ℝ} (hx : App x ε b) (hb0 : 0 < b) (hb : Mid b) (h0 : 0 ≤ ε) (hε : ε ≤ 1 / 2) (hδ : 2 * ε + (2 ^ 52)⁻¹ ≤ δ) :
    App (Flt.sqrt x : F64) δ (Real.sqrt b) := by
  obtain ⟨a, ha, h1⟩ := hx
  obtain ⟨lo, hi⟩ := hb
  rw [abs_of_pos hb0] at lo hi h1
  obtain ⟨l, u⟩ := abs_le.mp h1
  have hεb : ε * b ≤ 1 / 2 * b := mul_le_mul_of_nonneg_right hε hb0.le
  have a0 : b / 2 ≤ (a : ℝ) := by linarith
  have a1 : (a : ℝ) ≤ 2 * b := by linarith
  have a0' : (2 ^ 110)⁻¹ ≤ a := by
    have : (((2 ^ 110)⁻¹ : ℚ) : ℝ) ≤ ((a : ℚ) : ℝ) := by
      push_cast
      calc ((2 : ℝ) ^ 110)⁻¹ ≤ (2 ^ 100)⁻¹ / 2 := by norm_num
        _ ≤ b / 2 := by linarith
        _ ≤ a := a0
    exact_mod_cast this
  have a1' : a ≤ 2 ^ 110 := by
    have : ((a : ℚ) : ℝ) ≤ ((2 ^ 110 : ℚ) : ℝ) := by
      push_cast
      calc (a : ℝ) ≤ 2 * 2 ^ 100 := by linarith
        _ ≤ 2 ^ 110 := by norm_num
    exact_mod_cast this
  obtain ⟨v, hv, h2⟩ := sqrt64_err ha a0' a1'
  refine ⟨v, hv, ?_⟩
  have sb : 0 < Real.sqrt b := Real.sqrt_pos.mpr hb0
  have sa : 0 < Real.sqrt a := Real.sqrt_pos.mpr (by linarith)
  have eb := Real.mul_self_sqrt hb0.le
  have ea := Real.mul_self_sqrt (show (0 : ℝ) ≤ a by linarith)
  -- |√a - √b| ≤ ε √b
  have h3 : |Real.sqrt a - Real.sqrt b| ≤ ε * Real.sqrt b := by
    have e : (Real.sqrt a - Real.sqrt b) * (Real.sqrt a + Real.sqrt b) = a - b := by ring_nf; rw [Real.sq_sqrt (by linarith), Real.sq_sqrt hb0.le]
    have e' : |Real.sqrt a - Real.sqrt b| * (Real.sqrt a + Real.sqrt b) = |a - b| := by
      rw [← e, abs_mul, abs_of_pos (add_pos sa sb)]
    have : |Real.sqrt a - Real.sqrt b| * Real.sqrt b ≤ ε * Real.sqrt b * Real.sqrt b := by
      calc |Real.sqrt a - Real.sqrt b| * Real.sqrt b ≤ |Real.sqrt a - Real.sqrt b| * (Real.sqrt a + Real.sqrt b) :=
            mul_le_mul_of_nonneg_left (by linarith) (abs_nonneg _)
        _ = |(a : ℝ) - b| := e'
        _ ≤ ε * b := h1
        _ = ε * Real.sqrt b * Real.sqrt b := by rw [mul_assoc, eb]
    exact le_of_mul_le_mul_right this sb
  have h4 : Real.sqrt a ≤ (1 + ε) * Real.sqrt b := by linarith [(abs_le.mp h3).2]
  rw [abs_of_pos sb]
  have t := abs_add_le ((v : ℝ) - Real.sqrt a) (Real.sqrt a - Real.sqrt b)
  rw [sub_add_sub_cancel] at t
  have h5 : (2 ^ 52)⁻¹ * Real.sqrt a ≤ (2 ^ 52)⁻¹ * ((1 + ε) * Real.sqrt b) := mul_le_mul_of_nonneg_left h4 (by positivity)
  have h6 : ((2 : ℝ) ^ 52)⁻¹ * (ε * Real.sqrt b) ≤ 1 * (ε * Real.sqrt b) := mul_le_mul_of_nonneg_right (by norm_num) (by positivity)
  calc |(v : ℝ) - Real.sqrt b| ≤ (2 * ε + (2 ^ 52)⁻¹) * Real.sqrt b := by nlinarith
    _ ≤ δ * Real.sqrt b := mul_le_mul_of_nonneg_right hδ sb.le

theorem abs {f : Fmt} {x : Fl f} {ε b : ℝ} (hx : App x ε b) : App (Flt.abs x : Fl f) ε |b| := by
  obtain ⟨a, ha, h1⟩ := hx
  exact ⟨|a|, ha.abs, by push_cast; rw [abs_abs]; exact (abs_abs_sub_abs_le_abs_sub _ _).trans h1⟩

end App
end Verif
