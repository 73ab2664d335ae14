import Verif.Float.Order
import Verif.Spec.Libm
import Mathlib.Analysis.SpecialFunctions.Trigonometric.Bounds
import Mathlib.Analysis.SpecialFunctions.Trigonometric.Arctan
import Mathlib.Analysis.Real.Pi.Bounds

/-! # Accuracy assumed of the platform's `tan` in f32 -/

namespace Verif

/-- `tan` is accurate to relative error 2^-20 on `[2^-14, 4/5]`. -/
structure TanAccurate [Libm F32] : Prop where
  tan : ∀ (x : F32) (q : ℚ), x.Is q → (2 ^ 14)⁻¹ ≤ q → q ≤ 4 / 5 →
    ∃ c : ℚ, (Libm.tan x).Is c ∧ |(c : ℝ) - Real.tan q| ≤ (2 ^ 20)⁻¹ * Real.tan q

private noncomputable def near (c : ℝ) : ℚ := Classical.choose (exists_rat_near c (show (0 : ℝ) < (2 ^ 40)⁻¹ by positivity))
private theorem near_spec (c : ℝ) : |c - near c| < (2 ^ 40)⁻¹ :=
  Classical.choose_spec (exists_rat_near c (show (0 : ℝ) < (2 ^ 40)⁻¹ by positivity))

@[reducible] private noncomputable def libmTan : Libm F32 :=
  ⟨id, id, fun x => match x.toQ? with | none => lit 0 | some q => lit (near (Real.tan q)), id, fun x _ => x⟩

/-- `x ≤ tan x ≤ 2` on `[0, 4/5]`. -/
theorem tan_bounds {q : ℝ} (h0 : 0 < q) (h1 : q ≤ 4 / 5) : q ≤ Real.tan q ∧ Real.tan q ≤ 2 := by
  have hpi := Real.pi_gt_d2
  refine ⟨Real.le_tan h0.le (by norm_num at hpi; linarith), ?_⟩
  have hc := Real.one_sub_sq_div_two_le_cos (x := q)
  have hs := Real.sin_lt h0
  have hc2 : (0.6 : ℝ) ≤ Real.cos q := by nlinarith
  rw [Real.tan_eq_sin_div_cos, div_le_iff₀ (by linarith)]
  linarith

/-- The assumption can be met. -/
theorem tanAccurate_exists : ∃ l : Libm F32, @TanAccurate l := by
  let _ := libmTan
  refine ⟨libmTan, TanAccurate.mk ?_⟩
  intro x q hx h0 h1
  have e : x.toQ? = some q := hx
  show ∃ c, (match x.toQ? with | none => lit 0 | some q => lit (near (Real.tan q)) : F32).Is c ∧ _
  rw [e]
  have hn := near_spec (Real.tan q)
  have h0r : ((2 : ℝ) ^ 14)⁻¹ ≤ q := by
    have := (Rat.cast_le (K := ℝ)).mpr h0
    push_cast at this
    exact this
  have h1r : (q : ℝ) ≤ 4 / 5 := by
    have := (Rat.cast_le (K := ℝ)).mpr h1
    push_cast at this
    exact this
  obtain ⟨t0, t1⟩ := tan_bounds (lt_of_lt_of_le (by positivity) h0r) h1r
  obtain ⟨n0, n1⟩ := abs_lt.mp hn
  have p1 : near (Real.tan q) ≤ pow2 2 := by
    have : ((near (Real.tan q) : ℚ) : ℝ) ≤ ((pow2 2 : ℚ) : ℝ) := by
      rw [show pow2 2 = 4 by decide +kernel]; push_cast; norm_num at n0; linarith
    exact_mod_cast this
  have p0 : pow2 (-15) ≤ near (Real.tan q) := by
    have : ((pow2 (-15) : ℚ) : ℝ) ≤ ((near (Real.tan q) : ℚ) : ℝ) := by
      rw [show pow2 (-15) = 1 / 32768 by decide +kernel]; push_cast; norm_num at n1 h0r; linarith
    exact_mod_cast this
  have pp : 0 < near (Real.tan q) := lt_of_lt_of_le (pow2_pos _) p0
  refine ⟨_, Fl.lit_is (Fmt.fits_of_le_pow2 (k := 2) (by decide) (by decide) (by rw [abs_of_pos pp]; exact p1)), ?_⟩
  have h3 := b32.abs_rnd_sub_le_rel (q := near (Real.tan q)) (by rw [abs_of_pos pp]; exact (pow2_le (by decide)).trans p0)
  rw [abs_of_pos pp, show pow2 (-b32.p) = (2 ^ 24)⁻¹ by decide +kernel] at h3
  have h4 := (Rat.cast_le (K := ℝ)).mpr h3
  push_cast at h4
  have h6 := abs_sub_le ((b32.rnd (near (Real.tan q)) : ℚ) : ℝ) (near (Real.tan q)) (Real.tan q)
  rw [abs_sub_comm] at hn
  norm_num at *
  linarith

end Verif
