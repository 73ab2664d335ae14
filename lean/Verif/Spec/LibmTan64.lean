import Verif.Spec.LibmTan

/-! # Accuracy assumed of the platform's `tan` in f64 -/

namespace Verif

/-- `tan` is accurate to relative error 2^-40 on `[2^-12, 1.5705]`. -/
structure Tan64Accurate [Libm F64] : Prop where
  tan : ∀ (x : F64) (q : ℚ), x.Is q → (2 ^ 12)⁻¹ ≤ q → q ≤ 15705 / 10000 →
    ∃ c : ℚ, (Libm.tan x).Is c ∧ |(c : ℝ) - Real.tan q| ≤ (2 ^ 40)⁻¹ * Real.tan q

private noncomputable def near (c : ℝ) : ℚ := Classical.choose (exists_rat_near c (show (0 : ℝ) < (2 ^ 60)⁻¹ by positivity))
private theorem near_spec (c : ℝ) : |c - near c| < (2 ^ 60)⁻¹ :=
  Classical.choose_spec (exists_rat_near c (show (0 : ℝ) < (2 ^ 60)⁻¹ by positivity))

@[reducible] private noncomputable def libmTan : Libm F64 :=
  ⟨id, id, fun x => match x.toQ? with | none => lit 0 | some q => lit (near (Real.tan q)), id, fun x _ => x⟩

/-- `x ≤ tan x ≤ 1/(π/2 - x)` on `(0, π/2)`. -/
theorem tan_bounds' {q : ℝ} (h0 : 0 < q) (h1 : q < Real.pi / 2) : q ≤ Real.tan q ∧ Real.tan q ≤ 1 / (Real.pi / 2 - q) := by
  refine ⟨Real.le_tan h0.le h1, ?_⟩
  have h := Real.le_tan (x := Real.pi / 2 - q) (by linarith) (by linarith)
  rw [Real.tan_pi_div_two_sub] at h
  have ht : 0 < Real.tan q := Real.tan_pos_of_pos_of_lt_pi_div_two h0 h1
  rw [le_div_iff₀ (by linarith)]
  calc Real.tan q * (Real.pi / 2 - q) ≤ Real.tan q * (Real.tan q)⁻¹ := mul_le_mul_of_nonneg_left h ht.le
    _ = 1 := mul_inv_cancel₀ ht.ne'

/-- The assumption can be met. -/
theorem tan64Accurate_exists : ∃ l : Libm F64, @Tan64Accurate l := by
  let _ := libmTan
  refine ⟨libmTan, Tan64Accurate.mk ?_⟩
  intro x q hx h0 h1
  have e : x.toQ? = some q := hx
  show ∃ c, (match x.toQ? with | none => lit 0 | some q => lit (near (Real.tan q)) : F64).Is c ∧ _
  rw [e]
  have hn := near_spec (Real.tan q)
  have h0r : ((2 : ℝ) ^ 12)⁻¹ ≤ q := by
    have := (Rat.cast_le (K := ℝ)).mpr h0
    push_cast at this
    exact this
  have h1r : (q : ℝ) ≤ 15705 / 10000 := by
    have := (Rat.cast_le (K := ℝ)).mpr h1
    push_cast at this
    exact this
  have hpi := Real.pi_gt_d6
  obtain ⟨t0, t1⟩ := tan_bounds' (q := q) (lt_of_lt_of_le (by positivity) h0r) (by norm_num at hpi; linarith)
  have t2 : Real.tan q ≤ 10000 := t1.trans (by
    rw [div_le_iff₀ (by norm_num at hpi; linarith)]; norm_num at hpi; linarith)
  obtain ⟨n0, n1⟩ := abs_lt.mp hn
  have p1 : near (Real.tan q) ≤ pow2 14 := by
    have : ((near (Real.tan q) : ℚ) : ℝ) ≤ ((pow2 14 : ℚ) : ℝ) := by
      rw [show pow2 14 = 16384 by decide +kernel]; push_cast; norm_num at n0; linarith
    exact_mod_cast this
  have p0 : pow2 (-13) ≤ near (Real.tan q) := by
    have : ((pow2 (-13) : ℚ) : ℝ) ≤ ((near (Real.tan q) : ℚ) : ℝ) := by
      rw [show pow2 (-13) = 1 / 8192 by decide +kernel]; push_cast; norm_num at n1 h0r; linarith
    exact_mod_cast this
  have pp : 0 < near (Real.tan q) := lt_of_lt_of_le (pow2_pos _) p0
  refine ⟨_, Fl.lit_is (Fmt.fits_of_le_pow2 (k := 14) (by decide) (by decide) (by rw [abs_of_pos pp]; exact p1)), ?_⟩
  have h3 := b64.abs_rnd_sub_le_rel (q := near (Real.tan q)) (by rw [abs_of_pos pp]; exact (pow2_le (by decide)).trans p0)
  rw [abs_of_pos pp, show pow2 (-b64.p) = (2 ^ 53)⁻¹ by decide +kernel] at h3
  have h4 := (Rat.cast_le (K := ℝ)).mpr h3
  push_cast at h4
  have h6 := abs_sub_le ((b64.rnd (near (Real.tan q)) : ℚ) : ℝ) (near (Real.tan q)) (Real.tan q)
  rw [abs_sub_comm] at hn
  norm_num at *
  linarith

end Verif
