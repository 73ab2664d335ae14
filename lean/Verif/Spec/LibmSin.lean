import Verif.Spec.Libm

/-! # Accuracy assumed of the platform's `sin` -/

namespace Verif

/-- `sin` is accurate to 2^-40 on `[0, 7]`. -/
structure SinAccurate [Libm F64] : Prop where
  sin : ∀ (x : F64) (q : ℚ), x.Is q → 0 ≤ q → q ≤ 7 → ∃ c : ℚ, (Libm.sin x).Is c ∧ |(c : ℝ) - Real.sin q| ≤ (2 ^ 40)⁻¹

private noncomputable def near (c : ℝ) : ℚ := Classical.choose (exists_rat_near c (show (0 : ℝ) < (2 ^ 41)⁻¹ by positivity))
private theorem near_spec (c : ℝ) : |c - near c| < (2 ^ 41)⁻¹ :=
  Classical.choose_spec (exists_rat_near c (show (0 : ℝ) < (2 ^ 41)⁻¹ by positivity))

@[reducible] private noncomputable def libmSin : Libm F64 :=
  ⟨fun x => match x.toQ? with | none => lit 0 | some q => lit (near (Real.sin q)), id, id, id, fun x _ => x⟩

/-- The assumption can be met. -/
theorem sinAccurate_exists : ∃ l : Libm F64, @SinAccurate l := by
  let _ := libmSin
  refine ⟨libmSin, SinAccurate.mk ?_⟩
  intro x q hx _ _
  have e : x.toQ? = some q := hx
  show ∃ c, (match x.toQ? with | none => lit 0 | some q => lit (near (Real.sin q)) : F64).Is c ∧ _
  rw [e]
  have hn := near_spec (Real.sin q)
  have h1 := Real.abs_sin_le_one (q : ℝ)
  have h2 : |near (Real.sin q)| ≤ pow2 1 := by
    have : |((near (Real.sin q) : ℚ) : ℝ)| ≤ |Real.sin q - near (Real.sin q)| + |Real.sin q| := by
      have := abs_sub_abs_le_abs_sub ((near (Real.sin q) : ℚ) : ℝ) (Real.sin q)
      rw [abs_sub_comm] at this
      linarith
    have h3 : ((2 : ℝ) ^ 41)⁻¹ ≤ 1 := by norm_num
    have : |((near (Real.sin q) : ℚ) : ℝ)| ≤ 2 := by linarith
    rw [pow2_one]
    exact_mod_cast this
  refine ⟨_, Fl.lit_is (Fmt.fits_of_le_pow2 (by decide) (by decide) h2), ?_⟩
  have h3 := b64.abs_rnd_sub_le_of_abs_le (by decide) h2
  have h4 : |((b64.rnd (near (Real.sin q)) : ℚ) : ℝ) - near (Real.sin q)| ≤ (2 ^ 41)⁻¹ := by
    have h5 : |b64.rnd (near (Real.sin q)) - near (Real.sin q)| ≤ (2 ^ 41)⁻¹ := h3.trans (by decide +kernel)
    have h7 : ((|b64.rnd (near (Real.sin q)) - near (Real.sin q)| : ℚ) : ℝ) ≤ (((2 ^ 41)⁻¹ : ℚ) : ℝ) := Rat.cast_le.mpr h5
    push_cast at h7
    exact h7
  have h6 := abs_sub_le ((b64.rnd (near (Real.sin q)) : ℚ) : ℝ) (near (Real.sin q)) (Real.sin q)
  rw [abs_sub_comm] at hn
  have : ((2 : ℝ) ^ 41)⁻¹ + (2 ^ 41)⁻¹ = (2 ^ 40)⁻¹ := by norm_num
  linarith

end Verif
