import Verif.Float.Order
import Mathlib.Analysis.SpecialFunctions.Trigonometric.Basic

/-! # Accuracy assumed of the platform's libm

Rust does not specify how accurate `cos` and `powf` are. Theorems that need it assume the following, which
is weaker than what any libm in use provides (relative error about 2^-52). -/

namespace Verif

/-- `cos` and the powers 2 and 3 are accurate to 2^-40. -/
structure LibmAccurate [Libm F64] : Prop where
  cos : ∀ (x : F64) (q : ℚ), x.Is q → |q| ≤ 4 → ∃ c : ℚ, (Libm.cos x).Is c ∧ |(c : ℝ) - Real.cos q| ≤ (2 ^ 40)⁻¹
  pow : ∀ (x : F64) (q : ℚ) (n : ℕ), x.Is q → pow2 (-20) ≤ q → q ≤ 4 → n = 2 ∨ n = 3 →
    ∃ p : ℚ, (Libm.pow x (lit n)).Is p ∧ |p - q ^ n| ≤ (2 ^ 40)⁻¹ * q ^ n

private noncomputable def near (c : ℝ) : ℚ := Classical.choose (exists_rat_near c (show (0 : ℝ) < (2 ^ 41)⁻¹ by positivity))
private theorem near_spec (c : ℝ) : |c - near c| < (2 ^ 41)⁻¹ :=
  Classical.choose_spec (exists_rat_near c (show (0 : ℝ) < (2 ^ 41)⁻¹ by positivity))

@[reducible] private noncomputable def libmRef : Libm F64 :=
  ⟨id, fun x => match x.toQ? with | none => lit 0 | some q => lit (near (Real.cos q)), id, id,
    fun x y => match x.toQ? with | none => lit 0 | some q => if y = lit ((2 : ℕ) : ℚ) then lit (q ^ 2) else lit (q ^ 3)⟩

/-- The assumption can be met. -/
theorem libmAccurate_exists : ∃ l : Libm F64, @LibmAccurate l := by
  let _ := libmRef
  refine ⟨libmRef, LibmAccurate.mk ?_ ?_⟩
  · intro x q hx _
    have e : x.toQ? = some q := hx
    show ∃ c, (match x.toQ? with | none => lit 0 | some q => lit (near (Real.cos q)) : F64).Is c ∧ _
    rw [e]
    have hn := near_spec (Real.cos q)
    have h1 := Real.abs_cos_le_one (q : ℝ)
    have h2 : |near (Real.cos q)| ≤ pow2 1 := by
      have : |((near (Real.cos q) : ℚ) : ℝ)| ≤ |Real.cos q - near (Real.cos q)| + |Real.cos q| := by
        have := abs_sub_abs_le_abs_sub ((near (Real.cos q) : ℚ) : ℝ) (Real.cos q)
        rw [abs_sub_comm] at this
        linarith
      have h3 : ((2 : ℝ) ^ 41)⁻¹ ≤ 1 := by norm_num
      have : |((near (Real.cos q) : ℚ) : ℝ)| ≤ 2 := by linarith
      rw [pow2_one]
      exact_mod_cast this
    refine ⟨_, Fl.lit_is (Fmt.fits_of_le_pow2 (by decide) (by decide) h2), ?_⟩
    have h3 := b64.abs_rnd_sub_le_of_abs_le (by decide) h2
    have h4 : |((b64.rnd (near (Real.cos q)) : ℚ) : ℝ) - near (Real.cos q)| ≤ (2 ^ 41)⁻¹ := by
      have h5 : |b64.rnd (near (Real.cos q)) - near (Real.cos q)| ≤ (2 ^ 41)⁻¹ := h3.trans (by decide +kernel)
      have h7 : ((|b64.rnd (near (Real.cos q)) - near (Real.cos q)| : ℚ) : ℝ) ≤ (((2 ^ 41)⁻¹ : ℚ) : ℝ) := Rat.cast_le.mpr h5
      push_cast at h7
      exact h7
    have h6 := abs_sub_le ((b64.rnd (near (Real.cos q)) : ℚ) : ℝ) (near (Real.cos q)) (Real.cos q)
    rw [abs_sub_comm] at hn
    have : ((2 : ℝ) ^ 41)⁻¹ + (2 ^ 41)⁻¹ = (2 ^ 40)⁻¹ := by norm_num
    linarith
  · intro x q n hx h1 h2 hn
    have e : x.toQ? = some q := hx
    have hq0 : 0 < q := lt_of_lt_of_le (pow2_pos _) h1
    have key : ∀ k, k = 2 ∨ k = 3 → ∃ p : ℚ, (lit (q ^ k) : F64).Is p ∧ |p - q ^ k| ≤ (2 ^ 40)⁻¹ * q ^ k := by
      intro k hk
      have hp : pow2 (-60) ≤ q ^ k := by
        have : pow2 (-60) ≤ pow2 (-20) ^ k := by
          rcases hk with rfl | rfl <;> decide +kernel
        exact this.trans (pow_le_pow_left₀ (pow2_pos _).le h1 k)
      have hu : q ^ k ≤ pow2 6 := by
        have : (4 : ℚ) ^ k ≤ pow2 6 := by
          rcases hk with rfl | rfl <;> decide +kernel
        exact (pow_le_pow_left₀ hq0.le h2 k).trans this
      have hpos : 0 < q ^ k := pow_pos hq0 k
      refine ⟨_, Fl.lit_is (Fmt.fits_of_le_pow2 (k := 6) (by decide) (by decide) (by rw [abs_of_pos hpos]; exact hu)), ?_⟩
      have := b64.abs_rnd_sub_le_rel (q := q ^ k) (by rw [abs_of_pos hpos]; exact (pow2_le (by decide)).trans hp)
      rw [abs_of_pos hpos] at this
      refine this.trans ?_
      exact mul_le_mul_of_nonneg_right (by decide +kernel) hpos.le
    show ∃ p, (match x.toQ? with | none => lit 0 | some q => if lit (n : ℚ) = lit ((2 : ℕ) : ℚ) then lit (q ^ 2) else lit (q ^ 3) : F64).Is p ∧ _
    rw [e]
    rcases hn with rfl | rfl
    · simp only [if_true]; exact key 2 (.inl rfl)
    · have : ¬ (lit ((3 : ℕ) : ℚ) : F64) = lit ((2 : ℕ) : ℚ) := by decide +kernel
      simp only [if_neg this]; exact key 3 (.inr rfl)

end Verif
