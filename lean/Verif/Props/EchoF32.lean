import Verif.Props.Delay

/-! # Echo in floating point: C102 -/

namespace Verif
open Fl

private theorem pow2s : pow2 (-(b32.p : ℤ)) = (2 ^ 24)⁻¹ ∧ pow2 (b32.emin - 1) = (2 ^ 150)⁻¹ := by decide +kernel

private theorem mixed32 (q : ℚ) : |b32.rnd q| ≤ |q| * (1 + (2 ^ 24)⁻¹) + (2 ^ 150)⁻¹ := by
  have h := b32.abs_rnd_sub_le_mixed q
  rw [pow2s.1, pow2s.2] at h
  have := abs_sub_abs_le_abs_sub (b32.rnd q) q
  linarith

/-- IEEE: with a gain of magnitude at most `1 - 2^-20` an Echo never panics, never produces an infinity or NaN, and
turns inputs of magnitude at most `X ≤ 2^70` into outputs of magnitude at most `2X/(1-|g|)` (up to `2^-128`). -/
theorem C102_echo_bounded (m : Echo F32) (D : ℕ) (hD : 0 < D) (hm : m.delay = List.replicate D (lit 0)) {g : ℚ}
    (hg : m.gain.Is g) (hg1 : |g| ≤ 1 - (2 ^ 20)⁻¹) (x : ℕ → F32) {X : ℚ} (hX : X ≤ 2 ^ 70) (hx : ∀ n, (x n).In (-X) X) (n : ℕ) :
    ∃ (y : F32) (v : ℚ), modOut Echo.process x m n = .ok y ∧ y.Is v ∧ |v| ≤ 2 * X / (1 - |g|) + (2 ^ 128)⁻¹ := by
  obtain ⟨y, hy⟩ := C54_echo m D hD hm x
  have hX0 : 0 ≤ X := by
    obtain ⟨q, -, h1, h2⟩ := hx 0
    linarith
  set d := 1 - |g| with hd
  have d0 : (2 ^ 20)⁻¹ ≤ d := by linarith
  have dp : 0 < d := lt_of_lt_of_le (by positivity) d0
  have d1 : d ≤ 1 := by linarith [abs_nonneg g]
  set B := 2 * X / d + (2 ^ 128)⁻¹ with hB
  have hBd : B * d = 2 * X + (2 ^ 128)⁻¹ * d := by rw [hB]; field_simp
  have B0 : 0 ≤ B := by rw [hB]; positivity
  have B1 : B ≤ 2 ^ 92 := by
    have : 2 * X / d ≤ 2 ^ 91 := by
      rw [div_le_iff₀ dp]
      calc 2 * X ≤ 2 * 2 ^ 70 := by linarith
        _ = 2 ^ 91 * (2 ^ 20)⁻¹ := by norm_num
        _ ≤ 2 ^ 91 * d := by gcongr
    rw [hB]
    refine (add_le_add this le_rfl).trans (by norm_num)
  -- the bound is kept by one step
  have keep : (B * |g| * (1 + (2 ^ 24)⁻¹) + (2 ^ 150)⁻¹ + X) * (1 + (2 ^ 24)⁻¹) + (2 ^ 150)⁻¹ ≤ B := by
    have eg : |g| = 1 - d := by rw [hd]; ring
    have k1 : (1 - d) * (1 + (2 ^ 24)⁻¹) * (1 + (2 ^ 24)⁻¹) ≤ 1 - d * (13 / 16) := by
      norm_num at d0 ⊢; linarith
    have k2 : B * ((1 - d) * (1 + (2 ^ 24)⁻¹) * (1 + (2 ^ 24)⁻¹)) ≤ B * (1 - d * (13 / 16)) := mul_le_mul_of_nonneg_left k1 B0
    have k3 : B * (1 - d * (13 / 16)) = B - (2 * X + (2 ^ 128)⁻¹ * d) * (13 / 16) := by rw [← hBd]; ring
    have k4 : (B * |g| * (1 + (2 ^ 24)⁻¹) + (2 ^ 150)⁻¹ + X) * (1 + (2 ^ 24)⁻¹) + (2 ^ 150)⁻¹ =
        B * ((1 - d) * (1 + (2 ^ 24)⁻¹) * (1 + (2 ^ 24)⁻¹)) + X * (1 + (2 ^ 24)⁻¹) + (2 ^ 150)⁻¹ * (2 + (2 ^ 24)⁻¹) := by
      rw [eg]; ring
    rw [k4]
    have k5 : (2 ^ 150 : ℚ)⁻¹ * (2 + (2 ^ 24)⁻¹) ≤ (2 ^ 128)⁻¹ * (2 ^ 20)⁻¹ * (13 / 16) := by norm_num
    have k6 : (2 ^ 128 : ℚ)⁻¹ * (2 ^ 20)⁻¹ ≤ (2 ^ 128)⁻¹ * d := by gcongr
    have k7 : X * (1 + (2 ^ 24)⁻¹) ≤ 2 * X * (13 / 16) := by norm_num; linarith
    linarith
  have main : ∀ n, ∃ v, (y n).Is v ∧ |v| ≤ B := by
    intro n
    induction n using Nat.strong_induction_on with
    | _ n ih =>
      rw [(hy n).2]
      obtain ⟨p, hp, hpB⟩ : ∃ p, ((if n < D then lit 0 else y (n - D)) : F32).Is p ∧ |p| ≤ B := by
        split_ifs with h
        · exact ⟨0, by decide +kernel, by rw [abs_zero]; exact B0⟩
        · exact ih (n - D) (by omega)
      obtain ⟨q, hq, q0, q1⟩ := hx n
      have hqX : |q| ≤ X := abs_le.mpr ⟨q0, q1⟩
      have pg : |p * g| ≤ B * |g| := by rw [abs_mul]; exact mul_le_mul_of_nonneg_right hpB (abs_nonneg _)
      have pgB : B * |g| ≤ B := mul_le_of_le_one_right B0 (by linarith)
      have ha := Is.mul hp hg (fits32' 92 (by norm_num) ((pg.trans pgB).trans B1))
      have ea := mixed32 (p * g)
      have ea' : |b32.rnd (p * g)| ≤ B * |g| * (1 + (2 ^ 24)⁻¹) + (2 ^ 150)⁻¹ :=
        ea.trans (by gcongr)
      have s : |b32.rnd (p * g) + q| ≤ B * |g| * (1 + (2 ^ 24)⁻¹) + (2 ^ 150)⁻¹ + X :=
        (abs_add_le _ _).trans (add_le_add ea' hqX)
      have hb := Is.add ha hq (fits32' 94 (by norm_num) (s.trans (by
        have : B * |g| * (1 + (2 ^ 24)⁻¹) ≤ 2 ^ 92 * 2 := by
          refine mul_le_mul (pgB.trans B1) (by norm_num) (by positivity) (by positivity)
        norm_num at this hX ⊢
        linarith)))
      exact ⟨_, hb, (mixed32 _).trans (le_trans (by gcongr) keep)⟩
  obtain ⟨v, hv, hvB⟩ := main n
  exact ⟨y n, v, (hy n).1, hv, hvB⟩

/-- Gain 0.5, ten samples, full-scale input: the output stays below `4 + 2^-128`. -/
example : (⟨List.replicate 10 (lit 0), lit (1 / 2)⟩ : Echo F32).gain.Is (1 / 2) ∧ |(1 / 2 : ℚ)| ≤ 1 - (2 ^ 20)⁻¹ ∧
    ∀ n : ℕ, (if n % 2 = 0 then lit 1 else lit (-1) : F32).In (-1) 1 := by
  refine ⟨by decide +kernel, by norm_num [abs_of_pos], fun n => ?_⟩
  split_ifs
  · exact ⟨1, by decide +kernel, by norm_num, by norm_num⟩
  · exact ⟨-1, by decide +kernel, by norm_num, by norm_num⟩

/-- The gain has to be limited: at gain 2 a single unit pulse becomes infinite after 128 repeats. -/
theorem C102_bound_needed :
    (modOut Echo.process (fun n => if n = 0 then (lit 1 : F32) else lit 0) ⟨[lit 0], lit 2⟩ 128).toOption = some (.inf false) := by
  decide +kernel

end Verif
