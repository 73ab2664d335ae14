import Verif.Props.FilterAcc

/-! # LowPass and HighPass in `f32` next to exact arithmetic, as a function of the cutoff: C118 -/

namespace Verif
open Fl

/-- How much a rounding error in each step adds up to, in units of the largest output, for a filter whose cutoff is 1/u radians per sample. -/
noncomputable def loopError (u : ℝ) : ℝ := 31 * (2 * u ^ 4 + 4 * u ^ 3 + 55 / 12 * u ^ 2 + 19 / 6 * u + 301 / 100) / 2 ^ 24

/-- The error of the low pass filter. -/
noncomputable def lowError (u : ℝ) : ℝ := loopError u / (1 - loopError u) * (2 * u + 46 / 25 + 6 / 31)

/-- The error of the high pass filter. -/
noncomputable def highError (u : ℝ) : ℝ := loopError u / (1 - loopError u) * (1 + 3 * (2 * u + 46 / 25) + 2)

private theorem solve {g G L B a X : ℝ} (hg : g ≤ G) (hL : L = 31 * G / 2 ^ 24) (hG : 0 ≤ G) (h1 : L ≤ 1 / 2) (hX : 0 ≤ X) (hB : 0 ≤ B) (ha : 0 ≤ a) :
    g * ((2 ^ 24)⁻¹ * (31 * (B * X + L / (1 - L) * (B + a / 31) * X) + a * X)) ≤ L / (1 - L) * (B + a / 31) * X := by
  have hL0 : 0 ≤ L := by rw [hL]; positivity
  have hd : 0 < 1 - L := by linarith
  refine small_gain (L := L) hg (by positivity) (by rw [hL]; linarith) (le_of_eq ?_)
  field_simp
  ring

section
variable [Libm F64] (ha : LibmAccurate) {fc r : F64} {f ρ : ℚ} (hfc : fc.Is f) (hr : r.Is ρ) {l : F64} {lo : ℚ} (hl : l.Is lo) (hlo1 : 1 ≤ lo)
  (hlo2 : lo ≤ 24000) (hlo : lo ≤ f) {w : ℝ} (hw : 24000 ≤ w * lo * (314159 / 100000)) (hw1 : loopError w ≤ 1 / 2)
  {X : ℚ} (hX1 : (2 ^ 90)⁻¹ ≤ X) (hX2 : X ≤ 2 ^ 80) (x : ℕ → F32) (u : ℕ → ℚ) (hx : ∀ n, (x n).Is (u n)) (hu : ∀ n, |u n| ≤ X)
include ha hfc hr hl hlo1 hlo2 hlo hw hw1 hX1 hX2 hx hu

omit [Libm F64] ha hfc hr hl hlo1 hlo2 hlo hX1 hX2 hx hu in
private theorem w_bounds (hlo1 : 1 ≤ lo) : 0 < w ∧ w ≤ 100 := by
  have h1 : (1 : ℝ) ≤ lo := by exact_mod_cast hlo1
  have hw0 : 0 < w := by
    by_contra hn
    have : w * lo ≤ 0 := mul_nonpos_of_nonpos_of_nonneg (not_lt.mp hn) (by linarith)
    linarith
  refine ⟨hw0, ?_⟩
  by_contra hn
  have hn := (not_le.mp hn).le
  unfold loopError at hw1
  have : (100 : ℝ) ^ 4 ≤ w ^ 4 := pow_le_pow_left₀ (by norm_num) hn 4
  have h3 : 0 < w ^ 3 := by positivity
  have h2 : 0 < w ^ 2 := by positivity
  rw [div_le_iff₀ (by norm_num)] at hw1
  norm_num at this hw1
  linarith

/-- IEEE: the low pass filter follows its equations up to `lowError` of the largest input, for ever; `w` is (at least) the reciprocal of the cutoff in radians per sample. -/
theorem C118_lowpass_bound_partial (n : ℕ) : ∃ (y : F32) (q : ℚ) (z : ℝ),
    modOut Modifier.process x (LowPass.new fc r : LowPass F32 F64) n = .ok y ∧ y.Is q ∧
    modOut Modifier.process (fun n => (u n : ℝ)) (LowPass.new (f : ℝ) (ρ : ℝ) : LowPass ℝ ℝ) n = .ok z ∧ |(q : ℝ) - z| ≤ lowError w * X := by
  obtain ⟨X0, X1, X2⟩ := input_real hX1 hX2
  obtain ⟨w0, w1⟩ := w_bounds hw hw1 hlo1
  obtain ⟨T, K, z, hz, hT, hu', hT2, hK1, hK2, -, hn⟩ := lowpass_setup ha r hl hlo1 hlo2 hw (fa_not_lt_of hfc hl hlo) X1 X2 (fa_abs_input hx hu)
  obtain ⟨b1, b2⟩ := gain_le hT hu' hT2 hK1 hK2
  rw [fa_real_input hx] at hz
  have hd : 0 < 1 - loopError w := by linarith
  have hL0 : 0 ≤ loopError w := by unfold loopError; positivity
  have hr1 : loopError w / (1 - loopError w) ≤ 1 := by rw [div_le_one hd]; linarith
  have hE0 : 0 ≤ lowError w := by unfold lowError; positivity
  have hE : lowError w ≤ 300 := by
    unfold lowError
    calc loopError w / (1 - loopError w) * (2 * w + 46 / 25 + 6 / 31) ≤ 1 * (2 * w + 46 / 25 + 6 / 31) := by gcongr
      _ ≤ 300 := by linarith
  obtain ⟨y, hy, q, hq, hb, -⟩ := hn (B := 2 * w + 46 / 25) (D := lowError w * X) (by positivity) b1
    (by
      have : (2 * w + 46 / 25) * X + lowError w * X ≤ 600 * X := by rw [← add_mul]; exact mul_le_mul_of_nonneg_right (by linarith) X0.le
      norm_num at X2 ⊢
      linarith)
    (solve b2 rfl (by positivity) hw1 X0.le (by positivity) (by norm_num)) n
  exact ⟨y, q, z n, hy, hq, hz f ρ hfc hr n, hb⟩

/-- IEEE: the high pass filter, up to `highError`. -/
theorem C118_highpass_bound_partial (n : ℕ) : ∃ (y : F32) (q : ℚ) (z : ℝ),
    modOut Modifier.process x (HighPass.new fc r : HighPass F32 F64) n = .ok y ∧ y.Is q ∧
    modOut Modifier.process (fun n => (u n : ℝ)) (HighPass.new (f : ℝ) (ρ : ℝ) : HighPass ℝ ℝ) n = .ok z ∧ |(q : ℝ) - z| ≤ highError w * X := by
  obtain ⟨X0, X1, X2⟩ := input_real hX1 hX2
  obtain ⟨w0, w1⟩ := w_bounds hw hw1 hlo1
  obtain ⟨T, K, z, hz, hT, hu', hT2, hK1, hK2, -, hn⟩ := highpass_setup ha r hl hlo1 hlo2 hw (fa_not_lt_of hfc hl hlo) X1 X2 (fa_abs_input hx hu)
  obtain ⟨b1, b2⟩ := gain_le hT hu' hT2 hK1 hK2
  rw [fa_real_input hx] at hz
  have hd : 0 < 1 - loopError w := by linarith
  have hL0 : 0 ≤ loopError w := by unfold loopError; positivity
  have hr1 : loopError w / (1 - loopError w) ≤ 1 := by rw [div_le_one hd]; linarith
  have hE0 : 0 ≤ highError w := by unfold highError; positivity
  have hE : highError w ≤ 700 := by
    unfold highError
    calc loopError w / (1 - loopError w) * (1 + 3 * (2 * w + 46 / 25) + 2) ≤ 1 * (1 + 3 * (2 * w + 46 / 25) + 2) := by gcongr
      _ ≤ 700 := by linarith
  have hs := solve (a := 62) (B := 1 + 3 * (2 * w + 46 / 25)) b2 (rfl : loopError w = _) (by positivity) hw1 X0.le (by positivity) (by norm_num)
  rw [show (62 : ℝ) / 31 = 2 by norm_num] at hs
  obtain ⟨y, hy, q, hq, hb, -⟩ := hn (B := 1 + 3 * (2 * w + 46 / 25)) (D := highError w * X) (by positivity) (hp_size hK1 hK2 b1 (by positivity) le_rfl)
    (by
      have : (1 + 3 * (2 * w + 46 / 25)) * X + highError w * X ≤ 1400 * X := by rw [← add_mul]; exact mul_le_mul_of_nonneg_right (by linarith) X0.le
      norm_num at X2 ⊢
      linarith)
    hs n
  exact ⟨y, q, z n, hy, hq, hz f ρ hfc hr n, hb⟩
end

/-- The bounds for some cutoffs: at any resonance, a low pass from 12 kHz follows its equations to 1/18000 of the largest input, from 5 kHz to 1/2000,
from 2 kHz to 1/70, from 1 kHz to 3/10; a high pass to 1/5000, 1/600, 1/22 and 19/20. -/
theorem C118_table_partial [Libm F64] (ha : LibmAccurate) {fc r : F64} {f ρ : ℚ} (hfc : fc.Is f) (hr : r.Is ρ)
    {X : ℚ} (hX1 : (2 ^ 90)⁻¹ ≤ X) (hX2 : X ≤ 2 ^ 80) (x : ℕ → F32) (u : ℕ → ℚ) (hx : ∀ n, (x n).Is (u n)) (hu : ∀ n, |u n| ≤ X) (n : ℕ) :
    (∀ t ∈ [(12000, 1 / 18000), (5000, 1 / 2000), (2000, 1 / 70), (1000, (3 / 10 : ℚ))], t.1 ≤ f → ∃ (y : F32) (q : ℚ) (z : ℝ),
      modOut Modifier.process x (LowPass.new fc r : LowPass F32 F64) n = .ok y ∧ y.Is q ∧
      modOut Modifier.process (fun n => (u n : ℝ)) (LowPass.new (f : ℝ) (ρ : ℝ) : LowPass ℝ ℝ) n = .ok z ∧ |(q : ℝ) - z| ≤ t.2 * X) ∧
    ∀ t ∈ [(12000, 1 / 5000), (5000, 1 / 600), (2000, 1 / 22), (1000, (19 / 20 : ℚ))], t.1 ≤ f → ∃ (y : F32) (q : ℚ) (z : ℝ),
      modOut Modifier.process x (HighPass.new fc r : HighPass F32 F64) n = .ok y ∧ y.Is q ∧
      modOut Modifier.process (fun n => (u n : ℝ)) (HighPass.new (f : ℝ) (ρ : ℝ) : HighPass ℝ ℝ) n = .ok z ∧ |(q : ℝ) - z| ≤ t.2 * X := by
  have X0 := (input_real hX1 hX2).1
  have L : ∀ {l : F64} {lo e : ℚ} {w : ℝ}, l.Is lo → 1 ≤ lo → lo ≤ 24000 → 24000 ≤ w * lo * (314159 / 100000) → loopError w ≤ 1 / 2 → lowError w ≤ e →
      lo ≤ f → ∃ (y : F32) (q : ℚ) (z : ℝ), modOut Modifier.process x (LowPass.new fc r : LowPass F32 F64) n = .ok y ∧ y.Is q ∧
      modOut Modifier.process (fun n => (u n : ℝ)) (LowPass.new (f : ℝ) (ρ : ℝ) : LowPass ℝ ℝ) n = .ok z ∧ |(q : ℝ) - z| ≤ e * X := by
    intro l lo e w h1 h2 h3 h4 h5 h6 h7
    obtain ⟨y, q, z, a1, a2, a3, a4⟩ := C118_lowpass_bound_partial ha hfc hr h1 h2 h3 h7 h4 h5 hX1 hX2 x u hx hu n
    exact ⟨y, q, z, a1, a2, a3, a4.trans (mul_le_mul_of_nonneg_right h6 X0.le)⟩
  have H : ∀ {l : F64} {lo e : ℚ} {w : ℝ}, l.Is lo → 1 ≤ lo → lo ≤ 24000 → 24000 ≤ w * lo * (314159 / 100000) → loopError w ≤ 1 / 2 → highError w ≤ e →
      lo ≤ f → ∃ (y : F32) (q : ℚ) (z : ℝ), modOut Modifier.process x (HighPass.new fc r : HighPass F32 F64) n = .ok y ∧ y.Is q ∧
      modOut Modifier.process (fun n => (u n : ℝ)) (HighPass.new (f : ℝ) (ρ : ℝ) : HighPass ℝ ℝ) n = .ok z ∧ |(q : ℝ) - z| ≤ e * X := by
    intro l lo e w h1 h2 h3 h4 h5 h6 h7
    obtain ⟨y, q, z, a1, a2, a3, a4⟩ := C118_highpass_bound_partial ha hfc hr h1 h2 h3 h7 h4 h5 hX1 hX2 x u hx hu n
    exact ⟨y, q, z, a1, a2, a3, a4.trans (mul_le_mul_of_nonneg_right h6 X0.le)⟩
  have i1 : (lit 12000 : F64).Is 12000 := by decide +kernel
  have i2 : (lit 5000 : F64).Is 5000 := by decide +kernel
  have i3 : (lit 2000 : F64).Is 2000 := by decide +kernel
  have i4 : (lit 1000 : F64).Is 1000 := by decide +kernel
  constructor <;> intro t ht hf
  · simp only [List.mem_cons, List.not_mem_nil, or_false] at ht
    rcases ht with rfl | rfl | rfl | rfl
    · exact L (w := 637 / 1000) i1 (by norm_num) (by norm_num) (by norm_num) (by unfold loopError; norm_num) (by unfold lowError loopError; norm_num) hf
    · exact L (w := 1528 / 1000) i2 (by norm_num) (by norm_num) (by norm_num) (by unfold loopError; norm_num) (by unfold lowError loopError; norm_num) hf
    · exact L (w := 382 / 100) i3 (by norm_num) (by norm_num) (by norm_num) (by unfold loopError; norm_num) (by unfold lowError loopError; norm_num) hf
    · exact L (w := 764 / 100) i4 (by norm_num) (by norm_num) (by norm_num) (by unfold loopError; norm_num) (by unfold lowError loopError; norm_num) hf
  · simp only [List.mem_cons, List.not_mem_nil, or_false] at ht
    rcases ht with rfl | rfl | rfl | rfl
    · exact H (w := 637 / 1000) i1 (by norm_num) (by norm_num) (by norm_num) (by unfold loopError; norm_num) (by unfold highError loopError; norm_num) hf
    · exact H (w := 1528 / 1000) i2 (by norm_num) (by norm_num) (by norm_num) (by unfold loopError; norm_num) (by unfold highError loopError; norm_num) hf
    · exact H (w := 382 / 100) i3 (by norm_num) (by norm_num) (by norm_num) (by unfold loopError; norm_num) (by unfold highError loopError; norm_num) hf
    · exact H (w := 764 / 100) i4 (by norm_num) (by norm_num) (by norm_num) (by unfold loopError; norm_num) (by unfold highError loopError; norm_num) hf

/-- 8 kHz at full resonance, any samples in [-1, 1]. -/
example [Libm F64] (ha : LibmAccurate) (x : ℕ → F32) (u : ℕ → ℚ) (hx : ∀ n, (x n).Is (u n)) (hu : ∀ n, |u n| ≤ 1) (n : ℕ) : ∃ (y : F32) (q : ℚ) (z : ℝ),
    modOut Modifier.process x (LowPass.new (lit 8000 : F64) (lit 1) : LowPass F32 F64) n = .ok y ∧ y.Is q ∧
    modOut Modifier.process (fun n => (u n : ℝ)) (LowPass.new ((8000 : ℚ) : ℝ) ((1 : ℚ) : ℝ) : LowPass ℝ ℝ) n = .ok z ∧ |(q : ℝ) - z| ≤ ((1 / 2000 : ℚ) : ℝ) * (1 : ℚ) :=
  (C118_table_partial ha (by decide +kernel) (by decide +kernel) (by norm_num) (by norm_num) x u hx hu n).1 (5000, 1 / 2000) (by simp) (by norm_num)

end Verif
