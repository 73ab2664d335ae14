import Verif.Proofs.FilterAcc

/-! # LowPass and HighPass in `f32`: C96 (bounded from 400 Hz up) and C97 -/

namespace Verif
open Fl

/-! ## C97: the stored coefficients -/

/-- A finite sample within relative error `1.03125 · 2^-24` of a real number: next to the best that `f32` allows. -/
def NearUlp (x : F32) (b : ℝ) : Prop := ∃ q : ℚ, x.Is q ∧ |(q : ℝ) - b| ≤ 33 / 2 ^ 29 * |b|

private theorem not_lt_one {fc : F64} {f : ℚ} (hfc : fc.Is f) (hf : 1 ≤ f) : (fc <? lit 1) = false := by
  rw [hfc.lt (show (lit 1 : F64).Is 1 by decide +kernel), decide_eq_false_iff_not]
  exact not_lt.mpr hf

section
variable [Libm F64] (ha : LibmAccurate) {fc r : F64} {f ρ : ℚ} (hfc : fc.Is f) (hr : r.Is ρ) (hf : 1 ≤ f)
include ha hfc hr hf

/-- The coefficients of a low pass filter are those of the third order prototype at the limited cutoff and
resonance, each within relative error 1.03125 · 2^-24 (one rounding has 2^-24). -/
theorem C97_lowpass :
    let w : ℝ := 2 * Real.pi * min f 24000 / 48000
    let k : ℝ := 1 - 2 * Real.cos (Real.pi * (4 - max (min ρ 1) 0) / 6)
    let g : ℝ := w ^ 3 + k * w ^ 2 + k * w + 1
    let m : LowPass F32 F64 := LowPass.new fc r
    NearUlp m.c0 (w ^ 3 / g) ∧ NearUlp m.c1 ((k * w ^ 2 + 2 * k * w + 3) / g) ∧ NearUlp m.c2 ((-k * w - 3) / g) ∧ NearUlp m.c3 (1 / g) := by
  obtain ⟨F, R, -, -, -, -, hF, hR, c0, c1, c2, c3, f', r', e, -, -, h0, h1, h2, h3⟩ :=
    lowpass_app ha (r := r) (show (lit 1 : F64).Is 1 by decide +kernel) (by norm_num) (by norm_num) (not_lt_one hfc hf)
  obtain rfl := hF f hfc
  obtain rfl := hR ρ hr
  intro w k g m
  have em : m = ⟨f', r', c0, c1, c2, c3, lit 0, lit 0, lit 0⟩ := e
  have ew : lpT ((min f 24000 : ℚ) : ℝ) = w := by simp only [lpT, w]
  have ek : lpK ((max (min ρ 1) 0 : ℚ) : ℝ) = k := by simp only [lpK, k]
  rw [ew, ek] at h0 h1 h2 h3
  rw [em]
  exact ⟨h0, h1, h2, h3⟩

/-- The same for a high pass filter. -/
theorem C97_highpass :
    let w : ℝ := 2 * Real.pi * min f 24000 / 48000
    let k : ℝ := 1 - 2 * Real.cos (Real.pi * (4 - max (min ρ 1) 0) / 6)
    let g : ℝ := w ^ 3 + k * w ^ 2 + k * w + 1
    let m : HighPass F32 F64 := HighPass.new fc r
    NearUlp m.a0 (1 / g) ∧ NearUlp m.a1 (-3 / g) ∧ NearUlp m.a2 (3 / g) ∧ NearUlp m.a3 (-1 / g) ∧
    NearUlp m.b1 ((k * w ^ 2 + 2 * k * w + 3) / g) ∧ NearUlp m.b2 ((-k * w - 3) / g) ∧ NearUlp m.b3 (1 / g) := by
  obtain ⟨F, R, -, -, -, -, hF, hR, a0, a1, a2, a3, b1, b2, b3, f', r', e, -, -, h0, h1, h2, h3, h4, h5, h6⟩ :=
    highpass_app ha (r := r) (show (lit 1 : F64).Is 1 by decide +kernel) (by norm_num) (by norm_num) (not_lt_one hfc hf)
  obtain rfl := hF f hfc
  obtain rfl := hR ρ hr
  intro w k g m
  have em : m = ⟨a0, a1, a2, a3, b1, b2, b3, lit 0, lit 0, lit 0, lit 0, lit 0, lit 0, f', r'⟩ := e
  have ew : lpT ((min f 24000 : ℚ) : ℝ) = w := by simp only [lpT, w]
  have ek : lpK ((max (min ρ 1) 0 : ℚ) : ℝ) = k := by simp only [lpK, k]
  rw [ew, ek] at h0 h1 h2 h3 h4 h5 h6
  rw [em]
  exact ⟨h0, h1, h2, h3, h4, h5, h6⟩
end

/-- A 440 Hz filter with resonance 1/2. -/
example : ∃ l : Libm F64, @LibmAccurate l ∧ (lit 440 : F64).Is 440 ∧ (lit (1 / 2) : F64).Is (1 / 2) ∧ (1 : ℚ) ≤ 440 := by
  obtain ⟨l, hl⟩ := libmAccurate_exists
  exact ⟨l, hl, by decide +kernel, by decide +kernel, by norm_num⟩

/-! ## C96: bounded input, bounded output -/

section
variable [Libm F64] (ha : LibmAccurate) {fc : F64} (r : F64)
  {X : ℚ} (hX1 : (2 ^ 90)⁻¹ ≤ X) (hX2 : X ≤ 2 ^ 80) (x : ℕ → F32) (hx : ∀ n, (x n).In (-X) X)
include ha hX1 hX2 hx

/-- A low pass filter whose cutoff is not below 400 Hz, at any resonance and for any input in `[-X, X]`, outputs only
finite samples, all within `100 X`. -/
theorem C96_lowpass_partial (hfc : (fc <? lit 400) = false) (n : ℕ) :
    ∃ y, modOut Modifier.process x (LowPass.new fc r : LowPass F32 F64) n = .ok y ∧ y.In (-(100 * X)) (100 * X) := by
  obtain ⟨X0, X1, X2⟩ := input_real hX1 hX2
  obtain ⟨T, K, z, -, hT, hu, hT2, hK1, hK2, -, hn⟩ := lowpass_setup ha r (show (lit 400 : F64).Is 400 by decide +kernel) (by norm_num) (by norm_num)
    (u0 := 191 / 10) (by norm_num) hfc X1 X2 (input_abs hx)
  obtain ⟨b1, b2⟩ := gain_le hT hu hT2 hK1 hK2
  obtain ⟨y, hy, q, hq, -, hb⟩ := hn (B := 4004 / 100) (D := 50 * X) (by positivity) (b1.trans (by norm_num))
    (by norm_num at X2 ⊢; linarith) (small_gain (L := 5466 / 10000) b2 (by positivity) (by norm_num) (by linarith)) n
  exact ⟨y, hy, in_of_abs hq (hb.trans (by push_cast; linarith))⟩

/-- The same for a high pass filter, within `300 X`. -/
theorem C96_highpass_partial (hfc : (fc <? lit 400) = false) (n : ℕ) :
    ∃ y, modOut Modifier.process x (HighPass.new fc r : HighPass F32 F64) n = .ok y ∧ y.In (-(300 * X)) (300 * X) := by
  obtain ⟨X0, X1, X2⟩ := input_real hX1 hX2
  obtain ⟨T, K, z, -, hT, hu, hT2, hK1, hK2, -, hn⟩ := highpass_setup ha r (show (lit 400 : F64).Is 400 by decide +kernel) (by norm_num) (by norm_num)
    (u0 := 191 / 10) (by norm_num) hfc X1 X2 (input_abs hx)
  obtain ⟨b1, b2⟩ := gain_le hT hu hT2 hK1 hK2
  obtain ⟨y, hy, q, hq, -, hb⟩ := hn (B := 12112 / 100) (D := 150 * X) (by positivity) (hp_size hK1 hK2 b1 (by norm_num) (by norm_num))
    (by norm_num at X2 ⊢; linarith) (small_gain (L := 5466 / 10000) b2 (by positivity) (by norm_num) (by linarith)) n
  exact ⟨y, hy, in_of_abs hq (hb.trans (by push_cast; linarith))⟩

/-- At a resonance up to 1/2 the cutoff need not be above 200 Hz, and the low pass filter stays within `13 X`. -/
theorem C96_lowpass_damped_partial {ρ : ℚ} (hr : r.Is ρ) (hρ : ρ ≤ 1 / 2) (hfc : (fc <? lit 200) = false) (n : ℕ) :
    ∃ y, modOut Modifier.process x (LowPass.new fc r : LowPass F32 F64) n = .ok y ∧ y.In (-(13 * X)) (13 * X) := by
  obtain ⟨X0, X1, X2⟩ := input_real hX1 hX2
  obtain ⟨T, K, z, -, hT, hu, hT2, hK1, hK2, hk, hn⟩ := lowpass_setup ha r (show (lit 200 : F64).Is 200 by decide +kernel) (by norm_num) (by norm_num)
    (u0 := 382 / 10) (by norm_num) hfc X1 X2 (input_abs hx)
  obtain ⟨b1, b2⟩ := gain_le' hT hu (p0 := 191 / 100) (half_inv hT hu (by norm_num) (by norm_num)) hT2 (hk ρ hr hρ) hK2
  obtain ⟨y, hy, q, hq, -, hb⟩ := hn (B := 63 / 10) (D := 65 / 10 * X) (by positivity) (b1.trans (by norm_num))
    (by norm_num at X2 ⊢; linarith) (small_gain (L := 4855 / 10000) b2 (by positivity) (by norm_num) (by linarith)) n
  exact ⟨y, hy, in_of_abs hq (hb.trans (by push_cast; linarith))⟩

/-- The same for a high pass filter, within `42 X`. -/
theorem C96_highpass_damped_partial {ρ : ℚ} (hr : r.Is ρ) (hρ : ρ ≤ 1 / 2) (hfc : (fc <? lit 200) = false) (n : ℕ) :
    ∃ y, modOut Modifier.process x (HighPass.new fc r : HighPass F32 F64) n = .ok y ∧ y.In (-(42 * X)) (42 * X) := by
  obtain ⟨X0, X1, X2⟩ := input_real hX1 hX2
  obtain ⟨T, K, z, -, hT, hu, hT2, hK1, hK2, hk, hn⟩ := highpass_setup ha r (show (lit 200 : F64).Is 200 by decide +kernel) (by norm_num) (by norm_num)
    (u0 := 382 / 10) (by norm_num) hfc X1 X2 (input_abs hx)
  obtain ⟨b1, b2⟩ := gain_le' hT hu (p0 := 191 / 100) (half_inv hT hu (by norm_num) (by norm_num)) hT2 (hk ρ hr hρ) hK2
  obtain ⟨y, hy, q, hq, -, hb⟩ := hn (B := 199 / 10) (D := 21 * X) (by positivity) (hp_size hK1 hK2 b1 (by norm_num) (by norm_num))
    (by norm_num at X2 ⊢; linarith) (small_gain (L := 4855 / 10000) b2 (by positivity) (by norm_num) (by linarith)) n
  exact ⟨y, hy, in_of_abs hq (hb.trans (by push_cast; linarith))⟩
end

/-- Samples up to full scale at a 440 Hz cutoff, and also an infinite or NaN cutoff. -/
example : (lit 440 <? (lit 400 : F64)) = false ∧ ((.inf false : F64) <? lit 400) = false ∧ ((.nan : F64) <? lit 400) = false ∧
    ((2 : ℚ) ^ 90)⁻¹ ≤ 1 ∧ (1 : ℚ) ≤ 2 ^ 80 ∧ (lit (-1) : F32).In (-1) 1 :=
  ⟨by decide +kernel, by decide +kernel, by decide +kernel, by norm_num, by norm_num, ⟨-1, by decide +kernel, by norm_num, by norm_num⟩⟩

/-- A 250 Hz cutoff at resonance 1/4. -/
example : (lit 250 <? (lit 200 : F64)) = false ∧ (lit (1 / 4) : F64).Is (1 / 4) ∧ (1 / 4 : ℚ) ≤ 1 / 2 :=
  ⟨by decide +kernel, by decide +kernel, by norm_num⟩

example [Libm F64] (ha : LibmAccurate) (n : ℕ) :
    ∃ y : F32, modOut Modifier.process (fun _ => lit 1) (LowPass.new (lit 440 : F64) (lit 1) : LowPass F32 F64) n = .ok y ∧ y.In (-(100 * (1 : ℚ))) (100 * 1) :=
  C96_lowpass_partial ha _ (by norm_num) (by norm_num) _ (fun _ => ⟨1, by decide +kernel, by norm_num, by norm_num⟩) (by decide +kernel) n

example [Libm F64] (ha : LibmAccurate) (n : ℕ) :
    ∃ y : F32, modOut Modifier.process (fun _ => lit 1) (HighPass.new (.inf false : F64) (.nan) : HighPass F32 F64) n = .ok y ∧ y.In (-(300 * (1 : ℚ))) (300 * 1) :=
  C96_highpass_partial ha _ (by norm_num) (by norm_num) _ (fun _ => ⟨1, by decide +kernel, by norm_num, by norm_num⟩) (by decide +kernel) n

example [Libm F64] (ha : LibmAccurate) (n : ℕ) :
    ∃ y : F32, modOut Modifier.process (fun _ => lit 1) (LowPass.new (lit 200 : F64) (lit (1 / 4)) : LowPass F32 F64) n = .ok y ∧ y.In (-(13 * (1 : ℚ))) (13 * 1) :=
  C96_lowpass_damped_partial ha _ (by norm_num) (by norm_num) _ (fun _ => ⟨1, by decide +kernel, by norm_num, by norm_num⟩) (ρ := 1 / 4) (by decide +kernel) (by norm_num)
    (by decide +kernel) n

end Verif
