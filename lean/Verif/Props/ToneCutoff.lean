import Verif.Props.Tone
import Verif.Props.FilterTable

/-! # Filtered tones in `f32`, as a function of the cutoff: C128 -/

namespace Verif
open Fl Filter Topology

/-- How much the low pass can amplify a disturbance, 1/u being the cutoff in radians per sample. -/
noncomputable def lowSpread (u : ℝ) : ℝ := 2 * u + 46 / 25
/-- The same for the high pass. -/
noncomputable def highSpread (u : ℝ) : ℝ := 1 + 3 * (2 * u + 46 / 25)

section
variable {fc r lo w d : ℝ} (h0 : 0 < lo) (h1 : lo ≤ 24000) (h : lo ≤ fc) (hw : 24000 ≤ w * lo * (314159 / 100000)) {x : ℕ → ℝ} (hx : ∀ n, |x n| ≤ d)
include h0 h1 h hw hx

private theorem lp_spread :
    ∃ y : ℕ → ℝ, (∀ n, modOut Modifier.process x (LowPass.new fc r : LowPass ℝ ℝ) n = .ok (y n)) ∧ ∀ n, |y n| ≤ lowSpread w * d := by
  have hfc : 0 < fc := by linarith
  have hd : 0 ≤ d := (abs_nonneg _).trans (hx 0)
  obtain ⟨y, e1, e2⟩ := lp_third fc r hfc x
  have hT := omega_pos hfc
  obtain ⟨k1, k2⟩ := damping_mem r
  exact ⟨y, e1, fun n => (lp_exact_le hT k1 k2 e2 hx n).trans
    (mul_le_mul_of_nonneg_right (gain_le hT (inv_omega h0 h1 h hw) (omega_le fc) k1 k2).1 hd)⟩

private theorem hp_spread :
    ∃ y : ℕ → ℝ, (∀ n, modOut Modifier.process x (HighPass.new fc r : HighPass ℝ ℝ) n = .ok (y n)) ∧ ∀ n, |y n| ≤ highSpread w * d := by
  have hfc : 0 < fc := by linarith
  have hd : 0 ≤ d := (abs_nonneg _).trans (hx 0)
  have w0 : 0 < w := by
    by_contra hn
    have : w * lo ≤ 0 := mul_nonpos_of_nonpos_of_nonneg (not_lt.mp hn) (by linarith)
    linarith
  obtain ⟨y, e1, e2⟩ := hp_third fc r hfc x
  have hT := omega_pos hfc
  obtain ⟨k1, k2⟩ := damping_mem r
  exact ⟨y, e1, fun n => (hp_exact_le hT k1 k2 e2 hx n).trans
    (mul_le_mul_of_nonneg_right (hp_size k1 k2 (gain_le hT (inv_omega h0 h1 h hw) (omega_le fc) k1 k2).1 (by positivity) le_rfl) hd)⟩
end

section
variable [Libm F64] (ha : LibmAccurate) {fc r : F64} {f ρ : ℚ} (hfc : fc.Is f) (hr : r.Is ρ) {l : F64} {lo : ℚ} (hl : l.Is lo) (hlo1 : 1 ≤ lo)
  (hlo2 : lo ≤ 24000) (hlo : lo ≤ f) {w : ℝ} (hw : 24000 ≤ w * lo * (314159 / 100000)) (hw1 : loopError w ≤ 1 / 2) (ν : ℝ)
include ha hfc hr hl hlo1 hlo2 hlo hw hw1

/-- `f32`: fed with samples within `d` of a sinusoid of any frequency, the low pass ends up, to any accuracy beyond `lowError` of the largest sample
plus `lowSpread` times `d`, on the sinusoid at the level of its response, with a phase shift that depends on the filter and the frequency only. -/
theorem C128_lowpass_cutoff_partial : ∃ ψ : ℝ, ∀ (x : ℕ → F32) (u : ℕ → ℚ) (M : ℚ) (A φ d : ℝ),
    (2 ^ 90)⁻¹ ≤ M → M ≤ 2 ^ 80 → (∀ n, (x n).Is (u n)) → (∀ n, |u n| ≤ M) →
    (∀ n : ℕ, |(u n : ℝ) - A * Real.cos (2 * Real.pi * ν / 48000 * n + φ)| ≤ d) → ∀ ε : ℝ, 0 < ε →
    ∃ N, ∀ n ≥ N, ∃ (y : F32) (q : ℚ), modOut Modifier.process x (LowPass.new fc r : LowPass F32 F64) n = .ok y ∧ y.Is q ∧
      |(q : ℝ) - lowGain f ρ ν * A * Real.cos (2 * Real.pi * ν / 48000 * n + φ + ψ)| ≤ (lowError w + ε) * M + lowSpread w * d := by
  have h0 : (0 : ℝ) < lo := by exact_mod_cast lt_of_lt_of_le one_pos hlo1
  have h2 : (lo : ℝ) ≤ f := by exact_mod_cast hlo
  have h1 : (lo : ℝ) ≤ 24000 := by exact_mod_cast hlo2
  have hf0 : (0 : ℝ) < f := by linarith
  obtain ⟨ψ, h⟩ := level_of_near_eps (lowError w) (C123_lowpass (f : ℝ) (ρ : ℝ) hf0 ν)
    (C126_filters_settle (f : ℝ) (ρ : ℝ) hf0 (l := 1) (h := 2) (by norm_num) (by norm_num) (by norm_num)).1
    (fun x d hx => lp_spread h0 h1 h2 hw hx) (P := Modifier.process) (k := (LowPass.new fc r : LowPass F32 F64))
  exact ⟨ψ, fun x u M A φ d h1 h2 h3 h4 h5 ε hε => h x u M A φ d (input_real h1 h2).1 ε hε
    (C118_lowpass_bound_partial ha hfc hr hl hlo1 hlo2 hlo hw hw1 h1 h2 x u h3 h4) h5⟩

/-- `f32`: the high pass, with `highError` and `highSpread`. -/
theorem C128_highpass_cutoff_partial : ∃ ψ : ℝ, ∀ (x : ℕ → F32) (u : ℕ → ℚ) (M : ℚ) (A φ d : ℝ),
    (2 ^ 90)⁻¹ ≤ M → M ≤ 2 ^ 80 → (∀ n, (x n).Is (u n)) → (∀ n, |u n| ≤ M) →
    (∀ n : ℕ, |(u n : ℝ) - A * Real.cos (2 * Real.pi * ν / 48000 * n + φ)| ≤ d) → ∀ ε : ℝ, 0 < ε →
    ∃ N, ∀ n ≥ N, ∃ (y : F32) (q : ℚ), modOut Modifier.process x (HighPass.new fc r : HighPass F32 F64) n = .ok y ∧ y.Is q ∧
      |(q : ℝ) - highGain f ρ ν * A * Real.cos (2 * Real.pi * ν / 48000 * n + φ + ψ)| ≤ (highError w + ε) * M + highSpread w * d := by
  have h0 : (0 : ℝ) < lo := by exact_mod_cast lt_of_lt_of_le one_pos hlo1
  have h2 : (lo : ℝ) ≤ f := by exact_mod_cast hlo
  have h1 : (lo : ℝ) ≤ 24000 := by exact_mod_cast hlo2
  have hf0 : (0 : ℝ) < f := by linarith
  obtain ⟨ψ, h⟩ := level_of_near_eps (highError w) (C123_highpass (f : ℝ) (ρ : ℝ) hf0 ν)
    (C126_filters_settle (f : ℝ) (ρ : ℝ) hf0 (l := 1) (h := 2) (by norm_num) (by norm_num) (by norm_num)).2.1
    (fun x d hx => hp_spread h0 h1 h2 hw hx) (P := Modifier.process) (k := (HighPass.new fc r : HighPass F32 F64))
  exact ⟨ψ, fun x u M A φ d h1 h2 h3 h4 h5 ε hε => h x u M A φ d (input_real h1 h2).1 ε hε
    (C118_highpass_bound_partial ha hfc hr hl hlo1 hlo2 hlo hw hw1 h1 h2 x u h3 h4) h5⟩
end

/-- A sine generator into a low pass from 12 kHz ends up within 1/200 of the sinusoid at the level of the response; from 5 kHz within 1/120; from 2 kHz
within 1/36. -/
theorem C128_sine_cutoff_partial [Libm F64] (ha : LibmAccurate) (hl : SinAccurate) {fs : F64} {s : ℚ} (hs : fs.Is s) (h1 : s ≤ 48000) {m : ℕ}
    (hm : s / 10 = m / 2 ^ 39) {fc r : F64} {f ρ : ℚ} (hfc : fc.Is f) (hr : r.Is ρ) {t : ℚ × ℚ}
    (ht : t ∈ [(12000, 1 / 200), (5000, 1 / 120), (2000, (1 / 36 : ℚ))]) (hf : t.1 ≤ f) :
    ∃ (x : ℕ → F32) (ψ : ℝ) (N : ℕ), (∀ n, nthR Sine.process (Sine.new fs) n = .ok (x n)) ∧
      ∀ n ≥ N, ∃ (y : F32) (q : ℚ), modOut Modifier.process x (LowPass.new fc r : LowPass F32 F64) n = .ok y ∧ y.Is q ∧
        |(q : ℝ) - lowGain f ρ s * Real.sin (2 * Real.pi * s * n / 48000 + ψ)| ≤ t.2 := by
  obtain ⟨x, u, h2, h3, h4, h5⟩ := sine_samples hl hs h1 hm
  have key : ∀ {l : F64} {lo e : ℚ} {w : ℝ}, l.Is lo → 1 ≤ lo → lo ≤ 24000 → lo ≤ f → 24000 ≤ w * lo * (314159 / 100000) → loopError w ≤ 1 / 2 →
      (lowError w + 1 / 100000) * (1002 / 1000) + lowSpread w * (131 / 100000) ≤ e → ∃ (x : ℕ → F32) (ψ : ℝ) (N : ℕ), (∀ n, nthR Sine.process (Sine.new fs) n = .ok (x n)) ∧
      ∀ n ≥ N, ∃ (y : F32) (q : ℚ), modOut Modifier.process x (LowPass.new fc r : LowPass F32 F64) n = .ok y ∧ y.Is q ∧
        |(q : ℝ) - lowGain f ρ s * Real.sin (2 * Real.pi * s * n / 48000 + ψ)| ≤ e := by
    intro l lo e w g1 g2 g3 g4 g5 g6 g7
    obtain ⟨ψ, h⟩ := C128_lowpass_cutoff_partial ha hfc hr g1 g2 g3 g4 g5 g6 (s : ℝ)
    obtain ⟨N, hN⟩ := h x u (1002 / 1000) 1 _ _ (by norm_num) (by norm_num) h3 h4 h5 (1 / 100000) (by norm_num)
    refine ⟨x, ψ, N, h2, fun n hn => ?_⟩
    obtain ⟨y, q, e1, e2, e3⟩ := hN n hn
    refine ⟨y, q, e1, e2, ?_⟩
    rw [mul_one, show 2 * Real.pi * (s : ℝ) / 48000 * n + -(Real.pi / 2) + ψ = (2 * Real.pi * s * n / 48000 + ψ) - Real.pi / 2 by ring,
      Real.cos_sub_pi_div_two] at e3
    push_cast at e3
    exact e3.trans g7
  have i1 : (lit 12000 : F64).Is 12000 := by decide +kernel
  have i2 : (lit 5000 : F64).Is 5000 := by decide +kernel
  have i3 : (lit 2000 : F64).Is 2000 := by decide +kernel
  simp only [List.mem_cons, List.not_mem_nil, or_false] at ht
  rcases ht with rfl | rfl | rfl
  · exact key (w := 637 / 1000) i1 (by norm_num) (by norm_num) hf (by norm_num) (by unfold loopError; norm_num) (by unfold lowSpread lowError loopError; norm_num)
  · exact key (w := 1528 / 1000) i2 (by norm_num) (by norm_num) hf (by norm_num) (by unfold loopError; norm_num) (by unfold lowSpread lowError loopError; norm_num)
  · exact key (w := 382 / 100) i3 (by norm_num) (by norm_num) hf (by norm_num) (by unfold loopError; norm_num) (by unfold lowSpread lowError loopError; norm_num)

/-- A 440 Hz tone through a 5 kHz filter. -/
example : (440 : ℚ) / 10 = ((44 * 2 ^ 39 : ℕ) : ℚ) / 2 ^ 39 ∧ (lit 5000 : F64).Is 5000 ∧ (24000 : ℝ) ≤ 1528 / 1000 * (5000 : ℚ) * (314159 / 100000) ∧
    loopError (1528 / 1000) ≤ 1 / 2 := by
  refine ⟨by norm_num, by decide +kernel, by norm_num, ?_⟩
  unfold loopError
  norm_num

end Verif
