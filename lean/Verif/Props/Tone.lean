import Verif.Props.FilterAcc
import Verif.Props.Transfer
import Verif.Props.SineTune
import Verif.Props.FilterConst
import Verif.Props.FilterConstHigh
import Verif.Spec.LibmSin

/-! # Filtered tones in `f32`: C128 (a low pass or high pass filter gives a tone the level its response says) -/

namespace Verif
open Fl Filter Topology

/-! ## a disturbance of the input is not amplified much -/

theorem omega_le (fc : ℝ) : omega fc ≤ 315 / 100 := by
  have hp := Real.pi_lt_d2
  have h : min fc 24000 ≤ 24000 := min_le_right _ _
  unfold omega
  rw [div_le_iff₀ (by norm_num)]
  norm_num at hp
  nlinarith [Real.pi_pos]

theorem inv_omega {fc lo u0 : ℝ} (h0 : 0 < lo) (hl : lo ≤ 24000) (h : lo ≤ fc) (hu : 24000 ≤ u0 * lo * (314159 / 100000)) : 1 / omega fc ≤ u0 :=
  inv_lpT h0 (le_min h hl) hu

private theorem damping_half {r : ℝ} (h : r ≤ 1 / 2) : 3 / 2 ≤ damping r :=
  lpK_half (le_max_right _ _) (max_le ((min_le_left _ _).trans h) (by norm_num))

theorem lp_bounded {fc r d : ℝ} (hf : 2000 ≤ fc ∨ 1000 ≤ fc ∧ r ≤ 1 / 2) {x : ℕ → ℝ} (hx : ∀ n, |x n| ≤ d) :
    ∃ y : ℕ → ℝ, (∀ n, modOut Modifier.process x (LowPass.new fc r : LowPass ℝ ℝ) n = .ok (y n)) ∧ ∀ n, |y n| ≤ 10 * d := by
  have hfc : 0 < fc := by rcases hf with hf | hf <;> linarith
  have hd : 0 ≤ d := (abs_nonneg _).trans (hx 0)
  obtain ⟨y, h1, h2⟩ := lp_third fc r hfc x
  have hT := omega_pos hfc
  obtain ⟨k1, k2⟩ := damping_mem r
  refine ⟨y, h1, fun n => (lp_exact_le hT k1 k2 h2 hx n).trans (mul_le_mul_of_nonneg_right ?_ hd)⟩
  rcases hf with hf | ⟨hf, hr⟩
  · exact (gain_le hT (inv_omega (lo := 2000) (u0 := 382 / 100) (by norm_num) (by norm_num) hf (by norm_num)) (omega_le fc) k1 k2).1.trans (by norm_num)
  · have hu := inv_omega (lo := 1000) (u0 := 764 / 100) (by norm_num) (by norm_num) hf (by norm_num)
    exact (gain_le' hT hu (p0 := 16 / 10) (half_inv hT hu (by norm_num) (by norm_num)) (omega_le fc) (damping_half hr) k2).1.trans (by norm_num)

theorem hp_bounded {fc r d : ℝ} (hf : 2500 ≤ fc ∨ 1500 ≤ fc ∧ r ≤ 1 / 2) {x : ℕ → ℝ} (hx : ∀ n, |x n| ≤ d) :
    ∃ y : ℕ → ℝ, (∀ n, modOut Modifier.process x (HighPass.new fc r : HighPass ℝ ℝ) n = .ok (y n)) ∧ ∀ n, |y n| ≤ 25 * d := by
  have hfc : 0 < fc := by rcases hf with hf | hf <;> linarith
  have hd : 0 ≤ d := (abs_nonneg _).trans (hx 0)
  obtain ⟨y, h1, h2⟩ := hp_third fc r hfc x
  have hT := omega_pos hfc
  obtain ⟨k1, k2⟩ := damping_mem r
  refine ⟨y, h1, fun n => (hp_exact_le hT k1 k2 h2 hx n).trans (mul_le_mul_of_nonneg_right ?_ hd)⟩
  rcases hf with hf | ⟨hf, hr⟩
  · exact hp_size k1 k2 (gain_le hT (inv_omega (lo := 2500) (u0 := 306 / 100) (by norm_num) (by norm_num) hf (by norm_num)) (omega_le fc) k1 k2).1
      (by norm_num) (by norm_num)
  · have hu := inv_omega (lo := 1500) (u0 := 51 / 10) (by norm_num) (by norm_num) hf (by norm_num)
    exact hp_size k1 k2 (gain_le' hT hu (p0 := 144 / 100) (half_inv hT hu (by norm_num) (by norm_num)) (omega_le fc) (damping_half hr) k2).1
      (by norm_num) (by norm_num)

/-! ## the level of a filtered tone -/

/-- What a filter that follows its exact counterpart does to a tone that is only nearly a sinusoid. -/
theorem level_of_near_eps {X E Y : Type} {p : X → ℝ → Except E (ℝ × X)} {m : X} {ν g B : ℝ} (η : ℝ) (hg : SteadyGain p m ν g) (hs : Settles p m)
    (hB : ∀ (x : ℕ → ℝ) (d : ℝ), (∀ n, |x n| ≤ d) → ∃ y : ℕ → ℝ, (∀ n, modOut p x m n = .ok (y n)) ∧ ∀ n, |y n| ≤ B * d)
    {P : Y → F32 → Res (F32 × Y)} {k : Y} :
    ∃ ψ : ℝ, ∀ (x : ℕ → F32) (u : ℕ → ℚ) (M A φ d : ℝ), 0 < M → ∀ ε > 0,
      (∀ n, ∃ (y : F32) (q : ℚ) (z : ℝ), modOut P x k n = .ok y ∧ y.Is q ∧ modOut p (fun n => (u n : ℝ)) m n = .ok z ∧ |(q : ℝ) - z| ≤ η * M) →
      (∀ n : ℕ, |(u n : ℝ) - A * Real.cos (2 * Real.pi * ν / 48000 * n + φ)| ≤ d) →
      ∃ N, ∀ n ≥ N, ∃ (y : F32) (q : ℚ), modOut P x k n = .ok y ∧ y.Is q ∧
        |(q : ℝ) - g * A * Real.cos (2 * Real.pi * ν / 48000 * n + φ + ψ)| ≤ (η + ε) * M + B * d := by
  obtain ⟨-, ψ, h⟩ := hg
  refine ⟨ψ, fun x u M A φ d hM ε hε hn hd => ?_⟩
  obtain ⟨y, hy, ht⟩ := h A φ
  obtain ⟨e, he, hb⟩ := hB _ d hd
  obtain ⟨N, hN⟩ := (Metric.tendsto_atTop.mp ht) (ε * M) (by positivity)
  refine ⟨N, fun n hn' => ?_⟩
  obtain ⟨s, q, z, h1, h2, h3, h4⟩ := hn n
  refine ⟨s, q, h1, h2, ?_⟩
  have hz : z = y n + e n := by
    obtain ⟨a, b, ha, hb', hab⟩ := hs.superposition (fun n : ℕ => A * Real.cos (2 * Real.pi * ν / 48000 * n + φ))
      (fun n : ℕ => (u n : ℝ) - A * Real.cos (2 * Real.pi * ν / 48000 * n + φ)) 1 1 n
    rw [hy n] at ha
    rw [he n] at hb'
    have e1 : (fun i : ℕ => 1 * (A * Real.cos (2 * Real.pi * ν / 48000 * i + φ)) + 1 * ((u i : ℝ) - A * Real.cos (2 * Real.pi * ν / 48000 * i + φ))) =
        fun n => (u n : ℝ) := by
      funext i; ring
    rw [e1, h3] at hab
    have := Except.ok.inj hab
    rw [this, ← Except.ok.inj ha, ← Except.ok.inj hb']
    ring
  have h5 := hN n hn'
  rw [Real.dist_eq, sub_zero] at h5
  have h6 := hb n
  rw [hz] at h4
  rw [abs_le] at h4 h6 ⊢
  rw [abs_lt] at h5
  constructor <;> linarith [h4.1, h4.2, h5.1, h5.2, h6.1, h6.2]

/-- Within 1/1000 of the largest sample. -/
theorem level_of_near {X E Y : Type} {p : X → ℝ → Except E (ℝ × X)} {m : X} {ν g B : ℝ} (η : ℝ) (hg : SteadyGain p m ν g) (hs : Settles p m)
    (hB : ∀ (x : ℕ → ℝ) (d : ℝ), (∀ n, |x n| ≤ d) → ∃ y : ℕ → ℝ, (∀ n, modOut p x m n = .ok (y n)) ∧ ∀ n, |y n| ≤ B * d)
    {P : Y → F32 → Res (F32 × Y)} {k : Y} :
    ∃ ψ : ℝ, ∀ (x : ℕ → F32) (u : ℕ → ℚ) (M A φ d : ℝ), 0 < M →
      (∀ n, ∃ (y : F32) (q : ℚ) (z : ℝ), modOut P x k n = .ok y ∧ y.Is q ∧ modOut p (fun n => (u n : ℝ)) m n = .ok z ∧ |(q : ℝ) - z| ≤ η * M) →
      (∀ n : ℕ, |(u n : ℝ) - A * Real.cos (2 * Real.pi * ν / 48000 * n + φ)| ≤ d) →
      ∃ N, ∀ n ≥ N, ∃ (y : F32) (q : ℚ), modOut P x k n = .ok y ∧ y.Is q ∧
        |(q : ℝ) - g * A * Real.cos (2 * Real.pi * ν / 48000 * n + φ + ψ)| ≤ (η + 1 / 1000) * M + B * d := by
  obtain ⟨ψ, h⟩ := level_of_near_eps η hg hs hB (P := P) (k := k)
  exact ⟨ψ, fun x u M A φ d hM => h x u M A φ d hM (1 / 1000) (by norm_num)⟩

section
variable [Libm F64] (ha : LibmAccurate) {fc r : F64} {f ρ : ℚ} (hfc : fc.Is f) (hr : r.Is ρ) (ν : ℝ)
include ha hfc hr

/-- `f32`: fed with samples within `d` of the sinusoid of amplitude `A` and phase `φ`, the low pass ends up within `31/1000` of the
largest sample plus `10 d` of the sinusoid of amplitude `lowGain` times `A`, shifted by a phase that depends on the filter and
the frequency only. -/
theorem C128_lowpass_partial (hf : 2000 ≤ f ∨ 1000 ≤ f ∧ ρ ≤ 1 / 2) : ∃ ψ : ℝ, ∀ (x : ℕ → F32) (u : ℕ → ℚ) (M : ℚ) (A φ d : ℝ),
    (2 ^ 90)⁻¹ ≤ M → M ≤ 2 ^ 80 → (∀ n, (x n).Is (u n)) → (∀ n, |u n| ≤ M) →
    (∀ n : ℕ, |(u n : ℝ) - A * Real.cos (2 * Real.pi * ν / 48000 * n + φ)| ≤ d) →
    ∃ N, ∀ n ≥ N, ∃ (y : F32) (q : ℚ), modOut Modifier.process x (LowPass.new fc r : LowPass F32 F64) n = .ok y ∧ y.Is q ∧
      |(q : ℝ) - lowGain f ρ ν * A * Real.cos (2 * Real.pi * ν / 48000 * n + φ + ψ)| ≤ 31 / 1000 * M + 10 * d := by
  have hf0 : (0 : ℝ) < f := by
    have : (0 : ℚ) < f := by rcases hf with hf | hf <;> linarith
    exact_mod_cast this
  have hf' : (2000 : ℝ) ≤ f ∨ (1000 : ℝ) ≤ f ∧ (ρ : ℝ) ≤ 1 / 2 := by
    rcases hf with hf | ⟨hf, h⟩
    · left; exact_mod_cast hf
    · right
      refine ⟨by exact_mod_cast hf, ?_⟩
      have := Rat.cast_le (K := ℝ) |>.mpr h
      push_cast at this
      exact this
  obtain ⟨ψ, h⟩ := level_of_near (3 / 100) (C123_lowpass (f : ℝ) (ρ : ℝ) hf0 ν)
    (C126_filters_settle (f : ℝ) (ρ : ℝ) hf0 (l := 1) (h := 2) (by norm_num) (by norm_num) (by norm_num)).1
    (fun x d hx => lp_bounded hf' hx) (P := Modifier.process) (k := (LowPass.new fc r : LowPass F32 F64))
  refine ⟨ψ, fun x u M A φ d h1 h2 h3 h4 h5 => ?_⟩
  obtain ⟨N, hN⟩ := h x u M A φ d (input_real h1 h2).1 (C118_lowpass_partial ha hfc hr h1 h2 x u h3 h4 hf) h5
  refine ⟨N, fun n hn => ?_⟩
  obtain ⟨y, q, e1, e2, e3⟩ := hN n hn
  exact ⟨y, q, e1, e2, e3.trans (by norm_num)⟩

/-- `f32`: the high pass, with a factor of 25 on the disturbance. -/
theorem C128_highpass_partial (hf : 2500 ≤ f ∨ 1500 ≤ f ∧ ρ ≤ 1 / 2) : ∃ ψ : ℝ, ∀ (x : ℕ → F32) (u : ℕ → ℚ) (M : ℚ) (A φ d : ℝ),
    (2 ^ 90)⁻¹ ≤ M → M ≤ 2 ^ 80 → (∀ n, (x n).Is (u n)) → (∀ n, |u n| ≤ M) →
    (∀ n : ℕ, |(u n : ℝ) - A * Real.cos (2 * Real.pi * ν / 48000 * n + φ)| ≤ d) →
    ∃ N, ∀ n ≥ N, ∃ (y : F32) (q : ℚ), modOut Modifier.process x (HighPass.new fc r : HighPass F32 F64) n = .ok y ∧ y.Is q ∧
      |(q : ℝ) - highGain f ρ ν * A * Real.cos (2 * Real.pi * ν / 48000 * n + φ + ψ)| ≤ 31 / 1000 * M + 25 * d := by
  have hf0 : (0 : ℝ) < f := by
    have : (0 : ℚ) < f := by rcases hf with hf | hf <;> linarith
    exact_mod_cast this
  have hf' : (2500 : ℝ) ≤ f ∨ (1500 : ℝ) ≤ f ∧ (ρ : ℝ) ≤ 1 / 2 := by
    rcases hf with hf | ⟨hf, h⟩
    · left; exact_mod_cast hf
    · right
      refine ⟨by exact_mod_cast hf, ?_⟩
      have := Rat.cast_le (K := ℝ) |>.mpr h
      push_cast at this
      exact this
  obtain ⟨ψ, h⟩ := level_of_near (3 / 100) (C123_highpass (f : ℝ) (ρ : ℝ) hf0 ν)
    (C126_filters_settle (f : ℝ) (ρ : ℝ) hf0 (l := 1) (h := 2) (by norm_num) (by norm_num) (by norm_num)).2.1
    (fun x d hx => hp_bounded hf' hx) (P := Modifier.process) (k := (HighPass.new fc r : HighPass F32 F64))
  refine ⟨ψ, fun x u M A φ d h1 h2 h3 h4 h5 => ?_⟩
  obtain ⟨N, hN⟩ := h x u M A φ d (input_real h1 h2).1 (C118_highpass_partial ha hfc hr h1 h2 x u h3 h4 hf) h5
  refine ⟨N, fun n hn => ?_⟩
  obtain ⟨y, q, e1, e2, e3⟩ := hN n hn
  exact ⟨y, q, e1, e2, e3.trans (by norm_num)⟩
end

/-! ## a sine generator into a filter -/

/-- The samples of a generator that does not drift. -/
theorem sine_samples [Libm F64] (hl : SinAccurate) {f : F64} {q : ℚ} (hf : f.Is q) (h1 : q ≤ 48000) {m : ℕ} (hm : q / 10 = m / 2 ^ 39) :
    ∃ (x : ℕ → F32) (u : ℕ → ℚ), (∀ n, nthR Sine.process (Sine.new f) n = .ok (x n)) ∧ (∀ n, (x n).Is (u n)) ∧ (∀ n, |u n| ≤ 1002 / 1000) ∧
      ∀ n : ℕ, |(u n : ℝ) - 1 * Real.cos (2 * Real.pi * q / 48000 * n + -(Real.pi / 2))| ≤ 131 / 100000 := by
  choose x u h using C101_no_drift hl hf h1 hm
  have hd : ∀ n : ℕ, |(u n : ℝ) - Real.sin (2 * Real.pi * q * n / 48000)| ≤ 131 / 100000 := fun n => (h n).2.2.1.trans (by
    have := Real.pi_lt_d6
    norm_num at this ⊢
    linarith)
  refine ⟨x, u, fun n => (h n).1, fun n => (h n).2.1, fun n => ?_, fun n => ?_⟩
  · have a := abs_le.mp (hd n)
    have b1 := Real.sin_le_one (2 * Real.pi * q * n / 48000)
    have b2 := Real.neg_one_le_sin (2 * Real.pi * q * n / 48000)
    have : |(u n : ℝ)| ≤ ((1002 / 1000 : ℚ) : ℝ) := by
      rw [abs_le]; push_cast; constructor <;> linarith [a.1, a.2]
    exact_mod_cast this
  · rw [one_mul, ← sub_eq_add_neg, Real.cos_sub_pi_div_two]
    have := hd n
    rwa [show 2 * Real.pi * q / 48000 * n = 2 * Real.pi * q * n / 48000 by ring]

section
variable [Libm F64] (ha : LibmAccurate) (hl : SinAccurate) {fs : F64} {s : ℚ} (hs : fs.Is s) (h1 : s ≤ 48000) {m : ℕ} (hm : s / 10 = m / 2 ^ 39)
  {fc r : F64} {f ρ : ℚ} (hfc : fc.Is f) (hr : r.Is ρ)
include ha hl hs h1 hm hfc hr

/-- `f32`: a sine generator into a low pass filter: the output ends up within 0.045 of the sinusoid at the level of the response,
at the frequency of the generator, and stays there forever. -/
theorem C128_sine_lowpass_partial (hf : 2000 ≤ f ∨ 1000 ≤ f ∧ ρ ≤ 1 / 2) :
    ∃ (x : ℕ → F32) (ψ : ℝ) (N : ℕ), (∀ n, nthR Sine.process (Sine.new fs) n = .ok (x n)) ∧
      ∀ n ≥ N, ∃ (y : F32) (q : ℚ), modOut Modifier.process x (LowPass.new fc r : LowPass F32 F64) n = .ok y ∧ y.Is q ∧
        |(q : ℝ) - lowGain f ρ s * Real.sin (2 * Real.pi * s * n / 48000 + ψ)| ≤ 45 / 1000 := by
  obtain ⟨x, u, h2, h3, h4, h5⟩ := sine_samples hl hs h1 hm
  obtain ⟨ψ, h⟩ := C128_lowpass_partial ha hfc hr (s : ℝ) hf
  obtain ⟨N, hN⟩ := h x u (1002 / 1000) 1 _ _ (by norm_num) (by norm_num) h3 h4 h5
  refine ⟨x, ψ, N, h2, fun n hn => ?_⟩
  obtain ⟨y, q, e1, e2, e3⟩ := hN n hn
  refine ⟨y, q, e1, e2, ?_⟩
  rw [mul_one, show 2 * Real.pi * (s : ℝ) / 48000 * n + -(Real.pi / 2) + ψ = (2 * Real.pi * s * n / 48000 + ψ) - Real.pi / 2 by ring,
    Real.cos_sub_pi_div_two] at e3
  refine e3.trans ?_
  push_cast
  norm_num

/-- `f32`: a sine generator into a high pass filter, within 0.065. -/
theorem C128_sine_highpass_partial (hf : 2500 ≤ f ∨ 1500 ≤ f ∧ ρ ≤ 1 / 2) :
    ∃ (x : ℕ → F32) (ψ : ℝ) (N : ℕ), (∀ n, nthR Sine.process (Sine.new fs) n = .ok (x n)) ∧
      ∀ n ≥ N, ∃ (y : F32) (q : ℚ), modOut Modifier.process x (HighPass.new fc r : HighPass F32 F64) n = .ok y ∧ y.Is q ∧
        |(q : ℝ) - highGain f ρ s * Real.sin (2 * Real.pi * s * n / 48000 + ψ)| ≤ 65 / 1000 := by
  obtain ⟨x, u, h2, h3, h4, h5⟩ := sine_samples hl hs h1 hm
  obtain ⟨ψ, h⟩ := C128_highpass_partial ha hfc hr (s : ℝ) hf
  obtain ⟨N, hN⟩ := h x u (1002 / 1000) 1 _ _ (by norm_num) (by norm_num) h3 h4 h5
  refine ⟨x, ψ, N, h2, fun n hn => ?_⟩
  obtain ⟨y, q, e1, e2, e3⟩ := hN n hn
  refine ⟨y, q, e1, e2, ?_⟩
  rw [mul_one, show 2 * Real.pi * (s : ℝ) / 48000 * n + -(Real.pi / 2) + ψ = (2 * Real.pi * s * n / 48000 + ψ) - Real.pi / 2 by ring,
    Real.cos_sub_pi_div_two] at e3
  refine e3.trans ?_
  push_cast
  norm_num
end

/-- At low cutoffs the level is wrong: the 90 Hz low pass, given the constant 1.0 (frequency 0, amplitude 1, phase 0, no disturbance),
stays more than 8 % away from the level of its response, whatever the phase shift. -/
theorem C128_lowpass_violated [Libm F64] (ha : LibmAccurate) (ψ : ℝ) :
    (∀ n : ℕ, |((1 : ℚ) : ℝ) - 1 * Real.cos (2 * Real.pi * 0 / 48000 * n + 0)| ≤ 0) ∧
    ∀ n ≥ 31385, ∃ (y : F32) (q : ℚ), modOut Modifier.process (fun _ => lit 1) (LowPass.new (lit 90) (lit 0) : LowPass F32 F64) n = .ok y ∧ y.Is q ∧
      8 / 100 < |(q : ℝ) - lowGain 90 0 0 * 1 * Real.cos (2 * Real.pi * 0 / 48000 * n + 0 + ψ)| := by
  refine ⟨fun n => by simp, fun n hn => ?_⟩
  obtain ⟨y, h1, h2⟩ := (C118_lowpass_violated ha).1 n hn
  refine ⟨y, _, h1, h2, ?_⟩
  have g1 := (C124_never_amplifies (fc := 90) (r := 0) (by norm_num) (by norm_num) le_rfl 0).1
  have g0 := lowGain_nonneg 90 0 0
  have c1 := Real.cos_le_one (2 * Real.pi * 0 / 48000 * n + 0 + ψ)
  have : lowGain 90 0 0 * 1 * Real.cos (2 * Real.pi * 0 / 48000 * n + 0 + ψ) ≤ 1 := by nlinarith
  refine lt_of_lt_of_le ?_ (le_abs_self _)
  push_cast
  norm_num at this ⊢
  linarith

/-- The same for the 85 Hz high pass given the constant 0.6: 6 % of it stays in the output, where the response says nothing does. -/
theorem C128_highpass_violated [Libm F64] (ha : LibmAccurate) (ψ : ℝ) :
    highGain 85 0 0 = 0 ∧
    ∀ n ≥ 8219, ∃ (y : F32) (q : ℚ), modOut Modifier.process (fun _ => lit (3 / 5)) (HighPass.new (lit 85) (lit 0) : HighPass F32 F64) n = .ok y ∧ y.Is q ∧
      6 / 100 * (3 / 5) < |(q : ℝ) - highGain 85 0 0 * (3 / 5) * Real.cos (2 * Real.pi * 0 / 48000 * n + 0 + ψ)| := by
  have e : highGain 85 0 0 = 0 := by unfold highGain bent; simp
  refine ⟨e, fun n hn => ?_⟩
  obtain ⟨y, h1, h2⟩ := (C118_highpass_violated ha).1 n hn
  refine ⟨y, _, h1, h2, ?_⟩
  rw [e]
  refine lt_of_lt_of_le ?_ (le_abs_self _)
  push_cast
  norm_num

/-- One math library meets both assumptions; a 440 Hz tone through a 1 kHz filter and a 3 kHz tone through a 2.5 kHz one meet the
conditions. -/
example : (∃ l : Libm F64, @LibmAccurate l ∧ @SinAccurate l) ∧ (lit 440 : F64).Is 440 ∧ (440 : ℚ) / 10 = ((44 * 2 ^ 39 : ℕ) : ℚ) / 2 ^ 39 ∧
    (lit 1000 : F64).Is 1000 ∧ (lit (1 / 2) : F64).Is (1 / 2) ∧ (lit 3000 : F64).Is 3000 ∧ (3000 : ℚ) / 10 = ((300 * 2 ^ 39 : ℕ) : ℚ) / 2 ^ 39 ∧
    (lit 2500 : F64).Is 2500 ∧ (lit 1 : F64).Is 1 := by
  refine ⟨?_, by decide +kernel, by norm_num, by decide +kernel, by decide +kernel, by decide +kernel, by norm_num, by decide +kernel, by decide +kernel⟩
  obtain ⟨l1, h1⟩ := libmAccurate_exists
  obtain ⟨l2, h2⟩ := sinAccurate_exists
  let l : Libm F64 := ⟨@Libm.sin F64 l2, @Libm.cos F64 l1, @Libm.tan F64 l1, @Libm.log10 F64 l1, @Libm.pow F64 l1⟩
  exact ⟨l, @LibmAccurate.mk l (@LibmAccurate.cos l1 h1) (@LibmAccurate.pow l1 h1), @SinAccurate.mk l (@SinAccurate.sin l2 h2)⟩

end Verif
