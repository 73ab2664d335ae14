import Verif.Props.Level

/-! # The level of a chord: C171

As in C155 the window is N samples and every frequency is 48000·P/N, so that the window holds P whole periods. Tone `k` has the
weight `a k` in the mix and may have been started `s k` samples before the window. -/

namespace Verif
open Fl Flt

/-- A cosine of D whole periods in N samples, N not dividing D, sums to zero whatever its phase. -/
private theorem cos_sum {N : ℕ} (hN : 0 < N) {D : ℤ} (hD : ¬ (N : ℤ) ∣ D) (φ : ℝ) :
    ∑ i ∈ Finset.range N, Real.cos (2 * Real.pi * D / N * i + φ) = 0 := by
  have hNr : (N : ℝ) ≠ 0 := by positivity
  have hs : Real.sin (Real.pi * D / N) ≠ 0 := by
    intro h
    obtain ⟨m, hm⟩ := Real.sin_eq_zero_iff.mp h
    apply hD
    refine ⟨m, ?_⟩
    have : (m : ℝ) * N = D := by
      rw [eq_div_iff hNr] at hm
      have := mul_left_cancel₀ Real.pi_ne_zero (show Real.pi * ((m : ℝ) * N) = Real.pi * D by linarith)
      exact this
    have h2 : m * (N : ℤ) = D := by exact_mod_cast this
    rw [← h2, mul_comm]
  have t : ∀ n : ℕ, 2 * Real.sin (Real.pi * D / N) * ∑ i ∈ Finset.range n, Real.cos (2 * Real.pi * D / N * i + φ) =
      Real.sin (2 * Real.pi * D / N * n + φ - Real.pi * D / N) - Real.sin (φ - Real.pi * D / N) := by
    intro n
    induction n with
    | zero => simp
    | succ n ih =>
      rw [Finset.sum_range_succ, mul_add, ih]
      have a := Real.sin_sub_sin (2 * Real.pi * D / N * (n + 1 : ℕ) + φ - Real.pi * D / N) (2 * Real.pi * D / N * n + φ - Real.pi * D / N)
      rw [show (2 * Real.pi * D / N * (n + 1 : ℕ) + φ - Real.pi * D / N - (2 * Real.pi * D / N * n + φ - Real.pi * D / N)) / 2 = Real.pi * D / N by
          push_cast; ring,
        show (2 * Real.pi * D / N * (n + 1 : ℕ) + φ - Real.pi * D / N + (2 * Real.pi * D / N * n + φ - Real.pi * D / N)) / 2 = 2 * Real.pi * D / N * n + φ by
          push_cast; ring] at a
      linarith
  have h := t N
  rw [show 2 * Real.pi * D / N * N + φ - Real.pi * D / N = φ - Real.pi * D / N + D * (2 * Real.pi) by field_simp; ring,
    Real.sin_add_int_mul_two_pi, sub_self] at h
  exact (mul_eq_zero.mp h).resolve_left (mul_ne_zero two_ne_zero hs)

/-- The ideal tone of P periods in N samples, started s samples ago. -/
private noncomputable def tone (N P s i : ℕ) : ℝ := Real.sin (2 * Real.pi * ((s + i : ℕ) * P / N))

private theorem tone_mul {N : ℕ} (hN : 0 < N) (P Q s t : ℕ) : ∀ i : ℕ, tone N P s i * tone N Q t i =
    (Real.cos (2 * Real.pi * ((P - Q : ℤ) : ℝ) / N * i + 2 * Real.pi * (s * P - t * Q) / N) -
      Real.cos (2 * Real.pi * ((P + Q : ℤ) : ℝ) / N * i + 2 * Real.pi * (s * P + t * Q) / N)) / 2 := by
  intro i
  have hNr : (N : ℝ) ≠ 0 := by positivity
  unfold tone
  have a := Real.cos_sub (2 * Real.pi * ((s + i : ℕ) * P / N)) (2 * Real.pi * ((t + i : ℕ) * Q / N))
  have b := Real.cos_add (2 * Real.pi * ((s + i : ℕ) * P / N)) (2 * Real.pi * ((t + i : ℕ) * Q / N))
  rw [show 2 * Real.pi * ((P - Q : ℤ) : ℝ) / N * i + 2 * Real.pi * (s * P - t * Q) / N =
      2 * Real.pi * ((s + i : ℕ) * P / N) - 2 * Real.pi * ((t + i : ℕ) * Q / N) by push_cast; ring,
    show 2 * Real.pi * ((P + Q : ℤ) : ℝ) / N * i + 2 * Real.pi * (s * P + t * Q) / N =
      2 * Real.pi * ((s + i : ℕ) * P / N) + 2 * Real.pi * ((t + i : ℕ) * Q / N) by push_cast; ring, a, b]
  ring

/-- Tones of different frequencies are orthogonal; the square of one has the mean 1/2. -/
private theorem tone_dot {N P Q : ℕ} (h0 : 0 < P) (hP : 2 * P < N) (hQ : 2 * Q < N) (s t : ℕ) (hst : P = Q → s = t) :
    ∑ i ∈ Finset.range N, tone N P s i * tone N Q t i = if P = Q then (N : ℝ) / 2 else 0 := by
  have hN : 0 < N := by omega
  simp only [tone_mul hN]
  rw [← Finset.sum_div, Finset.sum_sub_distrib]
  have h2 : ¬ (N : ℤ) ∣ (P + Q : ℤ) := fun h => by
    have := Int.le_of_dvd (by omega) h
    omega
  rw [cos_sum hN h2, sub_zero]
  split
  · rename_i e
    subst e
    have := hst rfl
    subst this
    simp
  · rename_i e
    have h1 : ¬ (N : ℤ) ∣ (P - Q : ℤ) := fun h => by
      have := Int.eq_zero_of_abs_lt_dvd h (by rw [abs_lt]; omega)
      omega
    rw [cos_sum hN h1, zero_div]

section
variable {ι : Type} [Fintype ι] {N : ℕ} {P : ι → ℕ} (hinj : Function.Injective P) (h0 : ∀ k, 0 < P k) (hP : ∀ k, 2 * P k < N) (s : ι → ℕ) (a : ι → ℝ)
include hinj h0 hP

private theorem chord_level (hN : 0 < N) : level (fun i => ∑ k, a k * tone N (P k) (s k) i) N = Real.sqrt (∑ k, a k ^ 2 / 2) := by
  classical
  have hNr : (N : ℝ) ≠ 0 := by positivity
  unfold level
  congr 1
  have e : ∀ i, (∑ k, a k * tone N (P k) (s k) i) ^ 2 = ∑ k, ∑ l, a k * a l * (tone N (P k) (s k) i * tone N (P l) (s l) i) := by
    intro i
    rw [sq, Finset.sum_mul_sum]
    exact Finset.sum_congr rfl fun k _ => Finset.sum_congr rfl fun l _ => by ring
  simp only [e]
  rw [Finset.sum_comm]
  have e2 : ∀ k, ∑ i ∈ Finset.range N, ∑ l, a k * a l * (tone N (P k) (s k) i * tone N (P l) (s l) i) = a k ^ 2 * (N / 2) := by
    intro k
    rw [Finset.sum_comm]
    have e3 : ∀ l, ∑ i ∈ Finset.range N, a k * a l * (tone N (P k) (s k) i * tone N (P l) (s l) i) = if k = l then a k ^ 2 * (N / 2 : ℝ) else 0 := by
      intro l
      rw [← Finset.mul_sum, tone_dot (h0 k) (hP k) (hP l) (s k) (s l) (fun h => by rw [hinj h])]
      by_cases hkl : k = l
      · subst hkl
        rw [if_pos rfl, if_pos rfl]
        ring
      · rw [if_neg (fun h => hkl (hinj h)), if_neg hkl, mul_zero]
    simp only [e3]
    rw [Finset.sum_ite_eq Finset.univ k (fun _ => a k ^ 2 * (N / 2 : ℝ)), if_pos (Finset.mem_univ k)]
  simp only [e2]
  rw [← Finset.sum_mul, ← Finset.sum_div]
  field_simp

private theorem chord_near (hN : 0 < N) {y : ι → ℕ → ℝ} {e : ι → ℝ} (he : ∀ k, 0 ≤ e k) (h : ∀ k, ∀ i < N, |y k i - tone N (P k) (s k) i| ≤ e k) :
    |level (fun i => ∑ k, a k * y k i) N - Real.sqrt (∑ k, a k ^ 2 / 2)| ≤ ∑ k, |a k| * e k := by
  rw [← chord_level hinj h0 hP s a hN]
  refine level_near hN (Finset.sum_nonneg fun k _ => mul_nonneg (abs_nonneg _) (he k)) fun i hi => (abs_abs_sub_abs_le _ _).trans ?_
  rw [← Finset.sum_sub_distrib]
  refine (Finset.abs_sum_le_sum_abs _ _).trans (Finset.sum_le_sum fun k _ => ?_)
  rw [← mul_sub, abs_mul]
  exact mul_le_mul_of_nonneg_left (h k i hi) (abs_nonneg _)

/-- Exact arithmetic: tones of different frequencies, whenever each was started, mixed with the weights `a`, have the level
√(Σ a²/2): the powers add. The error is that of the tables. -/
theorem C171_chord (hN : 0 < N) : ∃ y : ι → ℕ → ℝ, (∀ k i, nthR Sine.process (Sine.new (48000 * P k / N : ℝ)) (s k + i) = .ok (y k i)) ∧
    |level (fun i => ∑ k, a k * y k i) N - Real.sqrt (∑ k, a k ^ 2 / 2)| ≤ ∑ k, |a k| * (2 * Real.pi / 4800) := by
  have hf : ∀ k, (48000 * P k / N : ℝ) ≤ 48000 := fun k => by
    have := freq_le (P := P k) (c := 1) hN (by
      have h := hP k
      have : (P k : ℝ) ≤ N := by exact_mod_cast (by omega : P k ≤ N)
      linarith)
    linarith
  choose y h1 h2 _ using fun k i => C40_sine_partial _ (show (0 : ℝ) ≤ 48000 * P k / N by positivity) (hf k) (s k + i)
  refine ⟨y, h1, chord_near hinj h0 hP s a hN (fun _ => by positivity) fun k i _ => ?_⟩
  have := h2 k i
  rwa [show 2 * Real.pi * (48000 * P k / N) * (s k + i : ℕ) / 48000 = 2 * Real.pi * ((s k + i : ℕ) * P k / N) by rw [← freq_eq hN]; ring] at this

/-- The same for the samples of `f32` tones. -/
theorem C171_chord_f32 [Libm F64] (hl : SinAccurate) (hN : 0 < N) {f : ι → F64} (hf : ∀ k, (f k).Is (48000 * P k / N)) : ∃ (y : ι → ℕ → F32) (u : ι → ℕ → ℚ),
    (∀ k i, nthR Sine.process (Sine.new (f k)) (s k + i) = .ok (y k i)) ∧ (∀ k i, (y k i).Is (u k i)) ∧
    |level (fun i => ∑ k, a k * (u k i : ℝ)) N - Real.sqrt (∑ k, a k ^ 2 / 2)| ≤
      ∑ k, |a k| * (2 * Real.pi / 4800 + (2 ^ 23)⁻¹ + (s k + N : ℕ) * (2 ^ 48)⁻¹) := by
  have hq : ∀ k, (48000 * P k / N : ℚ) ≤ 48000 := fun k => by
    have h1 : (0 : ℚ) < N := by positivity
    have h2 := hP k
    have h : (P k : ℚ) ≤ N := by exact_mod_cast (by omega : P k ≤ N)
    rw [div_le_iff₀ h1]
    linarith
  choose y u h1 h2 h4 _ using fun k i => C101_sine_tune hl (hf k) (by positivity) (hq k) (s k + i)
  refine ⟨y, u, h1, h2, chord_near hinj h0 hP s a hN (fun _ => by positivity) fun k i hi => ?_⟩
  have := h4 k i
  rw [show 2 * Real.pi * ((48000 * P k / N : ℚ) : ℝ) * (s k + i : ℕ) / 48000 = 2 * Real.pi * ((s k + i : ℕ) * P k / N) by
    rw [← freq_eq hN]; push_cast; ring] at this
  have hd : (((s k + i : ℕ) : ℝ)) * (2 ^ 48)⁻¹ ≤ (s k + N : ℕ) * (2 ^ 48)⁻¹ := by
    have : ((s k + i : ℕ) : ℝ) ≤ (s k + N : ℕ) := by exact_mod_cast (by omega : s k + i ≤ s k + N)
    exact mul_le_mul_of_nonneg_right this (by positivity)
  exact this.trans (by linarith)
end

example : Function.Injective ![(4 : ℕ), 5, 6] ∧ (∀ k, 0 < ![(4 : ℕ), 5, 6] k) ∧ ∀ k, 2 * ![(4 : ℕ), 5, 6] k < 480 := by
  refine ⟨by decide, by decide, by decide⟩

/-- A major triad (400, 500 and 600 Hz in a window of 480 samples) of three equal voices: √3 times the level of one voice, not three
times. -/
example : Real.sqrt (∑ k : Fin 3, (![1, 1, 1] k : ℝ) ^ 2 / 2) = Real.sqrt 3 * Real.sqrt (1 / 2) := by
  rw [← Real.sqrt_mul (by norm_num)]
  congr 1
  simp [Fin.sum_univ_three]
  norm_num

private theorem pair_level {N P : ℕ} (h0 : 0 < P) (hP : 2 * P < N) (s t : ℕ) (a b : ℝ) :
    level (fun i => a * tone N P s i + b * tone N P t i) N =
      Real.sqrt ((a ^ 2 + b ^ 2) / 2 + a * b * Real.cos (2 * Real.pi * (s * P - t * P) / N)) := by
  have hN : 0 < N := by omega
  have hNr : (N : ℝ) ≠ 0 := by positivity
  have d : ∀ s t : ℕ, ∑ i ∈ Finset.range N, tone N P s i * tone N P t i = N * Real.cos (2 * Real.pi * (s * P - t * P) / N) / 2 := by
    intro s t
    simp only [tone_mul hN]
    rw [← Finset.sum_div, Finset.sum_sub_distrib, cos_sum hN (D := P + P) (fun h => by
      have := Int.le_of_dvd (by omega) h
      omega), sub_zero]
    simp
  have d1 : ∀ s : ℕ, ∑ i ∈ Finset.range N, tone N P s i * tone N P s i = N / 2 := by
    intro s
    rw [d, sub_self]
    simp
  unfold level
  congr 1
  have e : ∀ i, (a * tone N P s i + b * tone N P t i) ^ 2 = a ^ 2 * (tone N P s i * tone N P s i) + b ^ 2 * (tone N P t i * tone N P t i) +
      2 * a * b * (tone N P s i * tone N P t i) := fun i => by ring
  simp only [e]
  rw [Finset.sum_add_distrib, Finset.sum_add_distrib, ← Finset.mul_sum, ← Finset.mul_sum, ← Finset.mul_sum, d1, d1, d]
  field_simp

/-- Two tones of ONE frequency do not add in power: their level depends on how far apart they were started. Started together they
add in amplitude, started half a period apart they cancel. -/
theorem C171_pair {N P : ℕ} (h0 : 0 < P) (hP : 2 * P < N) (s t : ℕ) (a b : ℝ) : ∃ y : ℕ → ℝ,
    (∀ n, nthR Sine.process (Sine.new (48000 * P / N : ℝ)) n = .ok (y n)) ∧
    |level (fun i => a * y (s + i) + b * y (t + i)) N -
      Real.sqrt ((a ^ 2 + b ^ 2) / 2 + a * b * Real.cos (2 * Real.pi * (s * P - t * P) / N))| ≤ (|a| + |b|) * (2 * Real.pi / 4800) := by
  have hN : 0 < N := by omega
  have hf : (48000 * P / N : ℝ) ≤ 48000 := by
    have := freq_le (P := P) (c := 1) hN (by
      have : (P : ℝ) ≤ N := by exact_mod_cast (by omega : P ≤ N)
      linarith)
    linarith
  choose y h1 h2 _ using C40_sine_partial _ (show (0 : ℝ) ≤ 48000 * P / N by positivity) hf
  have h3 : ∀ s i : ℕ, |y (s + i) - tone N P s i| ≤ 2 * Real.pi / 4800 := by
    intro s i
    have := h2 (s + i)
    rwa [show 2 * Real.pi * (48000 * P / N) * (s + i : ℕ) / 48000 = 2 * Real.pi * ((s + i : ℕ) * P / N) by rw [← freq_eq hN]; ring] at this
  refine ⟨y, h1, ?_⟩
  rw [← pair_level h0 hP s t a b]
  refine level_near hN (by positivity) fun i _ => (abs_abs_sub_abs_le _ _).trans ?_
  rw [show a * y (s + i) + b * y (t + i) - (a * tone N P s i + b * tone N P t i) =
    a * (y (s + i) - tone N P s i) + b * (y (t + i) - tone N P t i) by ring, add_mul]
  refine (abs_add_le _ _).trans (add_le_add ?_ ?_)
  · rw [abs_mul]
    exact mul_le_mul_of_nonneg_left (h3 s i) (abs_nonneg _)
  · rw [abs_mul]
    exact mul_le_mul_of_nonneg_left (h3 t i) (abs_nonneg _)

/-- Started together: the amplitudes add. -/
example (s P N : ℕ) (a b : ℝ) : Real.sqrt ((a ^ 2 + b ^ 2) / 2 + a * b * Real.cos (2 * Real.pi * (s * P - s * P) / N)) =
    |a + b| * Real.sqrt (1 / 2) := by
  rw [sub_self, mul_zero, zero_div, Real.cos_zero, ← Real.sqrt_sq_eq_abs, ← Real.sqrt_mul (sq_nonneg _)]
  congr 1
  ring

/-- 1 kHz in 48 samples, started 24 samples apart: silence. -/
example : Real.sqrt (((1 : ℝ) ^ 2 + 1 ^ 2) / 2 + 1 * 1 * Real.cos (2 * Real.pi * ((24 : ℕ) * (1 : ℕ) - (0 : ℕ) * (1 : ℕ)) / (48 : ℕ))) = 0 := by
  rw [show 2 * Real.pi * (((24 : ℕ) : ℝ) * (1 : ℕ) - (0 : ℕ) * (1 : ℕ)) / (48 : ℕ) = Real.pi by push_cast; ring, Real.cos_pi]
  norm_num

end Verif
