import Verif.Props.Offset
import Mathlib.Analysis.SpecialFunctions.Trigonometric.Bounds
import Mathlib.Analysis.SpecialFunctions.Complex.Circle

/-! # Harmonics of the waveforms: C150 (exact arithmetic)

The frequency is 48000·P/N in lowest terms, so that N samples are P whole periods; its `j`-th harmonic goes through j·P
periods in that time. -/

namespace Verif
open Complex (I exp)

/-! ## Specification -/

/-- The Fourier sum of the first `N` samples at the frequency that goes through `k` periods in that time. The sinusoid of that
frequency in the signal has the amplitude `2/N` times its absolute value. -/
noncomputable def component (y : ℕ → ℝ) (N k : ℕ) : ℂ := ∑ i ∈ Finset.range N, (y i : ℂ) * exp (I * (-(2 * Real.pi * k * i / N) : ℝ))

/-! ## Roots of unity -/

/-- `e^(2πik/N)`. -/
private noncomputable def root (N : ℕ) (k : ℤ) : ℂ := exp (I * (2 * Real.pi * k / N : ℝ))

private theorem root_pow (N : ℕ) (k : ℤ) (m : ℕ) : root N k ^ m = exp (I * (2 * Real.pi * k * m / N : ℝ)) := by
  unfold root
  rw [← Complex.exp_nat_mul]
  congr 1
  push_cast
  ring

private theorem norm_root_pow (N : ℕ) (k : ℤ) (m : ℕ) : ‖root N k ^ m‖ = 1 := by
  rw [root_pow, mul_comm, Complex.norm_exp_ofReal_mul_I]

private theorem norm_root_pow_sub (N : ℕ) (k : ℤ) (m : ℕ) : ‖root N k ^ m - 1‖ = 2 * |Real.sin (Real.pi * k * m / N)| := by
  rw [root_pow, Complex.norm_exp_I_mul_ofReal_sub_one, Real.norm_eq_abs, abs_mul, abs_of_pos (by norm_num : (0 : ℝ) < 2)]
  congr 3
  ring

private theorem root_one {N : ℕ} (hN : 0 < N) (k : ℤ) : root N k ^ N = 1 := by
  have hNr : (N : ℝ) ≠ 0 := by positivity
  rw [root_pow, Complex.exp_eq_one_iff]
  refine ⟨k, ?_⟩
  rw [show (2 * Real.pi * k * N / N : ℝ) = 2 * Real.pi * k by field_simp]
  push_cast
  ring

private theorem sin_ne {N : ℕ} (hN : 0 < N) {k : ℤ} (hk : ¬ (N : ℤ) ∣ k) : Real.sin (Real.pi * k / N) ≠ 0 := by
  have hNr : (N : ℝ) ≠ 0 := by positivity
  intro h
  rw [Real.sin_eq_zero_iff] at h
  obtain ⟨n, hn⟩ := h
  apply hk
  refine ⟨n, ?_⟩
  rw [eq_div_iff hNr] at hn
  have : (n : ℝ) * N = k := by
    have := Real.pi_ne_zero
    apply mul_left_cancel₀ this
    linarith
  rw [mul_comm]
  exact_mod_cast this.symm

private theorem root_ne {N : ℕ} (hN : 0 < N) {k : ℤ} (hk : ¬ (N : ℤ) ∣ k) : root N k - 1 ≠ 0 := by
  intro h
  have := norm_root_pow_sub N k 1
  rw [pow_one, h, norm_zero, Nat.cast_one, mul_one] at this
  have h' := sin_ne hN hk
  have : |Real.sin (Real.pi * k / N)| = 0 := by linarith
  exact h' (abs_eq_zero.mp this)

private theorem geom (w : ℂ) (n : ℕ) : (w - 1) * ∑ m ∈ Finset.range n, w ^ m = w ^ n - 1 := by
  induction n with
  | zero => simp
  | succ n ih => rw [Finset.sum_range_succ, mul_add, ih]; ring

private theorem sum_root {N : ℕ} (hN : 0 < N) {k : ℤ} (hk : ¬ (N : ℤ) ∣ k) : ∑ m ∈ Finset.range N, root N k ^ m = 0 := by
  have := geom (root N k) N
  rw [root_one hN, sub_self] at this
  exact (mul_eq_zero.mp this).resolve_left (root_ne hN hk)

private theorem sum_root_dvd {N : ℕ} (hN : 0 < N) {k : ℤ} (hk : (N : ℤ) ∣ k) : ∑ m ∈ Finset.range N, root N k ^ m = N := by
  have hNr : (N : ℝ) ≠ 0 := by positivity
  obtain ⟨n, rfl⟩ := hk
  have : root N (N * n) = 1 := by
    unfold root
    rw [Complex.exp_eq_one_iff]
    refine ⟨n, ?_⟩
    rw [show (2 * Real.pi * ((N * n : ℤ) : ℝ) / N : ℝ) = 2 * Real.pi * n by push_cast; field_simp]
    push_cast
    ring
  simp [this]

private theorem sum_idx_root (w : ℂ) (n : ℕ) : (w - 1) * ∑ m ∈ Finset.range n, (m : ℂ) * w ^ m = n * w ^ n - w * ∑ m ∈ Finset.range n, w ^ m := by
  induction n with
  | zero => simp
  | succ n ih =>
    rw [Finset.sum_range_succ, mul_add, ih, Finset.sum_range_succ]
    push_cast
    ring

private theorem sum_shift {F : ℕ → ℂ} {N : ℕ} (h : ∀ m, F (m + N) = F m) (a : ℕ) : ∑ m ∈ Finset.range N, F (m + a) = ∑ m ∈ Finset.range N, F m := by
  induction a with
  | zero => rfl
  | succ a ih =>
    rw [← ih]
    have h1 := Finset.sum_range_succ (fun m => F (m + a)) N
    have h2 := Finset.sum_range_succ' (fun m => F (m + a)) N
    have h3 : F (N + a) = F (0 + a) := by rw [add_comm N a, h, zero_add]
    have e : ∀ m, F (m + 1 + a) = F (m + (a + 1)) := fun m => by congr 1; ring
    simp only [e] at h2
    rw [h1] at h2
    simp only [h3] at h2
    exact (add_right_cancel h2).symm

/-! ## One period -/

private theorem norm_component {f : ℝ → ℝ} (hf : ∀ x, f (x + 1) = f x) {N P : ℕ} (hN : 0 < N) (hc : P.Coprime N) (s j : ℕ) :
    ∃ c : ℂ, ‖c‖ = 1 ∧ component (fun i => f ((s + i : ℕ) * P / N)) N (j * P) = c * ∑ m ∈ Finset.range N, (f (m / N) : ℂ) * root N (-j) ^ m := by
  have hNr : (N : ℝ) ≠ 0 := by positivity
  have hNc : (N : ℂ) ≠ 0 := by exact_mod_cast hN.ne'
  refine ⟨exp (I * (2 * Real.pi * (j * P * s) / N : ℝ)), by rw [mul_comm, Complex.norm_exp_ofReal_mul_I], ?_⟩
  have h := sum_period (g := fun x => (f x : ℂ) * exp (I * (-(2 * Real.pi * j * x) : ℝ))) (fun x => by
    rw [hf]
    congr 1
    rw [Complex.exp_eq_exp_iff_exists_int]
    exact ⟨-j, by push_cast; ring⟩) hN hc s
  have e : ∀ m ∈ Finset.range N, (f (m / N) : ℂ) * exp (I * (-(2 * Real.pi * j * (m / N)) : ℝ)) = (f (m / N) : ℂ) * root N (-j) ^ m := by
    intro m _
    rw [root_pow]
    congr 3
    push_cast
    ring
  rw [← Finset.sum_congr rfl e, ← h, component, Finset.mul_sum]
  refine Finset.sum_congr rfl fun i _ => ?_
  rw [mul_left_comm, ← Complex.exp_add]
  congr 2
  push_cast
  field_simp
  ring

/-- The sum of a signal that changes sign after half a period vanishes at the even harmonics. -/
private theorem half_wave {F : ℕ → ℝ} {N j : ℕ} (hN : 0 < N) (h2 : N % 2 = 0) (hj : j % 2 = 0) (hF : ∀ m, F (m + N / 2) = -F m) :
    ∑ m ∈ Finset.range N, (F m : ℂ) * root N (-j) ^ m = 0 := by
  have hNr : (N : ℝ) ≠ 0 := by positivity
  have e2 : N / 2 + N / 2 = N := by omega
  have hr : root N (-j) ^ (N / 2) = 1 := by
    have hr2 : ((N / 2 : ℕ) : ℝ) = N / 2 := by
      have : ((N / 2 : ℕ) : ℝ) + (N / 2 : ℕ) = N := by exact_mod_cast e2
      linarith
    obtain ⟨i, hi⟩ : ∃ i, j = 2 * i := ⟨j / 2, by omega⟩
    rw [root_pow, hr2, Complex.exp_eq_one_iff]
    refine ⟨-i, ?_⟩
    rw [hi, show (2 * Real.pi * ((-((2 * i : ℕ) : ℤ) : ℤ) : ℝ) * (N / 2) / N : ℝ) = 2 * Real.pi * (-i) by push_cast; field_simp]
    push_cast
    ring
  have sh := sum_shift (F := fun m => (F m : ℂ) * root N (-j) ^ m) (N := N) (fun m => by
    have : F (m + N) = F m := by
      have := hF (m + N / 2)
      rw [hF m, add_assoc, e2] at this
      linarith
    simp only [this, pow_add, root_one hN, mul_one]) (N / 2)
  have e : ∀ m, (F (m + N / 2) : ℂ) * root N (-j) ^ (m + N / 2) = -((F m : ℂ) * root N (-j) ^ m) := by
    intro m
    rw [hF, pow_add, hr]
    push_cast
    ring
  simp only [e, Finset.sum_neg_distrib] at sh
  linear_combination -(1 / 2) * sh

private theorem dvd_neg' {N j : ℕ} (h : ¬ N ∣ j) : ¬ (N : ℤ) ∣ -(j : ℤ) := by
  rw [dvd_neg]
  exact_mod_cast h

private theorem sum_saw {N j : ℕ} (hN : 0 < N) (hj : ¬ N ∣ j) :
    ‖∑ m ∈ Finset.range N, ((2 * Int.fract ((m : ℝ) / N + 1 / 2) - 1 : ℝ) : ℂ) * root N (-j) ^ m‖ = 1 / |Real.sin (Real.pi * j / N)| := by
  have hNr : (0 : ℝ) < N := by positivity
  have hNc : (N : ℂ) ≠ 0 := by exact_mod_cast hN.ne'
  set w := root N (-j) with hw
  have hwN : w ^ N = 1 := root_one hN _
  have hne : w - 1 ≠ 0 := root_ne hN (dvd_neg' hj)
  have hs : ∑ m ∈ Finset.range N, w ^ m = 0 := sum_root hN (dvd_neg' hj)
  have sh := sum_shift (F := fun m => ((2 * Int.fract ((m : ℝ) / N + 1 / 2) - 1 : ℝ) : ℂ) * w ^ m) (N := N) (fun m => by
    have : Int.fract (((m + N : ℕ) : ℝ) / N + 1 / 2) = Int.fract ((m : ℝ) / N + 1 / 2) := by
      rw [Nat.cast_add, add_div, div_self hNr.ne', add_right_comm, Int.fract_add_one]
    simp only [this, pow_add, hwN, mul_one]) ((N + 1) / 2)
  rw [← sh]
  set d : ℝ := (N % 2 : ℕ) / 2 with hd
  have hd1 : 0 ≤ d ∧ d < 1 := by
    have : N % 2 = 0 ∨ N % 2 = 1 := by omega
    rcases this with h | h <;> rw [hd, h] <;> norm_num
  have hK : (((N + 1) / 2 : ℕ) : ℝ) = N / 2 + d := by
    have : 2 * ((N + 1) / 2) = N + N % 2 := by omega
    have : (2 : ℝ) * ((N + 1) / 2 : ℕ) = N + (N % 2 : ℕ) := by exact_mod_cast this
    rw [hd]; linarith
  have e : ∀ m ∈ Finset.range N, ((2 * Int.fract (((m + (N + 1) / 2 : ℕ) : ℝ) / N + 1 / 2) - 1 : ℝ) : ℂ) * w ^ (m + (N + 1) / 2) =
      w ^ ((N + 1) / 2) * (2 / N * ((m : ℂ) * w ^ m) + (2 * d / N - 1) * w ^ m) := by
    intro m hm
    have hm' : (m : ℝ) + 1 ≤ N := by exact_mod_cast Finset.mem_range.mp hm
    have : Int.fract (((m + (N + 1) / 2 : ℕ) : ℝ) / N + 1 / 2) = (m + d) / N := by
      rw [Int.fract_eq_iff]
      refine ⟨div_nonneg (by linarith [hd1.1, (Nat.cast_nonneg m : (0 : ℝ) ≤ m)]) hNr.le, (div_lt_one hNr).mpr (by linarith [hd1.2]), 1, ?_⟩
      rw [Nat.cast_add, hK]
      push_cast
      field_simp
      ring
    rw [this, pow_add]
    push_cast
    field_simp
    ring
  rw [Finset.sum_congr rfl e, ← Finset.mul_sum, norm_mul, norm_root_pow, one_mul, Finset.sum_add_distrib, ← Finset.mul_sum, ← Finset.mul_sum, hs, mul_zero,
    add_zero]
  have hi := sum_idx_root w N
  rw [hs, mul_zero, sub_zero, hwN, mul_one] at hi
  have : (2 / N : ℂ) * ∑ m ∈ Finset.range N, (m : ℂ) * w ^ m = 2 / (w - 1) := by
    rw [eq_div_iff hne, mul_assoc, mul_comm _ (w - 1), hi]
    field_simp
  rw [this, norm_div]
  have hn := norm_root_pow_sub N (-j) 1
  rw [pow_one, ← hw] at hn
  rw [hn, Complex.norm_two]
  have : Real.sin (Real.pi * ((-(j : ℤ) : ℤ) : ℝ) * (1 : ℕ) / N) = -Real.sin (Real.pi * j / N) := by
    rw [← Real.sin_neg]; congr 1; push_cast; ring
  rw [this, abs_neg]
  field_simp

private theorem sum_square {N j : ℕ} (hN : 0 < N) (hj : ¬ N ∣ j) :
    ‖∑ m ∈ Finset.range N, ((if Int.fract ((m : ℝ) / N) < 1 / 2 then 1 else -1 : ℝ) : ℂ) * root N (-j) ^ m‖ =
      2 * |Real.sin (Real.pi * j * ((N + 1) / 2 : ℕ) / N)| / |Real.sin (Real.pi * j / N)| := by
  have hNr : (0 : ℝ) < N := by positivity
  set w := root N (-j) with hw
  have hne : w - 1 ≠ 0 := root_ne hN (dvd_neg' hj)
  have hs : ∑ m ∈ Finset.range N, w ^ m = 0 := sum_root hN (dvd_neg' hj)
  have e : ∀ m ∈ Finset.range N, ((if Int.fract ((m : ℝ) / N) < 1 / 2 then 1 else -1 : ℝ) : ℂ) * w ^ m =
      2 * (if m < (N + 1) / 2 then w ^ m else 0) - w ^ m := by
    intro m hm
    have hm' : (m : ℝ) < N := by exact_mod_cast Finset.mem_range.mp hm
    rw [Int.fract_eq_self.mpr ⟨by positivity, by rwa [div_lt_one hNr]⟩]
    have : (m : ℝ) / N < 1 / 2 ↔ m < (N + 1) / 2 := by
      rw [div_lt_div_iff₀ hNr (by norm_num)]
      have : (m : ℝ) * 2 < 1 * N ↔ m * 2 < 1 * N := by exact_mod_cast Iff.rfl
      rw [this]
      omega
    simp only [this]
    split <;> push_cast <;> ring
  rw [Finset.sum_congr rfl e, Finset.sum_sub_distrib, hs, sub_zero, ← Finset.mul_sum, ← Finset.sum_filter]
  have hfil : (Finset.range N).filter (fun m => m < (N + 1) / 2) = Finset.range ((N + 1) / 2) := by
    ext m
    simp only [Finset.mem_filter, Finset.mem_range]
    omega
  rw [hfil]
  have hg := geom w ((N + 1) / 2)
  have : ∑ m ∈ Finset.range ((N + 1) / 2), w ^ m = (w ^ ((N + 1) / 2) - 1) / (w - 1) := by
    rw [eq_div_iff hne, mul_comm, hg]
  have hn := norm_root_pow_sub N (-j) 1
  rw [pow_one, ← hw] at hn
  rw [this, norm_mul, norm_div, hn, Complex.norm_two, hw, norm_root_pow_sub]
  have e1 : ∀ x : ℝ, Real.sin (Real.pi * ((-(j : ℤ) : ℤ) : ℝ) * x / N) = -Real.sin (Real.pi * j * x / N) := by
    intro x
    rw [← Real.sin_neg]; congr 1; push_cast; ring
  rw [e1, e1, abs_neg, abs_neg, Nat.cast_one, mul_one]
  rw [mul_div_mul_left _ _ (by norm_num : (2 : ℝ) ≠ 0)]
  ring

private theorem fract_half (x : ℝ) : Int.fract (x + 1 / 2) = if Int.fract x < 1 / 2 then Int.fract x + 1 / 2 else Int.fract x - 1 / 2 := by
  have u0 := Int.fract_nonneg x
  have u1 := Int.fract_lt_one x
  have h := Int.self_sub_floor x
  split_ifs with hx
  · rw [Int.fract_eq_iff]
    exact ⟨by linarith, by linarith, ⌊x⌋, by linarith⟩
  · rw [Int.fract_eq_iff]
    exact ⟨by linarith, by linarith, ⌊x⌋ + 1, by push_cast; linarith⟩

private theorem half_cast {N : ℕ} (hN : 0 < N) (h2 : N % 2 = 0) (m : ℕ) : ((m + N / 2 : ℕ) : ℝ) / N = m / N + 1 / 2 := by
  have hNr : (0 : ℝ) < N := by positivity
  have e2 : N / 2 + N / 2 = N := by omega
  have : ((N / 2 : ℕ) : ℝ) + (N / 2 : ℕ) = N := by exact_mod_cast e2
  rw [Nat.cast_add, show ((N / 2 : ℕ) : ℝ) = N / 2 by linarith]
  field_simp

private theorem square_half (x : ℝ) : (if Int.fract (x + 1 / 2) < 1 / 2 then (1 : ℝ) else -1) = -(if Int.fract x < 1 / 2 then 1 else -1) := by
  have u0 := Int.fract_nonneg x
  have u1 := Int.fract_lt_one x
  rw [fract_half]
  split_ifs <;> first | (exfalso; linarith) | norm_num

private theorem tri_half (x : ℝ) : triWave (x + 1 / 2) = -triWave x := by
  have u0 := Int.fract_nonneg (x + 1 / 4)
  have u1 := Int.fract_lt_one (x + 1 / 4)
  unfold triWave
  simp only
  rw [add_right_comm, fract_half]
  split_ifs <;> linarith

private theorem sin_odd {j : ℕ} (hj : j % 2 = 1) : |Real.sin (Real.pi * j / 2)| = 1 := by
  have hc : Real.cos (Real.pi * j / 2) = 0 := by
    rw [Real.cos_eq_zero_iff]
    refine ⟨(j / 2 : ℕ), ?_⟩
    have : (2 : ℝ) * (j / 2 : ℕ) + 1 = j := by exact_mod_cast (by omega : 2 * (j / 2) + 1 = j)
    rw [Int.cast_natCast, this]
    ring
  have := Real.sin_sq_add_cos_sq (Real.pi * j / 2)
  rw [hc] at this
  rw [← sq_eq_sq₀ (abs_nonneg _) zero_le_one, sq_abs]
  linarith

private theorem sum_square_odd {N j : ℕ} (hN : 0 < N) (h2 : N % 2 = 0) (hj : j % 2 = 1) :
    ‖∑ m ∈ Finset.range N, ((if Int.fract ((m : ℝ) / N) < 1 / 2 then 1 else -1 : ℝ) : ℂ) * root N (-j) ^ m‖ = 2 / |Real.sin (Real.pi * j / N)| := by
  have hNr : (0 : ℝ) < N := by positivity
  have hd : ¬ N ∣ j := fun h => by
    have : 2 ∣ j := (Nat.dvd_of_mod_eq_zero h2).trans h
    omega
  have e2 : (N + 1) / 2 + (N + 1) / 2 = N := by omega
  have : (((N + 1) / 2 : ℕ) : ℝ) + ((N + 1) / 2 : ℕ) = N := by exact_mod_cast e2
  rw [sum_square hN hd, show (((N + 1) / 2 : ℕ) : ℝ) = N / 2 by linarith, show Real.pi * j * (N / 2) / N = Real.pi * j / 2 by field_simp, sin_odd hj, mul_one]

/-- From one sample to the next a triangle wave whose turning points fall on samples moves by `4/N` up or down. -/
private theorem tri_step {N : ℕ} (hN : 0 < N) (h4 : N % 4 = 0) (m : ℕ) : triWave ((m + 1 : ℕ) / N) - triWave (m / N) =
    4 / N * (if Int.fract (((m + N / 4 : ℕ) : ℝ) / N) < 1 / 2 then 1 else -1) := by
  have hNr : (0 : ℝ) < N := by positivity
  obtain ⟨q, rfl⟩ : ∃ q, N = 4 * q := ⟨N / 4, by omega⟩
  rw [show 4 * q / 4 = q by omega]
  have val : ∀ m : ℕ, Int.fract ((m : ℝ) / (4 * q : ℕ) + 1 / 4) = ((m + q) % (4 * q) : ℕ) / ((4 * q : ℕ) : ℝ) := by
    intro m
    have hlt : (((m + q) % (4 * q) : ℕ) : ℝ) < (4 * q : ℕ) := by exact_mod_cast Nat.mod_lt _ hN
    have hdm : (((m + q) % (4 * q) : ℕ) : ℝ) + (4 * q : ℕ) * ((m + q) / (4 * q) : ℕ) = m + q := by exact_mod_cast Nat.mod_add_div (m + q) (4 * q)
    rw [Int.fract_eq_iff]
    refine ⟨by positivity, (div_lt_one hNr).mpr hlt, ((m + q) / (4 * q) : ℕ), ?_⟩
    rw [Int.cast_natCast]
    push_cast at hdm hNr ⊢
    have hq : (q : ℝ) ≠ 0 := by intro h; rw [h] at hNr; norm_num at hNr
    field_simp
    linarith
  have val2 : Int.fract (((m + q : ℕ) : ℝ) / (4 * q : ℕ)) = ((m + q) % (4 * q) : ℕ) / ((4 * q : ℕ) : ℝ) := by
    rw [← val m]
    congr 1
    push_cast
    push_cast at hNr
    have hq : (q : ℝ) ≠ 0 := by intro h; rw [h] at hNr; norm_num at hNr
    field_simp
  rw [val2]
  unfold triWave
  simp only
  rw [val, val]
  have hc : ∀ r : ℕ, (r : ℝ) / (4 * q : ℕ) < 1 / 2 ↔ r < 2 * q := by
    intro r
    rw [div_lt_div_iff₀ hNr (by norm_num)]
    have : (r : ℝ) * 2 < 1 * (4 * q : ℕ) ↔ r * 2 < 1 * (4 * q) := by exact_mod_cast Iff.rfl
    rw [this]
    omega
  simp only [hc]
  set r := (m + q) % (4 * q) with hr
  have hlt : r < 4 * q := Nat.mod_lt _ hN
  have hr1 : (m + 1 + q) % (4 * q) = if r + 1 = 4 * q then 0 else r + 1 := by
    rw [show m + 1 + q = m + q + 1 by ring, Nat.add_mod, ← hr]
    by_cases h1 : 4 * q = 1
    · omega
    · rw [Nat.mod_eq_of_lt (by omega : 1 < 4 * q)]
      split_ifs with h
      · rw [h, Nat.mod_self]
      · exact Nat.mod_eq_of_lt (by omega)
  rw [hr1]
  by_cases ha : r + 1 = 4 * q
  · rw [if_pos ha, if_pos (by omega), if_neg (by omega), if_neg (by omega)]
    have : (r : ℝ) + 1 = (4 * q : ℕ) := by exact_mod_cast ha
    rw [show (r : ℝ) = (4 * q : ℕ) - 1 by linarith]
    field_simp
    push_cast
    ring
  · rw [if_neg ha]
    by_cases hb : r + 1 < 2 * q
    · rw [if_pos hb, if_pos (by omega), if_pos (by omega)]
      push_cast
      ring
    · rw [if_neg hb]
      by_cases hd : r < 2 * q
      · rw [if_pos hd, if_pos hd]
        have h0 : r + 1 = 2 * q := by omega
        have h1 : (r : ℝ) + 1 = 2 * q := by exact_mod_cast h0
        have h2 : ((4 * q : ℕ) : ℝ) = 2 * (r + 1) := by push_cast; linarith
        have h3 : (0 : ℝ) < r + 1 := by positivity
        rw [h2]
        push_cast
        field_simp
        ring
      · rw [if_neg hd, if_neg hd]
        push_cast
        ring

private theorem sum_tri {N j : ℕ} (hN : 0 < N) (h4 : N % 4 = 0) (hj : j % 2 = 1) :
    ‖∑ m ∈ Finset.range N, (triWave (m / N) : ℂ) * root N (-j) ^ m‖ = 4 / (N * Real.sin (Real.pi * j / N) ^ 2) := by
  have hNr : (0 : ℝ) < N := by positivity
  have hd : ¬ N ∣ j := fun h => by
    have : 2 ∣ j := (Nat.dvd_of_mod_eq_zero (by omega : N % 2 = 0)).trans h
    omega
  set w := root N (-j) with hw
  have hwN : w ^ N = 1 := root_one hN _
  set Y := ∑ m ∈ Finset.range N, (triWave (m / N) : ℂ) * w ^ m with hY
  -- one sample later
  have s1 := sum_shift (F := fun m => (triWave ((m : ℕ) / N) : ℂ) * w ^ m) (N := N) (fun m => by
    have : triWave (((m + N : ℕ) : ℝ) / N) = triWave (m / N) := by rw [Nat.cast_add, add_div, div_self hNr.ne', tri_per]
    simp only [this, pow_add, hwN, mul_one]) 1
  -- the steps are a square wave, a quarter of a period early
  have s2 := sum_shift (F := fun m => ((if Int.fract (((m : ℕ) : ℝ) / N) < 1 / 2 then 1 else -1 : ℝ) : ℂ) * w ^ m) (N := N) (fun m => by
    have : Int.fract (((m + N : ℕ) : ℝ) / N) = Int.fract ((m : ℝ) / N) := by rw [Nat.cast_add, add_div, div_self hNr.ne', Int.fract_add_one]
    simp only [this, pow_add, hwN, mul_one]) (N / 4)
  have hsq := sum_square_odd (N := N) (j := j) hN (by omega) hj
  rw [← hw] at hsq
  set Q := ∑ m ∈ Finset.range N, ((if Int.fract (((m : ℕ) : ℝ) / N) < 1 / 2 then 1 else -1 : ℝ) : ℂ) * w ^ m with hQ
  have key : w ^ (N / 4) * ((1 - w) * Y) = w * (4 / N) * Q := by
    have e1 : ∑ m ∈ Finset.range N, (triWave (((m + 1 : ℕ) : ℝ) / N) : ℂ) * w ^ (m + 1) = Y := s1
    have e2 : ∑ m ∈ Finset.range N, (triWave (((m + 1 : ℕ) : ℝ) / N) : ℂ) * w ^ (m + 1) =
        w * Y + w * (4 / N) * ∑ m ∈ Finset.range N, ((if Int.fract (((m + N / 4 : ℕ) : ℝ) / N) < 1 / 2 then 1 else -1 : ℝ) : ℂ) * w ^ m := by
      rw [hY, Finset.mul_sum, Finset.mul_sum, ← Finset.sum_add_distrib]
      refine Finset.sum_congr rfl fun m _ => ?_
      have := tri_step hN h4 m
      have h : triWave (((m + 1 : ℕ) : ℝ) / N) = triWave (m / N) + 4 / N * (if Int.fract (((m + N / 4 : ℕ) : ℝ) / N) < 1 / 2 then 1 else -1) := by linarith
      rw [h]
      push_cast
      ring
    have e3 : w ^ (N / 4) * ∑ m ∈ Finset.range N, ((if Int.fract (((m + N / 4 : ℕ) : ℝ) / N) < 1 / 2 then 1 else -1 : ℝ) : ℂ) * w ^ m = Q := by
      rw [← s2, Finset.mul_sum]
      refine Finset.sum_congr rfl fun m _ => ?_
      rw [pow_add]
      ring
    rw [e1] at e2
    rw [← e3]
    linear_combination w ^ (N / 4) * e2
  have hn := congrArg norm key
  have w1 : ‖w‖ = 1 := by have := norm_root_pow N (-j) 1; rwa [pow_one] at this
  rw [norm_mul, norm_mul, norm_mul, norm_mul, norm_root_pow, hsq, w1, one_mul, one_mul, norm_div, Complex.norm_natCast, Complex.norm_ofNat,
    ← norm_neg, neg_sub] at hn
  have hs := norm_root_pow_sub N (-j) 1
  rw [pow_one, ← hw] at hs
  have : Real.sin (Real.pi * ((-(j : ℤ) : ℤ) : ℝ) * (1 : ℕ) / N) = -Real.sin (Real.pi * j / N) := by
    rw [← Real.sin_neg]; congr 1; push_cast; ring
  rw [this, abs_neg] at hs
  rw [hs] at hn
  have hpos : 0 < |Real.sin (Real.pi * j / N)| := by
    have := sin_ne hN (k := (j : ℤ)) (by exact_mod_cast hd)
    rw [Int.cast_natCast] at this
    exact abs_pos.mpr this
  rw [← sq_abs (Real.sin _), eq_div_iff (by positivity)]
  field_simp at hn
  linear_combination hn

/-- If the turning points fall halfway between samples, the wave does not move from the sample before to the sample after. -/
private theorem tri_step' {N : ℕ} (h4 : N % 4 = 2) (m : ℕ) : triWave ((m + 1 : ℕ) / N) - triWave (m / N) =
    4 / N * (((if Int.fract (((m + N / 4 : ℕ) : ℝ) / N) < 1 / 2 then 1 else -1) + (if Int.fract (((m + (N / 4 + 1) : ℕ) : ℝ) / N) < 1 / 2 then 1 else -1)) / 2) := by
  obtain ⟨q, rfl⟩ : ∃ q, N = 4 * q + 2 := ⟨N / 4, by omega⟩
  rw [show (4 * q + 2) / 4 = q by omega]
  have hNr : (0 : ℝ) < (4 * q + 2 : ℕ) := by positivity
  have hNe : ((4 * q + 2 : ℕ) : ℝ) = 4 * q + 2 := by push_cast; ring
  have val2 : ∀ k : ℕ, Int.fract ((k : ℝ) / (4 * q + 2 : ℕ)) = (k % (4 * q + 2) : ℕ) / ((4 * q + 2 : ℕ) : ℝ) := by
    intro k
    have hlt : ((k % (4 * q + 2) : ℕ) : ℝ) < (4 * q + 2 : ℕ) := by exact_mod_cast Nat.mod_lt _ (by omega)
    have hdm : ((k % (4 * q + 2) : ℕ) : ℝ) + (4 * q + 2 : ℕ) * (k / (4 * q + 2) : ℕ) = k := by exact_mod_cast Nat.mod_add_div k (4 * q + 2)
    rw [Int.fract_eq_iff]
    refine ⟨by positivity, (div_lt_one hNr).mpr hlt, (k / (4 * q + 2) : ℕ), ?_⟩
    rw [Int.cast_natCast]
    field_simp
    linarith
  have val : ∀ m : ℕ, Int.fract ((m : ℝ) / (4 * q + 2 : ℕ) + 1 / 4) = (((m + q) % (4 * q + 2) : ℕ) + 1 / 2) / ((4 * q + 2 : ℕ) : ℝ) := by
    intro m
    have hlt : (((m + q) % (4 * q + 2) : ℕ) : ℝ) + 1 ≤ (4 * q + 2 : ℕ) := by exact_mod_cast Nat.mod_lt _ (by omega)
    have hdm : (((m + q) % (4 * q + 2) : ℕ) : ℝ) + (4 * q + 2 : ℕ) * ((m + q) / (4 * q + 2) : ℕ) = m + q := by exact_mod_cast Nat.mod_add_div (m + q) (4 * q + 2)
    rw [Int.fract_eq_iff]
    refine ⟨by positivity, (div_lt_one hNr).mpr (by linarith), ((m + q) / (4 * q + 2) : ℕ), ?_⟩
    rw [Int.cast_natCast]
    rw [hNe] at hdm hNr ⊢
    field_simp
    linarith
  rw [val2, val2]
  unfold triWave
  simp only
  rw [val, val]
  have hc : ∀ r : ℕ, (r : ℝ) / (4 * q + 2 : ℕ) < 1 / 2 ↔ r < 2 * q + 1 := by
    intro r
    rw [div_lt_div_iff₀ hNr (by norm_num)]
    have : (r : ℝ) * 2 < 1 * (4 * q + 2 : ℕ) ↔ r * 2 < 1 * (4 * q + 2) := by exact_mod_cast Iff.rfl
    rw [this]
    omega
  have hc' : ∀ r : ℕ, ((r : ℝ) + 1 / 2) / (4 * q + 2 : ℕ) < 1 / 2 ↔ r < 2 * q + 1 := by
    intro r
    rw [div_lt_div_iff₀ hNr (by norm_num)]
    have : ((r : ℝ) + 1 / 2) * 2 < 1 * (4 * q + 2 : ℕ) ↔ r * 2 + 1 < 1 * (4 * q + 2) := by
      rw [show ((r : ℝ) + 1 / 2) * 2 = ((r * 2 + 1 : ℕ) : ℝ) by push_cast; ring, one_mul, one_mul, Nat.cast_lt]
    rw [this]
    omega
  simp only [hc, hc']
  set r := (m + q) % (4 * q + 2) with hr
  have hlt : r < 4 * q + 2 := Nat.mod_lt _ (by omega)
  have hr1 : (m + 1 + q) % (4 * q + 2) = if r + 1 = 4 * q + 2 then 0 else r + 1 := by
    rw [show m + 1 + q = m + q + 1 by ring, Nat.add_mod, ← hr, Nat.mod_eq_of_lt (by omega : 1 < 4 * q + 2)]
    split_ifs with h
    · rw [h, Nat.mod_self]
    · exact Nat.mod_eq_of_lt (by omega)
  rw [show m + (q + 1) = m + 1 + q by ring, hr1]
  by_cases ha : r + 1 = 4 * q + 2
  · simp only [if_pos ha, if_neg (by omega : ¬ r < 2 * q + 1), if_pos (by omega : 0 < 2 * q + 1)]
    have : (r : ℝ) + 1 = (4 * q + 2 : ℕ) := by exact_mod_cast ha
    rw [show (r : ℝ) = (4 * q + 2 : ℕ) - 1 by linarith]
    push_cast
    field_simp
    ring
  · rw [if_neg ha]
    by_cases hb : r + 1 < 2 * q + 1
    · rw [if_pos hb, if_pos (by omega), if_pos (by omega), if_pos hb]
      push_cast
      ring
    · rw [if_neg hb]
      by_cases hd : r < 2 * q + 1
      · rw [if_pos hd, if_pos hd, if_neg (by omega)]
        have h1 : (r : ℝ) = 2 * q := by exact_mod_cast (by omega : r = 2 * q)
        push_cast
        rw [h1]
        have : (4 * (q : ℝ) + 2) ≠ 0 := by positivity
        field_simp
        ring
      · rw [if_neg hd, if_neg hd, if_neg hb]
        push_cast
        ring

private theorem sum_tri' {N j : ℕ} (h4 : N % 4 = 2) (hj : j % 2 = 1) :
    ‖∑ m ∈ Finset.range N, (triWave (m / N) : ℂ) * root N (-j) ^ m‖ = 4 * |Real.cos (Real.pi * j / N)| / (N * Real.sin (Real.pi * j / N) ^ 2) := by
  have hN : 0 < N := by omega
  have hNr : (0 : ℝ) < N := by positivity
  have hd : ¬ N ∣ j := fun h => by
    have : 2 ∣ j := (Nat.dvd_of_mod_eq_zero (by omega : N % 2 = 0)).trans h
    omega
  set w := root N (-j) with hw
  have hwN : w ^ N = 1 := root_one hN _
  set Y := ∑ m ∈ Finset.range N, (triWave (m / N) : ℂ) * w ^ m with hY
  have s1 := sum_shift (F := fun m => (triWave ((m : ℕ) / N) : ℂ) * w ^ m) (N := N) (fun m => by
    have : triWave (((m + N : ℕ) : ℝ) / N) = triWave (m / N) := by rw [Nat.cast_add, add_div, div_self hNr.ne', tri_per]
    simp only [this, pow_add, hwN, mul_one]) 1
  have s2 := sum_shift (F := fun m => ((if Int.fract (((m : ℕ) : ℝ) / N) < 1 / 2 then 1 else -1 : ℝ) : ℂ) * w ^ m) (N := N) (fun m => by
    have : Int.fract (((m + N : ℕ) : ℝ) / N) = Int.fract ((m : ℝ) / N) := by rw [Nat.cast_add, add_div, div_self hNr.ne', Int.fract_add_one]
    simp only [this, pow_add, hwN, mul_one])
  have hsq := sum_square_odd (N := N) (j := j) hN (by omega) hj
  rw [← hw] at hsq
  set Q := ∑ m ∈ Finset.range N, ((if Int.fract (((m : ℕ) : ℝ) / N) < 1 / 2 then 1 else -1 : ℝ) : ℂ) * w ^ m with hQ
  have key : w ^ (N / 4) * ((1 - w) * Y) = 2 / N * (w + 1) * Q := by
    have e1 : ∑ m ∈ Finset.range N, (triWave (((m + 1 : ℕ) : ℝ) / N) : ℂ) * w ^ (m + 1) = Y := s1
    have e2 : ∑ m ∈ Finset.range N, (triWave (((m + 1 : ℕ) : ℝ) / N) : ℂ) * w ^ (m + 1) = w * Y +
        (w * (2 / N) * ∑ m ∈ Finset.range N, ((if Int.fract (((m + N / 4 : ℕ) : ℝ) / N) < 1 / 2 then 1 else -1 : ℝ) : ℂ) * w ^ m +
        w * (2 / N) * ∑ m ∈ Finset.range N, ((if Int.fract (((m + (N / 4 + 1) : ℕ) : ℝ) / N) < 1 / 2 then 1 else -1 : ℝ) : ℂ) * w ^ m) := by
      rw [hY, Finset.mul_sum, Finset.mul_sum, Finset.mul_sum, ← Finset.sum_add_distrib, ← Finset.sum_add_distrib]
      refine Finset.sum_congr rfl fun m _ => ?_
      have h := sub_eq_iff_eq_add.mp (tri_step' h4 m)
      rw [h]
      push_cast
      ring
    have e3 : ∀ a : ℕ, w ^ a * ∑ m ∈ Finset.range N, ((if Int.fract (((m + a : ℕ) : ℝ) / N) < 1 / 2 then 1 else -1 : ℝ) : ℂ) * w ^ m = Q := by
      intro a
      rw [← s2 a, Finset.mul_sum]
      refine Finset.sum_congr rfl fun m _ => ?_
      rw [pow_add]
      ring
    rw [e1] at e2
    have a1 := e3 (N / 4)
    have a2 := e3 (N / 4 + 1)
    rw [pow_succ] at a2
    linear_combination w ^ (N / 4) * e2 + w * (2 / N) * a1 + (2 / N) * a2
  have hn := congrArg norm key
  have hp : ‖w + 1‖ = 2 * |Real.cos (Real.pi * j / N)| := by
    have a : w + 1 = root N (-j) - exp (I * (Real.pi : ℝ)) := by
      rw [mul_comm I, Complex.exp_pi_mul_I, sub_neg_eq_add]
    have b : w + 1 = exp (I * (Real.pi : ℝ)) * (exp (I * ((2 * Real.pi * ((-j : ℤ) : ℝ) / N - Real.pi : ℝ))) - 1) := by
      rw [a, mul_sub, ← Complex.exp_add, mul_one, root]
      congr 2
      push_cast
      ring
    rw [b, norm_mul, mul_comm I, Complex.norm_exp_ofReal_mul_I, one_mul, Complex.norm_exp_I_mul_ofReal_sub_one, Real.norm_eq_abs, abs_mul,
      abs_of_pos (by norm_num : (0 : ℝ) < 2)]
    rw [show (2 * Real.pi * ((-j : ℤ) : ℝ) / N - Real.pi) / 2 = -(Real.pi * j / N + Real.pi / 2) by push_cast; ring, Real.sin_neg, abs_neg, Real.sin_add_pi_div_two]
  rw [norm_mul, norm_mul, norm_mul, norm_mul, norm_root_pow, hsq, hp, one_mul, norm_div, Complex.norm_natCast, Complex.norm_ofNat,
    ← norm_neg, neg_sub] at hn
  have hs := norm_root_pow_sub N (-j) 1
  rw [pow_one, ← hw] at hs
  have : Real.sin (Real.pi * ((-(j : ℤ) : ℤ) : ℝ) * (1 : ℕ) / N) = -Real.sin (Real.pi * j / N) := by
    rw [← Real.sin_neg]; congr 1; push_cast; ring
  rw [this, abs_neg] at hs
  rw [hs] at hn
  have hpos : 0 < |Real.sin (Real.pi * j / N)| := by
    have := sin_ne hN (k := (j : ℤ)) (by exact_mod_cast hd)
    rw [Int.cast_natCast] at this
    exact abs_pos.mpr this
  rw [← sq_abs (Real.sin _), eq_div_iff (by positivity)]
  field_simp at hn
  linear_combination hn

private theorem sum_pairs (F : ℕ → ℂ) (N : ℕ) : ∑ m ∈ Finset.range (2 * N), F m = ∑ m ∈ Finset.range N, F (2 * m) + ∑ m ∈ Finset.range N, F (2 * m + 1) := by
  induction N with
  | zero => simp
  | succ n ih =>
    rw [show 2 * (n + 1) = 2 * n + 1 + 1 by ring, Finset.sum_range_succ, Finset.sum_range_succ, ih, Finset.sum_range_succ, Finset.sum_range_succ]
    ring

/-- An odd number of samples: every other sample of twice as many. -/
private theorem sum_tri_odd {N j : ℕ} (h2 : N % 2 = 1) :
    ‖∑ m ∈ Finset.range N, (triWave (m / N) : ℂ) * root N (-j) ^ m‖ =
      if j % 2 = 1 then |Real.cos (Real.pi * j / (2 * N))| / (N * Real.sin (Real.pi * j / (2 * N)) ^ 2)
      else |Real.sin (Real.pi * j / (2 * N))| / (N * Real.cos (Real.pi * j / (2 * N)) ^ 2) := by
  have hN : 0 < N := by omega
  have hNr : (0 : ℝ) < N := by positivity
  have hNc : (N : ℂ) ≠ 0 := by exact_mod_cast hN.ne'
  set r := root (2 * N) (-j) with hr
  have er : root N (-j) = r ^ 2 := by
    rw [hr, root_pow, root]
    congr 3
    push_cast
    field_simp
  have er' : root (2 * N) (-(j + N : ℕ)) = -r := by
    have : root (2 * N) (-(j + N : ℕ)) = exp (-((Real.pi : ℝ) * I)) * r := by
      rw [hr, root, root, ← Complex.exp_add]
      congr 1
      push_cast
      field_simp
      ring
    rw [this, Complex.exp_neg, Complex.exp_pi_mul_I]
    norm_num
  have ht : ∀ m : ℕ, triWave (m / N) = triWave ((2 * m : ℕ) / (2 * N : ℕ)) := by
    intro m
    push_cast
    rw [mul_div_mul_left _ _ (by norm_num : (2 : ℝ) ≠ 0)]
  set E := ∑ m ∈ Finset.range N, (triWave ((2 * m : ℕ) / (2 * N : ℕ)) : ℂ) * r ^ (2 * m) with hE
  set O := ∑ m ∈ Finset.range N, (triWave ((2 * m + 1 : ℕ) / (2 * N : ℕ)) : ℂ) * r ^ (2 * m + 1) with hO
  have h1 : ∑ m ∈ Finset.range (2 * N), (triWave (m / (2 * N : ℕ)) : ℂ) * root (2 * N) (-j) ^ m = E + O := by rw [sum_pairs]
  have h3 : ∑ m ∈ Finset.range (2 * N), (triWave (m / (2 * N : ℕ)) : ℂ) * root (2 * N) (-(j + N : ℕ)) ^ m = E - O := by
    rw [sum_pairs, er', hE, hO, sub_eq_add_neg, ← Finset.sum_neg_distrib]
    congr 1
    · refine Finset.sum_congr rfl fun m _ => ?_
      rw [pow_mul, pow_mul, neg_sq]
    · refine Finset.sum_congr rfl fun m _ => ?_
      rw [pow_succ, pow_succ, pow_mul, pow_mul, neg_sq]
      ring
  have hY : ∑ m ∈ Finset.range N, (triWave (m / N) : ℂ) * root N (-j) ^ m = E := by
    rw [hE]
    refine Finset.sum_congr rfl fun m _ => ?_
    rw [ht, er, ← pow_mul]
  have h2N : 2 * N % 4 = 2 := by omega
  have even : ∀ k : ℕ, k % 2 = 0 → ∑ m ∈ Finset.range (2 * N), (triWave (m / (2 * N : ℕ)) : ℂ) * root (2 * N) (-k) ^ m = 0 := fun k hk =>
    half_wave (F := fun m => triWave (m / (2 * N : ℕ))) (by omega) (by omega) hk (fun m => by
      simp only [half_cast (N := 2 * N) (by omega) (by omega), tri_half])
  rw [hY]
  split_ifs with hj
  · have a := even (j + N) (by omega)
    rw [h3] at a
    have b := sum_tri' h2N hj
    rw [h1, show E + O = 2 * E by linear_combination -a, norm_mul, Complex.norm_two] at b
    rw [show (Real.pi * j / (2 * N) : ℝ) = Real.pi * j / (2 * N : ℕ) by push_cast; rfl]
    push_cast at b ⊢
    rw [show ‖E‖ = 2 * ‖E‖ / 2 by ring, b]
    ring
  · have a := even j (by omega)
    rw [h1] at a
    have b := sum_tri' (j := j + N) h2N (by omega)
    rw [h3, show E - O = 2 * E by linear_combination -a, norm_mul, Complex.norm_two] at b
    have ea : Real.pi * (j + N : ℕ) / (2 * N : ℕ) = Real.pi * j / (2 * N) + Real.pi / 2 := by
      push_cast
      field_simp
    rw [ea, Real.cos_add_pi_div_two, Real.sin_add_pi_div_two, abs_neg] at b
    push_cast at b
    rw [show ‖E‖ = 2 * ‖E‖ / 2 by ring, b]
    ring

/-! ## C150 -/

section
variable {N P : ℕ} (hN : 0 < N) (hc : P.Coprime N) (s j : ℕ)
include hN hc

/-- Exact arithmetic: the `j`-th harmonic of a sawtooth has the amplitude `2/(N sin(πj/N))`, from any sample on. -/
theorem C150_sawtooth (hle : P ≤ N) (hj : ¬ N ∣ j) :
    ‖component (fun i => nth (S := ℝ) Sawtooth.process (Sawtooth.new (48000 * P / N : ℝ)) (s + i)) N (j * P)‖ = 1 / |Real.sin (Real.pi * j / N)| := by
  have hf := freq_le (c := 1) hN (by simpa using (by exact_mod_cast hle : (P : ℝ) ≤ N))
  simp only [C34_sawtooth _ (show (0 : ℝ) ≤ 48000 * P / N by positivity) (hf.trans (by norm_num)), freq_eq hN]
  obtain ⟨c, hc1, h⟩ := norm_component (f := fun x => 2 * Int.fract (x + 1 / 2) - 1) (fun x => by rw [add_right_comm, Int.fract_add_one]) hN hc s j
  rw [h, norm_mul, hc1, one_mul]
  exact sum_saw hN hj

/-- Up to half the sample rate the amplitude is that of the Fourier series of a sawtooth, `2/(πj)`, or more, by at most a factor π/2. -/
theorem C150_sawtooth_fourier (hle : P ≤ N) (h0 : 0 < j) (h1 : 2 * j ≤ N) :
    2 / (Real.pi * j) ≤ 2 / N * ‖component (fun i => nth (S := ℝ) Sawtooth.process (Sawtooth.new (48000 * P / N : ℝ)) (s + i)) N (j * P)‖ ∧
    2 / N * ‖component (fun i => nth (S := ℝ) Sawtooth.process (Sawtooth.new (48000 * P / N : ℝ)) (s + i)) N (j * P)‖ ≤ 2 / (Real.pi * j) * (Real.pi / 2) := by
  have hNr : (0 : ℝ) < N := by positivity
  have hjr : (0 : ℝ) < j := by positivity
  have hpi := Real.pi_pos
  have h1r : (2 : ℝ) * j ≤ N := by exact_mod_cast h1
  rw [C150_sawtooth hN hc s j hle (fun h => by have := Nat.le_of_dvd h0 h; omega)]
  have x0 : 0 < Real.pi * j / N := by positivity
  have x1 : Real.pi * j / N ≤ Real.pi / 2 := by rw [div_le_div_iff₀ hNr (by norm_num)]; nlinarith
  have s1 := Real.sin_le x0.le
  have s2 := Real.mul_le_sin x0.le x1
  have sp : 0 < Real.sin (Real.pi * j / N) := Real.sin_pos_of_pos_of_lt_pi x0 (by linarith)
  rw [abs_of_pos sp]
  have e : 2 / (N : ℝ) * (1 / Real.sin (Real.pi * j / N)) = 2 / (N * Real.sin (Real.pi * j / N)) := by field_simp
  rw [e]
  constructor
  · refine div_le_div_of_nonneg_left (by norm_num) (by positivity) ?_
    calc (N : ℝ) * Real.sin (Real.pi * j / N) ≤ N * (Real.pi * j / N) := mul_le_mul_of_nonneg_left s1 hNr.le
      _ = Real.pi * j := by field_simp
  · have : 2 / (Real.pi * j) * (Real.pi / 2) = 2 / (2 * j : ℝ) := by field_simp
    rw [this]
    refine div_le_div_of_nonneg_left (by norm_num) (by positivity) ?_
    calc (2 * j : ℝ) = N * (2 / Real.pi * (Real.pi * j / N)) := by field_simp
      _ ≤ _ := mul_le_mul_of_nonneg_left s2 hNr.le

private theorem square_eq (h0 : 0 < P) (hle : 2 * P ≤ N) : ∃ c : ℂ, ‖c‖ = 1 ∧
    component (fun i => nth (S := ℝ) Square.process (Square.new (48000 * P / N : ℝ)) (s + i)) N (j * P) =
      c * ∑ m ∈ Finset.range N, ((if Int.fract ((m : ℝ) / N) < 1 / 2 then 1 else -1 : ℝ) : ℂ) * root N (-j) ^ m := by
  have hf := freq_le (P := P) (c := 1 / 2) hN (by have : (2 * P : ℝ) ≤ N := by exact_mod_cast hle
                                                  linarith)
  simp only [C38_square _ (show (0 : ℝ) < 48000 * P / N by positivity) (hf.trans (by norm_num)), freq_eq hN]
  exact norm_component (f := fun x => if Int.fract x < 1 / 2 then (1 : ℝ) else -1) (fun x => by rw [Int.fract_add_one]) hN hc s j

/-- Exact arithmetic, N even: a square wave has no even harmonics, and the odd ones have
the amplitude `4/(N sin(πj/N))`. Missing: see `C150_square_violated`. -/
theorem C150_square_partial (h0 : 0 < P) (hle : 2 * P ≤ N) (h2 : N % 2 = 0) :
    (j % 2 = 0 → component (fun i => nth (S := ℝ) Square.process (Square.new (48000 * P / N : ℝ)) (s + i)) N (j * P) = 0) ∧
    (j % 2 = 1 → ‖component (fun i => nth (S := ℝ) Square.process (Square.new (48000 * P / N : ℝ)) (s + i)) N (j * P)‖ = 2 / |Real.sin (Real.pi * j / N)|) := by
  obtain ⟨c, hc1, h⟩ := square_eq hN hc s j h0 hle
  rw [h]
  constructor
  · intro hj
    rw [half_wave (F := fun m => if Int.fract ((m : ℝ) / N) < 1 / 2 then 1 else -1) hN h2 hj (fun m => by
      simp only [half_cast hN h2, square_half]), mul_zero]
  · intro hj
    rw [norm_mul, hc1, one_mul, sum_square_odd hN h2 hj]

/-- If the number of samples is odd, a square wave has even harmonics too: sampled at 48 kHz without filtering it is not the
sum of odd harmonics. -/
theorem C150_square_violated (h0 : 0 < P) (hle : 2 * P ≤ N) (h2 : N % 2 = 1) (hj : ¬ N ∣ j) (hj2 : j % 2 = 0) :
    1 ≤ ‖component (fun i => nth (S := ℝ) Square.process (Square.new (48000 * P / N : ℝ)) (s + i)) N (j * P)‖ := by
  have hNr : (0 : ℝ) < N := by positivity
  obtain ⟨c, hc1, h⟩ := square_eq hN hc s j h0 hle
  rw [h, norm_mul, hc1, one_mul, sum_square hN hj]
  set x := Real.pi * j / (2 * N) with hx
  have e2 : 2 * ((N + 1) / 2) = N + 1 := by omega
  have e2r : (2 : ℝ) * ((N + 1) / 2 : ℕ) = N + 1 := by exact_mod_cast e2
  obtain ⟨i, hi⟩ : ∃ i, j = 2 * i := ⟨j / 2, by omega⟩
  have a1 : Real.pi * j * ((N + 1) / 2 : ℕ) / N = x + i * Real.pi := by
    rw [show (((N + 1) / 2 : ℕ) : ℝ) = (N + 1) / 2 by linarith, hx, hi]
    push_cast
    field_simp
    ring
  have a2 : Real.pi * j / N = 2 * x := by rw [hx]; field_simp
  have hs : Real.sin (Real.pi * j / N) ≠ 0 := by
    have := sin_ne hN (k := (j : ℤ)) (by exact_mod_cast hj)
    rwa [Int.cast_natCast] at this
  rw [a2] at hs
  rw [a1, a2, Real.sin_add_nat_mul_pi, abs_mul, abs_pow, abs_neg, abs_one, one_pow, one_mul]
  rw [Real.sin_two_mul] at hs ⊢
  rw [le_div_iff₀ (abs_pos.mpr hs), one_mul, abs_mul, abs_mul, abs_of_pos (by norm_num : (0 : ℝ) < 2)]
  have := Real.abs_cos_le_one x
  have := abs_nonneg (Real.sin x)
  nlinarith

/-- Exact arithmetic, an even number of samples: a triangle wave has no even harmonics; if the number is a multiple of four the odd
ones have the amplitude `8/(N sin(πj/N))²`, falling with the square of `j`, and otherwise that times `|cos(πj/N)|`. Odd numbers of samples: C150_triangle_violated. -/
theorem C150_triangle_partial (h0 : 0 < P) (hle : 2 * P ≤ N) (h2 : N % 2 = 0) :
    (j % 2 = 0 → component (fun i => nth (S := ℝ) Triangle.process (Triangle.new (48000 * P / N : ℝ)) (s + i)) N (j * P) = 0) ∧
    (N % 4 = 0 → j % 2 = 1 → ‖component (fun i => nth (S := ℝ) Triangle.process (Triangle.new (48000 * P / N : ℝ)) (s + i)) N (j * P)‖ =
      4 / (N * Real.sin (Real.pi * j / N) ^ 2)) ∧
    (N % 4 = 2 → j % 2 = 1 → ‖component (fun i => nth (S := ℝ) Triangle.process (Triangle.new (48000 * P / N : ℝ)) (s + i)) N (j * P)‖ =
      4 * |Real.cos (Real.pi * j / N)| / (N * Real.sin (Real.pi * j / N) ^ 2)) := by
  have hf := freq_le (P := P) (c := 1 / 2) hN (by have : (2 * P : ℝ) ≤ N := by exact_mod_cast hle
                                                  linarith)
  simp only [C95_triangle _ (show (0 : ℝ) < 48000 * P / N by positivity) (hf.trans (by norm_num)), freq_eq hN]
  obtain ⟨c, hc1, h⟩ := norm_component tri_per hN hc s j
  rw [h]
  refine ⟨?_, ?_, ?_⟩
  · intro hj
    rw [half_wave (F := fun m => triWave (m / N)) hN h2 hj (fun m => by simp only [half_cast hN h2, tri_half]), mul_zero]
  · intro h4 hj
    rw [norm_mul, hc1, one_mul, sum_tri hN h4 hj]
  · intro h4 hj
    rw [norm_mul, hc1, one_mul, sum_tri' h4 hj]

/-- Exact arithmetic, an odd number of samples: the amplitudes of the odd harmonics of a triangle wave, with x = πj/2N, are `2 cos x/(N sin x)²`; but here
there are even ones as well, of amplitude `2 sin x/(N cos x)²`. -/
theorem C150_triangle_violated (h0 : 0 < P) (hle : 2 * P ≤ N) (h2 : N % 2 = 1) :
    (j % 2 = 1 → ‖component (fun i => nth (S := ℝ) Triangle.process (Triangle.new (48000 * P / N : ℝ)) (s + i)) N (j * P)‖ =
      |Real.cos (Real.pi * j / (2 * N))| / (N * Real.sin (Real.pi * j / (2 * N)) ^ 2)) ∧
    (j % 2 = 0 → ‖component (fun i => nth (S := ℝ) Triangle.process (Triangle.new (48000 * P / N : ℝ)) (s + i)) N (j * P)‖ =
      |Real.sin (Real.pi * j / (2 * N))| / (N * Real.cos (Real.pi * j / (2 * N)) ^ 2)) ∧
    (0 < j → j < N → j % 2 = 0 → 0 < ‖component (fun i => nth (S := ℝ) Triangle.process (Triangle.new (48000 * P / N : ℝ)) (s + i)) N (j * P)‖) := by
  have hNr : (0 : ℝ) < N := by positivity
  have hf := freq_le (P := P) (c := 1 / 2) hN (by have : (2 * P : ℝ) ≤ N := by exact_mod_cast hle
                                                  linarith)
  simp only [C95_triangle _ (show (0 : ℝ) < 48000 * P / N by positivity) (hf.trans (by norm_num)), freq_eq hN]
  obtain ⟨c, hc1, h⟩ := norm_component tri_per hN hc s j
  rw [h, norm_mul, hc1, one_mul, sum_tri_odd h2]
  refine ⟨fun hj => if_pos hj, fun hj => if_neg (by omega), fun j0 j1 hj => ?_⟩
  rw [if_neg (by omega)]
  have x0 : 0 < Real.pi * j / (2 * N) := by
    have := Real.pi_pos
    positivity
  have x1 : Real.pi * j / (2 * N) < Real.pi / 2 := by
    rw [div_lt_div_iff₀ (by positivity) (by norm_num)]
    have : (j : ℝ) < N := by exact_mod_cast j1
    nlinarith [Real.pi_pos]
  have a := Real.sin_pos_of_pos_of_lt_pi x0 (by linarith [Real.pi_pos])
  have b := Real.cos_pos_of_mem_Ioo ⟨by linarith [Real.pi_pos], x1⟩
  positivity

omit hN hc in
/-- Signals that are close have close harmonics. -/
theorem component_near {y z : ℕ → ℝ} {e : ℝ} {M : ℕ} (h : ∀ i < M, |y i - z i| ≤ e) (k : ℕ) : ‖component y M k - component z M k‖ ≤ M * e := by
  unfold component
  rw [← Finset.sum_sub_distrib]
  refine (norm_sum_le_of_le _ (f := fun i => (y i : ℂ) * exp (I * (-(2 * Real.pi * k * i / M) : ℝ)) - (z i : ℂ) * exp (I * (-(2 * Real.pi * k * i / M) : ℝ)))
    (n := fun _ => e) fun i hi => ?_).trans ?_
  · rw [← sub_mul, norm_mul, mul_comm I, Complex.norm_exp_ofReal_mul_I, mul_one, ← Complex.ofReal_sub, Complex.norm_real, Real.norm_eq_abs]
    exact h i (Finset.mem_range.mp hi)
  · rw [Finset.sum_const, Finset.card_range, nsmul_eq_mul]

/-- The ideal sine. -/
theorem sine_component :
    (¬ (N : ℤ) ∣ (j : ℤ) - 1 → ¬ N ∣ j + 1 → component (fun i => Real.sin (2 * Real.pi * ((s + i : ℕ) * P / N))) N (j * P) = 0) ∧
    (3 ≤ N → (N : ℤ) ∣ (j : ℤ) - 1 → ‖component (fun i => Real.sin (2 * Real.pi * ((s + i : ℕ) * P / N))) N (j * P)‖ = N / 2) := by
  have hNr : (0 : ℝ) < N := by positivity
  obtain ⟨c, hc1, hi⟩ := norm_component (f := fun x => Real.sin (2 * Real.pi * x)) (fun x => by
    rw [mul_add, mul_one, Real.sin_add_two_pi]) hN hc s j
  -- as two roots of unity
  have e : ∀ m ∈ Finset.range N, (Real.sin (2 * Real.pi * (m / N)) : ℂ) * root N (-j) ^ m =
      -I / 2 * root N (1 - j) ^ m + I / 2 * root N (-(1 + j)) ^ m := by
    intro m _
    have s0 : (Real.sin (2 * Real.pi * (m / N)) : ℂ) = -I / 2 * root N 1 ^ m + I / 2 * root N (-1) ^ m := by
      rw [Complex.ofReal_sin, Complex.sin, root_pow, root_pow]
      have a1 : -((2 * Real.pi * (m / N) : ℝ) : ℂ) * I = I * ((2 * Real.pi * (-1 : ℤ) * m / N : ℝ) : ℂ) := by push_cast; ring
      have a2 : ((2 * Real.pi * (m / N) : ℝ) : ℂ) * I = I * ((2 * Real.pi * (1 : ℤ) * m / N : ℝ) : ℂ) := by push_cast; ring
      rw [a1, a2]
      ring
    have r1 : root N (1 - j) = root N 1 * root N (-j) := by
      unfold root
      rw [← Complex.exp_add]
      congr 1
      push_cast
      ring
    have r2 : root N (-(1 + j)) = root N (-1) * root N (-j) := by
      unfold root
      rw [← Complex.exp_add]
      congr 1
      push_cast
      ring
    rw [s0, r1, r2, mul_pow, mul_pow]
    ring
  have hI : ‖(-I / 2 : ℂ)‖ = 1 / 2 := by rw [norm_div, norm_neg, Complex.norm_I, Complex.norm_two]
  constructor
  · intro d1 d2
    rw [hi, Finset.sum_congr rfl e, Finset.sum_add_distrib, ← Finset.mul_sum, ← Finset.mul_sum, sum_root hN (k := 1 - j) (by rwa [dvd_sub_comm]),
      sum_root hN (k := -(1 + j)) (by rw [dvd_neg, add_comm]; exact_mod_cast d2), mul_zero, mul_zero, add_zero, mul_zero]
  · intro h3 d1
    have d2 : ¬ (N : ℤ) ∣ -(1 + (j : ℤ)) := by
      intro d2
      rw [dvd_neg] at d2
      have := dvd_sub d2 d1
      rw [show (1 + (j : ℤ)) - (j - 1) = 2 by ring] at this
      have := Int.le_of_dvd (by norm_num) this
      omega
    rw [hi, Finset.sum_congr rfl e, Finset.sum_add_distrib, ← Finset.mul_sum, ← Finset.mul_sum, sum_root_dvd hN (k := 1 - j) (by rwa [dvd_sub_comm]),
      sum_root hN d2, mul_zero, add_zero, norm_mul, hc1, one_mul, norm_mul, hI, Complex.norm_natCast]
    ring

/-- Exact arithmetic: a sine has its fundamental, with the amplitude 1, and no other harmonic, up to twice the error of its table. -/
theorem C150_sine (hle : P ≤ N) :
    ∃ y : ℕ → ℝ, (∀ i, nthR Sine.process (Sine.new (48000 * P / N : ℝ)) (s + i) = .ok (y i)) ∧
      (¬ (N : ℤ) ∣ (j : ℤ) - 1 → ¬ N ∣ j + 1 → ‖component y N (j * P)‖ ≤ N * (2 * Real.pi / 4800)) ∧
      (3 ≤ N → (N : ℤ) ∣ (j : ℤ) - 1 → |‖component y N (j * P)‖ - N / 2| ≤ N * (2 * Real.pi / 4800)) := by
  have hNr : (0 : ℝ) < N := by positivity
  have hf := freq_le (c := 1) hN (by simpa using (by exact_mod_cast hle : (P : ℝ) ≤ N))
  have h := fun i => C40_sine_partial _ (show (0 : ℝ) ≤ 48000 * P / N by positivity) (hf.trans (by norm_num)) (s + i)
  choose y h1 h2 _ using h
  refine ⟨y, h1, ?_⟩
  have near := component_near (y := y) (z := fun i => Real.sin (2 * Real.pi * ((s + i : ℕ) * P / N))) (M := N) (e := 2 * Real.pi / 4800) (fun i _ => by
    have := h2 i
    rwa [show 2 * Real.pi * (48000 * P / N) * (s + i : ℕ) / 48000 = 2 * Real.pi * ((s + i : ℕ) * P / N) by rw [← freq_eq hN]; ring] at this) (j * P)
  obtain ⟨z1, z2⟩ := sine_component hN hc s j
  constructor
  · intro d1 d2
    rw [z1 d1 d2, sub_zero] at near
    exact near
  · intro h3 d1
    rw [← z2 h3 d1]
    exact (abs_norm_sub_norm_le _ _).trans near

end

/-- 16 kHz: 3 samples per period, with a second harmonic. -/
example (s : ℕ) : 0 < ‖component (fun i => nth (S := ℝ) Triangle.process (Triangle.new (16000 : ℝ)) (s + i)) 3 2‖ := by
  have a := (C150_triangle_violated (N := 3) (P := 1) (by norm_num) (by decide) s 2 (by norm_num) (by norm_num) (by norm_num)).2.2 (by norm_num) (by norm_num) (by norm_num)
  have e : (48000 * (1 : ℕ) / (3 : ℕ) : ℝ) = 16000 := by norm_num
  rwa [e] at a

/-- 440 Hz: 11 periods in 1200 samples. The third harmonic of the sawtooth, and of the square wave; the square wave has no second. -/
example (s : ℕ) : ‖component (fun i => nth (S := ℝ) Sawtooth.process (Sawtooth.new (440 : ℝ)) (s + i)) 1200 33‖ = 1 / |Real.sin (Real.pi * (3 : ℕ) / (1200 : ℕ))| ∧
    ‖component (fun i => nth (S := ℝ) Square.process (Square.new (440 : ℝ)) (s + i)) 1200 33‖ = 2 / |Real.sin (Real.pi * (3 : ℕ) / (1200 : ℕ))| ∧
    component (fun i => nth (S := ℝ) Square.process (Square.new (440 : ℝ)) (s + i)) 1200 22 = 0 ∧
    ‖component (fun i => nth (S := ℝ) Triangle.process (Triangle.new (440 : ℝ)) (s + i)) 1200 33‖ = 4 / ((1200 : ℕ) * Real.sin (Real.pi * (3 : ℕ) / (1200 : ℕ)) ^ 2) := by
  have e : (48000 * (11 : ℕ) / (1200 : ℕ) : ℝ) = 440 := by norm_num
  have a := C150_sawtooth (N := 1200) (P := 11) (by norm_num) (by decide) s 3 (by norm_num) (by decide)
  have b := (C150_square_partial (N := 1200) (P := 11) (by norm_num) (by decide) s 3 (by norm_num) (by norm_num) (by norm_num)).2 (by norm_num)
  have c := (C150_square_partial (N := 1200) (P := 11) (by norm_num) (by decide) s 2 (by norm_num) (by norm_num) (by norm_num)).1 (by norm_num)
  have d := (C150_triangle_partial (N := 1200) (P := 11) (by norm_num) (by decide) s 3 (by norm_num) (by norm_num) (by norm_num)).2.1 (by norm_num) (by norm_num)
  rw [e] at a b c d
  exact ⟨a, b, c, d⟩

/-- 16 kHz: three samples a period; the second harmonic of the square wave does not vanish. -/
example (s : ℕ) : 1 ≤ ‖component (fun i => nth (S := ℝ) Square.process (Square.new (16000 : ℝ)) (s + i)) 3 2‖ := by
  have a := C150_square_violated (N := 3) (P := 1) (by norm_num) (by decide) s 2 (by norm_num) (by norm_num) (by norm_num) (by decide) (by norm_num)
  have e : (48000 * (1 : ℕ) / (3 : ℕ) : ℝ) = 16000 := by norm_num
  rwa [e] at a

example (s : ℕ) : 2 / (Real.pi * (7 : ℕ)) ≤ 2 / (1200 : ℕ) * ‖component (fun i => nth (S := ℝ) Sawtooth.process (Sawtooth.new (440 : ℝ)) (s + i)) 1200 77‖ := by
  have a := (C150_sawtooth_fourier (N := 1200) (P := 11) (by norm_num) (by decide) s 7 (by norm_num) (by norm_num) (by norm_num)).1
  have e : (48000 * (11 : ℕ) / (1200 : ℕ) : ℝ) = 440 := by norm_num
  rwa [e] at a

example (s : ℕ) : ∃ y : ℕ → ℝ, (∀ i, nthR Sine.process (Sine.new (440 : ℝ)) (s + i) = .ok (y i)) ∧
    ‖component y 1200 22‖ ≤ (1200 : ℕ) * (2 * Real.pi / 4800) := by
  obtain ⟨y, h1, h2, -⟩ := C150_sine (N := 1200) (P := 11) (by norm_num) (by decide) s 2 (by norm_num)
  have e : (48000 * (11 : ℕ) / (1200 : ℕ) : ℝ) = 440 := by norm_num
  rw [e] at h1
  exact ⟨y, h1, h2 (by norm_num) (by norm_num)⟩

end Verif
