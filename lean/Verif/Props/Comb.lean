import Verif.Props.Transfer
import Verif.Float.Interval

/-! # Combs: which frequencies an echo and a short list of taps boost and remove (C162) -/

namespace Verif
open Fl

private theorem tapSum_eq (past : ℕ → ℝ) (taps : List (ℕ × ℝ)) (acc : ℝ) :
    tapSum past taps acc = acc + (taps.map fun t => past t.1 * t.2).sum := by
  unfold tapSum
  induction taps generalizing acc with
  | nil => simp
  | cons t ts ih =>
    rw [List.foldl_cons, ih, List.map_cons, List.sum_cons, ← add_assoc]

/-! ## Which frequencies -/

private theorem cos_one (ν : ℝ) (D : ℕ) : Real.cos (2 * Real.pi * ν / 48000 * D) = 1 ↔ ∃ k : ℤ, ν * D = 48000 * k := by
  rw [Real.cos_eq_one_iff]
  have hp := Real.pi_ne_zero
  refine exists_congr fun k => ⟨fun h => ?_, fun h => ?_⟩
  · have : Real.pi * (2 * (48000 * k - ν * D)) = 0 := by linear_combination 48000 * h
    have := (mul_eq_zero.mp this).resolve_left hp
    linarith
  · linear_combination -(2 * Real.pi / 48000) * h

private theorem cos_neg_one (ν : ℝ) (D : ℕ) : Real.cos (2 * Real.pi * ν / 48000 * D) = -1 ↔ ∃ k : ℤ, ν * D = 24000 * (2 * k + 1) := by
  rw [Real.cos_eq_neg_one_iff]
  have hp := Real.pi_ne_zero
  refine exists_congr fun k => ⟨fun h => ?_, fun h => ?_⟩
  · have : Real.pi * (24000 * (2 * k + 1) - ν * D) = 0 := by linear_combination 24000 * h
    have := (mul_eq_zero.mp this).resolve_left hp
    linarith
  · linear_combination -(2 * Real.pi / 48000) * h

/-- Exact arithmetic: an echo of `D` samples amplifies every frequency by something between `1/(1+|g|)` and `1/(1-|g|)`; the factor
is `1/(1-g)` exactly at the multiples of `48000/D` Hz and `1/(1+g)` exactly half way between them. -/
theorem C162_echo (m : Echo ℝ) (D : ℕ) (hD : 0 < D) (hm : m.delay = List.replicate D 0) (hg : |m.gain| < 1) (h0 : m.gain ≠ 0)
    {ν G : ℝ} (h : SteadyGain Echo.process m ν G) :
    1 / (1 + |m.gain|) ≤ G ∧ G ≤ 1 / (1 - |m.gain|) ∧
    (G = 1 / (1 - m.gain) ↔ ∃ k : ℤ, ν * D = 48000 * k) ∧ (G = 1 / (1 + m.gain) ↔ ∃ k : ℤ, ν * D = 24000 * (2 * k + 1)) := by
  rw [h.unique ((C126_echo m D hD hm hg).1 ν)]
  unfold combGain
  rw [← cos_one ν D, ← cos_neg_one ν D]
  obtain ⟨c1, c2⟩ : -1 ≤ Real.cos (2 * Real.pi * ν / 48000 * D) ∧ Real.cos (2 * Real.pi * ν / 48000 * D) ≤ 1 := ⟨Real.neg_one_le_cos _, Real.cos_le_one _⟩
  generalize Real.cos (2 * Real.pi * ν / 48000 * D) = c at *
  generalize m.gain = g at *
  obtain ⟨g1, g2⟩ := abs_lt.mp hg
  have a0 := abs_nonneg g
  have gc : |g * c| ≤ |g| := by
    rw [abs_mul]; exact mul_le_of_le_one_right a0 (abs_le.mpr ⟨c1, c2⟩)
  obtain ⟨k1, k2⟩ := abs_le.mp gc
  have sq := sq_abs g
  have low : (1 - |g|) ^ 2 ≤ 1 - 2 * g * c + g ^ 2 := by nlinarith
  have up : 1 - 2 * g * c + g ^ 2 ≤ (1 + |g|) ^ 2 := by nlinarith
  have pos : 0 < 1 - 2 * g * c + g ^ 2 := lt_of_lt_of_le (pow_pos (by linarith) 2) low
  have rpos := Real.sqrt_pos.mpr pos
  have inj : ∀ d : ℝ, 0 < d → (1 / √(1 - 2 * g * c + g ^ 2) = 1 / d ↔ 1 - 2 * g * c + g ^ 2 = d ^ 2) := by
    intro d hd
    rw [one_div, one_div, inv_inj, Real.sqrt_eq_iff_eq_sq pos.le hd.le]
  refine ⟨?_, ?_, ?_, ?_⟩
  · exact one_div_le_one_div_of_le rpos (Real.sqrt_le_iff.mpr ⟨by linarith, up⟩)
  · exact one_div_le_one_div_of_le (by linarith) (Real.le_sqrt_of_sq_le low)
  · rw [inj _ (by linarith)]
    constructor
    · intro h
      have : g * (1 - c) = 0 := by linear_combination h / 2
      have := (mul_eq_zero.mp this).resolve_left h0
      linarith
    · rintro rfl; ring
  · rw [inj _ (by linarith)]
    constructor
    · intro h
      have : g * (1 + c) = 0 := by linear_combination -h / 2
      have := (mul_eq_zero.mp this).resolve_left h0
      linarith
    · rintro rfl; ring

/-- An echo of 480 samples (10 ms) with gain 1/2 doubles 100 Hz and takes a third of 150 Hz away. -/
example (G G' : ℝ) (h : SteadyGain Echo.process (⟨List.replicate 480 0, 1 / 2⟩ : Echo ℝ) 100 G)
    (h' : SteadyGain Echo.process (⟨List.replicate 480 0, 1 / 2⟩ : Echo ℝ) 150 G') : G = 2 ∧ G' = 2 / 3 := by
  have a := (C162_echo ⟨List.replicate 480 0, 1 / 2⟩ 480 (by norm_num) rfl (by norm_num [abs_of_pos]) (by norm_num) h).2.2.1.mpr ⟨1, by norm_num⟩
  have b := (C162_echo ⟨List.replicate 480 0, 1 / 2⟩ 480 (by norm_num) rfl (by norm_num [abs_of_pos]) (by norm_num) h').2.2.2.mpr ⟨1, by norm_num⟩
  norm_num at a b
  exact ⟨a, b⟩

private theorem exp_neg_I (θ : ℝ) : Complex.exp (-(θ : ℂ) * Complex.I) = ⟨Real.cos θ, -Real.sin θ⟩ := by
  rw [← Complex.ofReal_neg, Complex.exp_mul_I, ← Complex.ofReal_cos, ← Complex.ofReal_sin, Real.cos_neg, Real.sin_neg]
  apply Complex.ext
  · simp only [Complex.add_re, Complex.mul_re, Complex.ofReal_re, Complex.ofReal_im, Complex.I_re, Complex.I_im]; ring
  · simp only [Complex.add_im, Complex.mul_im, Complex.ofReal_re, Complex.ofReal_im, Complex.I_re, Complex.I_im]; ring

/-- Exact arithmetic: a signal added to itself `D` samples later, times `a`. Its gain, and the frequencies it removes altogether: for
`a = 1` the odd multiples of `24000/D` Hz, for `a = -1` the multiples of `48000/D` Hz, for other `a` none. -/
theorem C162_taps (D : ℕ) (a : ℝ) {ν G : ℝ} (h : SteadyGain Generic.process (Generic.new [(0, 1), (D, a)] []) ν G) :
    G ^ 2 = 1 + 2 * a * Real.cos (2 * Real.pi * ν / 48000 * D) + a ^ 2 ∧
    (G = 0 ↔ (a = 1 ∧ ∃ k : ℤ, ν * D = 24000 * (2 * k + 1)) ∨ (a = -1 ∧ ∃ k : ℤ, ν * D = 48000 * k)) := by
  have hG := h.unique (C126_generic (zeros := [(0, 1), (D, a)]) (poles := []) (by simp [LastLargest]) (by simp [LastLargest]) (by simp) ν)
  rw [← cos_one ν D, ← cos_neg_one ν D]
  set w := 2 * Real.pi * ν / 48000 with hw
  have e : transfer [(0, 1), (D, a)] [] w = ⟨1 + a * Real.cos (w * D), -(a * Real.sin (w * D))⟩ := by
    unfold transfer
    simp only [List.map_cons, List.map_nil, List.sum_cons, List.sum_nil, sub_zero, div_one, add_zero, exp_neg_I]
    apply Complex.ext
    · simp only [Complex.add_re, Complex.mul_re, Complex.ofReal_re, Complex.ofReal_im]; simp
    · simp only [Complex.add_im, Complex.mul_im, Complex.ofReal_re, Complex.ofReal_im]; simp
  have key : G ^ 2 = 1 + 2 * a * Real.cos (w * D) + a ^ 2 := by
    rw [hG, e, ← Complex.normSq_eq_norm_sq, Complex.normSq_mk]
    linear_combination a ^ 2 * Real.sin_sq_add_cos_sq (w * D)
  refine ⟨key, ?_⟩
  obtain ⟨c1, c2⟩ : -1 ≤ Real.cos (w * D) ∧ Real.cos (w * D) ≤ 1 := ⟨Real.neg_one_le_cos _, Real.cos_le_one _⟩
  generalize Real.cos (w * D) = c at *
  rw [← pow_eq_zero_iff (n := 2) two_ne_zero, key]
  constructor
  · intro h
    have h1 : (a + c) ^ 2 + (1 - c ^ 2) = 0 := by linear_combination h
    have h2 : 0 ≤ 1 - c ^ 2 := by nlinarith
    have h3 : (a + c) ^ 2 = 0 := le_antisymm (by linarith) (sq_nonneg _)
    have h4 : (1 - c) * (1 + c) = 0 := by linear_combination h1 - h3
    have h5 : a = -c := by have := pow_eq_zero_iff (two_ne_zero) |>.mp h3; linarith
    rcases mul_eq_zero.mp h4 with h | h
    · exact .inr ⟨by linarith, by linarith⟩
    · exact .inl ⟨by linarith, by linarith⟩
  · rintro (⟨rfl, rfl⟩ | ⟨rfl, rfl⟩) <;> ring

/-- 50 Hz and 100 Hz, and nothing at 75 Hz, is removed by taps 1 and -1 at a distance of 960 samples. -/
example (G : ℝ) (h : SteadyGain Generic.process (Generic.new [(0, 1), (960, -1)] []) 50 G) : G = 0 :=
  (C162_taps 960 (-1) h).2.mpr (.inr ⟨rfl, 1, by norm_num⟩)
example (G : ℝ) (h : SteadyGain Generic.process (Generic.new [(0, 1), (960, -1)] []) 75 G) : G ≠ 0 := fun e => by
  rcases (C162_taps 960 (-1) h).2.mp e with ⟨h, -⟩ | ⟨-, k, hk⟩
  · norm_num at h
  · have : (2 : ℤ) * k = 3 := by
      have : (2 : ℝ) * k = 3 := by norm_num at hk; linarith
      exact_mod_cast this
    omega

/-! ## Hum and offset, sample by sample -/

/-- IEEE: a hum of period `D`, whatever its shape, is removed exactly: after the first `D` samples every output is 0. -/
theorem C162_hum (D : ℕ) (x : ℕ → F32) (q : ℕ → ℚ) (hx : ∀ n, (x n).Is (q n)) (hp : ∀ n, q (n + D) = q n) (n : ℕ) (hn : D ≤ n) :
    ∃ y : F32, modOut Generic.process x (Generic.new [(0, lit 1), (D, lit (-1))] []) n = .ok y ∧ y.Is 0 := by
  obtain ⟨y, hy⟩ := C56_generic [(0, lit 1), (D, lit (-1))] [] (by simp [LastLargest]) (by simp [LastLargest]) x
  refine ⟨y n, (hy n).1, ?_⟩
  have e : y n = (lit 0 + x n * lit 1) + x (n - D) * lit (-1) := by
    rw [(hy n).2]
    simp [tapSum, if_neg (not_lt.mpr hn)]
  have hq : q (n - D) = q n := by rw [← hp (n - D), Nat.sub_add_cancel hn]
  have b := hx (n - D)
  rw [hq] at b
  have z1 : (lit 1 : F32).Is 1 := by decide +kernel
  have z2 : (lit (-1) : F32).Is (-1) := by decide +kernel
  have s1 := (hx n).mul z1 (by rw [mul_one]; exact (hx n).fits)
  rw [mul_one, (hx n).rnd] at s1
  have s2 := (show (lit 0 : F32).Is 0 by decide +kernel).add s1 (by rw [zero_add]; exact (hx n).fits)
  rw [zero_add, (hx n).rnd] at s2
  have s3 := b.mul z2 (by rw [mul_neg_one]; exact b.neg.fits)
  rw [mul_neg_one, b.neg.rnd] at s3
  have s4 := s2.add s3 (by rw [add_neg_cancel]; exact fits32' 0 (by norm_num) (by norm_num))
  rw [add_neg_cancel, Fmt.rnd_zero] at s4
  rw [e]
  exact s4

example : ∃ y : F32, modOut Generic.process (fun n => if n % 3 = 0 then lit (1 / 3) else lit (-2)) (Generic.new [(0, lit 1), (3, lit (-1))] []) 7 = .ok y ∧ y.Is 0 := by
  refine C162_hum 3 _ (fun n => if n % 3 = 0 then 11184811 / 33554432 else -2) (fun n => ?_) (fun n => by simp) 7 (by norm_num)
  split_ifs <;> decide +kernel

private theorem window {N : ℕ} {x : ℕ → ℝ} (hp : ∀ n, x (n + N) = x n) (m : ℕ) : ∑ k ∈ Finset.range N, x (m + k) = ∑ k ∈ Finset.range N, x k := by
  induction m with
  | zero => simp
  | succ m ih =>
    have h1 := Finset.sum_range_succ (fun k => x (m + k)) N
    have h2 := Finset.sum_range_succ' (fun k => x (m + k)) N
    rw [hp m] at h1
    have h3 : ∑ k ∈ Finset.range N, x (m + (k + 1)) = ∑ k ∈ Finset.range N, x (m + 1 + k) :=
      Finset.sum_congr rfl fun k _ => by rw [show m + (k + 1) = m + 1 + k by omega]
    rw [h3] at h2
    rw [← ih]
    simp only [add_zero] at h2
    linarith

private theorem range_list (f : ℕ → ℝ) (n : ℕ) : ((List.range n).map f).sum = ∑ k ∈ Finset.range n, f k := by
  induction n with
  | zero => simp
  | succ n ih => rw [List.range_succ, List.map_append, List.sum_append, ih, Finset.sum_range_succ]; simp

/-- Exact arithmetic: the average of the last `N` samples of a signal of period `N` is its mean, for every sample from `N - 1` on. -/
theorem C162_average (N : ℕ) (hN : 0 < N) (x : ℕ → ℝ) (hp : ∀ n, x (n + N) = x n) (n : ℕ) (hn : N ≤ n + 1) :
    modOut Generic.process x (Generic.new ((List.range N).map fun k => (k, 1 / (N : ℝ))) []) n = .ok ((∑ k ∈ Finset.range N, x k) / N) := by
  obtain ⟨M, rfl⟩ : ∃ M, N = M + 1 := ⟨N - 1, by omega⟩
  have hz : LastLargest ((List.range (M + 1)).map fun k => (k, 1 / ((M + 1 : ℕ) : ℝ))) := by
    intro t ht l hl
    rw [List.range_succ, List.map_append, List.map_singleton, List.getLast?_concat, Option.mem_some_iff] at hl
    subst hl
    obtain ⟨k, hk, rfl⟩ := List.mem_map.mp ht
    have := List.mem_range.mp hk
    show k ≤ M
    omega
  obtain ⟨y, hy⟩ := C56_generic _ [] hz (by simp [LastLargest]) x
  rw [(hy n).1, (hy n).2, tapSum_eq, tapSum_eq]
  simp only [List.map_nil, List.sum_nil, add_zero, List.map_map, Function.comp_def]
  simp only [show (lit 0 : ℝ) = 0 by real_simp, zero_add]
  congr 1
  rw [range_list, ← window hp (n - M), ← Finset.sum_range_reflect, Finset.sum_div]
  refine Finset.sum_congr rfl fun k hk => ?_
  have hk := Finset.mem_range.mp hk
  rw [if_neg (by omega), show n - (M + 1 - 1 - k) = n - M + k by omega, mul_one_div]

/-- A hum of 50 Hz has period 960; averaged over as many samples only its mean is left. -/
example (n : ℕ) (hn : 960 ≤ n + 1) := C162_average 960 (by norm_num) (fun n => Real.sin (2 * Real.pi * n / 960))
  (fun n => by
    show Real.sin (2 * Real.pi * ((n + 960 : ℕ) : ℝ) / 960) = _
    rw [show 2 * Real.pi * ((n + 960 : ℕ) : ℝ) / 960 = 2 * Real.pi * n / 960 + 2 * Real.pi by push_cast; ring, Real.sin_add_two_pi]) n hn

/-- Exact arithmetic: an offset `c` on any signal leaves the offset filter with feedback `R` as `c·R^n`; the signal itself goes through as
without it. -/
theorem C162_offset (R c : ℝ) (x : ℕ → ℝ) (n : ℕ) : ∃ y : ℝ,
    modOut Generic.process x (Generic.new [(0, 1), (1, -1)] [(0, R)]) n = .ok y ∧
    modOut Generic.process (fun k => x k + c) (Generic.new [(0, 1), (1, -1)] [(0, R)]) n = .ok (y + c * R ^ n) := by
  obtain ⟨y, hy⟩ := C56_generic [((0 : ℕ), (1 : ℝ)), (1, -1)] [(0, R)] (by simp [LastLargest]) (by simp [LastLargest]) x
  obtain ⟨z, hz⟩ := C56_generic [((0 : ℕ), (1 : ℝ)), (1, -1)] [(0, R)] (by simp [LastLargest]) (by simp [LastLargest]) (fun k => x k + c)
  refine ⟨y n, (hy n).1, ?_⟩
  rw [(hz n).1]
  congr 1
  have l0 : (lit 0 : ℝ) = 0 := by real_simp
  induction n with
  | zero =>
    rw [(hz 0).2, (hy 0).2]
    simp [tapSum_eq, l0]
  | succ n ih =>
    rw [(hz (n + 1)).2, (hy (n + 1)).2]
    simp [tapSum_eq, l0, ih]
    ring

/-- IEEE: a constant fades away geometrically, down to the smallest numbers. (HighPass does not manage this at 85 Hz:
`C118_highpass_violated`.) -/
theorem C162_constant (r c : F32) (ρ γ : ℚ) (hr : r.Is ρ) (hρ : |ρ| ≤ 1 - (2 ^ 20)⁻¹) (hc : c.Is γ) (n : ℕ) : ∃ (y : F32) (q : ℚ),
    modOut Generic.process (fun _ => c) (Generic.new [(0, lit 1), (1, lit (-1))] [(0, r)]) n = .ok y ∧ y.Is q ∧
      |q| ≤ |γ| * (|ρ| * (1 + (2 ^ 24)⁻¹)) ^ n + (2 ^ 129)⁻¹ := by
  obtain ⟨y, hy⟩ := C56_generic [((0 : ℕ), (lit 1 : F32)), (1, lit (-1))] [(0, r)] (by simp [LastLargest]) (by simp [LastLargest]) (fun _ => c)
  suffices h : ∃ q : ℚ, (y n).Is q ∧ |q| ≤ |γ| ∧ |q| ≤ |γ| * (|ρ| * (1 + (2 ^ 24)⁻¹)) ^ n + (2 ^ 129)⁻¹ by
    obtain ⟨q, h1, -, h2⟩ := h
    exact ⟨y n, q, (hy n).1, h1, h2⟩
  have z0 : (lit 0 : F32).Is 0 := by decide +kernel
  have z1 : (lit 1 : F32).Is 1 := by decide +kernel
  have z2 : (lit (-1) : F32).Is (-1) := by decide +kernel
  have f0 : b32.Fits 0 := fits32' 0 (by norm_num) (by norm_num)
  have s1 := hc.mul z1 (by rw [mul_one]; exact hc.fits)
  rw [mul_one, hc.rnd] at s1
  have s2 := z0.add s1 (by rw [zero_add]; exact hc.fits)
  rw [zero_add, hc.rnd] at s2
  have ρ1 : |ρ| ≤ 1 := hρ.trans (by norm_num)
  set s := |ρ| * (1 + (2 ^ 24)⁻¹) with hs
  have s0 : 0 ≤ s := by positivity
  have sle : s ≤ 1 - (2 ^ 21)⁻¹ := by rw [hs]; norm_num at hρ ⊢; linarith
  induction n with
  | zero =>
    have e : y 0 = ((lit 0 + c * lit 1) + lit 0 * lit (-1)) + lit 0 * r := by
      rw [(hy 0).2]; simp [tapSum]
    have s3 := z0.mul z2 (by rw [zero_mul]; exact f0)
    rw [zero_mul, Fmt.rnd_zero] at s3
    have s4 := s2.add s3 (by rw [add_zero]; exact hc.fits)
    rw [add_zero, hc.rnd] at s4
    have s5 := z0.mul hr (by rw [zero_mul]; exact f0)
    rw [zero_mul, Fmt.rnd_zero] at s5
    have s6 := s4.add s5 (by rw [add_zero]; exact hc.fits)
    rw [add_zero, hc.rnd] at s6
    refine ⟨γ, by rw [e]; exact s6, le_rfl, ?_⟩
    rw [pow_zero, mul_one]
    have : (0 : ℚ) ≤ (2 ^ 129)⁻¹ := by positivity
    linarith
  | succ n ih =>
    obtain ⟨q, hq, q0, q1⟩ := ih
    have e : y (n + 1) = ((lit 0 + c * lit 1) + c * lit (-1)) + y n * r := by
      rw [(hy (n + 1)).2]; simp [tapSum]
    have s3 := hc.mul z2 (by rw [mul_neg_one]; exact hc.neg.fits)
    rw [mul_neg_one, hc.neg.rnd] at s3
    have s4 := s2.add s3 (by rw [add_neg_cancel]; exact f0)
    rw [add_neg_cancel, Fmt.rnd_zero] at s4
    have qρ : |q * ρ| ≤ |q| := by rw [abs_mul]; exact mul_le_of_le_one_right (abs_nonneg _) ρ1
    have fq : b32.Fits (q * ρ) := hq.fits.of_abs_le qρ
    have s5 := hq.mul hr fq
    have s6 := s4.add s5 (by rw [zero_add]; exact s5.fits)
    rw [zero_add, s5.rnd] at s6
    have le : |b32.rnd (q * ρ)| ≤ |q| := by
      rw [b32.abs_rnd]
      exact b32.rnd_le_repr (b32.repr_abs hq.repr) qρ
    refine ⟨_, by rw [e]; exact s6, le.trans q0, ?_⟩
    have e24 : pow2 (-(b32.p : ℤ)) = (2 ^ 24)⁻¹ ∧ pow2 (b32.emin - 1) = (2 ^ 150)⁻¹ := by decide +kernel
    have h := b32.abs_rnd_sub_le_mixed (q * ρ)
    rw [e24.1, e24.2] at h
    have h2 := abs_sub_abs_le_abs_sub (b32.rnd (q * ρ)) (q * ρ)
    have h3 : |b32.rnd (q * ρ)| ≤ |q| * s + (2 ^ 150)⁻¹ := by
      rw [hs]
      rw [abs_mul] at h h2
      linarith
    refine h3.trans ?_
    have h4 : |q| * s ≤ (|γ| * s ^ n + (2 ^ 129)⁻¹) * s := mul_le_mul_of_nonneg_right q1 s0
    have h5 : (2 ^ 129 : ℚ)⁻¹ * s ≤ (2 ^ 129 : ℚ)⁻¹ * (1 - (2 ^ 21)⁻¹) := mul_le_mul_of_nonneg_left sle (by positivity)
    have h6 : (2 ^ 129 : ℚ)⁻¹ * (1 - (2 ^ 21)⁻¹) + (2 ^ 150)⁻¹ = (2 ^ 129)⁻¹ := by norm_num
    calc |q| * s + (2 ^ 150)⁻¹ ≤ (|γ| * s ^ n + (2 ^ 129)⁻¹) * s + (2 ^ 150)⁻¹ := by linarith only [h4]
      _ = |γ| * s ^ (n + 1) + ((2 ^ 129)⁻¹ * s + (2 ^ 150)⁻¹) := by ring
      _ ≤ _ := by linarith only [h5, h6]

/-- Feedback 0.995, a usual choice. -/
example : ∃ ρ : ℚ, (lit (995 / 1000) : F32).Is ρ ∧ |ρ| ≤ 1 - (2 ^ 20)⁻¹ :=
  ⟨8346665 / 8388608, by decide +kernel, by rw [abs_of_pos (by norm_num)]; norm_num⟩

end Verif
