import Verif.Props.Offset
import Verif.Props.OscTune
import Verif.Props.SineTune
import Verif.Spec.LibmSin
import Mathlib.Algebra.Order.Chebyshev

/-! # The level of a waveform: C155

The level of a signal over `n` samples is its root mean square. As in C146 the frequency is 48000·P/N, so that N samples
are P whole periods. -/

namespace Verif
open Fl Flt

/-- The root mean square of `n` samples. -/
noncomputable def level (y : ℕ → ℝ) (n : ℕ) : ℝ := Real.sqrt ((∑ i ∈ Finset.range n, y i ^ 2) / n)

theorem level_nonneg (y : ℕ → ℝ) (n : ℕ) : 0 ≤ level y n := Real.sqrt_nonneg _

theorem level_sq (y : ℕ → ℝ) (n : ℕ) : level y n ^ 2 = (∑ i ∈ Finset.range n, y i ^ 2) / n :=
  Real.sq_sqrt (div_nonneg (Finset.sum_nonneg fun _ _ => sq_nonneg _) (by positivity))

/-- Signals of almost the same size have almost the same level. -/
theorem level_near {y z : ℕ → ℝ} {e : ℝ} {n : ℕ} (hn : 0 < n) (he : 0 ≤ e) (h : ∀ i < n, |(|y i| - |z i|)| ≤ e) : |level y n - level z n| ≤ e := by
  have hnr : (0 : ℝ) < n := by positivity
  have key : ∀ {y z : ℕ → ℝ}, (∀ i < n, |(|y i| - |z i|)| ≤ e) → level y n ≤ level z n + e := by
    intro y z h
    refine Real.sqrt_le_iff.mpr ⟨add_nonneg (level_nonneg z n) he, ?_⟩
    have cs : (∑ i ∈ Finset.range n, |z i|) / n ≤ level z n := by
      refine Real.le_sqrt_of_sq_le ?_
      have := sq_sum_le_card_mul_sum_sq (s := Finset.range n) (f := fun i => |z i|)
      simp only [Finset.card_range, sq_abs] at this
      rw [div_pow, div_le_div_iff₀ (by positivity) hnr]
      nlinarith
    have s1 : ∑ i ∈ Finset.range n, y i ^ 2 ≤ ∑ i ∈ Finset.range n, (z i ^ 2 + 2 * e * |z i| + e ^ 2) := by
      refine Finset.sum_le_sum fun i hi => ?_
      have h1 := abs_le.mp (h i (Finset.mem_range.mp hi))
      have h2 : |y i| ≤ |z i| + e := by linarith [h1.2]
      have h3 := pow_le_pow_left₀ (abs_nonneg _) h2 2
      rw [sq_abs, add_sq, sq_abs] at h3
      linarith
    rw [Finset.sum_add_distrib, Finset.sum_add_distrib, ← Finset.mul_sum, Finset.sum_const, Finset.card_range, nsmul_eq_mul] at s1
    have s2 := div_le_div_of_nonneg_right s1 hnr.le
    rw [add_div, add_div, ← level_sq z, mul_div_assoc, mul_div_assoc] at s2
    have s3 : (n : ℝ) * (e ^ 2 / n) = e ^ 2 := by field_simp
    have := mul_le_mul_of_nonneg_left cs (show 0 ≤ 2 * e by linarith)
    rw [s3] at s2
    linarith [add_sq (level z n) e]
  rw [abs_le]
  have a := key h
  have b := key (y := z) (z := y) fun i hi => by rw [abs_sub_comm]; exact h i hi
  constructor <;> linarith

private theorem sum_sq_idx (N : ℕ) : ∑ j ∈ Finset.range N, (j : ℝ) ^ 2 = N * (N - 1) * (2 * N - 1) / 6 := by
  induction N with
  | zero => simp
  | succ n ih => rw [Finset.sum_range_succ, ih]; push_cast; ring

private theorem sum_idx' (N : ℕ) : ∑ j ∈ Finset.range N, (j : ℝ) = N * (N - 1) / 2 := by
  induction N with
  | zero => simp
  | succ n ih => rw [Finset.sum_range_succ, ih]; push_cast; ring

private theorem sq_saw {N : ℕ} (hN : 0 < N) {c : ℝ} (c0 : 0 ≤ c) (c1 : c < 1 / N) :
    ∑ j ∈ Finset.range N, (2 * Int.fract ((j : ℝ) / N + c) - 1) ^ 2 = N / 3 + 2 / (3 * N) + 4 * c * (N * c - 1) := by
  have hNr : (0 : ℝ) < N := by positivity
  have e : ∀ j ∈ Finset.range N, (2 * Int.fract ((j : ℝ) / N + c) - 1) ^ 2 = 4 / N ^ 2 * (j : ℝ) ^ 2 + 4 / N * (2 * c - 1) * j + (2 * c - 1) ^ 2 := by
    intro j hj
    have hj' : (j : ℝ) + 1 ≤ N := by exact_mod_cast Finset.mem_range.mp hj
    rw [Int.fract_eq_self.mpr ⟨by positivity, ?_⟩]
    · field_simp; ring
    · rw [lt_div_iff₀ hNr] at c1
      rw [div_add' _ _ _ hNr.ne', div_lt_one hNr]
      linarith
  rw [Finset.sum_congr rfl e, Finset.sum_add_distrib, Finset.sum_add_distrib, ← Finset.mul_sum, ← Finset.mul_sum, sum_sq_idx, sum_idx', Finset.sum_const,
    Finset.card_range, nsmul_eq_mul]
  field_simp
  ring

private theorem saw_per (c x : ℝ) : (2 * Int.fract (x + 1 + c) - 1) ^ 2 = (2 * Int.fract (x + c) - 1) ^ 2 := by
  rw [add_right_comm, Int.fract_add_one]

/-- The squares of a period of the sawtooth. -/
private theorem sq_saw_half {N : ℕ} (hN : 0 < N) :
    ∑ j ∈ Finset.range N, (2 * Int.fract ((j : ℝ) / N + 1 / 2) - 1) ^ 2 = if N % 2 = 0 then N / 3 + 2 / (3 * N : ℝ) else N / 3 - 1 / (3 * N : ℝ) := by
  have hNr : (0 : ℝ) < N := by positivity
  have hm := Nat.mod_add_div N 2
  have hmr : ((N % 2 : ℕ) : ℝ) + 2 * (N / 2 : ℕ) = N := by exact_mod_cast hm
  have key : ∀ c : ℝ, 1 / 2 = (N / 2 : ℕ) / (N : ℝ) + c → 0 ≤ c → c < 1 / N →
      ∑ j ∈ Finset.range N, (2 * Int.fract ((j : ℝ) / N + 1 / 2) - 1) ^ 2 = N / 3 + 2 / (3 * N) + 4 * c * (N * c - 1) := by
    intro c hc c0 c1
    have h := sum_period (g := fun x => (2 * Int.fract (x + c) - 1) ^ 2) (saw_per c) hN (P := 1) (Nat.coprime_one_left N) (N / 2)
    rw [sq_saw hN c0 c1] at h
    rw [← h]
    refine Finset.sum_congr rfl fun j _ => ?_
    rw [hc]
    congr 4
    push_cast
    ring
  split
  · rename_i h
    rw [h] at hmr
    rw [key 0 (by rw [add_zero, eq_div_iff hNr.ne']; push_cast at hmr; linarith) le_rfl (by positivity)]
    ring
  · rename_i h
    have h1 : N % 2 = 1 := by omega
    rw [h1] at hmr
    rw [key (1 / (2 * N)) (by field_simp; linarith [hmr, (Nat.cast_one : ((1 : ℕ) : ℝ) = 1)]) (by positivity)
      (by rw [div_lt_div_iff₀ (by positivity) hNr]; linarith)]
    field_simp
    ring

/-- A triangle wave is, up to its sign, a sawtooth of twice the frequency. -/
private theorem tri_sq (x : ℝ) : triWave x ^ 2 = (2 * Int.fract (2 * x + 1 / 2) - 1) ^ 2 := by
  have h : Int.fract (2 * x + 1 / 2) = Int.fract (2 * Int.fract (x + 1 / 4)) := by
    rw [Int.fract_eq_fract]
    exact ⟨2 * ⌊x + 1 / 4⌋, by push_cast; linarith [Int.self_sub_floor (x + 1 / 4)]⟩
  have u0 := Int.fract_nonneg (x + 1 / 4)
  have u1 := Int.fract_lt_one (x + 1 / 4)
  unfold triWave
  simp only
  rw [h]
  generalize Int.fract (x + 1 / 4) = u at u0 u1
  split_ifs with hu
  · rw [Int.fract_eq_self.mpr ⟨by linarith, by linarith⟩]; ring
  · rw [show 2 * u = 2 * u - 1 + 1 by ring, Int.fract_add_one, Int.fract_eq_self.mpr ⟨by linarith, by linarith⟩]; ring

private theorem sq_tri {N : ℕ} (hN : 0 < N) : ∑ j ∈ Finset.range N, triWave ((j : ℝ) / N) ^ 2 =
    if N % 4 = 0 then N / 3 + 8 / (3 * N : ℝ) else if N % 4 = 2 then N / 3 - 4 / (3 * N : ℝ) else N / 3 - 1 / (3 * N : ℝ) := by
  have hNr : (0 : ℝ) < N := by positivity
  simp only [tri_sq]
  by_cases h2 : N % 2 = 0
  · obtain ⟨M, rfl⟩ : ∃ M, N = M + M := ⟨N / 2, by omega⟩
    have hM : 0 < M := by omega
    have hMr : (0 : ℝ) < M := by positivity
    have e : ∀ j : ℕ, (2 * Int.fract (2 * ((j : ℝ) / (M + M : ℕ)) + 1 / 2) - 1) ^ 2 = (2 * Int.fract ((j : ℝ) / M + 1 / 2) - 1) ^ 2 := by
      intro j
      congr 5
      push_cast
      field_simp
      ring
    simp only [e]
    have h1 := sum_period (g := fun x => (2 * Int.fract (x + 1 / 2) - 1) ^ 2) (saw_per _) hM (P := 1) (Nat.coprime_one_left M) M
    simp only [Nat.cast_one, mul_one] at h1
    rw [Finset.sum_range_add, h1, sq_saw_half hM]
    push_cast
    by_cases h4 : M % 2 = 0
    · rw [if_pos h4, if_pos (by omega)]
      field_simp; ring
    · rw [if_neg h4, if_neg (by omega), if_pos (by omega)]
      field_simp; ring
  · have h1 := sum_period (g := fun x => (2 * Int.fract (x + 1 / 2) - 1) ^ 2) (saw_per _) hN (P := 2) (by
      rw [Nat.coprime_two_left, Nat.odd_iff]; omega) 0
    rw [sq_saw_half hN, if_neg h2] at h1
    rw [if_neg (by omega), if_neg (by omega), ← h1]
    refine Finset.sum_congr rfl fun j _ => ?_
    congr 5
    push_cast
    ring

private theorem sq_sine {N : ℕ} (hN : 3 ≤ N) : ∑ j ∈ Finset.range N, Real.sin (2 * Real.pi * (j / N)) ^ 2 = N / 2 := by
  have hNr : (0 : ℝ) < N := by positivity
  have z : ∑ j ∈ Finset.range N, Real.cos (2 * (2 * Real.pi * (j / N))) = 0 := by
    have hs : Real.sin (2 * Real.pi / N) ≠ 0 := by
      refine (Real.sin_pos_of_pos_of_lt_pi (by positivity) ?_).ne'
      rw [div_lt_iff₀ hNr, mul_comm]
      have : (3 : ℝ) ≤ N := by exact_mod_cast hN
      nlinarith [Real.pi_pos]
    have t : ∀ n : ℕ, Real.sin (2 * Real.pi / N) * ∑ j ∈ Finset.range n, Real.cos (2 * (2 * Real.pi * (j / N))) =
        (Real.sin ((2 * n - 1) * (2 * Real.pi / N)) + Real.sin (2 * Real.pi / N)) / 2 := by
      intro n
      induction n with
      | zero => simp
      | succ n ih =>
        rw [Finset.sum_range_succ, mul_add, ih]
        have a := Real.sin_sub_sin ((2 * n + 1) * (2 * Real.pi / N)) ((2 * n - 1) * (2 * Real.pi / N))
        rw [show ((2 * n + 1) * (2 * Real.pi / N) - (2 * n - 1) * (2 * Real.pi / N)) / 2 = 2 * Real.pi / N by ring,
          show ((2 * n + 1) * (2 * Real.pi / N) + (2 * n - 1) * (2 * Real.pi / N)) / 2 = 2 * (2 * Real.pi * (n / N)) by ring] at a
        rw [show 2 * ((n + 1 : ℕ) : ℝ) - 1 = 2 * n + 1 by push_cast; ring]
        linarith
    have h := t N
    rw [show (2 * (N : ℝ) - 1) * (2 * Real.pi / N) = (2 : ℕ) * (2 * Real.pi) - 2 * Real.pi / N by push_cast; field_simp,
      Real.sin_nat_mul_two_pi_sub, neg_add_cancel, zero_div] at h
    exact (mul_eq_zero.mp h).resolve_left hs
  have e : ∀ j : ℕ, Real.sin (2 * Real.pi * ((j : ℝ) / N)) ^ 2 = 1 / 2 - Real.cos (2 * (2 * Real.pi * (j / N))) / 2 := fun j => Real.sin_sq_eq_half_sub _
  simp only [e]
  rw [Finset.sum_sub_distrib, ← Finset.sum_div (f := fun j : ℕ => Real.cos (2 * (2 * Real.pi * ((j : ℝ) / N)))), z, Finset.sum_const, Finset.card_range, nsmul_eq_mul]
  ring

section
variable {N P : ℕ} (hN : 0 < N) (hc : P.Coprime N) (s : ℕ)
include hN

private theorem freq_half' (hle : 2 * P ≤ N) : (48000 * P / N : ℝ) ≤ 24000 :=
  (freq_le (c := 1 / 2) hN (by have : (2 * P : ℝ) ≤ N := by exact_mod_cast hle
                               linarith)).trans (by norm_num)

private theorem freq_halfq (hle : 2 * P ≤ N) : (48000 * P / N : ℚ) ≤ 24000 := by
  have : (0 : ℚ) < N := by positivity
  have h : (2 * P : ℚ) ≤ N := by exact_mod_cast hle
  rw [div_le_iff₀ this]
  linarith

include hc

/-- The level squared of the ideal sawtooth. -/
private theorem saw_level : level (fun i => 2 * Int.fract (((s + i : ℕ) : ℝ) * P / N + 1 / 2) - 1) N ^ 2 =
    if N % 2 = 0 then 1 / 3 + 2 / (3 * N ^ 2 : ℝ) else 1 / 3 - 1 / (3 * N ^ 2 : ℝ) := by
  have hNr : (0 : ℝ) < N := by positivity
  rw [level_sq, sum_period (g := fun x => (2 * Int.fract (x + 1 / 2) - 1) ^ 2) (saw_per _) hN hc s, sq_saw_half hN]
  split_ifs <;> field_simp

private theorem tri_level : level (fun i => triWave (((s + i : ℕ) : ℝ) * P / N)) N ^ 2 =
    if N % 4 = 0 then 1 / 3 + 8 / (3 * N ^ 2 : ℝ) else if N % 4 = 2 then 1 / 3 - 4 / (3 * N ^ 2 : ℝ) else 1 / 3 - 1 / (3 * N ^ 2 : ℝ) := by
  have hNr : (0 : ℝ) < N := by positivity
  rw [level_sq, sum_period (g := fun x => triWave x ^ 2) (fun x => by rw [tri_per]) hN hc s, sq_tri hN]
  split_ifs <;> field_simp

private theorem sine_level (h3 : 3 ≤ N) : level (fun i => Real.sin (2 * Real.pi * ((s + i : ℕ) * P / N))) N = Real.sqrt (1 / 2) := by
  have hNr : (0 : ℝ) < N := by positivity
  unfold level
  rw [sum_period (g := fun x => Real.sin (2 * Real.pi * x) ^ 2) (fun x => by rw [mul_add, mul_one, Real.sin_add_two_pi]) hN hc s, sq_sine h3]
  congr 1
  field_simp

/-- Exact arithmetic: the level of a sawtooth over N samples is the 1/√3 of the ideal wave up to 2/(3N²) in the square. -/
theorem C155_sawtooth (hle : P ≤ N) : level (fun i => nth (S := ℝ) Sawtooth.process (Sawtooth.new (48000 * P / N : ℝ)) (s + i)) N ^ 2 =
    if N % 2 = 0 then 1 / 3 + 2 / (3 * N ^ 2 : ℝ) else 1 / 3 - 1 / (3 * N ^ 2 : ℝ) := by
  have hf := freq_le (c := 1) hN (by simpa using (by exact_mod_cast hle : (P : ℝ) ≤ N))
  rw [← saw_level hN hc s]
  simp only [C34_sawtooth _ (show (0 : ℝ) ≤ 48000 * P / N by positivity) (hf.trans (by norm_num)), freq_eq hN]

/-- Exact arithmetic: the level of a triangle wave over N samples. -/
theorem C155_triangle (h0 : 0 < P) (hle : 2 * P ≤ N) : level (fun i => nth (S := ℝ) Triangle.process (Triangle.new (48000 * P / N : ℝ)) (s + i)) N ^ 2 =
    if N % 4 = 0 then 1 / 3 + 8 / (3 * N ^ 2 : ℝ) else if N % 4 = 2 then 1 / 3 - 4 / (3 * N ^ 2 : ℝ) else 1 / 3 - 1 / (3 * N ^ 2 : ℝ) := by
  rw [← tri_level hN hc s]
  simp only [C95_triangle _ (show (0 : ℝ) < 48000 * P / N by positivity) (freq_half' hN hle), freq_eq hN]

/-- Exact arithmetic: the level of a sine over N samples is 1/√2 up to the error of its table. -/
theorem C155_sine (h3 : 3 ≤ N) (hle : P ≤ N) : ∃ y : ℕ → ℝ, (∀ i, nthR Sine.process (Sine.new (48000 * P / N : ℝ)) (s + i) = .ok (y i)) ∧
    |level y N - Real.sqrt (1 / 2)| ≤ 2 * Real.pi / 4800 := by
  have hf := freq_le (c := 1) hN (by simpa using (by exact_mod_cast hle : (P : ℝ) ≤ N))
  choose y h1 h2 _ using fun i => C40_sine_partial _ (show (0 : ℝ) ≤ 48000 * P / N by positivity) (hf.trans (by norm_num)) (s + i)
  refine ⟨y, h1, ?_⟩
  rw [← sine_level hN hc s h3]
  refine level_near hN (by positivity) fun i _ => (abs_abs_sub_abs_le _ _).trans ?_
  have := h2 i
  rwa [show 2 * Real.pi * (48000 * P / N) * (s + i : ℕ) / 48000 = 2 * Real.pi * ((s + i : ℕ) * P / N) by rw [← freq_eq hN]; ring] at this

omit hc in
/-- The samples of the `f32` sawtooth have the size of those of the ideal one, also at the edge. -/
private theorem saw_near {f : F64} (hf : f.Is (48000 * P / N)) (hle : 2 * P ≤ N) (n : ℕ) : ∃ u : ℚ, (nth Sawtooth.process (Sawtooth.new f) n : F32).Is u ∧
    |(|(u : ℝ)| - |2 * Int.fract ((n : ℝ) * P / N + 1 / 2) - 1|)| ≤ (2 ^ 25)⁻¹ + n * (2 ^ 49)⁻¹ := by
  obtain ⟨u, h1, l, r, j, hj⟩ := C98_sawtooth_tune hf (by positivity) (freq_halfq hN hle) n
  refine ⟨u, h1, ?_⟩
  have hj' : |(u : ℝ) - (2 * ((n : ℝ) * P / N) - 2 * j)| ≤ (2 ^ 25)⁻¹ + n * (2 ^ 49)⁻¹ := by
    have hNq : (N : ℚ) ≠ 0 := by positivity
    rw [show (n : ℚ) * (48000 * P / N) / 48000 = n * P / N by field_simp] at hj
    have := (Rat.cast_le (K := ℝ)).mpr hj
    push_cast at this
    exact this
  have l' : (-1 : ℝ) ≤ u := by exact_mod_cast l
  have r' : (u : ℝ) ≤ 1 := by exact_mod_cast r
  have w0 := Int.fract_nonneg ((n : ℝ) * P / N + 1 / 2)
  have w1 := Int.fract_lt_one ((n : ℝ) * P / N + 1 / 2)
  have w2 := Int.self_sub_floor ((n : ℝ) * P / N + 1 / 2)
  generalize Int.fract ((n : ℝ) * P / N + 1 / 2) = w at *
  generalize ⌊(n : ℝ) * P / N + 1 / 2⌋ = k at w2
  generalize (2 ^ 25 : ℝ)⁻¹ + n * (2 ^ 49)⁻¹ = e at *
  generalize (n : ℝ) * P / N = t at *
  have d : |(u : ℝ) - ((2 * w - 1) - 2 * ((j - k : ℤ) : ℝ))| ≤ e := by
    push_cast
    rwa [show (2 * w - 1) - 2 * ((j : ℝ) - k) = 2 * t - 2 * j by linarith]
  have big : 1 ≤ e → |(|(u : ℝ)| - |2 * w - 1|)| ≤ e := fun h1 => by
    refine le_trans ?_ h1
    have a := abs_nonneg (u : ℝ)
    have b := abs_nonneg (2 * w - 1)
    have c : |(u : ℝ)| ≤ 1 := abs_le.mpr ⟨l', r'⟩
    have c' : |2 * w - 1| ≤ 1 := abs_le.mpr ⟨by linarith, by linarith⟩
    rw [abs_le]; constructor <;> linarith
  obtain ⟨d1, d2⟩ := abs_le.mp d
  rcases lt_trichotomy (j - k) 0 with hm | hm | hm
  · have hm' : ((j - k : ℤ) : ℝ) ≤ -1 := by exact_mod_cast (by omega : j - k ≤ -1)
    by_cases h1 : 1 ≤ e
    · exact big h1
    · rw [abs_of_nonneg (by linarith : (0 : ℝ) ≤ u), abs_of_nonpos (by linarith : 2 * w - 1 ≤ 0), abs_le]
      constructor <;> linarith
  · rw [hm, Int.cast_zero, mul_zero, sub_zero] at d
    exact (abs_abs_sub_abs_le _ _).trans d
  · have hm' : (1 : ℝ) ≤ ((j - k : ℤ) : ℝ) := by exact_mod_cast (by omega : 1 ≤ j - k)
    by_cases h1 : 1 ≤ e
    · exact big h1
    · rw [abs_of_nonpos (by linarith : (u : ℝ) ≤ 0), abs_of_nonneg (by linarith : 0 ≤ 2 * w - 1), abs_le]
      constructor <;> linarith

omit hN hc in
private theorem drift' {i : ℕ} (hi : i < N) (b : ℕ) : (((s + i : ℕ) : ℝ)) * (2 ^ b)⁻¹ ≤ (s + N : ℕ) * (2 ^ b)⁻¹ := by
  have : ((s + i : ℕ) : ℝ) ≤ (s + N : ℕ) := by exact_mod_cast (by omega : s + i ≤ s + N)
  exact mul_le_mul_of_nonneg_right this (by positivity)

/-- `f32`: the level of a sawtooth from sample `s` on. -/
theorem C155_sawtooth_f32 {f : F64} (hf : f.Is (48000 * P / N)) (hle : 2 * P ≤ N) : ∃ u : ℕ → ℚ,
    (∀ i, (nth Sawtooth.process (Sawtooth.new f) (s + i) : F32).Is (u i)) ∧
    |level (fun i => (u i : ℝ)) N - Real.sqrt (if N % 2 = 0 then 1 / 3 + 2 / (3 * N ^ 2 : ℝ) else 1 / 3 - 1 / (3 * N ^ 2 : ℝ))| ≤
      (2 ^ 25)⁻¹ + (s + N : ℕ) * (2 ^ 49)⁻¹ := by
  choose u h1 h2 using fun i => saw_near hN hf hle (s + i)
  refine ⟨u, h1, ?_⟩
  rw [← saw_level hN hc s, Real.sqrt_sq (level_nonneg _ _)]
  exact level_near hN (by positivity) fun i hi => (h2 i).trans (by linarith [drift' (N := N) s hi 49])

/-- `f32`: the level of a triangle wave from sample `s` on. -/
theorem C155_triangle_f32 {f : F64} (hf : f.Is (48000 * P / N)) (hle : 2 * P ≤ N) : ∃ u : ℕ → ℚ,
    (∀ i, (nth Triangle.process (Triangle.new f) (s + i) : F32).Is (u i)) ∧
    |level (fun i => (u i : ℝ)) N - Real.sqrt (if N % 4 = 0 then 1 / 3 + 8 / (3 * N ^ 2 : ℝ) else if N % 4 = 2 then 1 / 3 - 4 / (3 * N ^ 2 : ℝ)
      else 1 / 3 - 1 / (3 * N ^ 2 : ℝ))| ≤ (2 ^ 25)⁻¹ + (s + N : ℕ) * (2 ^ 49)⁻¹ := by
  choose u h1 h2 using fun i => C99_triangle_tune hf (by positivity) (freq_halfq hN hle) (s + i)
  refine ⟨u, h1, ?_⟩
  rw [← tri_level hN hc s, Real.sqrt_sq (level_nonneg _ _)]
  refine level_near hN (by positivity) fun i hi => (abs_abs_sub_abs_le _ _).trans ?_
  have := h2 i
  rw [show ((s + i : ℕ) : ℝ) * ((48000 * P / N : ℚ) : ℝ) / 48000 = (s + i : ℕ) * P / N by rw [← freq_eq hN]; push_cast; ring] at this
  exact this.trans (by linarith [drift' (N := N) s hi 49])

/-- `f32`: the level of a sine from sample `s` on. -/
theorem C155_sine_f32 [Libm F64] (hl : SinAccurate) {f : F64} (hf : f.Is (48000 * P / N)) (h3 : 3 ≤ N) (hle : P ≤ N) : ∃ (y : ℕ → F32) (u : ℕ → ℚ),
    (∀ i, nthR Sine.process (Sine.new f) (s + i) = .ok (y i)) ∧ (∀ i, (y i).Is (u i)) ∧
    |level (fun i => (u i : ℝ)) N - Real.sqrt (1 / 2)| ≤ 2 * Real.pi / 4800 + (2 ^ 23)⁻¹ + (s + N : ℕ) * (2 ^ 48)⁻¹ := by
  have hq : (48000 * P / N : ℚ) ≤ 48000 := by
    have : (0 : ℚ) < N := by positivity
    have h : (P : ℚ) ≤ N := by exact_mod_cast hle
    rw [div_le_iff₀ this]
    linarith
  choose y u h1 h2 h4 _ using fun i => C101_sine_tune hl hf (by positivity) hq (s + i)
  refine ⟨y, u, h1, h2, ?_⟩
  rw [← sine_level hN hc s h3]
  refine level_near hN (by positivity) fun i hi => (abs_abs_sub_abs_le _ _).trans ?_
  have := h4 i
  rw [show 2 * Real.pi * ((48000 * P / N : ℚ) : ℝ) * (s + i : ℕ) / 48000 = 2 * Real.pi * ((s + i : ℕ) * P / N) by
    rw [← freq_eq hN]; push_cast; ring] at this
  exact this.trans (by linarith [drift' (N := N) s hi 48])

end

/-- Any number of samples of a signal of period N. -/
private theorem level_window {y : ℕ → ℝ} {m : ℝ} {N n : ℕ} (hN : 0 < N) (hn : 0 < n) (hy : ∀ i, |y i| ≤ 1) (m0 : 0 ≤ m) (m1 : m ≤ 1)
    (h : ∀ s, level (fun i => y (s + i)) N ^ 2 = m) (s : ℕ) : |level (fun i => y (s + i)) n ^ 2 - m| ≤ N / n := by
  have hNr : (0 : ℝ) < N := by positivity
  have hnr : (0 : ℝ) < n := by positivity
  have w : ∀ s, ∑ i ∈ Finset.range N, y (s + i) ^ 2 = N * m := fun s => by
    have := h s
    rw [level_sq, div_eq_iff hNr.ne'] at this
    rw [this, mul_comm]
  have q : ∀ k s, ∑ i ∈ Finset.range (k * N), y (s + i) ^ 2 = (k * N : ℕ) * m := by
    intro k
    induction k with
    | zero => intro s; simp
    | succ k ih =>
      intro s
      rw [Nat.succ_mul, Finset.sum_range_add, ih]
      have := w (s + k * N)
      simp only [add_assoc] at this
      rw [this]
      push_cast
      ring
  have e := Nat.div_add_mod' n N
  have hr : (n % N : ℕ) < N := Nat.mod_lt _ hN
  have d : ∑ i ∈ Finset.range n, y (s + i) ^ 2 - n * m = ∑ i ∈ Finset.range (n % N), (y (s + (n / N * N + i)) ^ 2 - m) := by
    conv_lhs => rw [← e]
    rw [Finset.sum_range_add, q, Finset.sum_sub_distrib, Finset.sum_const, Finset.card_range, nsmul_eq_mul]
    push_cast
    ring
  rw [level_sq, ← mul_div_cancel_left₀ m hnr.ne', ← sub_div, abs_div, abs_of_pos hnr, d]
  refine div_le_div_of_nonneg_right ?_ hnr.le
  refine (Finset.abs_sum_le_sum_abs _ _).trans ((Finset.sum_le_sum (g := fun _ => (1 : ℝ)) fun i _ => ?_).trans ?_)
  · have a : y (s + (n / N * N + i)) ^ 2 ≤ 1 := by rw [sq_le_one_iff_abs_le_one]; exact hy _
    have b := sq_nonneg (y (s + (n / N * N + i)))
    rw [abs_le]
    constructor <;> linarith
  · rw [Finset.sum_const, Finset.card_range, nsmul_eq_mul, mul_one]
    exact_mod_cast hr.le

/-- Exact arithmetic: over any `n` samples, wherever they begin, the square of the level is that of whole periods up to N/n. -/
theorem C155_window {N P : ℕ} (hN : 0 < N) (hc : P.Coprime N) (s : ℕ) {n : ℕ} (hn : 0 < n) (h0 : 0 < P) (hle : 2 * P ≤ N) :
    |level (fun i => nth (S := ℝ) Sawtooth.process (Sawtooth.new (48000 * P / N : ℝ)) (s + i)) n ^ 2 -
      (if N % 2 = 0 then 1 / 3 + 2 / (3 * N ^ 2 : ℝ) else 1 / 3 - 1 / (3 * N ^ 2 : ℝ))| ≤ N / n ∧
    |level (fun i => nth (S := ℝ) Triangle.process (Triangle.new (48000 * P / N : ℝ)) (s + i)) n ^ 2 -
      (if N % 4 = 0 then 1 / 3 + 8 / (3 * N ^ 2 : ℝ) else if N % 4 = 2 then 1 / 3 - 4 / (3 * N ^ 2 : ℝ) else 1 / 3 - 1 / (3 * N ^ 2 : ℝ))| ≤ N / n := by
  have hNr : (0 : ℝ) < N := by positivity
  have N2 : (2 : ℝ) ≤ N := by exact_mod_cast (by omega : 2 ≤ N)
  have iN : 1 / (3 * N ^ 2 : ℝ) ≤ 1 / 12 := by
    rw [div_le_div_iff₀ (by positivity) (by norm_num)]
    nlinarith
  have iN0 : 0 < 1 / (3 * N ^ 2 : ℝ) := by positivity
  have c2 : 2 / (3 * N ^ 2 : ℝ) = 2 * (1 / (3 * N ^ 2 : ℝ)) := by ring
  have c4 : 4 / (3 * N ^ 2 : ℝ) = 4 * (1 / (3 * N ^ 2 : ℝ)) := by ring
  have c8 : 8 / (3 * N ^ 2 : ℝ) = 8 * (1 / (3 * N ^ 2 : ℝ)) := by ring
  have i4 : N % 4 = 0 → 1 / (3 * N ^ 2 : ℝ) ≤ 1 / 48 := fun h => by
    have : (4 : ℝ) ≤ N := by exact_mod_cast (by omega : 4 ≤ N)
    rw [div_le_div_iff₀ (by positivity) (by norm_num)]
    nlinarith
  constructor
  · refine level_window hN hn (y := nth (S := ℝ) Sawtooth.process (Sawtooth.new (48000 * P / N : ℝ))) (fun i => ?_) ?_ ?_
      (fun s => C155_sawtooth hN hc s (by omega)) s
    · rw [C34_sawtooth _ (by positivity) ((freq_half' hN hle).trans (by norm_num)), abs_le]
      have a := Int.fract_nonneg ((i : ℝ) * (48000 * P / N) / 48000 + 1 / 2)
      have b := Int.fract_lt_one ((i : ℝ) * (48000 * P / N) / 48000 + 1 / 2)
      constructor <;> linarith
    · split_ifs <;> linarith
    · split_ifs <;> linarith
  · refine level_window hN hn (y := nth (S := ℝ) Triangle.process (Triangle.new (48000 * P / N : ℝ))) (fun i => ?_) ?_ ?_
      (fun s => C155_triangle hN hc s h0 hle) s
    · rw [C95_triangle _ (by positivity) (freq_half' hN hle), ← sq_le_one_iff_abs_le_one, tri_sq]
      have a := Int.fract_nonneg (2 * ((i : ℝ) * (48000 * P / N) / 48000) + 1 / 2)
      have b := Int.fract_lt_one (2 * ((i : ℝ) * (48000 * P / N) / 48000) + 1 / 2)
      nlinarith
    · split_ifs <;> linarith
    · split_ifs with h4
      · linarith [i4 h4]
      · linarith
      · linarith

/-- Any frequency, `f32`: the level of a square wave is 1, over any stretch of it and whatever is done to its frequency. -/
theorem C155_square {n : ℕ} (hn : 0 < n) (f : F64) (cs : ℕ → List (GenCall F64)) : ∃ u : ℕ → ℚ,
    (∀ i, ((runCalls (fun g => (g.process : F32 × _).2) Square.setFrequency (cs i) (Square.new f)).process.1 : F32).Is (u i)) ∧
    level (fun i => (u i : ℝ)) n = 1 := by
  have h : ∀ i, ∃ u : ℚ, ((runCalls (fun g => (g.process : F32 × _).2) Square.setFrequency (cs i) (Square.new f)).process.1 : F32).Is u ∧ u ^ 2 = 1 := by
    intro i
    rcases C37_square_pm1 f (cs i) with h | h
    · exact ⟨1, by rw [h]; decide +kernel, by norm_num⟩
    · exact ⟨-1, by rw [h]; decide +kernel, by norm_num⟩
  choose u h1 h2 using h
  refine ⟨u, h1, ?_⟩
  have e : ∀ i, (u i : ℝ) ^ 2 = 1 := fun i => by exact_mod_cast h2 i
  have hnr : (n : ℝ) ≠ 0 := by positivity
  unfold level
  simp only [e]
  rw [Finset.sum_const, Finset.card_range, nsmul_eq_mul, mul_one, div_self hnr, Real.sqrt_one]

/-- The condition on N is needed for the sine: at 24 kHz it is silence, exact arithmetic. -/
theorem C155_sine_nyquist (s n : ℕ) : ∃ y : ℕ → ℝ, (∀ i, nthR Sine.process (Sine.new (24000 : ℝ)) (s + i) = .ok (y i)) ∧ level y n ≤ 2 * Real.pi / 4800 := by
  choose y h1 h2 _ using fun i => C40_sine_partial (24000 : ℝ) (by norm_num) (by norm_num) (s + i)
  refine ⟨y, h1, ?_⟩
  rcases Nat.eq_zero_or_pos n with rfl | hn
  · simp [level]; positivity
  have z : ∀ i, Real.sin (2 * Real.pi * 24000 * (s + i : ℕ) / 48000) = 0 := fun i => by
    rw [show 2 * Real.pi * 24000 * ((s + i : ℕ) : ℝ) / 48000 = (s + i : ℕ) * Real.pi by ring]
    exact Real.sin_nat_mul_pi _
  have := level_near (y := y) (z := fun _ => 0) hn (show (0 : ℝ) ≤ 2 * Real.pi / 4800 by positivity) fun i _ => by
    have := h2 i
    rw [z, sub_zero] at this
    simpa using this
  have e : level (fun _ => 0) n = 0 := by simp [level]
  rw [e, sub_zero, abs_of_nonneg (level_nonneg _ _)] at this
  exact this

/-- 440 Hz: 11 periods in 1200 samples. -/
example (s : ℕ) : level (fun i => nth (S := ℝ) Sawtooth.process (Sawtooth.new (440 : ℝ)) (s + i)) 1200 ^ 2 = 1 / 3 + 2 / (3 * (1200 : ℕ) ^ 2 : ℝ) ∧
    level (fun i => nth (S := ℝ) Triangle.process (Triangle.new (440 : ℝ)) (s + i)) 1200 ^ 2 = 1 / 3 + 8 / (3 * (1200 : ℕ) ^ 2 : ℝ) := by
  have e : (48000 * (11 : ℕ) / (1200 : ℕ) : ℝ) = 440 := by norm_num
  have a := C155_sawtooth (N := 1200) (P := 11) (by norm_num) (by decide) s (by norm_num)
  have b := C155_triangle (N := 1200) (P := 11) (by norm_num) (by decide) s (by norm_num) (by norm_num)
  rw [if_pos (by norm_num), e] at a b
  exact ⟨a, b⟩

/-- After an hour of 440 Hz the levels in `f32` are still right to a millionth. -/
example : ∃ u : ℕ → ℚ, (∀ i, (nth Sawtooth.process (Sawtooth.new (lit 440 : F64)) (48000 * 3600 + i) : F32).Is (u i)) ∧
    |level (fun i => (u i : ℝ)) 1200 - Real.sqrt (1 / 3 + 2 / (3 * (1200 : ℕ) ^ 2 : ℝ))| ≤ 1 / 1000000 := by
  obtain ⟨u, h1, h2⟩ := C155_sawtooth_f32 (N := 1200) (P := 11) (by norm_num) (by decide) (48000 * 3600) (f := lit 440) (by
    rw [show (48000 * (11 : ℕ) / (1200 : ℕ) : ℚ) = 440 by norm_num]
    exact lit64_nat (n := 440) (by norm_num)) (by norm_num)
  rw [if_pos (by norm_num)] at h2
  exact ⟨u, h1, h2.trans (by norm_num)⟩

example : ∃ l : Libm F64, @SinAccurate l := sinAccurate_exists

end Verif
