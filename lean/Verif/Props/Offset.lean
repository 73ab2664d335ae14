import Verif.Props.Osc
import Verif.Props.Sine

/-! # The average of a waveform: C146 (exact arithmetic)

The frequency is 48000·P/N, so that N samples are P whole periods. -/

namespace Verif

/-- N consecutive samples of a signal of period one, taken in steps of P/N, are its values at the multiples of 1/N. -/
theorem sum_period {E : Type} [AddCommMonoid E] {g : ℝ → E} (hg : ∀ x, g (x + 1) = g x) {N P : ℕ} (hN : 0 < N) (hc : P.Coprime N) (s : ℕ) :
    ∑ i ∈ Finset.range N, g ((s + i : ℕ) * P / N) = ∑ j ∈ Finset.range N, g (j / N) := by
  have hNr : (N : ℝ) ≠ 0 := by positivity
  have per : ∀ (k : ℕ) (x : ℝ), g (x + k) = g x := by
    intro k
    induction k with
    | zero => intro x; simp
    | succ k ih => intro x; push_cast; rw [← add_assoc, hg, ih]
  have red : ∀ m : ℕ, g (m / N) = g ((m % N : ℕ) / N) := by
    intro m
    have : (m : ℝ) / N = (m % N : ℕ) / N + (m / N : ℕ) := by
      rw [div_eq_iff hNr, add_mul, div_mul_cancel₀ _ hNr]
      exact_mod_cast (by rw [Nat.mod_add_div' m N] : m = m % N + m / N * N)
    rw [this, per]
  have e : ∀ i, g ((s + i : ℕ) * P / N) = g ((((s + i) * P) % N : ℕ) / N) := fun i => by
    rw [← red]; push_cast; rfl
  simp only [e]
  have inj : ∀ i ∈ Finset.range N, ∀ j ∈ Finset.range N, ((s + i) * P) % N = ((s + j) * P) % N → i = j := by
    intro i hi j hj h
    have h1 : s + i ≡ s + j [MOD N] := Nat.ModEq.cancel_right_of_coprime (by rw [Nat.gcd_comm]; exact hc) h
    have h2 : i ≡ j [MOD N] := Nat.ModEq.add_left_cancel' s h1
    rw [Finset.mem_range] at hi hj
    have h3 : i % N = j % N := h2
    rwa [Nat.mod_eq_of_lt hi, Nat.mod_eq_of_lt hj] at h3
  rw [← Finset.sum_image (g := fun i => ((s + i) * P) % N) (f := fun j : ℕ => g ((j : ℝ) / N)) (s := Finset.range N) inj]
  refine Finset.sum_congr (Finset.eq_of_subset_of_card_le ?_ ?_) fun _ _ => rfl
  · intro k hk
    obtain ⟨i, -, rfl⟩ := Finset.mem_image.mp hk
    exact Finset.mem_range.mpr (Nat.mod_lt _ hN)
  · rw [Finset.card_image_of_injOn inj]

private theorem sum_odd {g : ℝ → ℝ} (hg : ∀ x, g (x + 1) = g x) (ho : ∀ x, g (-x) = -g x) {N : ℕ} (hN : 0 < N) :
    ∑ j ∈ Finset.range N, g (j / N) = 0 := by
  have hNr : (N : ℝ) ≠ 0 := by positivity
  have per : ∀ (k : ℕ) (x : ℝ), g (x + k) = g x := by
    intro k
    induction k with
    | zero => intro x; simp
    | succ k ih => intro x; push_cast; rw [← add_assoc, hg, ih]
  have h := sum_period hg hN (P := N - 1) (by
    rcases N with _ | n
    · omega
    · simp) 0
  have e : ∀ i : ℕ, g ((0 + i : ℕ) * (N - 1 : ℕ) / N) = -g (i / N) := by
    intro i
    rw [Nat.cast_sub hN, ← ho, ← per i (-(i / N))]
    congr 1
    push_cast
    field_simp
    ring
  simp only [e, Finset.sum_neg_distrib] at h
  linarith

private theorem sum_idx (N : ℕ) : ∑ j ∈ Finset.range N, (j : ℝ) = N * (N - 1) / 2 := by
  induction N with
  | zero => simp
  | succ n ih => rw [Finset.sum_range_succ, ih]; push_cast; ring

private theorem sum_saw {N : ℕ} (hN : 0 < N) {c : ℝ} (c0 : 0 ≤ c) (c1 : c < 1 / N) :
    ∑ j ∈ Finset.range N, (2 * Int.fract ((j : ℝ) / N + c) - 1) = 2 * c * N - 1 := by
  have hNr : (0 : ℝ) < N := by positivity
  have e : ∀ j ∈ Finset.range N, 2 * Int.fract ((j : ℝ) / N + c) - 1 = 2 / N * j + (2 * c - 1) := by
    intro j hj
    have hj' : (j : ℝ) + 1 ≤ N := by exact_mod_cast Finset.mem_range.mp hj
    rw [Int.fract_eq_self.mpr ⟨by positivity, ?_⟩]
    · ring
    · rw [lt_div_iff₀ hNr] at c1
      rw [div_add' _ _ _ hNr.ne', div_lt_one hNr]
      linarith
  rw [Finset.sum_congr rfl e, Finset.sum_add_distrib, ← Finset.mul_sum, sum_idx, Finset.sum_const, Finset.card_range, nsmul_eq_mul]
  field_simp
  ring

private theorem sum_saw_half {N : ℕ} (hN : 0 < N) :
    ∑ j ∈ Finset.range N, (2 * Int.fract ((j : ℝ) / N + 1 / 2) - 1) = if N % 2 = 0 then -1 else 0 := by
  have hNr : (0 : ℝ) < N := by positivity
  have per : ∀ c x : ℝ, 2 * Int.fract (x + 1 + c) - 1 = 2 * Int.fract (x + c) - 1 := fun c x => by
    rw [add_right_comm, Int.fract_add_one]
  have hm := Nat.mod_add_div N 2
  have hmr : ((N % 2 : ℕ) : ℝ) + 2 * (N / 2 : ℕ) = N := by exact_mod_cast hm
  have key : ∀ c : ℝ, 1 / 2 = (N / 2 : ℕ) / (N : ℝ) + c → 0 ≤ c → c < 1 / N →
      ∑ j ∈ Finset.range N, (2 * Int.fract ((j : ℝ) / N + 1 / 2) - 1) = 2 * c * N - 1 := by
    intro c hc c0 c1
    have h := sum_period (g := fun x => 2 * Int.fract (x + c) - 1) (per c) hN (P := 1) (Nat.coprime_one_left N) (N / 2)
    rw [sum_saw hN c0 c1] at h
    rw [← h]
    refine Finset.sum_congr rfl fun j _ => ?_
    rw [hc]
    congr 3
    push_cast
    ring
  split
  · rename_i h
    rw [h] at hmr
    rw [key 0 (by rw [add_zero, eq_div_iff hNr.ne']; push_cast at hmr; linarith) le_rfl (by positivity)]
    ring
  · rename_i h
    have h1 : N % 2 = 1 := by omega
    rw [h1] at hmr
    rw [key (1 / (2 * N)) (by field_simp; linarith [hmr, (Nat.cast_one : ((1 : ℕ) : ℝ) = 1)]) (by positivity)
      (by rw [div_lt_div_iff₀ (by positivity) hNr]; linarith)]
    field_simp
    ring

private theorem sum_square {N : ℕ} (hN : 0 < N) :
    ∑ j ∈ Finset.range N, (if Int.fract ((j : ℝ) / N) < 1 / 2 then (1 : ℝ) else -1) = if N % 2 = 0 then 0 else 1 := by
  have hNr : (0 : ℝ) < N := by positivity
  have e : ∀ j ∈ Finset.range N, (if Int.fract ((j : ℝ) / N) < 1 / 2 then (1 : ℝ) else -1) = 2 * (if j < (N + 1) / 2 then 1 else 0) - 1 := by
    intro j hj
    have hj' : (j : ℝ) < N := by exact_mod_cast Finset.mem_range.mp hj
    rw [Int.fract_eq_self.mpr ⟨by positivity, by rwa [div_lt_one hNr]⟩]
    have : (j : ℝ) / N < 1 / 2 ↔ j < (N + 1) / 2 := by
      rw [div_lt_div_iff₀ hNr (by norm_num)]
      have : (j : ℝ) * 2 < 1 * N ↔ j * 2 < 1 * N := by exact_mod_cast Iff.rfl
      rw [this]
      omega
    simp only [this]
    split <;> norm_num
  rw [Finset.sum_congr rfl e, Finset.sum_sub_distrib, ← Finset.mul_sum, Finset.sum_boole, Finset.sum_const, Finset.card_range]
  have : (Finset.range N).filter (fun j => j < (N + 1) / 2) = Finset.range ((N + 1) / 2) := by
    ext j
    simp only [Finset.mem_filter, Finset.mem_range]
    omega
  rw [this, Finset.card_range]
  have hm := Nat.mod_add_div N 2
  split
  · have h2 : 2 * ((N + 1) / 2) = N := by omega
    have : 2 * (((N + 1) / 2 : ℕ) : ℝ) = N := by exact_mod_cast h2
    rw [this]; simp
  · have h2 : 2 * ((N + 1) / 2) = N + 1 := by omega
    have : 2 * (((N + 1) / 2 : ℕ) : ℝ) = N + 1 := by exact_mod_cast h2
    rw [this]; simp

theorem tri_per (x : ℝ) : triWave (x + 1) = triWave x := by
  unfold triWave
  rw [add_right_comm, Int.fract_add_one]

private theorem tri_odd (x : ℝ) : triWave (-x) = -triWave x := by
  have h : Int.fract (-x + 1 / 4) = Int.fract (1 / 2 - Int.fract (x + 1 / 4)) := by
    rw [Int.fract_eq_fract]
    exact ⟨-⌊x + 1 / 4⌋, by push_cast; linarith [Int.self_sub_floor (x + 1 / 4)]⟩
  have u0 := Int.fract_nonneg (x + 1 / 4)
  have u1 := Int.fract_lt_one (x + 1 / 4)
  unfold triWave
  simp only
  rw [h]
  generalize Int.fract (x + 1 / 4) = u at u0 u1
  rcases le_or_gt u (1 / 2) with hu | hu
  · rw [Int.fract_eq_self.mpr ⟨by linarith, by linarith⟩]
    split_ifs <;> linarith
  · rw [show (1 / 2 : ℝ) - u = 3 / 2 - u - 1 by ring, Int.fract_sub_one, Int.fract_eq_self.mpr ⟨by linarith, by linarith⟩]
    split_ifs <;> linarith

section
variable {N P : ℕ} (hN : 0 < N) (hc : P.Coprime N) (s : ℕ)
include hN

theorem freq_eq (n : ℕ) : (n : ℝ) * (48000 * P / N) / 48000 = n * P / N := by
  have : (N : ℝ) ≠ 0 := by positivity
  field_simp

theorem freq_le {c : ℝ} (h : (P : ℝ) ≤ c * N) : (48000 * P / N : ℝ) ≤ 48000 * c := by
  have : (0 : ℝ) < N := by positivity
  rw [div_le_iff₀ this]
  nlinarith

include hc

/-- Exact arithmetic: the sum of N consecutive samples (P whole periods) of a sawtooth is 0 if N is odd, but -1 if N is
even: such a sawtooth has the constant part -1/N. -/
theorem C146_sawtooth_partial (hle : P ≤ N) :
    ∑ i ∈ Finset.range N, nth (S := ℝ) Sawtooth.process (Sawtooth.new (48000 * P / N : ℝ)) (s + i) =
      if N % 2 = 0 then -1 else 0 := by
  have hf := freq_le (c := 1) hN (by simpa using (by exact_mod_cast hle : (P : ℝ) ≤ N))
  simp only [C34_sawtooth _ (show (0 : ℝ) ≤ 48000 * P / N by positivity) (hf.trans (by norm_num)), freq_eq hN]
  rw [sum_period (g := fun x => 2 * Int.fract (x + 1 / 2) - 1) (fun x => by rw [add_right_comm, Int.fract_add_one]) hN hc s]
  exact sum_saw_half hN

/-- Exact arithmetic: the sum of N consecutive samples (P whole periods) of a square wave is 0 if N is even, but 1 if N
is odd. -/
theorem C146_square_partial (h0 : 0 < P) (hle : 2 * P ≤ N) :
    ∑ i ∈ Finset.range N, nth (S := ℝ) Square.process (Square.new (48000 * P / N : ℝ)) (s + i) =
      if N % 2 = 0 then 0 else 1 := by
  have hf := freq_le (P := P) (c := 1 / 2) hN (by have : (2 * P : ℝ) ≤ N := by exact_mod_cast hle
                                                  linarith)
  simp only [C38_square _ (show (0 : ℝ) < 48000 * P / N by positivity) (hf.trans (by norm_num)), freq_eq hN]
  rw [sum_period (g := fun x => if Int.fract x < 1 / 2 then (1 : ℝ) else -1) (fun x => by rw [Int.fract_add_one]) hN hc s]
  exact sum_square hN

/-- Exact arithmetic: the average of a triangle wave over whole periods is zero. -/
theorem C146_triangle (h0 : 0 < P) (hle : 2 * P ≤ N) :
    ∑ i ∈ Finset.range N, nth (S := ℝ) Triangle.process (Triangle.new (48000 * P / N : ℝ)) (s + i) = 0 := by
  have hf := freq_le (P := P) (c := 1 / 2) hN (by have : (2 * P : ℝ) ≤ N := by exact_mod_cast hle
                                                  linarith)
  simp only [C95_triangle _ (show (0 : ℝ) < 48000 * P / N by positivity) (hf.trans (by norm_num)), freq_eq hN]
  rw [sum_period tri_per hN hc s]
  exact sum_odd tri_per tri_odd hN

/-- Exact arithmetic: the average of a sine over whole periods is at most its table error. -/
theorem C146_sine (hle : P ≤ N) :
    ∃ y : ℕ → ℝ, (∀ i, nthR Sine.process (Sine.new (48000 * P / N : ℝ)) (s + i) = .ok (y i)) ∧
      |∑ i ∈ Finset.range N, y i| ≤ N * (2 * Real.pi / 4800) := by
  have hf := freq_le (c := 1) hN (by simpa using (by exact_mod_cast hle : (P : ℝ) ≤ N))
  have h := fun i => C40_sine_partial _ (show (0 : ℝ) ≤ 48000 * P / N by positivity) (hf.trans (by norm_num)) (s + i)
  choose y h1 h2 _ using h
  refine ⟨y, h1, ?_⟩
  have per : ∀ x : ℝ, Real.sin (2 * Real.pi * (x + 1)) = Real.sin (2 * Real.pi * x) := fun x => by
    rw [mul_add, mul_one, Real.sin_add_two_pi]
  have z : ∑ i ∈ Finset.range N, Real.sin (2 * Real.pi * (48000 * P / N) * (s + i : ℕ) / 48000) = 0 := by
    rw [← sum_odd (g := fun x => Real.sin (2 * Real.pi * x)) per (fun x => by rw [mul_neg, Real.sin_neg]) hN,
      ← sum_period (g := fun x => Real.sin (2 * Real.pi * x)) per hN hc s]
    refine Finset.sum_congr rfl fun i _ => ?_
    rw [← freq_eq hN]
    congr 1
    ring
  calc |∑ i ∈ Finset.range N, y i|
      = |∑ i ∈ Finset.range N, (y i - Real.sin (2 * Real.pi * (48000 * P / N) * (s + i : ℕ) / 48000))| := by
        rw [Finset.sum_sub_distrib, z, sub_zero]
    _ ≤ ∑ i ∈ Finset.range N, |y i - Real.sin (2 * Real.pi * (48000 * P / N) * (s + i : ℕ) / 48000)| :=
        Finset.abs_sum_le_sum_abs _ _
    _ ≤ ∑ _i ∈ Finset.range N, 2 * Real.pi / 4800 := Finset.sum_le_sum fun i _ => h2 i
    _ = N * (2 * Real.pi / 4800) := by rw [Finset.sum_const, Finset.card_range, nsmul_eq_mul]

end

/-- The property fails: a sawtooth at 12 kHz has the constant part -1/4 (four samples sum to -1), wherever the average is
taken. -/
theorem C146_sawtooth_violated (s : ℕ) :
    ∑ i ∈ Finset.range 4, nth (S := ℝ) Sawtooth.process (Sawtooth.new (12000 : ℝ)) (s + i) = -1 := by
  have h := C146_sawtooth_partial (N := 4) (P := 1) (by norm_num) (by norm_num) s (by norm_num)
  norm_num at h
  exact h

/-- The property fails: a square wave at 16 kHz has the constant part 1/3. -/
theorem C146_square_violated (s : ℕ) :
    ∑ i ∈ Finset.range 3, nth (S := ℝ) Square.process (Square.new (16000 : ℝ)) (s + i) = 1 := by
  have h := C146_square_partial (N := 3) (P := 1) (by norm_num) (by norm_num) s (by norm_num) (by norm_num)
  norm_num at h
  exact h

/-- 10 kHz is 5 periods in 24 samples. -/
example (s : ℕ) : ∑ i ∈ Finset.range 24, nth (S := ℝ) Triangle.process (Triangle.new (10000 : ℝ)) (s + i) = 0 := by
  have h := C146_triangle (N := 24) (P := 5) (by norm_num) (by decide) s (by norm_num) (by norm_num)
  norm_num at h
  exact h

/-- 440 Hz is 11 periods in 1200 samples: an even number, a square wave without constant part. -/
example (s : ℕ) : ∑ i ∈ Finset.range 1200, nth (S := ℝ) Square.process (Square.new (440 : ℝ)) (s + i) = 0 := by
  have h := C146_square_partial (N := 1200) (P := 11) (by norm_num) (by decide) s (by norm_num) (by norm_num)
  norm_num at h
  exact h

/-- 9600 Hz is one period in 5 samples: an odd number, a sawtooth without constant part. -/
example (s : ℕ) : ∑ i ∈ Finset.range 5, nth (S := ℝ) Sawtooth.process (Sawtooth.new (9600 : ℝ)) (s + i) = 0 := by
  have h := C146_sawtooth_partial (N := 5) (P := 1) (by norm_num) (by norm_num) s (by norm_num)
  norm_num at h
  exact h

example : ∃ y : ℕ → ℝ, (∀ i, nthR Sine.process (Sine.new (440 : ℝ)) (7 + i) = .ok (y i)) ∧
    |∑ i ∈ Finset.range 1200, y i| ≤ 1200 * (2 * Real.pi / 4800) := by
  have h := C146_sine (N := 1200) (P := 11) (by norm_num) (by decide) 7 (by norm_num)
  norm_num at h ⊢
  exact h

end Verif
