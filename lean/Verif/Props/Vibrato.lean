import Verif.Props.OscTune
import Verif.Props.SineTune
import Verif.Spec.Sweep

/-! # Vibrato: changing the frequency of a playing generator: C148

Before sample `i` the frequency is set to `f i`. The wave should then be at the phase `Σ f i / 48000`, summed over the
samples before. -/

namespace Verif
open Fl

/-- The phase, in periods, at sample `n`. -/
noncomputable def phaseSum (f : ℕ → ℝ) (n : ℕ) : ℝ := (∑ i ∈ Finset.range n, f i) / 48000

private theorem phaseSum_succ (f : ℕ → ℝ) (n : ℕ) : phaseSum f (n + 1) = phaseSum f n + f n / 48000 := by
  unfold phaseSum
  rw [Finset.sum_range_succ]
  ring

/-! ## Sawtooth -/

/-- Exact arithmetic: a sawtooth whose frequency is set before every sample is at the summed phase. -/
theorem C148_sawtooth (f : ℕ → ℝ) (f0 : ℝ) (h0 : ∀ i, 0 ≤ f i) (h1 : ∀ i, f i ≤ 48000) (n : ℕ) :
    sweepOut (S := ℝ) Sawtooth.setFrequency Sawtooth.process f (Sawtooth.new f0) n = 2 * Int.fract (phaseSum f n + 1 / 2) - 1 := by
  suffices h : (sweep (S := ℝ) Sawtooth.setFrequency Sawtooth.process f (Sawtooth.new f0) n).inc = 2 * Int.fract (phaseSum f n + 1 / 2) - 1 from h
  induction n with
  | zero =>
    have : Int.fract (2⁻¹ : ℝ) = 2⁻¹ := Int.fract_eq_self.mpr ⟨by norm_num, by norm_num⟩
    unfold sweep Sawtooth.new phaseSum
    real_simp
    simp [this]
  | succ n ih =>
    rw [phaseSum_succ]
    show ((Sawtooth.process (Sawtooth.setFrequency (sweep (S := ℝ) Sawtooth.setFrequency Sawtooth.process f (Sawtooth.new f0) n) (f n)) : ℝ × _).2).inc = _
    generalize sweep (S := ℝ) Sawtooth.setFrequency Sawtooth.process f (Sawtooth.new f0) n = g at *
    unfold Sawtooth.process Sawtooth.setFrequency
    real_simp
    rw [ih]
    generalize phaseSum f n = x
    have a0 := h0 n
    have a1 := h1 n
    have x0 := Int.fract_nonneg (x + 1 / 2)
    have x1 := Int.fract_lt_one (x + 1 / 2)
    have hx := Int.floor_add_fract (x + 1 / 2)
    split_ifs with h
    · have : Int.fract (x + f n / 48000 + 1 / 2) = Int.fract (x + 1 / 2) + f n / 48000 - 1 := by
        rw [Int.fract_eq_iff]
        exact ⟨by linarith, by linarith, ⌊x + 1 / 2⌋ + 1, by push_cast; linarith⟩
      rw [this]; ring
    · have : Int.fract (x + f n / 48000 + 1 / 2) = Int.fract (x + 1 / 2) + f n / 48000 := by
        rw [Int.fract_eq_iff]
        exact ⟨by positivity, by linarith, ⌊x + 1 / 2⌋, by linarith⟩
      rw [this]; ring

/-- A tone of 440 Hz with an octave jump every third sample. -/
example (n : ℕ) : sweepOut (S := ℝ) Sawtooth.setFrequency Sawtooth.process (fun i => if i % 3 = 0 then 880 else 440) (Sawtooth.new (1 : ℝ)) n =
    2 * Int.fract (phaseSum (fun i => if i % 3 = 0 then 880 else 440) n + 1 / 2) - 1 :=
  C148_sawtooth _ _ (fun i => by split_ifs <;> norm_num) (fun i => by split_ifs <;> norm_num) n

/-- IEEE: the same up to `2^-25 + n*2^-49`. -/
theorem C148_sawtooth_ieee {f : ℕ → F64} {q : ℕ → ℚ} (hf : ∀ i, (f i).Is (q i)) (h0 : ∀ i, 0 ≤ q i) (h1 : ∀ i, q i ≤ 24000) (f0 : F64) (n : ℕ) :
    ∃ y : ℚ, (sweepOut Sawtooth.setFrequency Sawtooth.process f (Sawtooth.new f0) n : F32).Is y ∧ -1 ≤ y ∧ y ≤ 1 ∧
      ∃ j : ℤ, |y - (2 * ((∑ i ∈ Finset.range n, q i) / 48000) - 2 * j)| ≤ (2 ^ 25)⁻¹ + n * (2 ^ 49)⁻¹ := by
  have st : ∃ i : ℚ, (sweep (S := F32) Sawtooth.setFrequency Sawtooth.process f (Sawtooth.new f0) n).inc.Is i ∧ -1 ≤ i ∧ i ≤ 1 ∧
      ∃ j : ℤ, |i - ((∑ i ∈ Finset.range n, q i) / 24000 - 2 * j)| ≤ n * (2 ^ 49)⁻¹ := by
    induction n with
    | zero => exact ⟨0, lit64_0, by norm_num, by norm_num, 0, by simp⟩
    | succ n ih =>
      obtain ⟨i, hi, i0, i1, j, hj⟩ := ih
      show ∃ i : ℚ, ((Sawtooth.process (Sawtooth.setFrequency (sweep (S := F32) Sawtooth.setFrequency Sawtooth.process f (Sawtooth.new f0) n) (f n)) : F32 × _).2).inc.Is i ∧ _
      generalize sweep (S := F32) Sawtooth.setFrequency Sawtooth.process f (Sawtooth.new f0) n = g at *
      obtain ⟨r, hr, r0, r1, er⟩ := rate_err (Or.inl rfl) lit64_2 (hf n) (h0 n) (h1 n)
      have ba : |i + r| ≤ 2 ^ 1 := abs_le.mpr ⟨by norm_num; linarith, by norm_num; linarith⟩
      have hs := Is.add hi hr (fits64' 1 (by norm_num) ba)
      have es := err64 (q := i + r) 1 (by norm_num) (by exact_mod_cast ba)
      have b := rnd_in (f := b64) (lo := -1) (hi := 2) (by linarith : (-1 : ℚ) ≤ i + r) (by linarith)
        (by exact_mod_cast Fmt.repr64_int (n := -1) (by norm_num)) (by exact_mod_cast Fmt.repr64_int (n := 2) (by norm_num))
      set s := b64.rnd (i + r)
      have e1 : (Sawtooth.process (S := F32) (g.setFrequency (f n))).2.inc =
        if lit 1 ≤? g.inc + lit 2 * f n * invSR then g.inc + lit 2 * f n * invSR - lit 2 else g.inc + lit 2 * f n * invSR := rfl
      rw [e1]
      simp only [Is.le lit64_1 hs]
      rw [abs_le] at es er hj
      norm_num at es er hj
      rw [Finset.sum_range_succ]
      by_cases h1 : 1 ≤ s
      · simp only [h1, decide_true, if_true]
        have bd : |s - 2| ≤ 2 ^ 0 := abs_le.mpr ⟨by norm_num; linarith, by norm_num; linarith⟩
        have hd := Is.sub hs lit64_2 (fits64' 0 (by norm_num) bd)
        have ed := err64 (q := s - 2) 0 (by norm_num) (by exact_mod_cast bd)
        have b' := rnd_in (f := b64) (lo := -1) (hi := 1) (by linarith : (-1 : ℚ) ≤ s - 2) (by linarith)
          (by exact_mod_cast Fmt.repr64_int (n := -1) (by norm_num)) (by exact_mod_cast Fmt.repr64_int (n := 1) (by norm_num))
        refine ⟨_, hd, b'.1, b'.2, j + 1, ?_⟩
        rw [abs_le] at ed ⊢
        norm_num at ed
        push_cast
        norm_num
        constructor <;> linarith
      · simp only [h1, decide_false, Bool.false_eq_true, if_false]
        refine ⟨_, hs, b.1, (not_le.mp h1).le, j, ?_⟩
        rw [abs_le]
        push_cast
        norm_num
        constructor <;> linarith
  obtain ⟨i, hi, i0, i1, j, hj⟩ := st
  have bi : |i| ≤ 2 ^ 0 := abs_le.mpr ⟨by norm_num; linarith, by norm_num; linarith⟩
  have b' := rnd_in (f := b32) (lo := -1) (hi := 1) i0 i1
    (by exact_mod_cast Fmt.repr32_int (n := -1) (by norm_num)) (by exact_mod_cast Fmt.repr32_int (n := 1) (by norm_num))
  refine ⟨_, hi.down (fits32' 0 (by norm_num) bi), b'.1, b'.2, j, ?_⟩
  have e := err32 (q := i) 0 (by norm_num) (by exact_mod_cast bi)
  have : b32.rnd i - (2 * ((∑ i ∈ Finset.range n, q i) / 48000) - 2 * j) =
    (b32.rnd i - i) + (i - ((∑ i ∈ Finset.range n, q i) / 24000 - 2 * j)) := by ring
  rw [this]
  refine (abs_add_le _ _).trans (add_le_add ?_ hj)
  refine e.trans (by norm_num)

/-- 440 Hz and 880 Hz in turn. -/
example (n : ℕ) : ∃ y : ℚ, (sweepOut Sawtooth.setFrequency Sawtooth.process (fun i => if i % 2 = 0 then (lit 440 : F64) else lit 880) (Sawtooth.new (lit 1)) n : F32).Is y ∧
    -1 ≤ y ∧ y ≤ 1 ∧ ∃ j : ℤ, |y - (2 * ((∑ i ∈ Finset.range n, if i % 2 = 0 then (440 : ℚ) else 880) / 48000) - 2 * j)| ≤ (2 ^ 25)⁻¹ + n * (2 ^ 49)⁻¹ :=
  C148_sawtooth_ieee (fun i => by split_ifs <;> decide +kernel) (fun i => by split_ifs <;> norm_num) (fun i => by split_ifs <;> norm_num) _ n

/-! ## Sine -/

/-- Exact arithmetic: a sine whose frequency is set before every sample is the sine of the summed phase up to the error
of the table (see C40). -/
theorem C148_sine (f : ℕ → ℝ) (f0 : ℝ) (h0 : ∀ i, 0 ≤ f i) (h1 : ∀ i, f i ≤ 48000) (n : ℕ) :
    ∃ y : ℝ, sweepOutR Sine.setFrequency Sine.process f (Sine.new f0) n = .ok y ∧
      |y - Real.sin (2 * Real.pi * phaseSum f n)| ≤ 2 * Real.pi / 4800 ∧
      (4800 * Int.fract (phaseSum f n) < 4799 → |y - Real.sin (2 * Real.pi * phaseSum f n)| ≤ (2 * Real.pi / 4800) ^ 2 / 8) := by
  have set_eq : ∀ (x c v : ℝ), Sine.setFrequency ⟨x, c⟩ v = ⟨x, v / 10⟩ := by
    intro x c v
    unfold Sine.setFrequency
    real_simp
    norm_num [WAVETABLE_FREQ]
  have st : ∃ x c, sweepR (S := ℝ) Sine.setFrequency Sine.process f (Sine.new f0) n = .ok ⟨x, c⟩ ∧ -1 ≤ x ∧ x < 4799 ∧
      ∃ j : ℤ, x = (∑ i ∈ Finset.range n, f i) / 10 - 4800 * j := by
    induction n with
    | zero =>
      refine ⟨0, f0 / 10, ?_, by norm_num, by norm_num, 0, by simp⟩
      unfold sweepR Sine.new
      real_simp
      norm_num [WAVETABLE_FREQ]
    | succ n ih =>
      obtain ⟨x, c, hx, x0, x1, j, hj⟩ := ih
      obtain ⟨y, hy, -, -⟩ := sine_real_step x (f n / 10) x0 x1
      rw [Finset.sum_range_succ]
      have a0 := h0 n
      have a1 := h1 n
      refine ⟨_, _, by simp only [sweepR, hx, set_eq, hy, Except.map]; rfl, ?_, ?_, ?_⟩
      · split_ifs with h
        · linarith
        · linarith
      · split_ifs with h
        · linarith
        · linarith [not_le.mp h]
      · split_ifs with h
        · exact ⟨j + 1, by rw [hj]; push_cast; ring⟩
        · exact ⟨j, by rw [hj]; ring⟩
  obtain ⟨x, c, hx, x0, x1, j, hj⟩ := st
  obtain ⟨y, hy, y1, y2⟩ := sine_real_step x (f n / 10) x0 x1
  refine ⟨y, by simp only [sweepOutR, hx, set_eq, hy, Except.map], ?_⟩
  have hj' : x = (1 : ℕ) * (∑ i ∈ Finset.range n, f i) / 10 - 4800 * j := by rw [hj, Nat.cast_one, one_mul]
  have e1 : 2 * Real.pi * phaseSum f n = 2 * Real.pi * (∑ i ∈ Finset.range n, f i) * (1 : ℕ) / 48000 := by
    unfold phaseSum; rw [Nat.cast_one]; ring
  have e2 : 4800 * Int.fract (phaseSum f n) = phase (∑ i ∈ Finset.range n, f i) 1 := by
    unfold phase phaseSum; rw [Nat.cast_one, mul_one]
  rw [e1, e2, sin_phase hj']
  have hpi := Real.pi_pos
  have hpi4 := Real.pi_le_four
  rcases phase_of hj' x0 x1 with ⟨hp, hph⟩ | ⟨hp, hph⟩
  · have key : |y - Real.sin (2 * Real.pi / 4800 * x)| ≤ (2 * Real.pi / 4800) ^ 2 / 8 := by
      rw [y2 hp]
      have := sin_interp_error (2 * Real.pi / 4800 * ⌊x⌋) (2 * Real.pi / 4800) (Int.fract x) (Int.fract_nonneg x) (Int.fract_lt_one x).le
      rw [show 2 * Real.pi / 4800 * (⌊x⌋ : ℝ) + Int.fract x * (2 * Real.pi / 4800) = 2 * Real.pi / 4800 * x by
        conv_rhs => rw [← Int.floor_add_fract x]
        ring] at this
      exact this
    refine ⟨key.trans ?_, fun _ => key⟩
    have hs : 0 < 2 * Real.pi / 4800 := by positivity
    have hs1 : 2 * Real.pi / 4800 ≤ 1 := by linarith
    nlinarith
  · rw [y1 hp, hph]
    refine ⟨?_, fun h => by linarith⟩
    rw [zero_sub, abs_neg]
    refine Real.abs_sin_le_abs.trans ?_
    rw [abs_mul, abs_of_pos (by positivity : 0 < 2 * Real.pi / 4800)]
    exact mul_le_of_le_one_right (by positivity) (abs_le.mpr ⟨by linarith, by linarith⟩)

/-- 440 Hz and 880 Hz in turn. -/
example (n : ℕ) : ∃ y : ℝ, sweepOutR Sine.setFrequency Sine.process (fun i => if i % 2 = 0 then (440 : ℝ) else 880) (Sine.new 1) n = .ok y ∧
    |y - Real.sin (2 * Real.pi * phaseSum (fun i => if i % 2 = 0 then (440 : ℝ) else 880) n)| ≤ 2 * Real.pi / 4800 := by
  obtain ⟨y, h1, h2, -⟩ := C148_sine (fun i => if i % 2 = 0 then (440 : ℝ) else 880) 1 (fun i => by split_ifs <;> norm_num) (fun i => by split_ifs <;> norm_num) n
  exact ⟨y, h1, h2⟩

/-- IEEE: the same, with the rounding of C101. -/
theorem C148_sine_ieee [Libm F64] (hl : SinAccurate) {f : ℕ → F64} {q : ℕ → ℚ} (hf : ∀ i, (f i).Is (q i)) (h0 : ∀ i, 0 ≤ q i) (h1 : ∀ i, q i ≤ 48000)
    (f0 : F64) (n : ℕ) : ∃ (y : F32) (r : ℚ), sweepOutR Sine.setFrequency Sine.process f (Sine.new f0) n = .ok y ∧ y.Is r ∧
      |(r : ℝ) - Real.sin (2 * Real.pi * phaseSum (fun i => (q i : ℝ)) n)| ≤ 2 * Real.pi / 4800 + (2 ^ 23)⁻¹ + n * (2 ^ 48)⁻¹ ∧
      (n * (2 ^ 39)⁻¹ ≤ 4800 * Int.fract (phaseSum (fun i => (q i : ℝ)) n) → 4800 * Int.fract (phaseSum (fun i => (q i : ℝ)) n) < 4799 - n * (2 ^ 39)⁻¹ →
        |(r : ℝ) - Real.sin (2 * Real.pi * phaseSum (fun i => (q i : ℝ)) n)| ≤ (2 * Real.pi / 4800) ^ 2 / 8 + (2 ^ 23)⁻¹ + n * (2 ^ 48)⁻¹) := by
  have h10 : (lit (WAVETABLE_FREQ : ℚ) : F64).Is 10 := lit64_10
  have h4800 : (lit (WAVETABLE_SIZE : ℚ) : F64).Is 4800 := lit64_nat (n := 4800) (by norm_num)
  have h4799 : (lit (WAVETABLE_SIZE : ℚ) - lit 1 : F64).Is 4799 := by decide +kernel
  have st : ∃ (g : Sine F64) (a : ℚ), sweepR (S := F32) Sine.setFrequency Sine.process f (Sine.new f0) n = .ok g ∧
      g.ind.Is a ∧ -1 ≤ a ∧ a ≤ 4799 ∧ ∃ j : ℤ, |a - ((∑ i ∈ Finset.range n, q i) / 10 - 4800 * j)| ≤ n * (2 ^ 39)⁻¹ := by
    induction n with
    | zero => exact ⟨_, 0, rfl, lit64_0, by norm_num, by norm_num, 0, by simp⟩
    | succ n ih =>
      obtain ⟨g, a, hg, ha, a0, a1, j, hj⟩ := ih
      have q0 := h0 n
      have q1 := h1 n
      have bq : |q n / 10| ≤ 2 ^ 13 := abs_le.mpr ⟨by norm_num; linarith, by norm_num; linarith⟩
      have hc := Is.div (hf n) h10 (by norm_num) (fits64' 13 (by norm_num) bq)
      have ec := err64 (q := q n / 10) 13 (by norm_num) (by exact_mod_cast bq)
      have bc := rnd_in (f := b64) (lo := 0) (hi := 4800) (by linarith : 0 ≤ q n / 10) (by linarith)
        b64.repr_zero (by exact_mod_cast Fmt.repr64_int (n := 4800) (by norm_num))
      set c := b64.rnd (q n / 10)
      obtain ⟨y, r, hy, -⟩ := sine_out hl (g := g.setFrequency (f n)) ha a0 a1
      have bs : |a + c| ≤ 2 ^ 14 := abs_le.mpr ⟨by norm_num; linarith, by norm_num; linarith⟩
      have hs := Is.add ha hc (fits64' 14 (by norm_num) bs)
      have es := err64 (q := a + c) 14 (by norm_num) (by exact_mod_cast bs)
      have b := rnd_in (f := b64) (lo := -1) (hi := 9599) (by linarith : (-1 : ℚ) ≤ a + c) (by linarith)
        (by exact_mod_cast Fmt.repr64_int (n := -1) (by norm_num)) (by exact_mod_cast Fmt.repr64_int (n := 9599) (by norm_num))
      set s := b64.rnd (a + c)
      have e1 : (g.setFrequency (f n)).ind + (g.setFrequency (f n)).inc = g.ind + f n / lit (WAVETABLE_FREQ : ℚ) := rfl
      rw [e1] at hy
      simp only [h4799.le hs] at hy
      rw [Finset.sum_range_succ]
      by_cases hh : (4799 : ℚ) ≤ s
      · simp only [hh, decide_true, if_true] at hy
        have b1 : |s - 4800| ≤ 2 ^ 13 := abs_le.mpr ⟨by norm_num; linarith, by norm_num; linarith⟩
        have hd := Is.sub hs h4800 (fits64' 13 (by norm_num) b1)
        have ed := err64 (q := s - 4800) 13 (by norm_num) (by exact_mod_cast b1)
        have b' := rnd_in (f := b64) (lo := -1) (hi := 4799) (by linarith : (-1 : ℚ) ≤ s - 4800) (by linarith)
          (by exact_mod_cast Fmt.repr64_int (n := -1) (by norm_num)) (by exact_mod_cast Fmt.repr64_int (n := 4799) (by norm_num))
        refine ⟨_, _, by simp only [sweepR, hg, hy, Except.map]; rfl, hd, b'.1, b'.2, j + 1, ?_⟩
        push_cast
        rw [abs_le] at ec es ed hj ⊢
        norm_num at ec es ed hj ⊢
        constructor <;> linarith
      · simp only [hh, decide_false, Bool.false_eq_true, if_false] at hy
        refine ⟨_, _, by simp only [sweepR, hg, hy, Except.map]; rfl, hs, b.1, (not_le.mp hh).le, j, ?_⟩
        push_cast
        rw [abs_le] at ec es hj ⊢
        norm_num at ec es hj ⊢
        constructor <;> linarith
  obtain ⟨g, a, hg, ha, a0, a1, j, hj⟩ := st
  have hj' : |(a : ℝ) - ((1 : ℕ) * (∑ i ∈ Finset.range n, q i : ℚ) / 10 - 4800 * j)| ≤ n * (2 ^ 39)⁻¹ := by
    have := Rat.cast_le (K := ℝ) |>.mpr hj
    push_cast at this ⊢
    rw [one_mul]
    exact this
  obtain ⟨y, g', r, hy, hr, h⟩ := sine_near hl (g := g.setFrequency (f n)) ha a0 a1 hj'
  have e : (n : ℝ) * (2 ^ 39)⁻¹ * (2 ^ 9)⁻¹ = n * (2 ^ 48)⁻¹ := by norm_num; ring
  have e1 : 2 * Real.pi * ((∑ i ∈ Finset.range n, q i : ℚ) : ℝ) * (1 : ℕ) / 48000 = 2 * Real.pi * phaseSum (fun i => (q i : ℝ)) n := by
    unfold phaseSum; push_cast; ring
  have e2 : phase ((∑ i ∈ Finset.range n, q i : ℚ) : ℝ) 1 = 4800 * Int.fract (phaseSum (fun i => (q i : ℝ)) n) := by
    unfold phase phaseSum; push_cast; rw [mul_one]
  rw [e, e1, e2] at h
  exact ⟨y, r, by simp only [sweepOutR, hg, hy, Except.map], hr, h⟩

/-- 440 Hz and 880 Hz in turn. -/
example [Libm F64] (hl : SinAccurate) (n : ℕ) : ∃ (y : F32) (r : ℚ),
    sweepOutR Sine.setFrequency Sine.process (fun i => if i % 2 = 0 then (lit 440 : F64) else lit 880) (Sine.new (lit 1)) n = .ok y ∧ y.Is r ∧
      |(r : ℝ) - Real.sin (2 * Real.pi * phaseSum (fun i => ((if i % 2 = 0 then 440 else 880 : ℚ) : ℝ)) n)| ≤ 2 * Real.pi / 4800 + (2 ^ 23)⁻¹ + n * (2 ^ 48)⁻¹ := by
  obtain ⟨y, r, h1, h2, h3, -⟩ := C148_sine_ieee hl (f := fun i => if i % 2 = 0 then (lit 440 : F64) else lit 880) (q := fun i => if i % 2 = 0 then 440 else 880) (fun i => by split_ifs <;> decide +kernel) (fun i => by split_ifs <;> norm_num)
    (fun i => by split_ifs <;> norm_num) (lit 1) n
  exact ⟨y, r, h1, h2, h3⟩

/-! ## Triangle -/

/-- The triangle wave from level `v`, rising. -/
private theorem tri_rise {v : ℝ} (h0 : -1 ≤ v) (h1 : v < 1) : triWave (v / 4) = v := by
  unfold triWave
  have : Int.fract (v / 4 + 1 / 4) = v / 4 + 1 / 4 := Int.fract_eq_self.mpr ⟨by linarith, by linarith⟩
  simp only [this]
  rw [if_pos (by linarith)]
  ring

private theorem tri_step {x d : ℝ} (hd0 : 0 < d) (hd1 : d ≤ 1 / 2) (up : Bool) (hup : up = decide (Int.fract (x + 1 / 4) < 1 / 2)) :
    (Triangle.process (⟨if up then 4 * d else -(4 * d), triWave x⟩ : Triangle ℝ) : ℝ × _) =
      (triWave x, ⟨if Int.fract (x + d + 1 / 4) < 1 / 2 then 4 * d else -(4 * d), triWave (x + d)⟩) := by
  subst hup
  unfold Triangle.process triWave
  real_simp
  rw [add_right_comm x d]
  generalize x + 1 / 4 = x
  have hx0 := Int.fract_nonneg x
  have hx1 := Int.fract_lt_one x
  have hx : x = ⌊x⌋ + Int.fract x := (Int.floor_add_fract x).symm
  set u := Int.fract x with hu
  simp only [decide_eq_true_eq]
  by_cases hw : u + d < 1
  · have e : Int.fract (x + d) = u + d := by
      rw [Int.fract_eq_iff]; exact ⟨by linarith, hw, ⌊x⌋, by linarith⟩
    rw [e]
    by_cases hu2 : u < 1 / 2
    · simp only [hu2, if_true]
      by_cases h2 : u + d < 1 / 2
      · rw [if_neg (by rintro (h | h) <;> linarith)]
        simp only [h2, if_true]
        exact congrArg₂ Prod.mk rfl (congrArg₂ Triangle.mk (by ring) (by ring))
      · rw [if_pos (Or.inl (by linarith)), if_pos (by linarith)]
        simp only [h2, if_false]
        exact congrArg₂ Prod.mk rfl (congrArg₂ Triangle.mk (by ring) (by ring))
    · simp only [hu2, if_false]
      rw [if_neg (by rintro (h | h) <;> linarith), if_neg (by linarith), if_neg (by linarith)]
      exact congrArg₂ Prod.mk rfl (congrArg₂ Triangle.mk (by ring) (by ring))
  · have e : Int.fract (x + d) = u + d - 1 := by
      rw [Int.fract_eq_iff]; exact ⟨by linarith, by linarith, ⌊x⌋ + 1, by push_cast; linarith⟩
    have hu2 : ¬ u < 1 / 2 := by linarith
    rw [e]
    simp only [hu2, if_false]
    rw [if_pos (Or.inr (by linarith)), if_neg (by linarith), if_pos (by linarith), if_pos (by linarith)]
    exact congrArg₂ Prod.mk rfl (congrArg₂ Triangle.mk (by ring) (by ring))

/-- Exact arithmetic: after `set_frequency` in any state with a level in `[-1,1]`, the triangle is the ideal one that
rises from that level. -/
theorem C148_triangle_from (g : Triangle ℝ) (h0 : -1 ≤ g.inc) (h1 : g.inc ≤ 1) (f : ℝ) (f0 : 0 < f) (f1 : f < 24000) (n : ℕ) :
    nth (S := ℝ) Triangle.process (g.setFrequency f) n = triWave (g.inc / 4 + n * f / 48000) := by
  have hd0 : 0 < f / 48000 := by positivity
  have hd1 : f / 48000 ≤ 1 / 2 := by linarith
  have e0 : g.setFrequency f = ⟨4 * (f / 48000), g.inc⟩ := by
    unfold Triangle.setFrequency
    real_simp
    rw [Triangle.mk.injEq]
    exact ⟨by ring, rfl⟩
  rcases n with _ | n
  · rw [Nat.cast_zero, zero_mul, zero_div, add_zero]
    have e1 : nth (S := ℝ) Triangle.process (g.setFrequency f) 0 = g.inc := by
      unfold nth Triangle.process
      rw [after_zero, e0]
      real_simp
      split_ifs <;> rfl
    rw [e1]
    rcases h1.lt_or_eq with h | h
    · rw [tri_rise h0 h]
    · have : Int.fract (1 / 4 + 1 / 4 : ℝ) = 1 / 2 := by rw [Int.fract_eq_iff]; exact ⟨by norm_num, by norm_num, 0, by norm_num⟩
      rw [h]
      unfold triWave
      simp only [this]
      norm_num
  suffices h : after (S := ℝ) Triangle.process (n + 1) (g.setFrequency f) =
      ⟨if decide (Int.fract (g.inc / 4 + (n + 1 : ℕ) * f / 48000 + 1 / 4) < 1 / 2) then 4 * (f / 48000) else -(4 * (f / 48000)),
        triWave (g.inc / 4 + (n + 1 : ℕ) * f / 48000)⟩ by
    unfold nth; rw [h, tri_step hd0 hd1 _ rfl]
  induction n with
  | zero =>
    rw [after_succ, after_zero, e0, zero_add, Nat.cast_one, one_mul]
    simp only [decide_eq_true_eq]
    rcases h1.lt_or_eq with h | h
    · have : Int.fract (g.inc / 4 + 1 / 4) = g.inc / 4 + 1 / 4 := Int.fract_eq_self.mpr ⟨by linarith, by linarith⟩
      have st := tri_step (x := g.inc / 4) hd0 hd1 true (by rw [this]; exact (decide_eq_true (by linarith)).symm)
      rw [tri_rise h0 h, if_pos rfl] at st
      rw [st]
    · have : Int.fract (1 / 4 + f / 48000 + 1 / 4) = 1 / 2 + f / 48000 := by
        rw [Int.fract_eq_iff]; exact ⟨by linarith, by linarith, 0, by push_cast; ring⟩
      unfold Triangle.process triWave
      real_simp
      rw [h, this, if_pos (Or.inl (by linarith)), if_pos (by linarith), if_neg (by linarith), if_neg (by linarith)]
      simp only [Triangle.mk.injEq, true_and]
      ring
  | succ n ih =>
    rw [after_succ, ih, tri_step hd0 hd1 _ rfl]
    have : g.inc / 4 + (n + 1 : ℕ) * f / 48000 + f / 48000 = g.inc / 4 + ((n + 1 + 1 : ℕ) : ℝ) * f / 48000 := by push_cast; ring
    rw [this]
    simp only [decide_eq_true_eq]

/-- What holds for Triangle (exact arithmetic): after a change from `f` to `f'` at sample `m` the wave goes on from the
same phase if it is rising there, and from the mirrored phase if it is falling: it then turns round. Missing: that it
keeps falling. -/
theorem C148_triangle_partial (f f' : ℝ) (f0 : 0 < f) (f1 : f ≤ 24000) (g0 : 0 < f') (g1 : f' < 24000) (m n : ℕ) :
    nth (S := ℝ) Triangle.process ((after (S := ℝ) Triangle.process m (Triangle.new f)).setFrequency f') n =
      triWave ((if Int.fract (m * f / 48000 + 1 / 4) < 1 / 2 then m * f / 48000 else 1 / 2 - m * f / 48000) + n * f' / 48000) := by
  have per : ∀ (x : ℝ) (k : ℤ), triWave (x + k) = triWave x := by
    intro x k
    unfold triWave
    rw [add_right_comm, Int.fract_add_intCast]
  have hv : (after (S := ℝ) Triangle.process m (Triangle.new f)).inc = triWave (m * f / 48000) := by
    rw [← C95_triangle f f0 f1 m]
    unfold nth Triangle.process
    real_simp
    split_ifs <;> rfl
  generalize (m : ℝ) * f / 48000 = x at *
  have x0 := Int.fract_nonneg (x + 1 / 4)
  have x1 := Int.fract_lt_one (x + 1 / 4)
  have hx := Int.floor_add_fract (x + 1 / 4)
  have hw : triWave x = if Int.fract (x + 1 / 4) < 1 / 2 then 4 * Int.fract (x + 1 / 4) - 1 else 3 - 4 * Int.fract (x + 1 / 4) := rfl
  have hb : -1 ≤ triWave x ∧ triWave x ≤ 1 := by
    rw [hw]
    split_ifs <;> constructor <;> linarith
  rw [C148_triangle_from _ (by rw [hv]; exact hb.1) (by rw [hv]; exact hb.2) f' g0 g1 n, hv, hw]
  split_ifs with h
  · rw [← per (x + n * f' / 48000) (-⌊x + 1 / 4⌋)]
    congr 1
    push_cast
    linarith
  · rw [← per (1 / 2 - x + n * f' / 48000) ⌊x + 1 / 4⌋]
    congr 1
    linarith

/-- From 440 Hz to 660 Hz after one second. -/
example (n : ℕ) : nth (S := ℝ) Triangle.process ((after (S := ℝ) Triangle.process 48000 (Triangle.new (440 : ℝ))).setFrequency 660) n =
    triWave (440 + n * 660 / 48000) := by
  have h := C148_triangle_partial 440 660 (by norm_num) (by norm_num) (by norm_num) (by norm_num) 48000 n
  have e : Int.fract (((48000 : ℕ) : ℝ) * 440 / 48000 + 1 / 4) = 1 / 4 := by rw [Int.fract_eq_iff]; exact ⟨by norm_num, by norm_num, 440, by norm_num⟩
  rw [e, if_pos (by norm_num)] at h
  rw [h]
  norm_num

/-- The property fails for Triangle: one whose frequency is set before every sample, even to the same value, rises to
1 and stays there, for every frequency (exact arithmetic). -/
theorem C148_triangle_violated (f : ℝ) (f0 : 0 < f) (f1 : f ≤ 12000) (n : ℕ) (hn : 12000 / f ≤ n) :
    1 - f / 12000 ≤ sweepOut (S := ℝ) Triangle.setFrequency Triangle.process (fun _ => f) (Triangle.new f) n ∧
    sweepOut (S := ℝ) Triangle.setFrequency Triangle.process (fun _ => f) (Triangle.new f) n ≤ 1 := by
  have r0 : 0 < f / 12000 := by positivity
  have r1 : f / 12000 ≤ 1 := by linarith
  have st : let v := (sweep (S := ℝ) Triangle.setFrequency Triangle.process (fun _ => f) (Triangle.new f) n).inc
      v ≤ 1 ∧ 0 ≤ v ∧ (1 - f / 12000 ≤ v ∨ v = n * (f / 12000)) := by
    clear hn
    induction n with
    | zero =>
      unfold sweep Triangle.new
      real_simp
      simp
    | succ n ih =>
      have es : sweep (S := ℝ) Triangle.setFrequency Triangle.process (fun _ => f) (Triangle.new f) (n + 1) =
        (Triangle.process (Triangle.setFrequency (sweep (S := ℝ) Triangle.setFrequency Triangle.process (fun _ => f) (Triangle.new f) n) f) : ℝ × _).2 := rfl
      rw [es]
      generalize sweep (S := ℝ) Triangle.setFrequency Triangle.process (fun _ => f) (Triangle.new f) n = g at *
      unfold Triangle.process Triangle.setFrequency
      real_simp
      obtain ⟨h1, h0, h⟩ := ih
      have e : 4 * f * (1 / 48000) = f / 12000 := by ring
      rw [e]
      generalize f / 12000 = r at *
      by_cases hge : 1 ≤ g.inc + r
      · rw [if_pos (Or.inl hge), if_pos hge]
        exact ⟨by linarith, by linarith, Or.inl (by linarith)⟩
      · rw [if_neg (by rintro (h | h) <;> linarith)]
        refine ⟨by linarith, by linarith, ?_⟩
        rcases h with h | h
        · left; linarith
        · right; push_cast; linarith
  have hv : sweepOut (S := ℝ) Triangle.setFrequency Triangle.process (fun _ => f) (Triangle.new f) n =
      (sweep (S := ℝ) Triangle.setFrequency Triangle.process (fun _ => f) (Triangle.new f) n).inc := by
    unfold sweepOut
    generalize sweep (S := ℝ) Triangle.setFrequency Triangle.process (fun _ => f) (Triangle.new f) n = g
    unfold Triangle.process Triangle.setFrequency
    real_simp
    split_ifs <;> rfl
  rw [hv]
  obtain ⟨h1, h0, h | h⟩ := st
  · exact ⟨h, h1⟩
  · refine ⟨?_, h1⟩
    rw [h]
    rw [div_le_iff₀ f0] at hn
    linarith

/-- 100 Hz: from sample 120 on within 1/120 of 1. -/
example (n : ℕ) (hn : 120 ≤ n) : 1 - 1 / 120 ≤ sweepOut (S := ℝ) Triangle.setFrequency Triangle.process (fun _ => 100) (Triangle.new (100 : ℝ)) n := by
  have h := (C148_triangle_violated 100 (by norm_num) (by norm_num) n (by norm_num; exact_mod_cast hn)).1
  norm_num at h ⊢
  exact h

/-- The same in IEEE arithmetic: at 1500 Hz, from sample 8 on, the output is 1, 7/8, 1, 7/8 and so on for ever. -/
theorem C148_triangle_ieee_violated (k : ℕ) :
    (sweepOut Triangle.setFrequency Triangle.process (fun _ => lit 1500) (Triangle.new (lit 1500 : F64)) (8 + 2 * k) : F32) = lit 1 ∧
    (sweepOut Triangle.setFrequency Triangle.process (fun _ => lit 1500) (Triangle.new (lit 1500 : F64)) (8 + 2 * k + 1) : F32) = lit (7 / 8) := by
  have e : ∀ g : Triangle F64, g.setFrequency (lit 1500) = ⟨lit 4 * lit 1500 * invSR, g.inc⟩ := fun _ => rfl
  have st : (sweep (S := F32) Triangle.setFrequency Triangle.process (fun _ => lit 1500) (Triangle.new (lit 1500 : F64)) (8 + 2 * k)).inc = lit 1 := by
    induction k with
    | zero => decide +kernel
    | succ k ih =>
      rw [show 8 + 2 * (k + 1) = 8 + 2 * k + 1 + 1 by ring, sweep, sweep, e, e, ih]
      decide +kernel
  unfold sweepOut
  rw [sweep, e, e, st]
  decide +kernel

/-! ## Square -/

/-- What holds for Square (exact arithmetic): set to `f` at `a` samples into its period (in any state), it is the ideal
square at phase `a*f/48000`, as if it had had the new frequency from the start of the period, but only when it has
caught up, after at most `a/(48000/f - 1)` samples. Missing: the phase it had before the change, and the samples until
it has caught up. -/
theorem C148_square_partial (g : Square ℝ) (ha : 0 ≤ g.ind) (f : ℝ) (f0 : 0 < f) (f1 : f ≤ 24000) (n : ℕ) (hn : g.ind ≤ n * (48000 / f - 1)) :
    nth (S := ℝ) Square.process (g.setFrequency f) n = if Int.fract ((g.ind + n) * f / 48000) < 1 / 2 then 1 else -1 := by
  have hinv : (g.setFrequency f).inv = 24000 / f := by
    unfold Square.setFrequency; real_simp; rw [div_eq_div_iff (by positivity) (by positivity)]; ring
  have hind : (g.setFrequency f).ind = g.ind := rfl
  rw [show 48000 / f = 2 * (24000 / f) by ring] at hn
  set v := 24000 / f with hv
  have hv1 : 1 ≤ v := by rw [hv, le_div_iff₀ f0]; linarith
  have st : ∀ n : ℕ, (after (S := ℝ) Square.process n (g.setFrequency f)).inv = v ∧ ∃ k : ℤ,
      (after (S := ℝ) Square.process n (g.setFrequency f)).ind = g.ind + n - k * (2 * v) ∧
      0 ≤ (after (S := ℝ) Square.process n (g.setFrequency f)).ind ∧
      ((after (S := ℝ) Square.process n (g.setFrequency f)).ind < 2 * v + 1 ∨
        (after (S := ℝ) Square.process n (g.setFrequency f)).ind = g.ind - n * (2 * v - 1)) := by
    intro n
    induction n with
    | zero => exact ⟨hinv, 0, by simp only [after_zero, hind]; norm_num, by rw [after_zero, hind]; exact ha, Or.inr (by simp only [after_zero, hind]; norm_num)⟩
    | succ n ih =>
      obtain ⟨hi, k, hk, k0, k1⟩ := ih
      rw [after_succ]
      generalize after (S := ℝ) Square.process n (g.setFrequency f) = h at *
      unfold Square.process
      real_simp
      rw [hi]
      refine ⟨rfl, ?_⟩
      by_cases hge : 2 * v ≤ h.ind
      · rw [if_pos hge]
        refine ⟨k + 1, by rw [hk]; push_cast; ring, by linarith, ?_⟩
        rcases k1 with k1 | k1
        · left; linarith
        · right; rw [k1]; push_cast; ring
      · rw [if_neg hge]
        exact ⟨k, by rw [hk]; push_cast; ring, by linarith, Or.inl (by linarith)⟩
  obtain ⟨hi, k, hk, k0, k1⟩ := st n
  have k1 : (after (S := ℝ) Square.process n (g.setFrequency f)).ind < 2 * v + 1 := by
    rcases k1 with k1 | k1
    · exact k1
    · rw [k1]; linarith
  unfold nth
  generalize after (S := ℝ) Square.process n (g.setFrequency f) = g' at *
  unfold Square.process
  real_simp
  rw [hi]
  have e : (g.ind + n) * f / 48000 = k + g'.ind / (2 * v) := by
    rw [hk, hv]; field_simp; ring
  rw [e, Int.fract_intCast_add]
  have hvpos : 0 < 2 * v := by linarith
  by_cases hlt : g'.ind < 2 * v
  · have hfr : Int.fract (g'.ind / (2 * v)) = g'.ind / (2 * v) :=
      Int.fract_eq_self.mpr ⟨by positivity, by rw [div_lt_one hvpos]; exact hlt⟩
    simp only [hfr, div_lt_iff₀ hvpos]
    by_cases hge : v ≤ g'.ind
    · rw [if_pos ⟨hge, hlt⟩, if_neg (by linarith)]
    · rw [if_neg (fun h => hge h.1), if_pos (by linarith)]
  · have hfr : Int.fract (g'.ind / (2 * v)) = g'.ind / (2 * v) - 1 := by
      rw [Int.fract_eq_iff]
      refine ⟨?_, ?_, 1, by push_cast; ring⟩
      · rw [sub_nonneg, le_div_iff₀ hvpos]; linarith
      · rw [sub_lt_iff_lt_add, div_lt_iff₀ hvpos]; linarith
    rw [if_neg (fun h => hlt h.2), hfr, if_pos]
    rw [sub_lt_iff_lt_add, div_lt_iff₀ hvpos]; linarith

/-- 400 samples into a slow period, 20 kHz: right from sample 286 on. -/
example (n : ℕ) (hn : 286 ≤ n) : nth (S := ℝ) Square.process ((⟨400, 240⟩ : Square ℝ).setFrequency 20000) n =
    if Int.fract (((400 : ℝ) + n) * 20000 / 48000) < 1 / 2 then 1 else -1 :=
  C148_square_partial ⟨400, 240⟩ (by norm_num) 20000 (by norm_num) (by norm_num) n (by
    have : (286 : ℝ) ≤ n := by exact_mod_cast hn
    show (400 : ℝ) ≤ _
    norm_num
    linarith)

/-- The property fails for Square: changed from 100 Hz to 20 kHz after 400 samples, it puts out 1 for the next 286
samples instead of changing sign every 1.2 samples (IEEE). -/
theorem C148_square_violated : ∀ i < 286,
    (sweepOut Square.setFrequency Square.process (fun i => if i < 400 then lit 100 else lit 20000) (Square.new (lit 100 : F64)) (400 + i) : F32) = lit 1 := by
  decide +kernel

end Verif
