import Verif.Props.Osc

/-! # Oscillators stay in tune in floating point: C98 (sawtooth), C99 (triangle), C100 (square) -/

namespace Verif
open Fl

/-- `k*f*INV_SAMPLE_RATE` is `k*f/48000` up to `2^-50`. -/
theorem rate_err {x f : F64} {k q : ℚ} (hk : k = 2 ∨ k = 4) (hx : x.Is k) (hf : f.Is q) (h0 : 0 ≤ q) (h1 : q ≤ 24000) :
    ∃ r, (x * f * invSR).Is r ∧ 0 ≤ r ∧ r ≤ k / 2 ∧ |r - k * q / 48000| ≤ (2 ^ 50)⁻¹ := by
  obtain ⟨r, hr, r0, r1⟩ := rate_in hk hx ⟨q, hf, h0, h1⟩
  refine ⟨r, hr, r0, r1, ?_⟩
  have hk2 : 0 ≤ k ∧ k ≤ 4 := by rcases hk with rfl | rfl <;> norm_num
  have hkq : 0 ≤ k * q ∧ k * q ≤ 96000 := ⟨mul_nonneg hk2.1 h0, by nlinarith⟩
  have b1 : |k * q| ≤ 2 ^ 17 := abs_le.mpr ⟨by norm_num; linarith, by norm_num; linarith⟩
  have hm := Is.mul hx hf (fits64' 17 (by norm_num) b1)
  have e1 := err64 (q := k * q) 17 (by norm_num) (by exact_mod_cast b1)
  have p0 : 0 ≤ b64.rnd (k * q) := b64.rnd_nonneg hkq.1
  have p1 : b64.rnd (k * q) ≤ 96000 := b64.rnd_le_repr (by exact_mod_cast Fmt.repr64_int (n := 96000) (by norm_num)) hkq.2
  set p := b64.rnd (k * q)
  have i1 : |isr64 - 1 / 48000| ≤ (2 ^ 69)⁻¹ := by decide +kernel
  have i2 : 0 < isr64 ∧ isr64 ≤ (2 ^ 15)⁻¹ := by decide +kernel
  have b2 : |p * isr64| ≤ 2 ^ 2 := by
    rw [abs_of_nonneg (mul_nonneg p0 i2.1.le)]
    calc p * isr64 ≤ 96000 * (2 ^ 15)⁻¹ := mul_le_mul p1 i2.2 i2.1.le (by norm_num)
      _ ≤ _ := by norm_num
  have hm2 := Is.mul hm invSR64 (fits64' 2 (by norm_num) b2)
  have e2 := err64 (q := p * isr64) 2 (by norm_num) (by exact_mod_cast b2)
  have er := hr.unique hm2
  rw [er]
  have : b64.rnd (p * isr64) - k * q / 48000 =
      (b64.rnd (p * isr64) - p * isr64) + (p - k * q) * isr64 + k * q * (isr64 - 1 / 48000) := by ring
  rw [this]
  have t2 : |(p - k * q) * isr64| ≤ (2 : ℚ) ^ (17 - 54 : ℤ) * (2 ^ 15)⁻¹ := by
    rw [abs_mul, abs_of_pos i2.1]
    exact mul_le_mul e1 i2.2 i2.1.le (by positivity)
  have t3 : |k * q * (isr64 - 1 / 48000)| ≤ 96000 * (2 ^ 69)⁻¹ := by
    rw [abs_mul, abs_of_nonneg hkq.1]
    exact mul_le_mul hkq.2 i1 (abs_nonneg _) (by norm_num)
  refine (abs_add_le _ _).trans ?_
  refine (add_le_add (abs_add_le _ _) le_rfl).trans ?_
  refine (add_le_add (add_le_add e2 t2) t3).trans ?_
  norm_num

/-! ## Sawtooth -/

private theorem saw_state {f : F64} {q : ℚ} (hf : f.Is q) (h0 : 0 ≤ q) (h1 : q ≤ 24000) (n : ℕ) :
    ∃ i : ℚ, (after (S := F32) Sawtooth.process n (Sawtooth.new f)).inc.Is i ∧ -1 ≤ i ∧ i ≤ 1 ∧
      (after (S := F32) Sawtooth.process n (Sawtooth.new f)).irate = lit 2 * f * invSR ∧
      ∃ j : ℤ, |i - (n * q / 24000 - 2 * j)| ≤ n * (2 ^ 49)⁻¹ := by
  obtain ⟨r, hr, r0, r1, er⟩ := rate_err (Or.inl rfl) lit64_2 hf h0 h1
  induction n with
  | zero => exact ⟨0, lit64_0, by norm_num, by norm_num, rfl, 0, by norm_num⟩
  | succ n ih =>
    obtain ⟨i, hi, i0, i1, hrate, j, hj⟩ := ih
    rw [after_succ]
    generalize after (S := F32) Sawtooth.process n (Sawtooth.new f) = g at *
    rw [← hrate] at hr
    have ba : |i + r| ≤ 2 ^ 1 := abs_le.mpr ⟨by norm_num; linarith, by norm_num; linarith⟩
    have hs := Is.add hi hr (fits64' 1 (by norm_num) ba)
    have es := err64 (q := i + r) 1 (by norm_num) (by exact_mod_cast ba)
    have b := rnd_in (f := b64) (lo := -1) (hi := 2) (by linarith : (-1 : ℚ) ≤ i + r) (by linarith)
      (by exact_mod_cast Fmt.repr64_int (n := -1) (by norm_num)) (by exact_mod_cast Fmt.repr64_int (n := 2) (by norm_num))
    set s := b64.rnd (i + r)
    have e1 : (Sawtooth.process (S := F32) g).2 = ⟨g.irate, if lit 1 ≤? g.inc + g.irate then g.inc + g.irate - lit 2 else g.inc + g.irate⟩ := rfl
    rw [e1]
    simp only [Is.le lit64_1 hs]
    rw [abs_le] at es er hj
    norm_num at es er hj
    by_cases h1 : 1 ≤ s
    · simp only [h1, decide_true, if_true]
      have bd : |s - 2| ≤ 2 ^ 0 := abs_le.mpr ⟨by norm_num; linarith, by norm_num; linarith⟩
      have hd := Is.sub hs lit64_2 (fits64' 0 (by norm_num) bd)
      have ed := err64 (q := s - 2) 0 (by norm_num) (by exact_mod_cast bd)
      have b' := rnd_in (f := b64) (lo := -1) (hi := 1) (by linarith : (-1 : ℚ) ≤ s - 2) (by linarith)
        (by exact_mod_cast Fmt.repr64_int (n := -1) (by norm_num)) (by exact_mod_cast Fmt.repr64_int (n := 1) (by norm_num))
      refine ⟨_, hd, b'.1, b'.2, hrate, j + 1, ?_⟩
      rw [abs_le] at ed ⊢
      norm_num at ed
      push_cast
      norm_num
      constructor <;> linarith
    · simp only [h1, decide_false, Bool.false_eq_true, if_false]
      refine ⟨_, hs, b.1, (not_le.mp h1).le, hrate, j, ?_⟩
      rw [abs_le]
      push_cast
      norm_num
      constructor <;> linarith

/-- IEEE: sample `n` of a sawtooth of frequency `q` in `[0, 24000]` is in `[-1,1]` and, up to whole periods (of height
2), within `2^-25 + n*2^-49` of `2*n*q/48000`: the pitch is right for days of playback. -/
theorem C98_sawtooth_tune {f : F64} {q : ℚ} (hf : f.Is q) (h0 : 0 ≤ q) (h1 : q ≤ 24000) (n : ℕ) :
    ∃ y : ℚ, (nth Sawtooth.process (Sawtooth.new f) n : F32).Is y ∧ -1 ≤ y ∧ y ≤ 1 ∧
      ∃ j : ℤ, |y - (2 * (n * q / 48000) - 2 * j)| ≤ (2 ^ 25)⁻¹ + n * (2 ^ 49)⁻¹ := by
  obtain ⟨i, hi, i0, i1, -, j, hj⟩ := saw_state hf h0 h1 n
  have bi : |i| ≤ 2 ^ 0 := abs_le.mpr ⟨by norm_num; linarith, by norm_num; linarith⟩
  have b' := rnd_in (f := b32) (lo := -1) (hi := 1) i0 i1
    (by exact_mod_cast Fmt.repr32_int (n := -1) (by norm_num)) (by exact_mod_cast Fmt.repr32_int (n := 1) (by norm_num))
  refine ⟨_, hi.down (fits32' 0 (by norm_num) bi), b'.1, b'.2, j, ?_⟩
  have e := err32 (q := i) 0 (by norm_num) (by exact_mod_cast bi)
  have : b32.rnd i - (2 * (n * q / 48000) - 2 * j) = (b32.rnd i - i) + (i - (n * q / 24000 - 2 * j)) := by ring
  rw [this]
  refine (abs_add_le _ _).trans (add_le_add ?_ hj)
  refine e.trans (by norm_num)

/-- One hour of concert A: the bound is below a millionth of the range. -/
example : (lit 440 : F64).Is 440 ∧ ((2 : ℚ) ^ 25)⁻¹ + (48000 * 3600 : ℕ) * (2 ^ 49)⁻¹ < 1 / 1000000 :=
  ⟨lit64_nat (n := 440) (by norm_num), by norm_num⟩

/-! ## Triangle -/

private theorem tri_state {f : F64} {q : ℚ} (hf : f.Is q) (h0 : 0 ≤ q) (h1 : q ≤ 24000) (n : ℕ) :
    ∃ i ρ : ℚ, (after (S := F32) Triangle.process n (Triangle.new f)).inc.Is i ∧ -1 ≤ i ∧ i ≤ 1 ∧
      (after (S := F32) Triangle.process n (Triangle.new f)).irate.Is ρ ∧ |ρ| ≤ 2 ∧
      ∃ j : ℤ, (|ρ - 4 * q / 48000| ≤ (2 ^ 50)⁻¹ ∧ |i - (4 * (n * q / 48000) - 4 * j)| ≤ n * (2 ^ 49)⁻¹) ∨
        (|-ρ - 4 * q / 48000| ≤ (2 ^ 50)⁻¹ ∧ |i - (2 - (4 * (n * q / 48000) - 4 * j))| ≤ n * (2 ^ 49)⁻¹) := by
  induction n with
  | zero =>
    obtain ⟨r, hr, r0, r1, er⟩ := rate_err (Or.inr rfl) lit64_4 hf h0 h1
    exact ⟨0, r, lit64_0, by norm_num, by norm_num, hr, by rw [abs_of_nonneg r0]; linarith, 0, .inl ⟨er, by norm_num⟩⟩
  | succ n ih =>
    obtain ⟨i, r, hi, i0, i1, hr, hr2, j, hj⟩ := ih
    rw [after_succ]
    generalize after (S := F32) Triangle.process n (Triangle.new f) = g at *
    have hr3 := abs_le.mp hr2
    have ba : |i + r| ≤ 2 ^ 2 := abs_le.mpr ⟨by norm_num; linarith, by norm_num; linarith⟩
    have hs := Is.add hi hr (fits64' 2 (by norm_num) ba)
    have es := err64 (q := i + r) 2 (by norm_num) (by exact_mod_cast ba)
    have b := rnd_in (f := b64) (lo := -3) (hi := 3) (by linarith : (-3 : ℚ) ≤ i + r) (by linarith)
      (by exact_mod_cast Fmt.repr64_int (n := -3) (by norm_num)) (by exact_mod_cast Fmt.repr64_int (n := 3) (by norm_num))
    set s := b64.rnd (i + r)
    have hm1 : b64.Repr (-1) := by exact_mod_cast Fmt.repr64_int (n := -1) (by norm_num)
    have h1' : b64.Repr 1 := by exact_mod_cast Fmt.repr64_int (n := 1) (by norm_num)
    unfold Triangle.process
    simp only [Is.le lit64_1 hs, Is.le hs lit64_1.neg]
    rw [abs_le] at es
    norm_num at es
    by_cases h1 : 1 ≤ s
    · simp only [h1, decide_true, Bool.true_or, if_true]
      have bd : |2 - s| ≤ 2 ^ 0 := abs_le.mpr ⟨by norm_num; linarith, by norm_num; linarith⟩
      have hd := Is.sub lit64_2 hs (fits64' 0 (by norm_num) bd)
      have ed := err64 (q := 2 - s) 0 (by norm_num) (by exact_mod_cast bd)
      have b' := rnd_in (f := b64) (lo := -1) (hi := 1) (by linarith : (-1 : ℚ) ≤ 2 - s) (by linarith) hm1 h1'
      rw [abs_le] at ed
      norm_num at ed
      refine ⟨_, -r, hd, b'.1, b'.2, hr.neg, by rwa [abs_neg], ?_⟩
      rcases hj with ⟨er, hj⟩ | ⟨er, hj⟩
      · refine ⟨j, .inr ⟨by rwa [neg_neg], ?_⟩⟩
        rw [abs_le] at er hj ⊢
        push_cast
        norm_num at er hj ⊢
        constructor <;> linarith
      · refine ⟨j, .inl ⟨er, ?_⟩⟩
        rw [abs_le] at er hj ⊢
        push_cast
        norm_num at er hj ⊢
        constructor <;> linarith
    · by_cases h2 : s ≤ -1
      · simp only [h1, h2, decide_true, Bool.or_true, if_true, decide_false, Bool.false_eq_true, if_false]
        have bd : |-2 - s| ≤ 2 ^ 0 := abs_le.mpr ⟨by norm_num; linarith, by norm_num; linarith⟩
        have hd := Is.sub lit64_2.neg hs (fits64' 0 (by norm_num) bd)
        have ed := err64 (q := -2 - s) 0 (by norm_num) (by exact_mod_cast bd)
        have b' := rnd_in (f := b64) (lo := -1) (hi := 1) (by linarith : (-1 : ℚ) ≤ -2 - s) (by linarith) hm1 h1'
        rw [abs_le] at ed
        norm_num at ed
        refine ⟨_, -r, hd, b'.1, b'.2, hr.neg, by rwa [abs_neg], ?_⟩
        rcases hj with ⟨er, hj⟩ | ⟨er, hj⟩
        · refine ⟨j - 1, .inr ⟨by rwa [neg_neg], ?_⟩⟩
          rw [abs_le] at er hj ⊢
          push_cast
          norm_num at er hj ⊢
          constructor <;> linarith
        · refine ⟨j + 1, .inl ⟨er, ?_⟩⟩
          rw [abs_le] at er hj ⊢
          push_cast
          norm_num at er hj ⊢
          constructor <;> linarith
      · simp only [h1, h2, decide_false, Bool.or_false, Bool.false_eq_true, if_false]
        refine ⟨_, r, hs, (not_le.mp h2).le, (not_le.mp h1).le, hr, hr2, j, ?_⟩
        rcases hj with ⟨er, hj⟩ | ⟨er, hj⟩
        · refine .inl ⟨er, ?_⟩
          rw [abs_le] at er hj ⊢
          push_cast
          norm_num at er hj ⊢
          constructor <;> linarith
        · refine .inr ⟨er, ?_⟩
          rw [abs_le] at er hj ⊢
          push_cast
          norm_num at er hj ⊢
          constructor <;> linarith

/-- The triangle wave is 1 minus four times the distance of `x` from the nearest peak. -/
private theorem triWave_eq (x : ℝ) : triWave x = 1 - 4 * |x - 1 / 4 - (_root_.round (x - 1 / 4) : ℤ)| := by
  rw [abs_sub_round_eq_min]
  unfold triWave
  set w := Int.fract (x - 1 / 4) with hw
  have w0 : 0 ≤ w := Int.fract_nonneg _
  have w1 : w < 1 := Int.fract_lt_one _
  have hx : x - 1 / 4 = ⌊x - 1 / 4⌋ + w := (Int.floor_add_fract _).symm
  by_cases h : w < 1 / 2
  · have : Int.fract (x + 1 / 4) = w + 1 / 2 := by
      rw [Int.fract_eq_iff]; exact ⟨by linarith, by linarith, ⌊x - 1 / 4⌋, by linarith⟩
    simp only [this]
    rw [if_neg (by linarith), min_eq_left (by linarith)]
    ring
  · have : Int.fract (x + 1 / 4) = w - 1 / 2 := by
      rw [Int.fract_eq_iff]; exact ⟨by linarith, by linarith, ⌊x - 1 / 4⌋ + 1, by push_cast; linarith⟩
    simp only [this]
    rw [if_pos (by linarith), min_eq_right (by linarith)]
    ring

private theorem triWave_lip (x y : ℝ) : |triWave x - triWave y| ≤ 4 * |x - y| := by
  have key : ∀ x y : ℝ, |x - (_root_.round x : ℤ)| - |y - (_root_.round y : ℤ)| ≤ |x - y| := by
    intro x y
    have h1 := round_le x (_root_.round y)
    have h2 := abs_sub_le x y (_root_.round y)
    linarith
  rw [triWave_eq, triWave_eq, abs_le]
  have h1 := key (x - 1 / 4) (y - 1 / 4)
  have h2 := key (y - 1 / 4) (x - 1 / 4)
  rw [show x - 1 / 4 - (y - 1 / 4) = x - y by ring] at h1
  rw [show y - 1 / 4 - (x - 1 / 4) = y - x by ring, abs_sub_comm y x] at h2
  constructor <;> linarith

private theorem triWave_period (x : ℝ) (j : ℤ) : triWave (x - j) = triWave x := by
  unfold triWave
  rw [show x - j + 1 / 4 = x + 1 / 4 - j by ring, Int.fract_sub_intCast]

private theorem triWave_up {i : ℝ} (h0 : -1 ≤ i) (h1 : i ≤ 1) : triWave (i / 4) = i := by
  rw [triWave_eq, abs_sub_round_eq_min]
  rcases h1.lt_or_eq with h | rfl
  · have : Int.fract (i / 4 - 1 / 4) = i / 4 + 3 / 4 := by
      rw [Int.fract_eq_iff]; exact ⟨by linarith, by linarith, -1, by push_cast; ring⟩
    rw [this, min_eq_right (by linarith)]
    ring
  · norm_num

private theorem triWave_down {i : ℝ} (h0 : -1 ≤ i) (h1 : i ≤ 1) : triWave ((2 - i) / 4) = i := by
  rw [triWave_eq, abs_sub_round_eq_min]
  have : Int.fract ((2 - i) / 4 - 1 / 4) = (1 - i) / 4 := by
    rw [Int.fract_eq_iff]; exact ⟨by linarith, by linarith, 0, by push_cast; ring⟩
  rw [this, min_eq_left (by linarith)]
  ring

/-- IEEE: sample `n` of a triangle of frequency `q` in `[0, 24000]` is within `2^-25 + n*2^-49` of the ideal triangle
wave at phase `n*q/48000`. -/
theorem C99_triangle_tune {f : F64} {q : ℚ} (hf : f.Is q) (h0 : 0 ≤ q) (h1 : q ≤ 24000) (n : ℕ) :
    ∃ y : ℚ, (nth Triangle.process (Triangle.new f) n : F32).Is y ∧
      |(y : ℝ) - triWave (n * q / 48000)| ≤ (2 ^ 25)⁻¹ + n * (2 ^ 49)⁻¹ := by
  obtain ⟨i, ρ, hi, i0, i1, -, -, j, hj⟩ := tri_state hf h0 h1 n
  have e0 : (nth Triangle.process (Triangle.new f) n : F32) = SM.down (after (S := F32) Triangle.process n (Triangle.new f)).inc := by
    unfold nth Triangle.process; simp only; split_ifs <;> rfl
  have bi : |i| ≤ 2 ^ 0 := abs_le.mpr ⟨by norm_num; linarith, by norm_num; linarith⟩
  rw [e0]
  refine ⟨_, hi.down (fits32' 0 (by norm_num) bi), ?_⟩
  have e := err32 (q := i) 0 (by norm_num) (by exact_mod_cast bi)
  have e' : |((b32.rnd i : ℚ) : ℝ) - i| ≤ (2 ^ 25)⁻¹ := by
    have := Rat.cast_le (K := ℝ) |>.mpr e
    push_cast at this
    refine this.trans (by norm_num)
  have i0' : (-1 : ℝ) ≤ i := by exact_mod_cast i0
  have i1' : (i : ℝ) ≤ 1 := by exact_mod_cast i1
  have key : |(i : ℝ) - triWave (n * q / 48000)| ≤ n * (2 ^ 49)⁻¹ := by
    rw [← triWave_period _ j]
    rcases hj with ⟨-, hj⟩ | ⟨-, hj⟩
    · have hj' := Rat.cast_le (K := ℝ) |>.mpr hj
      push_cast at hj'
      have h := triWave_lip (i / 4) (n * q / 48000 - j)
      rw [triWave_up i0' i1'] at h
      refine h.trans (le_trans (le_of_eq ?_) hj')
      rw [show (4 : ℝ) * |(i : ℝ) / 4 - (n * q / 48000 - j)| = |4 * ((i : ℝ) / 4 - (n * q / 48000 - j))| by
        rw [abs_mul, abs_of_pos (by norm_num : (0 : ℝ) < 4)]]
      congr 1; ring
    · have hj' := Rat.cast_le (K := ℝ) |>.mpr hj
      push_cast at hj'
      have h := triWave_lip ((2 - i) / 4) (n * q / 48000 - j)
      rw [triWave_down i0' i1'] at h
      refine h.trans (le_trans (le_of_eq ?_) hj')
      rw [show (4 : ℝ) * |(2 - (i : ℝ)) / 4 - (n * q / 48000 - j)| = |-(4 * ((2 - (i : ℝ)) / 4 - (n * q / 48000 - j)))| by
        rw [abs_neg, abs_mul, abs_of_pos (by norm_num : (0 : ℝ) < 4)]]
      congr 1; ring
  have := abs_sub_le ((b32.rnd i : ℚ) : ℝ) i (triWave (n * q / 48000))
  linarith

/-- One hour of concert A stays within a millionth of the ideal wave, whose value at the quarter period is 1. -/
example : (lit 440 : F64).Is 440 ∧ ((2 : ℚ) ^ 25)⁻¹ + (48000 * 3600 : ℕ) * (2 ^ 49)⁻¹ < 1 / 1000000 ∧ triWave (1 / 4) = 1 := by
  refine ⟨lit64_nat (n := 440) (by norm_num), by norm_num, ?_⟩
  rw [triWave_eq]; norm_num

/-! ## Square -/

private theorem repr_two_mul {q : ℚ} (h : b64.Repr q) : b64.Repr (2 * q) := by
  obtain ⟨m, e, h1, h2, h3⟩ := h
  exact ⟨m, e + 1, by rw [h1, pow2_add, pow2_one]; ring, h2, by omega⟩

private theorem is_repr {x : F64} {q : ℚ} (h : x.Is q) : b64.Repr q := (b64.repr_iff q).mpr h.rnd

private theorem sq_inv {f : F64} {q : ℚ} (hf : f.Is q) (h0 : 1 / 1024 ≤ q) (h1 : q ≤ 24000) :
    ∃ v : ℚ, (Square.new f).inv.Is v ∧ 1 ≤ v ∧ v ≤ 2 ^ 25 ∧ |1 - 2 * v * (q / 48000)| ≤ (2 ^ 52)⁻¹ := by
  have hq : 0 < q := by linarith
  have b1 : |2 * q| ≤ 2 ^ 16 := by rw [abs_of_pos (by linarith)]; norm_num; linarith
  have h2q := Is.mul lit64_2 hf (fits64' 16 (by norm_num) b1)
  rw [b64.rnd_of_repr (repr_two_mul (is_repr hf))] at h2q
  have hv0 : (1 : ℚ) ≤ 48000 / (2 * q) := by rw [le_div_iff₀ (by linarith)]; linarith
  have hv1 : 48000 / (2 * q) ≤ 2 ^ 25 := by rw [div_le_iff₀ (by linarith)]; norm_num; linarith
  have hd := Is.div srM64 h2q (by positivity) (fits64' 25 (by norm_num) (by rw [abs_of_pos (by positivity)]; exact hv1))
  refine ⟨_, hd, b64.repr_le_rnd (by exact_mod_cast Fmt.repr64_int (n := 1) (by norm_num)) hv0,
    b64.rnd_le_repr (by norm_num; exact_mod_cast Fmt.repr64_int (n := 33554432) (by norm_num)) hv1, ?_⟩
  have e := b64.abs_rnd_sub_le_rel (q := 48000 / (2 * q)) (by
    rw [abs_of_pos (by positivity)]
    exact le_trans (by decide +kernel : pow2 (b64.emin + b64.p - 1) ≤ 1) hv0)
  set v := b64.rnd (48000 / (2 * q))
  have : 1 - 2 * v * (q / 48000) = -((v - 48000 / (2 * q)) * (q / 24000)) := by field_simp; ring
  rw [this, abs_neg, abs_mul, abs_of_pos (by positivity : 0 < q / 24000)]
  rw [abs_of_pos (by positivity : 0 < 48000 / (2 * q))] at e
  have e2 : (48000 : ℚ) / (2 * q) * (q / 24000) = 1 := by field_simp; norm_num
  calc |v - 48000 / (2 * q)| * (q / 24000) ≤ pow2 (-b64.p) * (48000 / (2 * q)) * (q / 24000) :=
        mul_le_mul_of_nonneg_right e (by positivity)
    _ = pow2 (-b64.p) := by rw [mul_assoc, e2, mul_one]
    _ ≤ _ := by decide +kernel

/-- The position, measured in periods of the stored length `2v`. -/
private theorem sq_state {f : F64} {q : ℚ} (hf : f.Is q) (h0 : 1 / 1024 ≤ q) (h1 : q ≤ 24000) :
    ∃ v : ℚ, 1 ≤ v ∧ v ≤ 2 ^ 25 ∧ ∀ n, ∃ i : ℚ, (after (S := F32) Square.process n (Square.new f)).ind.Is i ∧
      (after (S := F32) Square.process n (Square.new f)).inv.Is v ∧ 0 ≤ i ∧ i ≤ 2 * v + 1 + (2 ^ 50)⁻¹ * v ∧
      ∃ k : ℤ, |i / (2 * v) - (n * q / 48000 - k)| ≤ n * (2 ^ 50)⁻¹ := by
  obtain ⟨v, hv, v1, v2, ev⟩ := sq_inv hf h0 h1
  refine ⟨v, v1, v2, fun n => ?_⟩
  have hv0 : 0 < v := by linarith
  have h2v := Is.mul lit64_2 hv (fits64' 26 (by norm_num) (by rw [abs_of_pos (by linarith)]; norm_num at v2 ⊢; linarith))
  rw [b64.rnd_of_repr (repr_two_mul (is_repr hv))] at h2v
  -- one step of the ideal position
  have es : |1 / (2 * v) - q / 48000| ≤ (2 ^ 52)⁻¹ := by
    have : 1 / (2 * v) - q / 48000 = (1 - 2 * v * (q / 48000)) / (2 * v) := by field_simp
    rw [this, abs_div, abs_of_pos (by linarith : 0 < 2 * v)]
    exact (div_le_self (abs_nonneg _) (by linarith)).trans ev
  induction n with
  | zero =>
    refine ⟨0, lit64_0, hv, le_rfl, by positivity, 0, ?_⟩
    norm_num
  | succ n ih =>
    obtain ⟨i, hi, hinv, i0, i1, k, hk⟩ := ih
    rw [after_succ]
    generalize after (S := F32) Square.process n (Square.new f) = g at *
    have h2g := Is.mul lit64_2 hinv (fits64' 26 (by norm_num) (by rw [abs_of_pos (by linarith)]; norm_num at v2 ⊢; linarith))
    rw [b64.rnd_of_repr (repr_two_mul (is_repr hinv))] at h2g
    have e1 : (Square.process (S := F32) g).2 =
      ⟨(if lit 2 * g.inv ≤? g.ind then g.ind - lit 2 * g.inv else g.ind) + lit 1, g.inv⟩ := rfl
    rw [e1]
    simp only [Is.le h2g hi]
    have hD : 0 < 2 * v := by linarith
    -- both cases: the new position is `a + 1` up to a small error
    suffices h : ∃ (a b : ℚ) (k : ℤ), a + 1 = i + 1 - k * (2 * v) ∧ |b - (a + 1)| ≤ (2 ^ 51)⁻¹ * v ∧ 0 ≤ b ∧ b ≤ 2 * v + 1 + (2 ^ 50)⁻¹ * v ∧
        ((if decide (2 * v ≤ i) then g.ind - lit 2 * g.inv else g.ind) + lit 1).Is b by
      obtain ⟨a, b, k', ea, eb, b0, b1, hb⟩ := h
      refine ⟨b, hb, hinv, b0, b1, k + k', ?_⟩
      have : b / (2 * v) - (((n + 1 : ℕ) : ℚ) * q / 48000 - ((k + k' : ℤ) : ℚ)) =
          (i / (2 * v) - (n * q / 48000 - k)) + (1 / (2 * v) - q / 48000) + (b - (a + 1)) / (2 * v) := by
        rw [ea]; push_cast; field_simp; ring
      rw [this]
      have t : |(b - (a + 1)) / (2 * v)| ≤ (2 ^ 52)⁻¹ := by
        rw [abs_div, abs_of_pos hD, div_le_iff₀ hD]
        refine eb.trans (le_of_eq ?_)
        norm_num; ring
      refine (abs_add_le _ _).trans ((add_le_add (abs_add_le _ _) le_rfl).trans ?_)
      push_cast
      norm_num at es t hk ⊢
      linarith
    have m1 : v * (2 ^ 50)⁻¹ ≤ (2 ^ 25)⁻¹ := by
      calc v * (2 ^ 50)⁻¹ ≤ 2 ^ 25 * (2 ^ 50)⁻¹ := mul_le_mul_of_nonneg_right v2 (by positivity)
        _ = _ := by norm_num
    by_cases hc : 2 * v ≤ i
    · simp only [hc, decide_true, if_true]
      have bd : |i - 2 * v| ≤ 2 ^ 1 := abs_le.mpr ⟨by norm_num; linarith, by norm_num at m1 i1 ⊢; linarith⟩
      have hd := Is.sub hi h2g (fits64' 1 (by norm_num) bd)
      have ed := err64 (q := i - 2 * v) 1 (by norm_num) (by exact_mod_cast bd)
      set d := b64.rnd (i - 2 * v)
      rw [abs_le] at ed bd
      norm_num at ed bd
      have d0 : 0 ≤ d := b64.rnd_nonneg (by linarith)
      have bb : |d + 1| ≤ 2 ^ 2 := abs_le.mpr ⟨by norm_num; linarith, by norm_num; linarith⟩
      have hb := Is.add hd lit64_1 (fits64' 2 (by norm_num) bb)
      have eb := err64 (q := d + 1) 2 (by norm_num) (by exact_mod_cast bb)
      rw [abs_le] at eb
      norm_num at eb m1 i1
      refine ⟨i - 2 * v, _, 1, by push_cast; ring, ?_, b64.rnd_nonneg (by linarith), ?_, hb⟩
      · rw [abs_le]; norm_num; constructor <;> linarith
      · norm_num; linarith
    · simp only [hc, decide_false, Bool.false_eq_true, if_false]
      rw [not_le] at hc
      have bb : |i + 1| ≤ 2 ^ 27 := abs_le.mpr ⟨by norm_num; linarith, by norm_num at v2 ⊢; linarith⟩
      have hb := Is.add hi lit64_1 (fits64' 27 (by norm_num) bb)
      have eb := b64.abs_rnd_sub_le_rel (q := i + 1) (by
        rw [abs_of_pos (by linarith)]
        exact le_trans (by decide +kernel : pow2 (b64.emin + b64.p - 1) ≤ 1) (by linarith))
      rw [abs_of_pos (by linarith : 0 < i + 1), show pow2 (-b64.p) = (2 ^ 53)⁻¹ by decide +kernel, abs_le] at eb
      norm_num at eb
      refine ⟨i, _, 0, by push_cast; ring, ?_, b64.rnd_nonneg (by linarith), ?_, hb⟩
      · rw [abs_le]; norm_num; constructor <;> linarith
      · norm_num; linarith

/-- IEEE: sample `n` of a square wave of frequency `q` in `[1/1024, 24000]` has the value of the ideal wave unless the
phase is within `(n+2)*2^-50` of a jump. -/
theorem C100_square_tune {f : F64} {q : ℚ} (hf : f.Is q) (h0 : 1 / 1024 ≤ q) (h1 : q ≤ 24000) (n : ℕ) :
    let ε : ℚ := (n + 2) * (2 ^ 50)⁻¹
    let φ := Int.fract (n * q / 48000)
    (ε ≤ φ → φ ≤ 1 / 2 - ε → (nth Square.process (Square.new f) n : F32) = lit 1) ∧
    (1 / 2 + ε ≤ φ → φ ≤ 1 - ε → (nth Square.process (Square.new f) n : F32) = lit (-1)) := by
  intro ε φ
  obtain ⟨v, v1, v2, h⟩ := sq_state hf h0 h1
  obtain ⟨i, hi, hinv, i0, i1, k, hk⟩ := h n
  have hD : 0 < 2 * v := by linarith
  have h2g := Is.mul lit64_2 hinv (fits64' 26 (by norm_num) (by rw [abs_of_pos (by linarith)]; norm_num at v2 ⊢; linarith))
  rw [b64.rnd_of_repr (repr_two_mul (is_repr hinv))] at h2g
  have ey : (nth Square.process (Square.new f) n : F32) = if decide (v ≤ i) && decide (i < 2 * v) then -lit 1 else lit 1 := by
    unfold nth
    generalize after (S := F32) Square.process n (Square.new f) = g at *
    show (if (g.inv ≤? g.ind) && (g.ind <? lit 2 * g.inv) then -lit 1 else lit 1) = _
    rw [Is.le hinv hi, Is.lt hi h2g]
  have en : (-lit 1 : F32) = lit (-1) := by decide +kernel
  rw [ey, en]
  set p := i / (2 * v) with hp
  have hip : i = p * (2 * v) := by rw [hp]; field_simp
  have p0 : 0 ≤ p := by positivity
  have p1 : p ≤ 3 / 2 + (2 ^ 51)⁻¹ := by
    rw [hp, div_le_iff₀ hD]; norm_num at i1 ⊢; linarith
  have hph : (n : ℚ) * q / 48000 = ⌊(n : ℚ) * q / 48000⌋ + φ := (Int.floor_add_fract _).symm
  set m := ⌊(n : ℚ) * q / 48000⌋
  rw [hph] at hk
  have hε : ε = n * (2 ^ 50)⁻¹ + 2 * (2 ^ 50)⁻¹ := by simp only [ε]; ring
  have hk1 := (abs_le.mp hk).1
  have hk2 := (abs_le.mp hk).2
  have hnn : (0 : ℚ) ≤ n * (2 ^ 50)⁻¹ := by positivity
  generalize (n : ℚ) * (2 ^ 50)⁻¹ = η at *
  have hvi : v ≤ i ↔ 1 / 2 ≤ p := by rw [hip]; constructor <;> intro h <;> nlinarith
  have hi2 : i < 2 * v ↔ p < 1 := by rw [hip]; constructor <;> intro h <;> nlinarith
  simp only [hvi, hi2]
  have hcast : (m : ℚ) - k = ((m - k : ℤ) : ℚ) := by push_cast; ring
  norm_num at hε p1
  constructor
  · intro a b
    rw [if_neg]
    simp only [Bool.and_eq_true, decide_eq_true_eq, not_and, not_lt]
    intro hp1
    by_contra hp2
    rw [not_le] at hp2
    have l1 : ((0 : ℤ) : ℚ) < ((m - k : ℤ) : ℚ) := by rw [← hcast]; push_cast; linarith
    have l2 : ((m - k : ℤ) : ℚ) < ((1 : ℤ) : ℚ) := by rw [← hcast]; push_cast; linarith
    have l1 := Int.cast_lt.mp l1
    have l2 := Int.cast_lt.mp l2
    omega
  · intro a b
    rw [if_pos]
    simp only [Bool.and_eq_true, decide_eq_true_eq]
    have l1 : ((-1 : ℤ) : ℚ) < ((m - k : ℤ) : ℚ) := by rw [← hcast]; push_cast; linarith
    have l2 : ((m - k : ℤ) : ℚ) < ((1 : ℤ) : ℚ) := by rw [← hcast]; push_cast; linarith
    have l1 := Int.cast_lt.mp l1
    have l2 := Int.cast_lt.mp l2
    have l3 : m - k = 0 := by omega
    rw [l3] at hcast
    push_cast at hcast
    constructor <;> linarith

/-- One hour of concert A: at most a millionth of a period is undecided around each jump; sample 10 is decided. -/
example : (lit 440 : F64).Is 440 ∧ ((48000 * 3600 : ℕ) + 2) * ((2 : ℚ) ^ 50)⁻¹ < 1 / 1000000 ∧
    Int.fract ((10 : ℕ) * (440 : ℚ) / 48000) = 11 / 120 := by
  refine ⟨lit64_nat (n := 440) (by norm_num), by norm_num, ?_⟩
  rw [Int.fract_eq_iff]; exact ⟨by norm_num, by norm_num, 0, by norm_num⟩

end Verif
