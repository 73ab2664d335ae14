import Verif.Props.Sine
import Verif.Spec.LibmSin
import Mathlib.Analysis.Real.Pi.Bounds

/-! # Sine stays in tune in floating point: C101 -/

namespace Verif
open Fl

private theorem repr64 (n : ℤ) (h : |n| ≤ 9007199254740992) : b64.Repr (n : ℚ) := Fmt.repr64_int h

private theorem sin_lip (x y : ℝ) : |Real.sin x - Real.sin y| ≤ |x - y| := by
  rw [Real.sin_sub_sin, abs_mul, abs_mul, abs_two]
  have h1 := Real.abs_sin_le_abs (x := (x - y) / 2)
  have h2 := Real.abs_cos_le_one ((x + y) / 2)
  rw [abs_div, abs_two] at h1
  have h3 : |Real.sin ((x - y) / 2)| * |Real.cos ((x + y) / 2)| ≤ |x - y| / 2 * 1 :=
    mul_le_mul h1 h2 (abs_nonneg _) (by positivity)
  linarith

private theorem cast_abs {a b c : ℚ} {r : ℝ} (h : |a - b| ≤ c) (hc : (c : ℝ) = r) : |(a : ℝ) - b| ≤ r := by
  have := Rat.cast_le (K := ℝ) |>.mpr h
  push_cast at this
  rwa [hc] at this

/-- Table entry `i` is `sin(2πi/4800)` up to `2^-39`. -/
private theorem table_err [Libm F64] (hl : SinAccurate) (i : ℕ) (hi : i < 4800) :
    ∃ (v : F64) (p : ℚ), Sine.wavetable F32 i = some v ∧ v.Is p ∧ |(p : ℝ) - Real.sin (2 * Real.pi / 4800 * i)| ≤ (2 ^ 39)⁻¹ := by
  have hB : (lit 2 * SM.piM F32 * invSR * lit (WAVETABLE_FREQ : ℚ) : F64).Is (6036682881730935 / 4611686018427387904) := by
    decide +kernel
  have eB : |((6036682881730935 / 4611686018427387904 : ℚ) : ℝ) - 2 * Real.pi / 4800| ≤ (2 ^ 61)⁻¹ := by
    have h1 := Real.pi_gt_d20
    have h2 := Real.pi_lt_d20
    rw [abs_le]; push_cast; norm_num at h1 h2 ⊢; constructor <;> linarith
  have b0 : (0 : ℚ) ≤ 6036682881730935 / 4611686018427387904 := by norm_num
  have b1 : (6036682881730935 / 4611686018427387904 : ℚ) * 4800 ≤ 6.5 := by norm_num
  set B : ℚ := 6036682881730935 / 4611686018427387904
  have hiq : (i : ℚ) ≤ 4800 := by exact_mod_cast hi.le
  have hi0 : (0 : ℚ) ≤ i := by positivity
  have m0 : 0 ≤ B * i := mul_nonneg b0 hi0
  have m1 : B * i ≤ 6.5 := (mul_le_mul_of_nonneg_left hiq b0).trans b1
  have bd : |B * i| ≤ 2 ^ 3 := by rw [abs_of_nonneg m0]; norm_num at m1 ⊢; linarith
  have hm := Is.mul hB (lit64_nat (n := i) (by omega)) (fits64' 3 (by norm_num) bd)
  have em := err64 (q := B * i) 3 (by norm_num) (by exact_mod_cast bd)
  have em' := cast_abs em rfl
  push_cast at em'
  obtain ⟨c, hc, ec⟩ := hl.sin _ _ hm (b64.rnd_nonneg m0) (by
    have := (abs_le.mp em).2
    norm_num at this m1
    linarith)
  refine ⟨_, c, if_pos (show i < WAVETABLE_SIZE from hi), hc, ?_⟩
  have l := sin_lip ((b64.rnd (B * i) : ℚ) : ℝ) (2 * Real.pi / 4800 * i)
  have hir : (i : ℝ) ≤ 4800 := by exact_mod_cast hi.le
  have t : |(B : ℝ) * i - 2 * Real.pi / 4800 * i| ≤ (2 ^ 61)⁻¹ * 4800 := by
    rw [← sub_mul, abs_mul, abs_of_nonneg (by positivity : (0 : ℝ) ≤ i)]
    exact mul_le_mul eB hir (by positivity) (by positivity)
  have t2 := abs_sub_le ((b64.rnd (B * i) : ℚ) : ℝ) (B * i) (2 * Real.pi / 4800 * i)
  have t3 := abs_sub_le (c : ℝ) (Real.sin ((b64.rnd (B * i) : ℚ) : ℝ)) (Real.sin (2 * Real.pi / 4800 * i))
  norm_num at em' t ec ⊢
  linarith

/-- Output of one call from position `a`: 0 in the last table step, the interpolated sine elsewhere. -/
theorem sine_out [Libm F64] (hl : SinAccurate) {g : Sine F64} {a : ℚ} (ha : g.ind.Is a) (a0 : -1 ≤ a) (a1 : a ≤ 4799) :
    ∃ (y : F32) (r : ℚ), (g.process : Res (F32 × Sine F64)) = .ok (y,
        ⟨if lit (WAVETABLE_SIZE : ℚ) - lit 1 ≤? g.ind + g.inc then g.ind + g.inc - lit (WAVETABLE_SIZE : ℚ) else g.ind + g.inc, g.inc⟩) ∧
      y.Is r ∧ (a < 0 → |(r : ℝ)| ≤ (2 ^ 23)⁻¹) ∧
      (0 ≤ a → |(r : ℝ) - ((1 - Int.fract (a : ℝ)) * Real.sin (2 * Real.pi / 4800 * ⌊(a : ℝ)⌋) +
        Int.fract (a : ℝ) * Real.sin (2 * Real.pi / 4800 * ⌊(a : ℝ)⌋ + 2 * Real.pi / 4800))| ≤ (2 ^ 23)⁻¹) := by
  have hfl0 : (-1 : ℤ) ≤ ⌊a⌋ := Int.le_floor.mpr (by exact_mod_cast a0)
  have hfl1 : ⌊a⌋ ≤ 4799 := by
    have : (⌊a⌋ : ℚ) ≤ 4799 := (Int.floor_le a).trans a1
    exact_mod_cast this
  have efl : ⌊(a : ℝ)⌋ = ⌊a⌋ := Rat.floor_cast a
  have efr : Int.fract (a : ℝ) = ((a - ⌊a⌋ : ℚ) : ℝ) := by rw [Int.fract, efl]; push_cast; rfl
  rw [efr, efl]
  have hk := Is.floor ha (fits64' 13 (by norm_num) (abs_le.mpr
    ⟨by norm_num; exact_mod_cast (by omega : (-8192 : ℤ) ≤ ⌊a⌋), by norm_num; exact_mod_cast (by omega : ⌊a⌋ ≤ 8192)⟩))
  have hneg : a < 0 → ⌊a⌋ = -1 := fun h => by
    have : ⌊a⌋ < 0 := Int.floor_lt.mpr (by simpa using h)
    omega
  have hpos : 0 ≤ a → 0 ≤ ⌊a⌋ := fun h => Int.floor_nonneg.mpr h
  set kq := ⌊a⌋ with hkq
  have hfr0 : 0 ≤ a - kq := by linarith [Int.floor_le a]
  have hfr1 : a - kq ≤ 1 := by linarith [Int.lt_floor_add_one a]
  have bfr' : |a - kq| ≤ 2 ^ 0 := abs_le.mpr ⟨by norm_num; linarith, by norm_num; linarith⟩
  have hfr := Is.sub ha hk (fits64' 0 (by norm_num) bfr')
  have efr := err64 (q := a - kq) 0 (by norm_num) (by exact_mod_cast bfr')
  have bfr := rnd_in (f := b64) (lo := 0) (hi := 1) hfr0 hfr1 b64.repr_zero (by exact_mod_cast repr64 1 (by norm_num))
  generalize hfq : a - kq = fq at *
  set fr := b64.rnd fq with hfrdef
  have hk1 := Is.add hk lit64_1 (fits64' 13 (by norm_num) (abs_le.mpr
    ⟨by norm_num; exact_mod_cast (by omega : (-8192 : ℤ) ≤ kq + 1), by norm_num; exact_mod_cast (by omega : kq + 1 ≤ 8192)⟩))
  rw [show (kq : ℚ) + 1 = ((kq + 1 : ℤ) : ℚ) by push_cast; ring,
    b64.rnd_of_repr (repr64 (kq + 1) (by rw [abs_le]; omega))] at hk1
  have h4800 : (lit (WAVETABLE_SIZE : ℚ) : F64).Is 4800 := lit64_nat (n := 4800) (by norm_num)
  -- the indices
  have hi0 : toUsize (Flt.floor g.ind) = kq.toNat := hk.toUsize_int (by omega)
  have hi1 : toUsize (if lit (WAVETABLE_SIZE : ℚ) ≤? Flt.floor g.ind + lit 1 then lit 0 else Flt.floor g.ind + lit 1) =
      if kq = 4799 then 0 else (kq + 1).toNat := by
    rw [h4800.le hk1]
    by_cases hh : kq = 4799
    · simp only [hh, if_true]
      rw [if_pos (by norm_num)]
      rw [Is.toUsize_int (n := 0) (by exact_mod_cast lit64_0) (by norm_num)]; rfl
    · have : ¬ (4800 : ℚ) ≤ ((kq + 1 : ℤ) : ℚ) := by
        rw [not_le]; exact_mod_cast (by omega : kq + 1 < 4800)
      simp only [this, decide_false, Bool.false_eq_true, if_false, hh]
      rw [hk1.toUsize_int (by omega)]
  unfold Sine.process
  simp only
  rw [hi0, hi1]
  obtain ⟨v0, p0, e0, hp0, t0⟩ := table_err hl kq.toNat (by omega)
  obtain ⟨v1, p1, e1, hp1, t1⟩ := table_err hl (if kq = 4799 then 0 else (kq + 1).toNat) (by split_ifs <;> omega)
  simp only [e0, e1]
  -- the table values
  have s1 : Real.sin (2 * Real.pi / 4800 * ((if kq = 4799 then 0 else (kq + 1).toNat : ℕ) : ℝ)) =
      Real.sin (2 * Real.pi / 4800 * kq + 2 * Real.pi / 4800) := by
    split_ifs with hh
    · rw [hh]; push_cast
      rw [mul_zero, show 2 * Real.pi / 4800 * 4799 + 2 * Real.pi / 4800 = 2 * Real.pi by ring, Real.sin_two_pi, Real.sin_zero]
    · have c1 : (((kq + 1).toNat : ℕ) : ℝ) = kq + 1 := by
        exact_mod_cast Int.toNat_of_nonneg (by omega : 0 ≤ kq + 1)
      rw [c1]; congr 1; ring
  rw [s1] at t1
  have l0 : |(p0 : ℝ)| ≤ 1 + (2 ^ 39)⁻¹ := by
    have := abs_sub_abs_le_abs_sub (p0 : ℝ) (Real.sin (2 * Real.pi / 4800 * (kq.toNat : ℕ)))
    have := Real.abs_sin_le_one (2 * Real.pi / 4800 * (kq.toNat : ℕ))
    linarith
  have l1 : |(p1 : ℝ)| ≤ 1 + (2 ^ 39)⁻¹ := by
    have := abs_sub_abs_le_abs_sub (p1 : ℝ) (Real.sin (2 * Real.pi / 4800 * kq + 2 * Real.pi / 4800))
    have := Real.abs_sin_le_one (2 * Real.pi / 4800 * kq + 2 * Real.pi / 4800)
    linarith
  have l0q : |p0| ≤ 1 + (2 ^ 39)⁻¹ := by
    have h : ((|p0| : ℚ) : ℝ) ≤ ((1 + (2 ^ 39)⁻¹ : ℚ) : ℝ) := by push_cast; exact l0
    exact Rat.cast_le.mp h
  have l1q : |p1| ≤ 1 + (2 ^ 39)⁻¹ := by
    have h : ((|p1| : ℚ) : ℝ) ≤ ((1 + (2 ^ 39)⁻¹ : ℚ) : ℝ) := by push_cast; exact l1
    exact Rat.cast_le.mp h
  -- the roundings
  have bo : |1 - fr| ≤ 2 ^ 0 := abs_le.mpr ⟨by norm_num; linarith [bfr.1, bfr.2], by norm_num; linarith [bfr.1, bfr.2]⟩
  have hom := Is.sub lit64_1 hfr (fits64' 0 (by norm_num) bo)
  have bom := rnd_in (f := b64) (lo := 0) (hi := 1) (by linarith [bfr.1, bfr.2] : 0 ≤ 1 - fr) (by linarith [bfr.1, bfr.2]) b64.repr_zero (by exact_mod_cast repr64 1 (by norm_num))
  have eom := err64 (q := 1 - fr) 0 (by norm_num) (by exact_mod_cast bo)
  set om := b64.rnd (1 - fr)
  have m0 : |om * p0| ≤ 1 + (2 ^ 39)⁻¹ := by
    rw [abs_mul, abs_of_nonneg bom.1]
    calc om * |p0| ≤ 1 * (1 + (2 ^ 39)⁻¹) := mul_le_mul bom.2 l0q (abs_nonneg _) (by norm_num)
      _ = _ := one_mul _
  have m1 : |fr * p1| ≤ 1 + (2 ^ 39)⁻¹ := by
    rw [abs_mul, abs_of_nonneg bfr.1]
    calc fr * |p1| ≤ 1 * (1 + (2 ^ 39)⁻¹) := mul_le_mul bfr.2 l1q (abs_nonneg _) (by norm_num)
      _ = _ := one_mul _
  have m0' : |om * p0| ≤ 2 ^ 1 := m0.trans (by norm_num)
  have m1' : |fr * p1| ≤ 2 ^ 1 := m1.trans (by norm_num)
  have h0 := Is.mul hom hp0 (fits64' 1 (by norm_num) m0')
  have h1 := Is.mul hfr hp1 (fits64' 1 (by norm_num) m1')
  have r0 := err64 (q := om * p0) 1 (by norm_num) (by exact_mod_cast m0')
  have r1 := err64 (q := fr * p1) 1 (by norm_num) (by exact_mod_cast m1')
  set x0 := b64.rnd (om * p0)
  set x1 := b64.rnd (fr * p1)
  -- distance of `x0 + x1` from the exact interpolation of `p0` and `p1`
  have d0 : |x0 + x1 - ((1 - fq) * p0 + fq * p1)| ≤ (2 ^ 50)⁻¹ := by
    have e : x0 + x1 - ((1 - fq) * p0 + fq * p1) =
        (x0 - om * p0) + (x1 - fr * p1) + ((om - (1 - fr)) * p0 + (fr - fq) * (p1 - p0)) := by ring
    have q1 : |(om - (1 - fr)) * p0| ≤ (2 : ℚ) ^ (0 - 54 : ℤ) * 2 := by
      rw [abs_mul]; exact mul_le_mul eom (l0q.trans (by norm_num)) (abs_nonneg _) (by positivity)
    have q2 : |(fr - fq) * (p1 - p0)| ≤ (2 : ℚ) ^ (0 - 54 : ℤ) * 4 := by
      rw [abs_mul]; exact mul_le_mul efr ((abs_sub _ _).trans ((add_le_add l1q l0q).trans (by norm_num))) (abs_nonneg _) (by positivity)
    rw [e]
    refine (abs_add_le _ _).trans ((add_le_add (abs_add_le _ _) (abs_add_le _ _)).trans ?_)
    refine (add_le_add (add_le_add r0 r1) (add_le_add q1 q2)).trans ?_
    norm_num
  have ci : |(1 - fq) * p0 + fq * p1| ≤ 1 + (2 ^ 39)⁻¹ := by
    refine (abs_add_le _ _).trans ?_
    rw [abs_mul, abs_mul, abs_of_nonneg (by linarith : 0 ≤ 1 - fq), abs_of_nonneg hfr0]
    nlinarith
  have bs : |x0 + x1| ≤ 2 ^ 1 := by
    have := abs_sub_abs_le_abs_sub (x0 + x1) ((1 - fq) * p0 + fq * p1)
    norm_num at this ci d0 ⊢
    linarith
  have hs := Is.add h0 h1 (fits64' 1 (by norm_num) bs)
  have es := err64 (q := x0 + x1) 1 (by norm_num) (by exact_mod_cast bs)
  have bs2 : |b64.rnd (x0 + x1)| ≤ 2 ^ 1 := by
    rw [b64.abs_rnd]
    exact b64.rnd_le_repr (by norm_num; exact_mod_cast repr64 2 (by norm_num)) bs
  set s := b64.rnd (x0 + x1)
  have hd := hs.down (fits32' 1 (by norm_num) bs2)
  have ed := err32 (q := s) 1 (by norm_num) (by exact_mod_cast bs2)
  have total : |b32.rnd s - ((1 - fq) * p0 + fq * p1)| ≤ (2 ^ 24)⁻¹ + (2 ^ 49)⁻¹ := by
    have a1 := abs_sub_le (b32.rnd s) s (x0 + x1)
    have a2 := abs_sub_le (b32.rnd s) (x0 + x1) ((1 - fq) * p0 + fq * p1)
    norm_num at ed es d0 ⊢
    linarith
  refine ⟨_, _, rfl, hd, ?_, ?_⟩
  all_goals
    have total' := cast_abs total rfl
    push_cast at total'
    have hfqr0 : (0 : ℝ) ≤ fq := by exact_mod_cast hfr0
    have hfqr1 : (fq : ℝ) ≤ 1 := by exact_mod_cast hfr1
    generalize ((b32.rnd s : ℚ) : ℝ) = r at *
  · intro hn
    rw [hneg hn] at t0 t1
    norm_num at t0 t1
    have := abs_sub_abs_le_abs_sub r ((1 - fq) * p0 + fq * p1)
    have c : |(1 - (fq : ℝ)) * p0 + fq * p1| ≤ 1 / 549755813888 := by
      refine (abs_add_le _ _).trans ?_
      rw [abs_mul, abs_mul, abs_of_nonneg (by linarith : 0 ≤ 1 - (fq : ℝ)), abs_of_nonneg hfqr0]
      nlinarith
    norm_num at total' ⊢
    linarith
  · intro hp
    have c0 : ((kq.toNat : ℕ) : ℝ) = kq := by
      exact_mod_cast Int.toNat_of_nonneg (hpos hp)
    rw [c0] at t0
    generalize Real.sin (2 * Real.pi / 4800 * (kq : ℝ)) = A at *
    generalize Real.sin (2 * Real.pi / 4800 * (kq : ℝ) + 2 * Real.pi / 4800) = C at *
    have c : |((1 - (fq : ℝ)) * p0 + fq * p1) - ((1 - fq) * A + fq * C)| ≤ (2 ^ 39)⁻¹ := by
      rw [show ((1 - (fq : ℝ)) * p0 + fq * p1) - ((1 - fq) * A + fq * C) = (1 - fq) * (p0 - A) + fq * (p1 - C) by ring]
      refine (abs_add_le _ _).trans ?_
      rw [abs_mul, abs_mul, abs_of_nonneg (by linarith : 0 ≤ 1 - (fq : ℝ)), abs_of_nonneg hfqr0]
      nlinarith
    have := abs_sub_le r ((1 - (fq : ℝ)) * p0 + fq * p1) ((1 - fq) * A + fq * C)
    norm_num at total' c ⊢
    linarith

/-- Position after `n` samples: `n*q/10` modulo 4800 up to `n*2^-39`. -/
private theorem sine_state [Libm F64] (hl : SinAccurate) {f : F64} {q : ℚ} (hf : f.Is q) (h0 : 0 ≤ q) (h1 : q ≤ 48000) (n : ℕ) :
    ∃ (g : Sine F64) (a : ℚ), afterR (S := F32) Sine.process n (Sine.new f) = .ok g ∧ g.inc = f / lit (WAVETABLE_FREQ : ℚ) ∧
      g.ind.Is a ∧ -1 ≤ a ∧ a ≤ 4799 ∧ ∃ j : ℤ, |a - (n * q / 10 - 4800 * j)| ≤ n * (2 ^ 39)⁻¹ := by
  have h10 : (lit (WAVETABLE_FREQ : ℚ) : F64).Is 10 := lit64_10
  have h4800 : (lit (WAVETABLE_SIZE : ℚ) : F64).Is 4800 := lit64_nat (n := 4800) (by norm_num)
  have h4799 : (lit (WAVETABLE_SIZE : ℚ) - lit 1 : F64).Is 4799 := by decide +kernel
  have bq : |q / 10| ≤ 2 ^ 13 := abs_le.mpr ⟨by norm_num; linarith, by norm_num; linarith⟩
  have hc := Is.div hf h10 (by norm_num) (fits64' 13 (by norm_num) bq)
  have ec := err64 (q := q / 10) 13 (by norm_num) (by exact_mod_cast bq)
  have bc := rnd_in (f := b64) (lo := 0) (hi := 4800) (by linarith : 0 ≤ q / 10) (by linarith)
    b64.repr_zero (by exact_mod_cast repr64 4800 (by norm_num))
  set c := b64.rnd (q / 10)
  induction n with
  | zero => exact ⟨_, 0, rfl, rfl, lit64_0, by norm_num, by norm_num, 0, by norm_num⟩
  | succ n ih =>
    obtain ⟨g, a, hg, hinc, ha, a0, a1, j, hj⟩ := ih
    obtain ⟨y, r, hy, -⟩ := sine_out hl ha a0 a1
    have bs : |a + c| ≤ 2 ^ 14 := abs_le.mpr ⟨by norm_num; linarith, by norm_num; linarith⟩
    rw [← hinc] at hc
    have hs := Is.add ha hc (fits64' 14 (by norm_num) bs)
    have es := err64 (q := a + c) 14 (by norm_num) (by exact_mod_cast bs)
    have b := rnd_in (f := b64) (lo := -1) (hi := 9599) (by linarith : (-1 : ℚ) ≤ a + c) (by linarith)
      (by exact_mod_cast repr64 (-1) (by norm_num)) (by exact_mod_cast repr64 9599 (by norm_num))
    set s := b64.rnd (a + c)
    simp only [h4799.le hs] at hy
    by_cases hh : (4799 : ℚ) ≤ s
    · simp only [hh, decide_true, if_true] at hy
      have b1 : |s - 4800| ≤ 2 ^ 13 := abs_le.mpr ⟨by norm_num; linarith, by norm_num; linarith⟩
      have hd := Is.sub hs h4800 (fits64' 13 (by norm_num) b1)
      have ed := err64 (q := s - 4800) 13 (by norm_num) (by exact_mod_cast b1)
      have b' := rnd_in (f := b64) (lo := -1) (hi := 4799) (by linarith : (-1 : ℚ) ≤ s - 4800) (by linarith)
        (by exact_mod_cast repr64 (-1) (by norm_num)) (by exact_mod_cast repr64 4799 (by norm_num))
      refine ⟨_, _, afterR_succ hg hy, hinc, hd, b'.1, b'.2, j + 1, ?_⟩
      push_cast
      rw [abs_le] at ec es ed hj ⊢
      norm_num at ec es ed hj ⊢
      constructor <;> linarith
    · simp only [hh, decide_false, Bool.false_eq_true, if_false] at hy
      refine ⟨_, _, afterR_succ hg hy, hinc, hs, b.1, (not_le.mp hh).le, j, ?_⟩
      push_cast
      rw [abs_le] at ec es hj ⊢
      norm_num at ec es hj ⊢
      constructor <;> linarith

/-- Output from position `a`, `δ` table steps from the phase of the true sinusoid. -/
theorem sine_near [Libm F64] (hl : SinAccurate) {g : Sine F64} {q a : ℚ} {n : ℕ} {j : ℤ} {δ : ℝ} (ha : g.ind.Is a) (a0 : -1 ≤ a) (a1 : a ≤ 4799)
    (hj' : |(a : ℝ) - (n * q / 10 - 4800 * j)| ≤ δ) :
    ∃ (y : F32) (g' : Sine F64) (r : ℚ), g.process = .ok (y, g') ∧ y.Is r ∧
      |(r : ℝ) - Real.sin (2 * Real.pi * q * n / 48000)| ≤ 2 * Real.pi / 4800 + (2 ^ 23)⁻¹ + δ * (2 ^ 9)⁻¹ ∧
      (δ ≤ phase q n → phase q n < 4799 - δ →
        |(r : ℝ) - Real.sin (2 * Real.pi * q * n / 48000)| ≤ (2 * Real.pi / 4800) ^ 2 / 8 + (2 ^ 23)⁻¹ + δ * (2 ^ 9)⁻¹) := by
  have hδ : 0 ≤ δ := (abs_nonneg _).trans hj'
  obtain ⟨y, r, hy, hr, y1, y2⟩ := sine_out hl ha a0 a1
  refine ⟨y, _, r, hy, hr, ?_⟩
  have hpi := Real.pi_pos
  have hpi4 := Real.pi_lt_d2
  have e1 : Real.sin (2 * Real.pi * q * n / 48000) = Real.sin (2 * Real.pi / 4800 * (n * q / 10 - 4800 * j)) := by
    have : 2 * Real.pi * (q : ℝ) * n / 48000 = 2 * Real.pi / 4800 * (n * q / 10 - 4800 * j) + j * (2 * Real.pi) := by ring
    rw [this, Real.sin_add_int_mul_two_pi]
  rw [e1]
  -- drift
  have dr : |Real.sin (2 * Real.pi / 4800 * a) - Real.sin (2 * Real.pi / 4800 * (n * q / 10 - 4800 * j))| ≤ δ * (2 ^ 9)⁻¹ := by
    refine (sin_lip _ _).trans ?_
    rw [← mul_sub, abs_mul, abs_of_pos (by positivity : 0 < 2 * Real.pi / 4800)]
    have : 2 * Real.pi / 4800 ≤ (2 ^ 9)⁻¹ := by norm_num at hpi4 ⊢; linarith
    calc _ ≤ ((2 : ℝ) ^ 9)⁻¹ * δ := mul_le_mul this hj' (abs_nonneg _) (by positivity)
      _ = _ := mul_comm _ _
  have hs : 0 < 2 * Real.pi / 4800 := by positivity
  have hs1 : 2 * Real.pi / 4800 ≤ 1 := by norm_num at hpi4 ⊢; linarith
  have tri := abs_sub_le (r : ℝ) (Real.sin (2 * Real.pi / 4800 * a)) (Real.sin (2 * Real.pi / 4800 * (n * q / 10 - 4800 * j)))
  by_cases hn : a < 0
  · have yr := y1 hn
    have hnr : (a : ℝ) < 0 := by exact_mod_cast hn
    have a0r : (-1 : ℝ) ≤ a := by exact_mod_cast a0
    constructor
    · have sa : |Real.sin (2 * Real.pi / 4800 * a)| ≤ 2 * Real.pi / 4800 := by
        refine Real.abs_sin_le_abs.trans ?_
        rw [abs_mul, abs_of_pos hs]
        exact mul_le_of_le_one_right hs.le (abs_le.mpr ⟨by linarith, by linarith⟩)
      have := abs_sub (r : ℝ) (Real.sin (2 * Real.pi / 4800 * a))
      linarith
    · -- the phase would be in the excluded zone
      intro p0 p1
      exfalso
      have hph : phase q n = 4800 * Int.fract (((n : ℝ) * q / 10 - 4800 * j) / 4800) := by
        unfold phase
        have : ((n : ℝ) * q / 10 - 4800 * j) / 4800 = (q : ℝ) * n / 48000 - (j : ℝ) := by ring
        rw [this, Int.fract_sub_intCast]
      set z : ℝ := (n : ℝ) * q / 10 - 4800 * j
      obtain ⟨z1, z2⟩ := abs_le.mp hj'
      rw [hph] at p0 p1
      set φ := Int.fract (z / 4800)
      have hz : z = 4800 * (⌊z / 4800⌋ + φ) := by
        rw [Int.floor_add_fract]; ring
      have w1 : ((-1 : ℤ) : ℝ) < (⌊z / 4800⌋ : ℝ) := by push_cast; linarith
      have w2 : (⌊z / 4800⌋ : ℝ) < ((0 : ℤ) : ℝ) := by push_cast; linarith
      have w1 := Int.cast_lt.mp w1
      have w2 := Int.cast_lt.mp w2
      omega
  · rw [not_lt] at hn
    have yr := y2 hn
    have key := sin_interp_error (2 * Real.pi / 4800 * ⌊(a : ℝ)⌋) (2 * Real.pi / 4800) (Int.fract (a : ℝ)) (Int.fract_nonneg _) (Int.fract_lt_one _).le
    rw [show 2 * Real.pi / 4800 * (⌊(a : ℝ)⌋ : ℝ) + Int.fract (a : ℝ) * (2 * Real.pi / 4800) = 2 * Real.pi / 4800 * a by
      conv_rhs => rw [← Int.floor_add_fract (a : ℝ)]
      ring] at key
    have t2 := abs_sub_le (r : ℝ) ((1 - Int.fract (a : ℝ)) * Real.sin (2 * Real.pi / 4800 * ⌊(a : ℝ)⌋) +
        Int.fract (a : ℝ) * Real.sin (2 * Real.pi / 4800 * ⌊(a : ℝ)⌋ + 2 * Real.pi / 4800)) (Real.sin (2 * Real.pi / 4800 * a))
    have fine : |(r : ℝ) - Real.sin (2 * Real.pi / 4800 * (n * q / 10 - 4800 * j))| ≤
        (2 * Real.pi / 4800) ^ 2 / 8 + (2 ^ 23)⁻¹ + δ * (2 ^ 9)⁻¹ := by linarith
    refine ⟨fine.trans ?_, fun _ _ => fine⟩
    have : (2 * Real.pi / 4800) ^ 2 / 8 ≤ 2 * Real.pi / 4800 := by nlinarith
    linarith

/-- IEEE: sample `n` of `Sine::new(f)`, `0 ≤ f ≤ 48000`, is within `2π/4800 + 2^-23 + n*2^-48` of the true sinusoid, and
within `(2π/4800)²/8 + 2^-23 + n*2^-48` unless the phase is within `n*2^-39` table steps of the last of the 4800 steps. -/
theorem C101_sine_tune [Libm F64] (hl : SinAccurate) {f : F64} {q : ℚ} (hf : f.Is q) (h0 : 0 ≤ q) (h1 : q ≤ 48000) (n : ℕ) :
    ∃ (y : F32) (r : ℚ), nthR Sine.process (Sine.new f) n = .ok y ∧ y.Is r ∧
      |(r : ℝ) - Real.sin (2 * Real.pi * q * n / 48000)| ≤ 2 * Real.pi / 4800 + (2 ^ 23)⁻¹ + n * (2 ^ 48)⁻¹ ∧
      (n * (2 ^ 39)⁻¹ ≤ phase q n → phase q n < 4799 - n * (2 ^ 39)⁻¹ →
        |(r : ℝ) - Real.sin (2 * Real.pi * q * n / 48000)| ≤ (2 * Real.pi / 4800) ^ 2 / 8 + (2 ^ 23)⁻¹ + n * (2 ^ 48)⁻¹) := by
  obtain ⟨g, a, hg, -, ha, a0, a1, j, hj⟩ := sine_state hl hf h0 h1 n
  have hj' : |(a : ℝ) - (n * q / 10 - 4800 * j)| ≤ n * (2 ^ 39)⁻¹ := by
    have := Rat.cast_le (K := ℝ) |>.mpr hj
    push_cast at this
    exact this
  obtain ⟨y, g', r, hy, hr, h⟩ := sine_near hl ha a0 a1 hj'
  have e : (n : ℝ) * (2 ^ 39)⁻¹ * (2 ^ 9)⁻¹ = n * (2 ^ 48)⁻¹ := by norm_num; ring
  rw [e] at h
  exact ⟨y, r, by unfold nthR; rw [hg]; simp only [hy]; rfl, hr, h⟩

/-! ## Frequencies without drift -/

/-- A float sum, with its sign of zero, depends on the values only while the left summand is not `-0.0`. -/
private theorem ofQ_add {a b : ℚ} {y : F64} (hy : y.Is b) (ha : (ofQ false a : F64).Is a) : (ofQ false a : F64) + y = ofQ false (a + b) := by
  cases y with
  | nan => simp [Is, toQ?] at hy
  | inf t => simp [Is, toQ?] at hy
  | fin t b' hb =>
    have e : b' = b := by simpa [Is, toQ?] using hy
    subst e
    unfold ofQ at ha ⊢
    by_cases h : |b64.rnd a| < pow2 (b64.emax + 1)
    · rw [dif_pos h] at ha ⊢
      have e : b64.rnd a = a := by simpa [Is, toQ?] using ha
      show ofQ _ (b64.rnd a + b') = _
      rw [e]
      unfold ofQ
      have key : (if a + b' < 0 then true else if 0 < a + b' then false else (if a < 0 then true else if 0 < a then false else false) && t) =
          if a + b' < 0 then true else if 0 < a + b' then false else false := by
        split_ifs with h1 h2 h3 h4
        · rfl
        · rfl
        · rw [hb.2.2.2 (by linarith)]; rfl
        · rfl
        · rfl
      simp only [key]
    · rw [dif_neg h] at ha
      simp [Is, toQ?] at ha

/-- Position after `n` samples when the step is a whole number of `2^-39` table steps: exact. -/
private theorem sine_state_exact [Libm F64] (hl : SinAccurate) {f : F64} {q : ℚ} (hf : f.Is q) (h1 : q ≤ 48000) {m : ℕ} (hm : q / 10 = m / 2 ^ 39) (n : ℕ) :
    ∃ (g : Sine F64) (a : ℚ), afterR (S := F32) Sine.process n (Sine.new f) = .ok g ∧ g.inc = f / lit (WAVETABLE_FREQ : ℚ) ∧ g.ind = ofQ false a ∧
      g.ind.Is a ∧ -1 ≤ a ∧ a < 4799 ∧ ∃ j : ℤ, a = n * q / 10 - 4800 * j := by
  have h0 : 0 ≤ q := by
    have : 0 ≤ q / 10 := by rw [hm]; positivity
    linarith
  have h10 : (lit (WAVETABLE_FREQ : ℚ) : F64).Is 10 := lit64_10
  have h4800 : (lit (WAVETABLE_SIZE : ℚ) : F64).Is 4800 := lit64_nat (n := 4800) (by norm_num)
  have h4799 : (lit (WAVETABLE_SIZE : ℚ) - lit 1 : F64).Is 4799 := by decide +kernel
  have bq : |q / 10| ≤ 2 ^ 13 := abs_le.mpr ⟨by norm_num; linarith, by norm_num; linarith⟩
  have rep : ∀ (k : ℤ), |(k : ℚ) / 2 ^ 39| ≤ 2 ^ 14 → b64.Repr ((k : ℚ) / 2 ^ 39) := by
    intro k hk
    refine b64.repr_dyadic (m := k) (e := -39) ?_ ?_ (by decide)
    · rw [pow2_eq]; norm_num; ring
    · rw [abs_div, abs_of_pos (by positivity : (0 : ℚ) < 2 ^ 39), div_le_iff₀ (by positivity)] at hk
      have : |(k : ℚ)| ≤ ((2 ^ 53 : ℤ) : ℚ) := hk.trans (by norm_num)
      have : |k| ≤ 2 ^ 53 := by exact_mod_cast this
      exact this
  have hc := Is.div hf h10 (by norm_num) (fits64' 13 (by norm_num) bq)
  have hr : b64.Repr (q / 10) := by
    have h := rep m (by rw [Int.cast_natCast, ← hm]; exact bq.trans (by norm_num))
    rwa [Int.cast_natCast, ← hm] at h
  rw [b64.rnd_of_repr hr] at hc
  have key : ∀ n : ℕ, ∃ (g : Sine F64) (a : ℚ) (k : ℤ), afterR (S := F32) Sine.process n (Sine.new f) = .ok g ∧ g.inc = f / lit (WAVETABLE_FREQ : ℚ) ∧
      g.ind = ofQ false a ∧ g.ind.Is a ∧ -1 ≤ a ∧ a < 4799 ∧ a = k / 2 ^ 39 ∧ ∃ j : ℤ, a = n * q / 10 - 4800 * j := by
    intro n
    induction n with
    | zero => exact ⟨_, 0, 0, rfl, rfl, rfl, lit64_0, by norm_num, by norm_num, by norm_num, 0, by norm_num⟩
    | succ n ih =>
      obtain ⟨g, a, k, hg, hinc, ho, ha, a0, a1, hk, j, hj⟩ := ih
      obtain ⟨y, r, hy, -⟩ := sine_out hl ha a0 a1.le
      have bs : |a + q / 10| ≤ 2 ^ 14 := abs_le.mpr ⟨by norm_num; linarith, by norm_num; linarith⟩
      rw [← hinc] at hc
      have hs := Is.add ha hc (fits64' 14 (by norm_num) bs)
      have es : a + q / 10 = ((k + m : ℤ) : ℚ) / 2 ^ 39 := by rw [hk, hm]; push_cast; ring
      rw [b64.rnd_of_repr (by rw [es]; exact rep _ (by rw [← es]; exact bs))] at hs
      have hso : g.ind + g.inc = ofQ false (a + q / 10) := by
        rw [ho]
        exact ofQ_add hc (by rw [← ho]; exact ha)
      simp only [h4799.le hs] at hy
      by_cases hh : (4799 : ℚ) ≤ a + q / 10
      · simp only [hh, decide_true, if_true] at hy
        have b1 : |a + q / 10 - 4800| ≤ 2 ^ 14 := abs_le.mpr ⟨by norm_num; linarith, by norm_num; linarith⟩
        have hd := Is.sub hs h4800 (fits64' 14 (by norm_num) b1)
        have ed : a + q / 10 - 4800 = ((k + m - 4800 * 2 ^ 39 : ℤ) : ℚ) / 2 ^ 39 := by rw [hk, hm]; push_cast; ring
        rw [b64.rnd_of_repr (by rw [ed]; exact rep _ (by rw [← ed]; exact b1))] at hd
        have hdo : g.ind + g.inc - lit (WAVETABLE_SIZE : ℚ) = ofQ false (a + q / 10 - 4800) := by
          rw [hso, show a + q / 10 - 4800 = a + q / 10 + -4800 by ring]
          exact ofQ_add (y := -lit (WAVETABLE_SIZE : ℚ)) h4800.neg (by rw [← hso]; exact hs)
        refine ⟨_, _, _, afterR_succ hg hy, hinc, hdo, hd, by linarith, by linarith, ed, j + 1, ?_⟩
        rw [hj]; push_cast; ring
      · simp only [hh, decide_false, Bool.false_eq_true, if_false] at hy
        refine ⟨_, _, _, afterR_succ hg hy, hinc, hso, hs, by linarith, not_le.mp hh, es, j, ?_⟩
        rw [hj]; push_cast; ring
  obtain ⟨g, a, k, h⟩ := key n
  exact ⟨g, a, h.1, h.2.1, h.2.2.1, h.2.2.2.1, h.2.2.2.2.1, h.2.2.2.2.2.1, h.2.2.2.2.2.2.2⟩

/-- IEEE: a frequency that is a whole number of `10/2^39` Hz, such as every multiple of 10 Hz, does not drift at all: sample `n` is
within `2π/4800 + 2^-23` of the true sinusoid, and within `(2π/4800)²/8 + 2^-23` outside the last table step, for every `n`. -/
theorem C101_no_drift [Libm F64] (hl : SinAccurate) {f : F64} {q : ℚ} (hf : f.Is q) (h1 : q ≤ 48000) {m : ℕ} (hm : q / 10 = m / 2 ^ 39) (n : ℕ) :
    ∃ (y : F32) (r : ℚ), nthR Sine.process (Sine.new f) n = .ok y ∧ y.Is r ∧
      |(r : ℝ) - Real.sin (2 * Real.pi * q * n / 48000)| ≤ 2 * Real.pi / 4800 + (2 ^ 23)⁻¹ ∧
      (phase q n < 4799 → |(r : ℝ) - Real.sin (2 * Real.pi * q * n / 48000)| ≤ (2 * Real.pi / 4800) ^ 2 / 8 + (2 ^ 23)⁻¹) := by
  obtain ⟨g, a, hg, -, -, ha, a0, a1, j, hj⟩ := sine_state_exact hl hf h1 hm n
  have hj' : |(a : ℝ) - (n * q / 10 - 4800 * j)| ≤ 0 := by
    rw [hj]; push_cast; rw [sub_self, abs_zero]
  obtain ⟨y, g', r, hy, hr, h2, h3⟩ := sine_near hl ha a0 a1.le hj'
  rw [zero_mul, add_zero] at h2 h3
  rw [sub_zero] at h3
  exact ⟨y, r, by unfold nthR; rw [hg]; simp only [hy]; rfl, hr, h2, h3 (by unfold phase; have := Int.fract_nonneg ((q : ℝ) * n / 48000); positivity)⟩

/-- IEEE: such a tone repeats bit for bit after any number of samples that holds a whole number of periods. -/
theorem C101_periodic [Libm F64] (hl : SinAccurate) {f : F64} {q : ℚ} (hf : f.Is q) (h1 : q ≤ 48000) {m : ℕ} (hm : q / 10 = m / 2 ^ 39)
    {P : ℕ} {c : ℤ} (hP : q * P = 48000 * c) (n : ℕ) :
    nthR (S := F32) Sine.process (Sine.new f) (n + P) = nthR Sine.process (Sine.new f) n := by
  obtain ⟨g, a, hg, e, ho, -, a0, a1, j, hj⟩ := sine_state_exact hl hf h1 hm n
  obtain ⟨g', a', hg', e', ho', -, a0', a1', j', hj'⟩ := sine_state_exact hl hf h1 hm (n + P)
  have hd : a' - a = 4800 * ((c - j' + j : ℤ) : ℚ) := by
    rw [hj, hj']; push_cast; linear_combination (1 / 10) * hP
  have hz : c - j' + j = 0 := by
    have u1 : ((-1 : ℤ) : ℚ) < ((c - j' + j : ℤ) : ℚ) := by push_cast at hd ⊢; linarith
    have u2 : ((c - j' + j : ℤ) : ℚ) < ((1 : ℤ) : ℚ) := by push_cast at hd ⊢; linarith
    have u1 := Int.cast_lt.mp u1
    have u2 := Int.cast_lt.mp u2
    omega
  rw [hz] at hd
  have ea : a' = a := by push_cast at hd; linarith
  have eg : g' = g := by
    cases g; cases g'
    simp only at e e' ho ho'
    rw [e, e', ho, ho', ea]
  unfold nthR
  rw [hg, hg', eg]

/-- Concert A repeats after 1200 samples. -/
example [Libm F64] (hl : SinAccurate) (n : ℕ) :
    nthR (S := F32) Sine.process (Sine.new (lit 440 : F64)) (n + 1200) = nthR Sine.process (Sine.new (lit 440 : F64)) n :=
  C101_periodic hl (q := 440) (m := 44 * 2 ^ 39) (P := 1200) (c := 11) (lit64_nat (n := 440) (by norm_num)) (by norm_num) (by norm_num) (by norm_num) n

/-- Concert A meets the conditions: its step is 44 table steps, and 1200 samples hold 11 periods. -/
example : (lit 440 : F64).Is 440 ∧ (440 : ℚ) / 10 = ((44 * 2 ^ 39 : ℕ) : ℚ) / 2 ^ 39 ∧ (440 : ℚ) * (1200 : ℕ) = 48000 * (11 : ℤ) := by
  refine ⟨lit64_nat (n := 440) (by norm_num), by norm_num, by norm_num⟩

/-- A math library meeting the assumption exists; sample 10 of concert A is outside the excluded zone. -/
example : (∃ l : Libm F64, @SinAccurate l) ∧ (lit 440 : F64).Is 440 ∧ phase 440 10 = 440 := by
  refine ⟨sinAccurate_exists, lit64_nat (n := 440) (by norm_num), ?_⟩
  unfold phase
  have : Int.fract ((440 : ℝ) * (10 : ℕ) / 48000) = 4400 / 48000 := by
    rw [Int.fract_eq_iff]; exact ⟨by norm_num, by norm_num, 0, by norm_num⟩
  rw [this]; norm_num

end Verif
