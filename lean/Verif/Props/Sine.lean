import Verif.Proofs.Sine
import Verif.Spec.History

/-! # Sine: C39, C40 -/

namespace Verif
open Fl

/-! ## C39 -/

/-- The table entries are in `[-1,1]` (an assumption on the math library's `sin`). -/
def TableOk [Libm F64] : Prop :=
  ∀ i : ℕ, i < 4800 → (Libm.sin (lit 2 * SM.piM F32 * invSR * lit (10 : ℕ) * lit (i : ℚ)) : F64).In (-1) 1

private def SineInv (g : Sine F64) : Prop := g.ind.In (-1) 4799 ∧ g.inc.In 0 4800

private theorem repr64 (n : ℤ) (h : |n| ≤ 9007199254740992) : b64.Repr (n : ℚ) := Fmt.repr64_int h

private theorem sine_inc {f : F64} (hf : f.In 0 48000) : (f / lit (WAVETABLE_FREQ : ℚ)).In 0 4800 := by
  obtain ⟨q, hq, h0, h1⟩ := hf
  have h10 : (lit (WAVETABLE_FREQ : ℚ) : F64).Is 10 := lit64_10
  have hd := Is.div hq h10 (by norm_num) (fits64' 13 (by norm_num) (abs_le.mpr ⟨by norm_num; linarith, by norm_num; linarith⟩))
  have b := rnd_in (f := b64) (lo := 0) (hi := 4800) (by linarith : 0 ≤ q / 10) (by linarith)
    b64.repr_zero (by exact_mod_cast repr64 4800 (by norm_num))
  exact ⟨_, hd, b.1, b.2⟩

private theorem sine_step [Libm F64] (ht : TableOk) (g : Sine F64) (hg : SineInv g) :
    ∃ (y : F32) (g' : Sine F64), g.process = .ok (y, g') ∧ y.In (-1) 1 ∧ SineInv g' := by
  obtain ⟨⟨a, ha, a0, a1⟩, ⟨c, hc, c0, c1⟩⟩ := hg
  have hfl0 : (-1 : ℤ) ≤ ⌊a⌋ := Int.le_floor.mpr (by exact_mod_cast a0)
  have hfl1 : ⌊a⌋ ≤ 4799 := by
    have : (⌊a⌋ : ℚ) ≤ 4799 := (Int.floor_le a).trans a1
    exact_mod_cast this
  have hk := Is.floor ha (fits64' 13 (by norm_num) (abs_le.mpr
    ⟨by norm_num; exact_mod_cast (by omega : (-8192 : ℤ) ≤ ⌊a⌋), by norm_num; exact_mod_cast (by omega : ⌊a⌋ ≤ 8192)⟩))
  set kq := ⌊a⌋ with hkq
  have hfr0 : 0 ≤ a - kq := by linarith [Int.floor_le a]
  have hfr1 : a - kq ≤ 1 := by linarith [Int.lt_floor_add_one a]
  have hfr := Is.sub ha hk (fits64' 0 (by norm_num) (abs_le.mpr ⟨by norm_num; linarith, by norm_num; linarith⟩))
  have bfr := rnd_in (f := b64) (lo := 0) (hi := 1) hfr0 hfr1 b64.repr_zero (by exact_mod_cast repr64 1 (by norm_num))
  set fr := b64.rnd (a - kq) with hfrdef
  have hk1 := Is.add hk lit64_1 (fits64' 13 (by norm_num) (abs_le.mpr
    ⟨by norm_num; exact_mod_cast (by omega : (-8192 : ℤ) ≤ kq + 1), by norm_num; exact_mod_cast (by omega : kq + 1 ≤ 8192)⟩))
  rw [show (kq : ℚ) + 1 = ((kq + 1 : ℤ) : ℚ) by push_cast; ring,
    b64.rnd_of_repr (repr64 (kq + 1) (by rw [abs_le]; omega))] at hk1
  have h4800 : (lit (WAVETABLE_SIZE : ℚ) : F64).Is 4800 := lit64_nat (n := 4800) (by norm_num)
  -- both indices are inside the table
  have hidx0 : toUsize (Flt.floor g.ind) < 4800 := by
    rw [hk.toUsize_int (by omega)]; omega
  have hidx1 : toUsize (if lit (WAVETABLE_SIZE : ℚ) ≤? Flt.floor g.ind + lit 1 then lit 0 else Flt.floor g.ind + lit 1) < 4800 := by
    rw [h4800.le hk1]
    by_cases hh : (4800 : ℚ) ≤ ((kq + 1 : ℤ) : ℚ)
    · simp only [hh, decide_true, if_true]
      rw [Is.toUsize_int (n := 0) (by exact_mod_cast lit64_0) (by norm_num)]; norm_num
    · simp only [hh, decide_false, Bool.false_eq_true, if_false]
      have : kq + 1 < 4800 := by
        rw [not_le] at hh; exact_mod_cast hh
      rw [hk1.toUsize_int (by omega)]; omega
  unfold Sine.process
  simp only
  generalize toUsize (Flt.floor g.ind) = i0 at *
  generalize toUsize (if lit (WAVETABLE_SIZE : ℚ) ≤? Flt.floor g.ind + lit 1 then lit 0 else Flt.floor g.ind + lit 1) = i1 at *
  have hw : ∀ i < 4800, ∃ v : F64, Sine.wavetable F32 i = some v ∧ v.In (-1) 1 := fun i hi =>
    ⟨_, if_pos hi, ht i hi⟩
  obtain ⟨v0, e0, p0, hp0, p01, p02⟩ := hw i0 hidx0
  obtain ⟨v1, e1, p1, hp1, p11, p12⟩ := hw i1 hidx1
  simp only [e0, e1]
  refine ⟨_, _, rfl, ?_, ?_, ⟨c, hc, c0, c1⟩⟩
  · -- the sample
    have hom := Is.sub lit64_1 hfr (fits64' 0 (by norm_num) (abs_le.mpr ⟨by norm_num; linarith [bfr.1, bfr.2], by norm_num; linarith [bfr.1, bfr.2]⟩))
    have bom := rnd_in (f := b64) (lo := 0) (hi := 1) (by linarith [bfr.1, bfr.2] : 0 ≤ 1 - fr) (by linarith [bfr.1, bfr.2]) b64.repr_zero (by exact_mod_cast repr64 1 (by norm_num))
    have eom := err64 (q := 1 - fr) 0 (by norm_num) (by rw [zpow_zero, abs_le]; constructor <;> linarith [bfr.1, bfr.2])
    have rom : b64.Repr (b64.rnd (1 - fr)) := b64.repr_rnd _
    have rfr : b64.Repr fr := b64.repr_rnd _
    set om := b64.rnd (1 - fr)
    have m0 : |om * p0| ≤ om := by
      rw [abs_mul, abs_of_nonneg bom.1]
      exact mul_le_of_le_one_right bom.1 (abs_le.mpr ⟨p01, p02⟩)
    have m1 : |fr * p1| ≤ fr := by
      rw [abs_mul, abs_of_nonneg bfr.1]
      exact mul_le_of_le_one_right bfr.1 (abs_le.mpr ⟨p11, p12⟩)
    have h0 := Is.mul hom hp0 (fits64' 0 (by norm_num) (by rw [pow_zero]; linarith [bom.2]))
    have h1 := Is.mul hfr hp1 (fits64' 0 (by norm_num) (by rw [pow_zero]; linarith [bfr.2]))
    have n0 : |b64.rnd (om * p0)| ≤ om := by rw [b64.abs_rnd]; exact b64.rnd_le_repr rom m0
    have n1 : |b64.rnd (fr * p1)| ≤ fr := by rw [b64.abs_rnd]; exact b64.rnd_le_repr rfr m1
    have hsum : |b64.rnd (om * p0) + b64.rnd (fr * p1)| ≤ 1 + 1 / 2 ^ 54 := by
      refine (abs_add_le _ _).trans ?_
      have : om ≤ 1 - fr + 1 / 2 ^ 54 := by
        have := (abs_le.mp eom).2
        norm_num at this ⊢
        linarith
      linarith
    have hs := Is.add h0 h1 (fits64' 1 (by norm_num) (hsum.trans (by norm_num)))
    have hs1 : |b64.rnd (b64.rnd (om * p0) + b64.rnd (fr * p1))| ≤ 1 := by
      rw [b64.abs_rnd]
      refine (b64.rnd_mono hsum).trans ?_
      decide +kernel
    have := down_in (n := 1) (by norm_num) ⟨_, hs, by push_cast; exact (abs_le.mp hs1).1, by push_cast; exact (abs_le.mp hs1).2⟩
    exact_mod_cast this
  · -- the new position
    have hs := Is.add ha hc (fits64' 14 (by norm_num) (abs_le.mpr ⟨by norm_num; linarith, by norm_num; linarith⟩))
    have b := rnd_in (f := b64) (lo := -1) (hi := 9599) (by linarith : (-1 : ℚ) ≤ a + c) (by linarith)
      (by exact_mod_cast repr64 (-1) (by norm_num)) (by exact_mod_cast repr64 9599 (by norm_num))
    set s := b64.rnd (a + c)
    have h4799 : (lit (WAVETABLE_SIZE : ℚ) - lit 1 : F64).Is 4799 := by decide +kernel
    simp only [h4799.le hs]
    by_cases hh : (4799 : ℚ) ≤ s
    · simp only [hh, decide_true, if_true]
      have hd := Is.sub hs h4800 (fits64' 14 (by norm_num) (abs_le.mpr ⟨by norm_num; linarith, by norm_num; linarith⟩))
      have b' := rnd_in (f := b64) (lo := -1) (hi := 4799) (by linarith : (-1 : ℚ) ≤ s - 4800) (by linarith)
        (by exact_mod_cast repr64 (-1) (by norm_num)) (by exact_mod_cast repr64 4799 (by norm_num))
      exact ⟨_, hd, b'.1, b'.2⟩
    · simp only [hh, decide_false, Bool.false_eq_true, if_false]
      exact ⟨_, hs, b.1, (not_le.mp hh).le⟩

/-- IEEE: after any history with frequencies in `[0, 48000]` the Sine has not panicked, the next call
does not panic, and the sample is in `[-1,1]`. -/
theorem C39_sine [Libm F64] (ht : TableOk) (f : F64) (hf : f.In 0 48000) (cs : List (GenCall F64))
    (hcs : FreqsOk (fun f => f.In 0 48000) cs) :
    ∃ g, runCallsR (S := F32) Sine.process Sine.setFrequency cs (Sine.new f) = .ok g ∧
      ∃ (y : F32) (g' : Sine F64), g.process = .ok (y, g') ∧ y.In (-1) 1 := by
  obtain ⟨g, h1, h2⟩ := runCallsR_inv (p := Sine.process (S := F32)) (set := Sine.setFrequency) SineInv
    (fun g hg => by
      obtain ⟨y, g', h1, -, h2⟩ := sine_step ht g hg
      exact ⟨y, g', h1, h2⟩)
    (fun g f' hf' hg => ⟨hg.1, sine_inc hf'⟩) cs hcs (Sine.new f)
    ⟨⟨0, lit64_0, by norm_num, by norm_num⟩, sine_inc hf⟩
  obtain ⟨y, g', h3, h4, -⟩ := sine_step ht g h2
  exact ⟨g, h1, y, g', h3, h4⟩

/-- A math library whose table is fine exists. -/
example : ∃ l : Libm F64, @TableOk l :=
  ⟨⟨fun _ => lit (1 / 2), fun x => x, fun x => x, fun x => x, fun x _ => x⟩, fun i _ => by
    show (lit (1 / 2) : F64).In (-1) 1
    exact ⟨1 / 2, by decide +kernel, by norm_num, by norm_num⟩⟩

private theorem process_ok [Libm F64] (x c : F64) (h0 : toUsize (Flt.floor x) < WAVETABLE_SIZE)
    (h1 : toUsize (if lit (WAVETABLE_SIZE : ℚ) ≤? Flt.floor x + lit 1 then lit 0 else Flt.floor x + lit 1) < WAVETABLE_SIZE) :
    ∃ y : F32, Sine.process ⟨x, c⟩ = .ok (y, ⟨if lit (WAVETABLE_SIZE : ℚ) - lit 1 ≤? x + c then
      x + c - lit (WAVETABLE_SIZE : ℚ) else x + c, c⟩) := by
  unfold Sine.process
  simp only [Sine.wavetable, if_pos h0, if_pos h1]
  exact ⟨_, rfl⟩

/-- Beyond the range it does panic: at `2^70` Hz the second sample indexes outside the table. -/
theorem C39_bound_needed [Libm F64] :
    runCallsR (S := F32) Sine.process Sine.setFrequency [.process, .process] (Sine.new (lit (2 ^ 70) : F64)) =
      .error .index := by
  have e0 : (Sine.new (lit (2 ^ 70) : F64)).ind = lit 0 := rfl
  have hstep : ∃ y : F32, (Sine.new (lit (2 ^ 70) : F64)).process = .ok (y, ⟨
      (if lit (WAVETABLE_SIZE : ℚ) - lit 1 ≤? (lit 0 : F64) + lit (2 ^ 70) / lit (WAVETABLE_FREQ : ℚ) then (lit 0 : F64) + lit (2 ^ 70) / lit (WAVETABLE_FREQ : ℚ) - lit (WAVETABLE_SIZE : ℚ) else (lit 0 : F64) + lit (2 ^ 70) / lit (WAVETABLE_FREQ : ℚ)),
      lit (2 ^ 70) / lit (WAVETABLE_FREQ : ℚ)⟩) := by
    exact process_ok (lit 0) (lit (2 ^ 70) / lit (WAVETABLE_FREQ : ℚ)) (by decide +kernel) (by decide +kernel)
  obtain ⟨y, hy⟩ := hstep
  simp only [runCallsR, hy]
  set x : F64 := (if lit (WAVETABLE_SIZE : ℚ) - lit 1 ≤? (lit 0 : F64) + lit (2 ^ 70) / lit (WAVETABLE_FREQ : ℚ) then (lit 0 : F64) + lit (2 ^ 70) / lit (WAVETABLE_FREQ : ℚ) - lit (WAVETABLE_SIZE : ℚ) else (lit 0 : F64) + lit (2 ^ 70) / lit (WAVETABLE_FREQ : ℚ)) with hx
  have hk : ¬ toUsize (Flt.floor x) < WAVETABLE_SIZE := by rw [hx]; decide +kernel
  have : (Sine.process ⟨x, lit (2 ^ 70) / lit (WAVETABLE_FREQ : ℚ)⟩ : Res (F32 × Sine F64)) = .error .index := by
    unfold Sine.process
    simp only [Sine.wavetable, if_neg hk]
  rw [this]

/-! ## C40 -/

private theorem wt_real (i : ℕ) (h : i < 4800) : Sine.wavetable ℝ (M := ℝ) i = some (Real.sin (2 * Real.pi / 4800 * i)) := by
  unfold Sine.wavetable
  rw [if_pos (show i < WAVETABLE_SIZE from h)]
  real_simp
  congr 2
  simp only [WAVETABLE_FREQ]
  push_cast
  ring

/-- Output and next state of Sine in exact arithmetic, from a position in `[-1, 4799)`. -/
theorem sine_real_step (x c : ℝ) (h0 : -1 ≤ x) (h1 : x < 4799) :
    ∃ y, (Sine.process (⟨x, c⟩ : Sine ℝ) : Res (ℝ × _)) = .ok (y, ⟨if 4799 ≤ x + c then x + c - 4800 else x + c, c⟩) ∧
      (x < 0 → y = 0) ∧
      (0 ≤ x → y = (1 - Int.fract x) * Real.sin (2 * Real.pi / 4800 * ⌊x⌋) +
        Int.fract x * Real.sin (2 * Real.pi / 4800 * ⌊x⌋ + 2 * Real.pi / 4800)) := by
  have hf0 : (-1 : ℤ) ≤ ⌊x⌋ := Int.le_floor.mpr (by exact_mod_cast h0)
  have hf1 : ⌊x⌋ < 4799 := Int.floor_lt.mpr (by exact_mod_cast h1)
  have hf1' : (⌊x⌋ : ℝ) < 4799 := by exact_mod_cast hf1
  have hf0' : (-1 : ℝ) ≤ ⌊x⌋ := by exact_mod_cast hf0
  unfold Sine.process
  have hsz : (WAVETABLE_SIZE : ℝ) = 4800 := by norm_num [WAVETABLE_SIZE, SAMPLE_RATE, WAVETABLE_FREQ]
  real_simp
  rw [hsz, if_neg (by linarith)]
  have e1 : toUsize (⌊x⌋ + 1 : ℝ) = (⌊x⌋ + 1).toNat := by
    rw [real_toUsize_nonneg (by linarith) (by norm_num; linarith)]
    congr 1
    rw [show (⌊x⌋ + 1 : ℝ) = ((⌊x⌋ + 1 : ℤ) : ℝ) by push_cast; ring, Int.floor_intCast]
  rw [e1]
  have hw1 : Sine.wavetable ℝ (M := ℝ) (⌊x⌋ + 1).toNat = some (Real.sin (2 * Real.pi / 4800 * ((⌊x⌋ + 1).toNat : ℕ))) :=
    wt_real _ (by omega)
  have e499 : (4800 - 1 : ℝ) = 4799 := by norm_num
  by_cases hx : x < 0
  · have hfl : ⌊x⌋ = -1 := by
      have : ⌊x⌋ < 0 := Int.floor_lt.mpr (by simpa using hx)
      omega
    have e0 : toUsize ((⌊x⌋ : ℤ) : ℝ) = 0 := real_toUsize_neg (by rw [hfl]; norm_num)
    rw [e0, hw1, wt_real 0 (by norm_num), hfl]
    refine ⟨0, ?_, fun _ => rfl, fun h => absurd hx (not_lt.mpr h)⟩
    simp [e499]
  · rw [not_lt] at hx
    have hfl : 0 ≤ ⌊x⌋ := Int.floor_nonneg.mpr hx
    have e0 : toUsize ((⌊x⌋ : ℤ) : ℝ) = ⌊x⌋.toNat := by
      rw [real_toUsize_nonneg (by exact_mod_cast hfl) (by norm_num; linarith), Int.floor_intCast]
    rw [e0, hw1, wt_real _ (by omega)]
    refine ⟨_, by rw [e499], fun h => absurd hx (not_le.mpr h), fun _ => ?_⟩
    have c0 : ((⌊x⌋.toNat : ℕ) : ℝ) = ⌊x⌋ := by
      exact_mod_cast Int.toNat_of_nonneg hfl
    have c1 : (((⌊x⌋ + 1).toNat : ℕ) : ℝ) = ⌊x⌋ + 1 := by
      exact_mod_cast Int.toNat_of_nonneg (by omega : 0 ≤ ⌊x⌋ + 1)
    rw [c0, c1, Int.self_sub_floor, mul_add, mul_one]

/-- Position after `n` samples: `n*f/10` reduced into `[-1, 4799)`. -/
private theorem sine_real_state (f : ℝ) (h0 : 0 ≤ f) (h1 : f ≤ 48000) (n : ℕ) :
    ∃ x, afterR (S := ℝ) Sine.process n (Sine.new f) = .ok ⟨x, f / 10⟩ ∧ -1 ≤ x ∧ x < 4799 ∧
      ∃ j : ℤ, x = n * f / 10 - 4800 * j := by
  induction n with
  | zero =>
    refine ⟨0, ?_, by norm_num, by norm_num, 0, by norm_num⟩
    unfold afterR Sine.new
    real_simp
    norm_num [WAVETABLE_FREQ]
  | succ n ih =>
    obtain ⟨x, hx, x0, x1, j, hj⟩ := ih
    obtain ⟨y, hy, -, -⟩ := sine_real_step x (f / 10) x0 x1
    refine ⟨_, afterR_succ hx hy, ?_, ?_, ?_⟩
    · split_ifs with h
      · linarith
      · have : 0 ≤ f / 10 := by positivity
        linarith
    · split_ifs with h
      · linarith
      · linarith [not_le.mp h]
    · split_ifs with h
      · exact ⟨j + 1, by rw [hj]; push_cast; ring⟩
      · exact ⟨j, by rw [hj]; push_cast; ring⟩

/-- Phase in table steps, in `[0, 4800)`. -/
noncomputable def phase (f : ℝ) (n : ℕ) : ℝ := 4800 * Int.fract (f * n / 48000)

theorem phase_of {f x : ℝ} {n : ℕ} {j : ℤ} (hj : x = n * f / 10 - 4800 * j) (x0 : -1 ≤ x) (x1 : x < 4799) :
    (0 ≤ x ∧ phase f n = x) ∨ (x < 0 ∧ phase f n = x + 4800) := by
  have e : f * n / 48000 = j + x / 4800 := by rw [hj]; ring
  unfold phase
  rw [e, Int.fract_intCast_add]
  by_cases hx : x < 0
  · right
    refine ⟨hx, ?_⟩
    have : Int.fract (x / 4800) = x / 4800 + 1 := by
      rw [Int.fract_eq_iff]; exact ⟨by linarith, by linarith, -1, by push_cast; ring⟩
    rw [this]; ring
  · left
    rw [not_lt] at hx
    have : Int.fract (x / 4800) = x / 4800 := Int.fract_eq_self.mpr ⟨by positivity, by linarith⟩
    refine ⟨hx, ?_⟩
    rw [this]; ring

theorem sin_phase {f x : ℝ} {n : ℕ} {j : ℤ} (hj : x = n * f / 10 - 4800 * j) :
    Real.sin (2 * Real.pi * f * n / 48000) = Real.sin (2 * Real.pi / 4800 * x) := by
  have : 2 * Real.pi * f * n / 48000 = 2 * Real.pi / 4800 * x + j * (2 * Real.pi) := by rw [hj]; ring
  rw [this, Real.sin_add_int_mul_two_pi]

/-- What holds (exact arithmetic, `0 ≤ f ≤ 48000`): outside the last of the 4800 table steps the error is at
most that of linear interpolation, `(2π/4800)²/8` (about 2.2e-7); everywhere it is at most `2π/4800` (about 0.0013).
Missing: the interpolation bound in the last step, where it is false. -/
theorem C40_sine_partial (f : ℝ) (h0 : 0 ≤ f) (h1 : f ≤ 48000) (n : ℕ) :
    ∃ y : ℝ, nthR Sine.process (Sine.new f) n = .ok y ∧
      |y - Real.sin (2 * Real.pi * f * n / 48000)| ≤ 2 * Real.pi / 4800 ∧
      (phase f n < 4799 → |y - Real.sin (2 * Real.pi * f * n / 48000)| ≤ (2 * Real.pi / 4800) ^ 2 / 8) := by
  obtain ⟨x, hx, x0, x1, j, hj⟩ := sine_real_state f h0 h1 n
  obtain ⟨y, hy, y1, y2⟩ := sine_real_step x (f / 10) x0 x1
  refine ⟨y, by unfold nthR; rw [hx]; simp only [hy]; rfl, ?_⟩
  rw [sin_phase hj]
  have hpi := Real.pi_pos
  have hpi4 := Real.pi_le_four
  rcases phase_of hj x0 x1 with ⟨hp, hph⟩ | ⟨hp, hph⟩
  · have key : |y - Real.sin (2 * Real.pi / 4800 * x)| ≤ (2 * Real.pi / 4800) ^ 2 / 8 := by
      rw [y2 hp]
      have := sin_interp_error (2 * Real.pi / 4800 * ⌊x⌋) (2 * Real.pi / 4800) (Int.fract x) (Int.fract_nonneg x) (Int.fract_lt_one x).le
      rw [show 2 * Real.pi / 4800 * (⌊x⌋ : ℝ) + Int.fract x * (2 * Real.pi / 4800) = 2 * Real.pi / 4800 * x by
        conv_rhs => rw [← Int.floor_add_fract x]
        ring] at this
      exact this
    refine ⟨key.trans ?_, fun _ => key⟩
    have hs : 0 < 2 * Real.pi / 4800 := by positivity
    have hs1 : 2 * Real.pi / 4800 ≤ 1 := by linarith
    nlinarith
  · rw [y1 hp, hph]
    refine ⟨?_, fun h => by linarith⟩
    rw [zero_sub, abs_neg]
    refine Real.abs_sin_le_abs.trans ?_
    rw [abs_mul, abs_of_pos (by positivity : 0 < 2 * Real.pi / 4800)]
    exact mul_le_of_le_one_right (by positivity) (abs_le.mpr ⟨by linarith, by linarith⟩)

example : phase 440 0 < 4799 := by norm_num [phase]

/-- In the last table step the output is 0 whatever the true value is. -/
theorem C40_sine_glitch_violated (f : ℝ) (h0 : 0 ≤ f) (h1 : f ≤ 48000) (n : ℕ) (h : 4799 ≤ phase f n) :
    nthR (S := ℝ) Sine.process (Sine.new f) n = .ok 0 := by
  obtain ⟨x, hx, x0, x1, j, hj⟩ := sine_real_state f h0 h1 n
  obtain ⟨y, hy, y1, y2⟩ := sine_real_step x (f / 10) x0 x1
  rcases phase_of hj x0 x1 with ⟨hp, hph⟩ | ⟨hp, hph⟩
  · linarith
  · unfold nthR; rw [hx]; simp only [hy, y1 hp]; rfl

/-- The property fails: at 47995 Hz sample 1 is off by more than the interpolation error. -/
theorem C40_sine_violated :
    ∃ (f : ℝ) (n : ℕ), 0 ≤ f ∧ f ≤ 48000 ∧ ∃ y : ℝ, nthR Sine.process (Sine.new f) n = .ok y ∧
      (2 * Real.pi / 4800) ^ 2 / 8 < |y - Real.sin (2 * Real.pi * f * n / 48000)| := by
  have hph : phase 47995 1 = 4799.5 := by
    unfold phase
    have : Int.fract ((47995 : ℝ) * (1 : ℕ) / 48000) = 47995 / 48000 := by
      rw [Nat.cast_one, mul_one]
      exact Int.fract_eq_self.mpr ⟨by norm_num, by norm_num⟩
    rw [this]; norm_num
  refine ⟨47995, 1, by norm_num, by norm_num, 0, C40_sine_glitch_violated _ (by norm_num) (by norm_num) _ (by rw [hph]; norm_num), ?_⟩
  have e : 2 * Real.pi * 47995 * (1 : ℕ) / 48000 = -(Real.pi / 4800) + 2 * Real.pi := by push_cast; ring
  rw [e, Real.sin_add_two_pi, Real.sin_neg, zero_sub, neg_neg]
  have hpi := Real.pi_pos
  have hpi4 := Real.pi_le_four
  have hj := Real.mul_le_sin (x := Real.pi / 4800) (by positivity) (by linarith)
  have : 2 / Real.pi * (Real.pi / 4800) = 2 / 4800 := by field_simp
  rw [this] at hj
  have hpos : 0 < Real.sin (Real.pi / 4800) := lt_of_lt_of_le (by norm_num) hj
  rw [abs_of_pos hpos]
  nlinarith

end Verif
