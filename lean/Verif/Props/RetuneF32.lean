import Verif.Float.SwitchRuns
import Verif.Float.Interval
import Verif.Spec.Libm
import Verif.Proofs.Tuned
import Mathlib.Analysis.Real.Pi.Bounds

/-! # Retuning a playing filter in `f32`: C135, violated -/

namespace Verif
open Fl Fast

/-! ## the coefficients at 20 kHz and 100 Hz without resonance

They are the same for every libm that meets `LibmAccurate`. -/

/-- `w * INV_SAMPLE_RATE` at 20 kHz and at 100 Hz. -/
private def tA : ℚ := 5895198126690367 / 2251799813685248
private def tB : ℚ := 7545853602163669 / 576460752303423488
/-- The angle at resonance 0, next to 2π/3. -/
private def thq : ℚ := 4716158501352293 / 2251799813685248
private def CI : Iv := ⟨-1 - pow2 (-38), -1 + pow2 (-38), true⟩
private def KI : Iv := Iv.sub b64 (.pt 1) CI
private def P2I (t : ℚ) : Iv := ⟨t ^ 2 - (2 ^ 40)⁻¹ * t ^ 2, t ^ 2 + (2 ^ 40)⁻¹ * t ^ 2, true⟩
private def P3I (t : ℚ) : Iv := ⟨t ^ 3 - (2 ^ 40)⁻¹ * t ^ 3, t ^ 3 + (2 ^ 40)⁻¹ * t ^ 3, true⟩
private def GI (t : ℚ) : Iv := .add b64 (.add b64 (.add b64 (P3I t) (.mul b64 KI (P2I t))) (.mul b64 KI (.pt t))) (.pt 1)

private theorem cos_thq : |Real.cos thq - -(1 / 2)| ≤ (2 ^ 40 : ℝ)⁻¹ := by
  have e : Real.cos (2 * Real.pi / 3) = -(1 / 2) := by
    rw [show 2 * Real.pi / 3 = Real.pi - Real.pi / 3 by ring, Real.cos_pi_sub, Real.cos_pi_div_three]
  rw [← e]
  have h := Real.abs_cos_sub_cos_le (thq : ℝ) (2 * Real.pi / 3)
  refine h.trans ?_
  have h1 := Real.pi_gt_d20
  have h2 := Real.pi_lt_d20
  have : ((thq : ℚ) : ℝ) = 4716158501352293 / 2251799813685248 := by unfold thq; push_cast; rfl
  rw [this, abs_le]
  constructor <;> norm_num at h1 h2 ⊢ <;> linarith

section
variable [Libm F64] (ha : LibmAccurate)
include ha

private theorem K_has {th : F64} (h : th.Is thq) : KI.Has (lit 1 - lit 2 * Libm.cos th : F64) := by
  obtain ⟨c, hc, h1⟩ := ha.cos th thq h (by decide +kernel)
  have h2 : |(c : ℝ) - -(1 / 2)| ≤ ((pow2 (-39) : ℚ) : ℝ) := by
    have := abs_sub_le (c : ℝ) (Real.cos thq) (-(1 / 2))
    have e : ((pow2 (-39) : ℚ) : ℝ) = (2 ^ 40 : ℝ)⁻¹ + (2 ^ 40 : ℝ)⁻¹ := by
      rw [pow2_eq]; push_cast; norm_num
    rw [e]
    have := cos_thq
    linarith
  have h3 : |c - -(1 / 2)| ≤ pow2 (-39) := by
    refine (Rat.cast_le (K := ℝ)).mp ?_
    push_cast at h2 ⊢
    exact h2
  have e38 : pow2 (-38) = 2 * pow2 (-39) := by decide +kernel
  have b1 : -1 - pow2 (-38) ≤ 2 * c := by have := (abs_le.mp h3).1; rw [e38]; linarith
  have b2 : 2 * c ≤ -1 + pow2 (-38) := by have := (abs_le.mp h3).2; rw [e38]; linarith
  have hm : CI.Has (lit 2 * Libm.cos th : F64) := by
    intro _
    have h2 : (lit 2 : F64).Is 2 := by decide +kernel
    have p38 : pow2 (-38) ≤ 1 := by decide +kernel
    refine ⟨_, h2.mul hc (Fmt.fits_of_le_pow2 (k := 1) (by decide) (by decide) ?_), ?_, ?_⟩
    · rw [abs_le, show pow2 1 = 2 by decide +kernel]; constructor <;> linarith
    · have := b64.rnd_mono b1
      rwa [show b64.rnd (-1 - pow2 (-38)) = -1 - pow2 (-38) by decide +kernel] at this
    · have := b64.rnd_mono b2
      rwa [show b64.rnd (-1 + pow2 (-38)) = -1 + pow2 (-38) by decide +kernel] at this
  exact Iv.sub_has (Iv.pt_has (by decide +kernel)) hm

private theorem P_has {t : F64} {q : ℚ} (h1 : pow2 (-20) ≤ q) (h2 : q ≤ 4) (h : t.Is q) :
    (P2I q).Has (Libm.pow t (lit 2) : F64) ∧ (P3I q).Has (Libm.pow t (lit 3) : F64) := by
  constructor
  · obtain ⟨p, hp, hb⟩ := ha.pow t q 2 h h1 h2 (.inl rfl)
    exact fun _ => ⟨p, hp, by have := (abs_le.mp hb).1; simp only [P2I]; linarith, by have := (abs_le.mp hb).2; simp only [P2I]; linarith⟩
  · obtain ⟨p, hp, hb⟩ := ha.pow t q 3 h h1 h2 (.inr rfl)
    exact fun _ => ⟨p, hp, by have := (abs_le.mp hb).1; simp only [P3I]; linarith, by have := (abs_le.mp hb).2; simp only [P3I]; linarith⟩

private theorem coefs {th t : F64} {q : ℚ} (h1 : pow2 (-20) ≤ q) (h2 : q ≤ 4) (hth : th.Is thq) (ht : t.Is q) :
    let k := lit 1 - lit 2 * Libm.cos th
    let g := Libm.pow t (lit 3) + k * Libm.pow t (lit 2) + k * t + lit 1
    (Iv.conv b32 (.div b64 (P3I q) (GI q))).Has (SM.down (Libm.pow t (lit 3) / g) : F32) ∧
    (Iv.conv b32 (.div b64 (.pt 1) (GI q))).Has (SM.down (lit 1 / g) : F32) ∧
    (Iv.conv b32 (.divn b64 (.neg (.pt 3)) (GI q))).Has (SM.down (-lit 3 / g) : F32) ∧
    (Iv.conv b32 (.div b64 (.pt 3) (GI q))).Has (SM.down (lit 3 / g) : F32) ∧
    (Iv.conv b32 (.divn b64 (.neg (.pt 1)) (GI q))).Has (SM.down (-lit 1 / g) : F32) ∧
    (Iv.conv b32 (.div b64 (.add b64 (.add b64 (.mul b64 KI (P2I q)) (.mul b64 (.mul b64 (.pt 2) KI) (.pt q))) (.pt 3)) (GI q))).Has
      (SM.down ((k * Libm.pow t (lit 2) + lit 2 * k * t + lit 3) / g) : F32) ∧
    (Iv.conv b32 (.divn b64 (.sub b64 (.muln b64 (.neg KI) (.pt q)) (.pt 3)) (GI q))).Has (SM.down ((-k * t - lit 3) / g) : F32) := by
  intro k g
  have hk : KI.Has k := K_has ha hth
  obtain ⟨p2, p3⟩ := P_has ha h1 h2 ht
  have htI := Iv.pt_has ht
  have hg : (GI q).Has g := Iv.add_has (Iv.add_has (Iv.add_has p3 (Iv.mul_has hk p2)) (Iv.mul_has hk htI)) (Iv.pt_has (by decide +kernel))
  have l1 := Iv.pt_has (f := b64) (x := lit 1) (q := 1) (by decide +kernel)
  have l2 := Iv.pt_has (f := b64) (x := lit 2) (q := 2) (by decide +kernel)
  have l3 := Iv.pt_has (f := b64) (x := lit 3) (q := 3) (by decide +kernel)
  exact ⟨Iv.down_has (Iv.div_has p3 hg), Iv.down_has (Iv.div_has l1 hg), Iv.down_has (Iv.divn_has (Iv.neg_has l3) hg), Iv.down_has (Iv.div_has l3 hg),
    Iv.down_has (Iv.divn_has (Iv.neg_has l1) hg),
    Iv.down_has (Iv.div_has (Iv.add_has (Iv.add_has (Iv.mul_has hk p2) (Iv.mul_has (Iv.mul_has l2 hk) htI)) l3) hg),
    Iv.down_has (Iv.divn_has (Iv.sub_has (Iv.muln_has (Iv.neg_has hk) htI) l3) hg)⟩

private theorem lpA : (LowPass.new (lit 20000) (lit 0) : LowPass F32 F64) = ⟨lit 20000, lit 0, lit (1986429 / 4194304), lit (12035739 / 16777216),
    lit (-7294119 / 33554432), lit (7085119 / 268435456), lit 0, lit 0, lit 0⟩ := by
  have e1 : (Flt.fmin (lit 20000) (srM / lit 2) : F64) = lit 20000 := by decide +kernel
  have e2 : (Flt.fmax (Flt.fmin (lit 0) (lit 1)) (lit 0) : F64) = lit 0 := by decide +kernel
  obtain ⟨c0, c1, -, -, -, c5, c6⟩ := coefs ha (q := tA) (by decide +kernel) (by decide +kernel) (th := (SM.piM F32 / lit 6) * (lit 4 - lit 0))
    (t := lit 2 * SM.piM F32 * lit 20000 * invSR) (by decide +kernel) (by decide +kernel)
  have c0 := (c0.is (q := 1986429 / 4194304) (by decide +kernel)).eq_lit (by norm_num)
  have c1 := (c1.is (q := 7085119 / 268435456) (by decide +kernel)).eq_lit (by norm_num)
  have c5 := (c5.is (q := 12035739 / 16777216) (by decide +kernel)).eq_lit (by norm_num)
  have c6 := (c6.is (q := -7294119 / 33554432) (by decide +kernel)).eq_lit (by norm_num)
  unfold LowPass.new
  simp only [e1, e2]
  unfold LowPass.reset
  simp only [c0, c1, c5, c6]
  rfl

private theorem lpB : (LowPass.new (lit 100) (lit 0) : LowPass F32 F64) = ⟨lit 100, lit 0, lit (2402405 / 1099511627776), lit (12473115 / 4194304),
    lit (-12364745 / 4194304), lit (16343701 / 16777216), lit 0, lit 0, lit 0⟩ := by
  have e1 : (Flt.fmin (lit 100) (srM / lit 2) : F64) = lit 100 := by decide +kernel
  have e2 : (Flt.fmax (Flt.fmin (lit 0) (lit 1)) (lit 0) : F64) = lit 0 := by decide +kernel
  obtain ⟨c0, c1, -, -, -, c5, c6⟩ := coefs ha (q := tB) (by decide +kernel) (by decide +kernel) (th := (SM.piM F32 / lit 6) * (lit 4 - lit 0))
    (t := lit 2 * SM.piM F32 * lit 100 * invSR) (by decide +kernel) (by decide +kernel)
  have c0 := (c0.is (q := 2402405 / 1099511627776) (by decide +kernel)).eq_lit (by norm_num)
  have c1 := (c1.is (q := 16343701 / 16777216) (by decide +kernel)).eq_lit (by norm_num)
  have c5 := (c5.is (q := 12473115 / 4194304) (by decide +kernel)).eq_lit (by norm_num)
  have c6 := (c6.is (q := -12364745 / 4194304) (by decide +kernel)).eq_lit (by norm_num)
  unfold LowPass.new
  simp only [e1, e2]
  unfold LowPass.reset
  simp only [c0, c1, c5, c6]
  rfl

private theorem hpA : (HighPass.new (lit 20000) (lit 0) : HighPass F32 F64) = ⟨lit (7085119 / 268435456), lit (-10627679 / 134217728), lit (10627679 / 134217728),
    lit (-7085119 / 268435456), lit (12035739 / 16777216), lit (-7294119 / 33554432), lit (7085119 / 268435456), lit 0, lit 0, lit 0, lit 0, lit 0, lit 0,
    lit 20000, lit 0⟩ := by
  have e1 : (Flt.fmin (lit 20000) (srM / lit 2) : F64) = lit 20000 := by decide +kernel
  have e2 : (Flt.fmax (Flt.fmin (lit 0) (lit 1)) (lit 0) : F64) = lit 0 := by decide +kernel
  obtain ⟨-, c1, c2, c3, c4, c5, c6⟩ := coefs ha (q := tA) (by decide +kernel) (by decide +kernel) (th := SM.piM F32 * (lit 4 - lit 0) / lit 6)
    (t := lit 2 * SM.piM F32 * lit 20000 * invSR) (by decide +kernel) (by decide +kernel)
  have c1 := (c1.is (q := 7085119 / 268435456) (by decide +kernel)).eq_lit (by norm_num)
  have c2 := (c2.is (q := -10627679 / 134217728) (by decide +kernel)).eq_lit (by norm_num)
  have c3 := (c3.is (q := 10627679 / 134217728) (by decide +kernel)).eq_lit (by norm_num)
  have c4 := (c4.is (q := -7085119 / 268435456) (by decide +kernel)).eq_lit (by norm_num)
  have c5 := (c5.is (q := 12035739 / 16777216) (by decide +kernel)).eq_lit (by norm_num)
  have c6 := (c6.is (q := -7294119 / 33554432) (by decide +kernel)).eq_lit (by norm_num)
  unfold HighPass.new
  simp only [e1, e2]
  unfold HighPass.reset
  simp only [c1, c2, c3, c4, c5, c6]
  rfl

private theorem hpB : (HighPass.new (lit 100) (lit 0) : HighPass F32 F64) = ⟨lit (16343701 / 16777216), lit (-766111 / 262144), lit (766111 / 262144),
    lit (-16343701 / 16777216), lit (12473115 / 4194304), lit (-12364745 / 4194304), lit (16343701 / 16777216), lit 0, lit 0, lit 0, lit 0, lit 0, lit 0,
    lit 100, lit 0⟩ := by
  have e1 : (Flt.fmin (lit 100) (srM / lit 2) : F64) = lit 100 := by decide +kernel
  have e2 : (Flt.fmax (Flt.fmin (lit 0) (lit 1)) (lit 0) : F64) = lit 0 := by decide +kernel
  obtain ⟨-, c1, c2, c3, c4, c5, c6⟩ := coefs ha (q := tB) (by decide +kernel) (by decide +kernel) (th := SM.piM F32 * (lit 4 - lit 0) / lit 6)
    (t := lit 2 * SM.piM F32 * lit 100 * invSR) (by decide +kernel) (by decide +kernel)
  have c1 := (c1.is (q := 16343701 / 16777216) (by decide +kernel)).eq_lit (by norm_num)
  have c2 := (c2.is (q := -766111 / 262144) (by decide +kernel)).eq_lit (by norm_num)
  have c3 := (c3.is (q := 766111 / 262144) (by decide +kernel)).eq_lit (by norm_num)
  have c4 := (c4.is (q := -16343701 / 16777216) (by decide +kernel)).eq_lit (by norm_num)
  have c5 := (c5.is (q := 12473115 / 4194304) (by decide +kernel)).eq_lit (by norm_num)
  have c6 := (c6.is (q := -12364745 / 4194304) (by decide +kernel)).eq_lit (by norm_num)
  unfold HighPass.new
  simp only [e1, e2]
  unfold HighPass.reset
  simp only [c1, c2, c3, c4, c5, c6]
  rfl
end

private theorem mul_zero_is {c : F32} {q : ℚ} (h : c.Is q) : (c * lit 0 : F32).Is 0 := by
  have h0 : (lit 0 : F32).Is 0 := by decide +kernel
  have := h.mul h0 (by rw [mul_zero]; exact h0.fits)
  rwa [mul_zero, h0.rnd] at this

private theorem add_zero_is {x y : F32} (h : x.Is 0) (h' : y.Is 0) : (x + y).Is 0 := by
  have h0 : (lit 0 : F32).Is 0 := by decide +kernel
  have := h.add h' (by rw [add_zero]; exact h0.fits)
  rwa [add_zero, h0.rnd] at this

set_option exponentiation.threshold 300 in
/-- What `bursts` says. -/
private theorem burst {y : F32} {s m a b c d : ℕ} (hy : y.Is (val s m)) (h : bursts a b s m c d = true) : ¬ (lit (-12364745 / 4194304) * y : F32).Finite := by
  have g : m < 2 ^ 277 := (val_lt_iff s m).mp hy.abs_lt
  have hc : (lit (-12364745 / 4194304) : F32).Is ((-1) ^ 1 * (12364745 : ℕ) * pow2 (-(22 : ℕ))) := by decide +kernel
  refine Fl.not_finite_mul hc hy ?_
  unfold Fmt.Fits
  rw [mul_spec (by norm_num) g, val_lt_iff]
  intro hlt
  have h' : 1 ≤ (mulM (Nat.mul 12364745 m) (Nat.pred (Nat.shiftLeft 1 22)) 22) >>> 277 := Nat.le_of_ble_eq_true h
  rw [Nat.shiftRight_eq_div_pow, Nat.div_eq_of_lt hlt] at h'
  omega

section
variable [Libm F64] (ha : LibmAccurate)
include ha

/-- **C135**, violated by the low pass filter in `f32`. The cutoff is set to 20 kHz and 100 Hz in turn before each sample, without resonance; the
input is one sample of 1.0 and then silence. After 1415 samples (30 ms) the output is infinite or NaN, and stays so for ever, whatever
the parameters and the input are from then on. -/
theorem C135_lowpass_violated (q : ℕ → F64 × F64) (x : ℕ → F32)
    (hq : ∀ n ≤ 1415, q n = if Even n then (lit 20000, lit 0) else (lit 100, lit 0)) (h1 : x 0 = lit 1) (h0 : ∀ i, 0 < i → i ≤ 1415 → x i = lit 0)
    (n : ℕ) (hn : 1415 ≤ n) : ∃ y, tunedOut LowPass.tune Modifier.process q x (LowPass.new (lit 20000) (lit 0) : LowPass F32 F64) n = (.ok y : Res F32) ∧
      ¬ y.Finite := by
  obtain ⟨Y, Y0, Y1, Y2, hY⟩ := lp_tuned (LowPass.new (lit 20000) (lit 0) : LowPass F32 F64) q x
  refine ⟨Y (n + 3), (hY n).1, ?_⟩
  have e0 : (lit 0 : F32).Is 0 := by decide +kernel
  have qe : ∀ k, 2 * k ≤ 1415 → q (2 * k) = (lit 20000, lit 0) := fun k hk => by rw [hq _ hk, if_pos ⟨k, by ring⟩]
  have qo : ∀ k, 2 * k + 1 ≤ 1415 → q (2 * k + 1) = (lit 100, lit 0) := fun k hk => by rw [hq _ hk, if_neg (by rw [Nat.not_even_iff_odd]; exact ⟨k, rfl⟩)]
  have y1 : (Y 1).Is 0 := by rw [Y1, lpA ha]; exact e0
  have y2 : (Y 2).Is 0 := by rw [Y2, lpA ha]; exact e0
  have y3 : (Y 3).Is (val 0 337973380920196435519543879033039948257165312) := by
    have := (hY 0).2
    rw [show q 0 = _ from qe 0 (by norm_num), h1, show Y (0 + 2) = _ from Y2, show Y (0 + 1) = _ from Y1, Y0] at this
    simp only [lpA ha] at this
    rw [this]
    decide +kernel
  have base : ¬ (Y (1415 + 3)).Finite := by
    have hr := sw_sound (B1 := lit (12473115 / 4194304)) (B2 := lit (-12364745 / 4194304)) (B3 := lit (16343701 / 16777216))
      (D1 := lit (12035739 / 16777216)) (D2 := lit (-7294119 / 33554432)) (D3 := lit (7085119 / 268435456))
      (c1 := 0) (b1 := 12473115) (k1 := 22) (c2 := 1) (b2 := 12364745) (k2 := 22) (c3 := 0) (b3 := 16343701) (k3 := 24)
      (d1 := 0) (e1 := 12035739) (i1 := 24) (d2 := 1) (e2 := 7294119) (i2 := 25) (d3 := 0) (e3 := 7085119) (i3 := 28)
      (by decide +kernel) (by decide +kernel) (by decide +kernel) (by decide) (by decide) (by decide)
      (by decide +kernel) (by decide +kernel) (by decide +kernel) (by decide) (by decide) (by decide) (N := 707) (y := fun n => Y (n + 1))
      (z := fun n => (LowPass.new (q (n + 1)).1 (q (n + 1)).2 : LowPass F32 F64).c0 * x (n + 1)) (fun n hn => ?_) (fun n hn => ?_) (fun n hn => ?_)
      y3 (s2 := 0) (m2 := 0) (by rw [show val 0 0 = 0 by simp [val]]; exact y2) (s3 := 0) (m3 := 0) (by rw [show val 0 0 = 0 by simp [val]]; exact y1)
      run_zigzag_lp
    · obtain ⟨s1, m1, s2, m2, s3, m3, -, w2, -, hb⟩ := hr
      have := (hY 1415).2
      rw [this, show q 1415 = _ from qo 707 (by norm_num)]
      simp only [lpB ha]
      exact not_finite_add_left (not_finite_add_right (burst w2 hb))
    · rw [h0 _ (by omega) (by omega)]
      rcases Nat.even_or_odd' n with ⟨k, rfl | rfl⟩
      · rw [qo k (by omega), lpB ha]; exact mul_zero_is (q := 2402405 / 1099511627776) (by decide +kernel)
      · rw [show 2 * k + 1 + 1 = 2 * (k + 1) by ring, qe (k + 1) (by omega), lpA ha]; exact mul_zero_is (q := 1986429 / 4194304) (by decide +kernel)
    · have := (hY (2 * n + 1)).2
      rw [show 2 * n + 3 + 1 = 2 * n + 1 + 3 by ring, this, qo n (by omega)]
      simp only [lpB ha]
    · have := (hY (2 * (n + 1))).2
      rw [show 2 * n + 4 + 1 = 2 * (n + 1) + 3 by ring, this, show 2 * n + 1 + 1 = 2 * (n + 1) by ring, qe (n + 1) (by omega)]
      simp only [lpA ha]
      rfl
  induction n, hn using Nat.le_induction with
  | base => exact base
  | succ n hn ih =>
    rw [(hY (n + 1)).2]
    exact not_finite_add_left (not_finite_add_left (not_finite_add_right (not_finite_mul_right ih)))

/-- **C135**, violated by the low pass filter in `f32`, one change only: a filter at 20 kHz is given five samples 1, 1, -1, -1, 1; then its cutoff
is set to 100 Hz and the input is silent. 158 samples later the output is above 3000, though no input was above 1. -/
theorem C135_jump_violated (q : ℕ → F64 × F64) (x : ℕ → F32)
    (hq : ∀ n ≤ 162, q n = if n < 5 then (lit 20000, lit 0) else (lit 100, lit 0))
    (hx : x 0 = lit 1 ∧ x 1 = lit 1 ∧ x 2 = lit (-1) ∧ x 3 = lit (-1) ∧ x 4 = lit 1) (h0 : ∀ i, 5 ≤ i → i ≤ 162 → x i = lit 0) :
    ∃ y v, tunedOut LowPass.tune Modifier.process q x (LowPass.new (lit 20000) (lit 0) : LowPass F32 F64) 162 = (.ok y : Res F32) ∧
      y.Is v ∧ 3000 ≤ v := by
  obtain ⟨Y, Y0, Y1, Y2, hY⟩ := lp_tuned (LowPass.new (lit 20000) (lit 0) : LowPass F32 F64) q x
  have qA : ∀ k < 5, q k = (lit 20000, lit 0) := fun k hk => by rw [hq _ (by omega), if_pos hk]
  have qB : ∀ k, k ≤ 157 → q (k + 5) = (lit 100, lit 0) := fun k hk => by rw [hq _ (by omega), if_neg (by omega)]
  obtain ⟨x0, x1, x2, x3, x4⟩ := hx
  rw [lpA ha] at Y0 Y1 Y2
  have s0 := (hY 0).2
  have s1 := (hY 1).2
  have s2 := (hY 2).2
  have s3 := (hY 3).2
  have s4 := (hY 4).2
  rw [qA 0 (by norm_num), x0] at s0
  rw [qA 1 (by norm_num), x1] at s1
  rw [qA 2 (by norm_num), x2] at s2
  rw [qA 3 (by norm_num), x3] at s3
  rw [qA 4 (by norm_num), x4] at s4
  simp only [lpA ha] at s0 s1 s2 s3 s4 Y0 Y1 Y2
  norm_num only at s0 s1 s2 s3 s4
  rw [Y2, Y1, Y0] at s0
  have v3 : Y 3 = lit (1986429 / 4194304) := Fl.Is.eq_lit (by rw [s0]; decide +kernel) (by norm_num)
  rw [v3, Y2, Y1] at s1
  have v4 : Y 4 = lit (13645861 / 16777216) := Fl.Is.eq_lit (by rw [s1]; decide +kernel) (by norm_num)
  rw [v4, v3, Y2] at s2
  have v5 : Y 5 = lit (931039 / 134217728) := Fl.Is.eq_lit (by rw [s2]; decide +kernel) (by norm_num)
  rw [v5, v4, v3] at s3
  have v6 : Y 6 = lit (-10618867 / 16777216) := Fl.Is.eq_lit (by rw [s3]; decide +kernel) (by norm_num)
  rw [v6, v5, v4] at s4
  have v7 : Y 7 = lit (2651047 / 67108864) := Fl.Is.eq_lit (by rw [s4]; decide +kernel) (by norm_num)
  have hr := sw_sound (B1 := lit (12473115 / 4194304)) (B2 := lit (-12364745 / 4194304)) (B3 := lit (16343701 / 16777216))
      (D1 := lit (12473115 / 4194304)) (D2 := lit (-12364745 / 4194304)) (D3 := lit (16343701 / 16777216))
      (c1 := 0) (b1 := 12473115) (k1 := 22) (c2 := 1) (b2 := 12364745) (k2 := 22) (c3 := 0) (b3 := 16343701) (k3 := 24)
      (d1 := 0) (e1 := 12473115) (i1 := 22) (d2 := 1) (e2 := 12364745) (i2 := 22) (d3 := 0) (e3 := 16343701) (i3 := 24)
      (by decide +kernel) (by decide +kernel) (by decide +kernel) (by decide) (by decide) (by decide)
      (by decide +kernel) (by decide +kernel) (by decide +kernel) (by decide) (by decide) (by decide) (N := 79) (y := fun n => Y (n + 5))
      (z := fun n => lit (2402405 / 1099511627776) * x (n + 5)) (fun n hn => ?_) (fun n hn => ?_) (fun n hn => ?_)
      (s1 := 0) (m1 := 28190767124332910960912151965880213177368576) (by rw [v7]; decide +kernel)
      (s2 := 1) (m2 := 451676649597330632337741790936894776534892544) (by rw [v6]; decide +kernel)
      (s3 := 0) (m3 := 4950252415870369157569950486385406934777856) (by rw [v5]; decide +kernel)
      run_jump
  · obtain ⟨t1, m1, t2, m2, t3, m3, w1, -, -, hl⟩ := hr
    refine ⟨Y (162 + 3), _, (hY 162).1, w1, ?_⟩
    obtain ⟨rfl, hl⟩ := chk_eq hl
    have hl : 2140871539058939821587428954174242704574119936000 ≤ m1 := Nat.le_of_ble_eq_true hl
    have : ((2140871539058939821587428954174242704574119936000 : ℕ) : ℚ) ≤ m1 := by exact_mod_cast hl
    have e : (3000 : ℚ) = (2140871539058939821587428954174242704574119936000 : ℕ) * pow2 (-149) := by decide +kernel
    rw [e]
    unfold val
    rw [pow_zero, one_mul]
    exact mul_le_mul_of_nonneg_right this (pow2_pos _).le
  · rw [h0 _ (by omega) (by omega)]
    exact mul_zero_is (q := 2402405 / 1099511627776) (by decide +kernel)
  · have := (hY (2 * n + 5)).2
    rw [show 2 * n + 3 + 5 = 2 * n + 5 + 3 by ring, this, qB (2 * n) (by omega)]
    simp only [lpB ha]
  · have := (hY (2 * n + 1 + 5)).2
    rw [show 2 * n + 4 + 5 = 2 * n + 1 + 5 + 3 by ring, this, qB (2 * n + 1) (by omega)]
    simp only [lpB ha]

/-- **C135**, violated by the high pass filter in `f32` in the same way, from sample 1405 on. -/
theorem C135_highpass_violated (q : ℕ → F64 × F64) (x : ℕ → F32)
    (hq : ∀ n ≤ 1405, q n = if Even n then (lit 20000, lit 0) else (lit 100, lit 0)) (h1 : x 0 = lit 1) (h0 : ∀ i, 0 < i → i ≤ 1405 → x i = lit 0)
    (n : ℕ) (hn : 1405 ≤ n) : ∃ y, tunedOut HighPass.tune Modifier.process q x (HighPass.new (lit 20000) (lit 0) : HighPass F32 F64) n = (.ok y : Res F32) ∧
      ¬ y.Finite := by
  obtain ⟨U, Y, ⟨U0, U1, U2, hU⟩, ⟨Y0, Y1, Y2⟩, hY⟩ := hp_tuned (HighPass.new (lit 20000) (lit 0) : HighPass F32 F64) q x
  refine ⟨Y (n + 3), (hY n).1, ?_⟩
  have qe : ∀ k, 2 * k ≤ 1405 → q (2 * k) = (lit 20000, lit 0) := fun k hk => by rw [hq _ hk, if_pos ⟨k, by ring⟩]
  have qo : ∀ k, 2 * k + 1 ≤ 1405 → q (2 * k + 1) = (lit 100, lit 0) := fun k hk => by rw [hq _ hk, if_neg (by rw [Nat.not_even_iff_odd]; exact ⟨k, rfl⟩)]
  have base : ¬ (Y (1405 + 3)).Finite := by
    have s0 := (hY 0).2
    have s1 := (hY 1).2
    have s2 := (hY 2).2
    have s3 := (hY 3).2
    have s4 := (hY 4).2
    have U3 : U 3 = lit 1 := by rw [show U 3 = _ from hU 0, h1]
    have Uz : ∀ i, 0 < i → i ≤ 1405 → U (i + 3) = lit 0 := fun i h h' => by rw [hU i, h0 i h h']
    have U4 := Uz 1 (by norm_num) (by norm_num)
    have U5 := Uz 2 (by norm_num) (by norm_num)
    have U6 := Uz 3 (by norm_num) (by norm_num)
    rw [show q 0 = _ from qe 0 (by norm_num), h1] at s0
    rw [show q 1 = _ from qo 0 (by norm_num), h0 1 (by norm_num) (by norm_num)] at s1
    rw [show q 2 = _ from qe 1 (by norm_num), h0 2 (by norm_num) (by norm_num)] at s2
    rw [show q 3 = _ from qo 1 (by norm_num), h0 3 (by norm_num) (by norm_num)] at s3
    rw [show q 4 = _ from qe 2 (by norm_num), h0 4 (by norm_num) (by norm_num)] at s4
    simp only [hpA ha, hpB ha] at s0 s1 s2 s3 s4 Y0 Y1 Y2 U0 U1 U2
    norm_num only at s0 s1 s2 s3 s4 U4 U5 U6
    rw [Y2, Y1, Y0, U2, U1, U0] at s0
    have v3 : Y 3 = lit (7085119 / 268435456) := Fl.Is.eq_lit (by rw [s0]; decide +kernel) (by norm_num)
    rw [v3, Y2, Y1, U3, U2, U1] at s1
    have v4 : Y 4 = lit (-11928559 / 4194304) := Fl.Is.eq_lit (by rw [s1]; decide +kernel) (by norm_num)
    rw [v4, v3, Y2, U4, U3, U2] at s2
    have v5 : Y 5 = lit (-8249331 / 4194304) := Fl.Is.eq_lit (by rw [s2]; decide +kernel) (by norm_num)
    rw [v5, v4, v3, U5, U4, U3] at s3
    have v6 : Y 6 = lit (13310173 / 8388608) := Fl.Is.eq_lit (by rw [s3]; decide +kernel) (by norm_num)
    rw [v6, v5, v4, U6, U5, U4] at s4
    have v7 : Y 7 = lit (6252675 / 4194304) := Fl.Is.eq_lit (by rw [s4]; decide +kernel) (by norm_num)
    have hr := sw_sound (B1 := lit (12473115 / 4194304)) (B2 := lit (-12364745 / 4194304)) (B3 := lit (16343701 / 16777216))
      (D1 := lit (12035739 / 16777216)) (D2 := lit (-7294119 / 33554432)) (D3 := lit (7085119 / 268435456))
      (c1 := 0) (b1 := 12473115) (k1 := 22) (c2 := 1) (b2 := 12364745) (k2 := 22) (c3 := 0) (b3 := 16343701) (k3 := 24)
      (d1 := 0) (e1 := 12035739) (i1 := 24) (d2 := 1) (e2 := 7294119) (i2 := 25) (d3 := 0) (e3 := 7085119) (i3 := 28)
      (by decide +kernel) (by decide +kernel) (by decide +kernel) (by decide) (by decide) (by decide)
      (by decide +kernel) (by decide +kernel) (by decide +kernel) (by decide) (by decide) (by decide) (N := 700) (y := fun n => Y (n + 5))
      (z := fun n => (HighPass.new (q (n + 5)).1 (q (n + 5)).2 : HighPass F32 F64).a0 * x (n + 5) + (HighPass.new (q (n + 5)).1 (q (n + 5)).2 : HighPass F32 F64).a1 * U (n + 7) +
        (HighPass.new (q (n + 5)).1 (q (n + 5)).2 : HighPass F32 F64).a2 * U (n + 6) + (HighPass.new (q (n + 5)).1 (q (n + 5)).2 : HighPass F32 F64).a3 * U (n + 5))
      (fun n hn => ?_) (fun n hn => ?_) (fun n hn => ?_)
      (s1 := 0) (m1 := 1063837524293689453517927911761715650782822400) (by rw [v7]; decide +kernel)
      (s2 := 0) (m2 := 1132304293141792067762923797180980147594985472) (by rw [v6]; decide +kernel)
      (s3 := 1) (m3 := 1403550939097136107870391756849857945789267968) (by rw [v5]; decide +kernel)
      run_zigzag_hp
    · obtain ⟨s1, m1, s2, m2, s3, m3, -, w2, -, hb⟩ := hr
      have := (hY 1405).2
      rw [this, show q 1405 = _ from qo 702 (by norm_num)]
      simp only [hpB ha]
      exact not_finite_add_left (not_finite_add_right (burst w2 hb))
    · rw [h0 _ (by omega) (by omega), Uz (n + 4) (by omega) (by omega), Uz (n + 3) (by omega) (by omega), Uz (n + 2) (by omega) (by omega)]
      rcases Nat.even_or_odd' n with ⟨k, rfl | rfl⟩
      · rw [show 2 * k + 5 = 2 * (k + 2) + 1 by ring, qo (k + 2) (by omega), hpB ha]
        exact add_zero_is (add_zero_is (add_zero_is (mul_zero_is (q := 16343701 / 16777216) (by decide +kernel)) (mul_zero_is (q := -766111 / 262144) (by decide +kernel)))
          (mul_zero_is (q := 766111 / 262144) (by decide +kernel))) (mul_zero_is (q := -16343701 / 16777216) (by decide +kernel))
      · rw [show 2 * k + 1 + 5 = 2 * (k + 3) by ring, qe (k + 3) (by omega), hpA ha]
        exact add_zero_is (add_zero_is (add_zero_is (mul_zero_is (q := 7085119 / 268435456) (by decide +kernel)) (mul_zero_is (q := -10627679 / 134217728) (by decide +kernel)))
          (mul_zero_is (q := 10627679 / 134217728) (by decide +kernel))) (mul_zero_is (q := -7085119 / 268435456) (by decide +kernel))
    · have := (hY (2 * (n + 2) + 1)).2
      rw [show 2 * n + 3 + 5 = 2 * (n + 2) + 1 + 3 by ring, this, show 2 * n + 5 = 2 * (n + 2) + 1 by ring, qo (n + 2) (by omega)]
      simp only [hpB ha]
      rfl
    · have := (hY (2 * (n + 3))).2
      rw [show 2 * n + 4 + 5 = 2 * (n + 3) + 3 by ring, this, show 2 * n + 1 + 5 = 2 * (n + 3) by ring, qe (n + 3) (by omega)]
      simp only [hpA ha]
      rfl
  induction n, hn using Nat.le_induction with
  | base => exact base
  | succ n hn ih =>
    rw [(hY (n + 1)).2]
    exact not_finite_add_left (not_finite_add_left (not_finite_add_right (not_finite_mul_right ih)))
end

/-- The two settings in turn, one sample of 1.0 and then silence. -/
example : ∃ l : Libm F64, @LibmAccurate l ∧ ∃ (q : ℕ → F64 × F64) (x : ℕ → F32), (∀ n, q n = if Even n then (lit 20000, lit 0) else (lit 100, lit 0)) ∧
    x 0 = lit 1 ∧ ∀ i, 0 < i → x i = lit 0 := by
  obtain ⟨l, hl⟩ := libmAccurate_exists
  exact ⟨l, hl, fun n => if Even n then (lit 20000, lit 0) else (lit 100, lit 0), fun i => if i = 0 then lit 1 else lit 0, fun n => rfl, rfl, fun i h => if_neg h.ne'⟩
end Verif
