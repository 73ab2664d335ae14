import Verif.Float.Runs
import Verif.Float.Interval
import Verif.Spec.Libm
import Verif.Spec.Filter
import Verif.Model.Modifiers
import Mathlib.Analysis.Real.Pi.Bounds

/-! # LowPass and HighPass in `f32`: C96 -/

namespace Verif
open Fl Fast

/-! ## the coefficients at 20 Hz, resonance 1

They are pinned for every libm that meets `LibmAccurate`. -/

/-- `w * INV_SAMPLE_RATE` at 20 Hz. -/
private def tq : ℚ := 6036682881730935 / 2305843009213693952
/-- The angle at resonance 1, next to π/2. -/
private def thq : ℚ := 884279719003555 / 562949953421312
private def KI : Iv := Iv.sub b64 (.pt 1) ⟨-pow2 (-38), pow2 (-38), true⟩
private def P2I : Iv := ⟨tq ^ 2 - (2 ^ 40)⁻¹ * tq ^ 2, tq ^ 2 + (2 ^ 40)⁻¹ * tq ^ 2, true⟩
private def P3I : Iv := ⟨tq ^ 3 - (2 ^ 40)⁻¹ * tq ^ 3, tq ^ 3 + (2 ^ 40)⁻¹ * tq ^ 3, true⟩
private def GI : Iv := .add b64 (.add b64 (.add b64 P3I (.mul b64 KI P2I)) (.mul b64 KI (.pt tq))) (.pt 1)

private theorem cos_thq : |Real.cos thq| ≤ (2 ^ 40 : ℝ)⁻¹ := by
  have e : Real.cos thq = Real.sin (Real.pi / 2 - thq) := by rw [Real.sin_pi_div_two_sub]
  rw [e]
  refine (Real.abs_sin_le_abs (x := Real.pi / 2 - thq)).trans ?_
  have h1 := Real.pi_gt_d20
  have h2 := Real.pi_lt_d20
  have : ((thq : ℚ) : ℝ) = 884279719003555 / 562949953421312 := by unfold thq; push_cast; rfl
  rw [this, abs_le]
  constructor <;> norm_num at h1 h2 ⊢ <;> linarith

section
variable [Libm F64] (ha : LibmAccurate)
include ha

private theorem K_has {th : F64} (h : th.Is thq) : KI.Has (lit 1 - lit 2 * Libm.cos th : F64) := by
  obtain ⟨c, hc, h1⟩ := ha.cos th thq h (by decide +kernel)
  have h2 : |(c : ℝ)| ≤ ((pow2 (-39) : ℚ) : ℝ) := by
    have : |(c : ℝ)| ≤ |(c : ℝ) - Real.cos thq| + |Real.cos thq| := by
      simpa using abs_add_le ((c : ℝ) - Real.cos thq) (Real.cos thq)
    have e : ((pow2 (-39) : ℚ) : ℝ) = (2 ^ 40 : ℝ)⁻¹ + (2 ^ 40 : ℝ)⁻¹ := by
      rw [pow2_eq]; push_cast; norm_num
    rw [e]
    have := cos_thq
    linarith
  have h3 : |c| ≤ pow2 (-39) := by exact_mod_cast h2
  have e38 : pow2 (-38) = 2 * pow2 (-39) := by decide +kernel
  have r38 : b64.Repr (pow2 (-38)) := b64.repr_pow2 (by decide)
  have hb : |2 * c| ≤ pow2 (-38) := by rw [abs_mul, abs_two, e38]; linarith
  have hm : (⟨-pow2 (-38), pow2 (-38), true⟩ : Iv).Has (lit 2 * Libm.cos th : F64) := by
    intro _
    have h2 : (lit 2 : F64).Is 2 := by decide +kernel
    refine ⟨_, h2.mul hc (Fmt.fits_of_le_pow2 (k := -38) (by decide) (by decide) hb), ?_, ?_⟩
    · exact b64.repr_le_rnd (b64.repr_neg r38) (abs_le.mp hb).1
    · exact b64.rnd_le_repr r38 (abs_le.mp hb).2
  exact Iv.sub_has (Iv.pt_has (by decide +kernel)) hm

private theorem P_has {t : F64} (h : t.Is tq) : P2I.Has (Libm.pow t (lit 2) : F64) ∧ P3I.Has (Libm.pow t (lit 3) : F64) := by
  have h1 : pow2 (-20) ≤ tq := by decide +kernel
  have h2 : tq ≤ 4 := by decide +kernel
  constructor
  · obtain ⟨p, hp, hb⟩ := ha.pow t tq 2 h h1 h2 (.inl rfl)
    exact fun _ => ⟨p, hp, by have := (abs_le.mp hb).1; simp only [P2I]; linarith, by have := (abs_le.mp hb).2; simp only [P2I]; linarith⟩
  · obtain ⟨p, hp, hb⟩ := ha.pow t tq 3 h h1 h2 (.inr rfl)
    exact fun _ => ⟨p, hp, by have := (abs_le.mp hb).1; simp only [P3I]; linarith, by have := (abs_le.mp hb).2; simp only [P3I]; linarith⟩

private theorem coefs {th t : F64} (hth : th.Is thq) (ht : t.Is tq) :
    let k := lit 1 - lit 2 * Libm.cos th
    let g := Libm.pow t (lit 3) + k * Libm.pow t (lit 2) + k * t + lit 1
    (SM.down (Libm.pow t (lit 3) / g) : F32) = lit (5037409 / 281474976710656) ∧
    (SM.down (lit 1 / g) : F32) = lit (16733293 / 16777216) ∧
    (SM.down (-lit 3 / g) : F32) = lit (-6274985 / 2097152) ∧
    (SM.down (lit 3 / g) : F32) = lit (6274985 / 2097152) ∧
    (SM.down (-lit 1 / g) : F32) = lit (-16733293 / 16777216) ∧
    (SM.down ((k * Libm.pow t (lit 2) + lit 2 * k * t + lit 3) / g) : F32) = lit (12571903 / 4194304) ∧
    (SM.down ((-k * t - lit 3) / g) : F32) = lit (-6280461 / 2097152) := by
  intro k g
  have hk : KI.Has k := K_has ha hth
  obtain ⟨h2, h3⟩ := P_has ha ht
  have htI := Iv.pt_has ht
  have hg : GI.Has g := Iv.add_has (Iv.add_has (Iv.add_has h3 (Iv.mul_has hk h2)) (Iv.mul_has hk htI)) (Iv.pt_has (by decide +kernel))
  have l1 := Iv.pt_has (f := b64) (x := lit 1) (q := 1) (by decide +kernel)
  have l2 := Iv.pt_has (f := b64) (x := lit 2) (q := 2) (by decide +kernel)
  have l3 := Iv.pt_has (f := b64) (x := lit 3) (q := 3) (by decide +kernel)
  refine ⟨?_, ?_, ?_, ?_, ?_, ?_, ?_⟩
  · exact ((Iv.down_has (Iv.div_has h3 hg)).is (q := 5037409 / 281474976710656) (by decide +kernel)).eq_lit (by norm_num)
  · exact ((Iv.down_has (Iv.div_has l1 hg)).is (q := 16733293 / 16777216) (by decide +kernel)).eq_lit (by norm_num)
  · exact ((Iv.down_has (Iv.divn_has (Iv.neg_has l3) hg)).is (q := -6274985 / 2097152) (by decide +kernel)).eq_lit (by norm_num)
  · exact ((Iv.down_has (Iv.div_has l3 hg)).is (q := 6274985 / 2097152) (by decide +kernel)).eq_lit (by norm_num)
  · exact ((Iv.down_has (Iv.divn_has (Iv.neg_has l1) hg)).is (q := -16733293 / 16777216) (by decide +kernel)).eq_lit (by norm_num)
  · exact ((Iv.down_has (Iv.div_has (Iv.add_has (Iv.add_has (Iv.mul_has hk h2) (Iv.mul_has (Iv.mul_has l2 hk) htI)) l3) hg)).is
      (q := 12571903 / 4194304) (by decide +kernel)).eq_lit (by norm_num)
  · exact ((Iv.down_has (Iv.divn_has (Iv.sub_has (Iv.muln_has (Iv.neg_has hk) htI) l3) hg)).is
      (q := -6280461 / 2097152) (by decide +kernel)).eq_lit (by norm_num)

private def hp0 : HighPass F32 F64 :=
  ⟨lit (16733293 / 16777216), lit (-6274985 / 2097152), lit (6274985 / 2097152), lit (-16733293 / 16777216),
    lit (12571903 / 4194304), lit (-6280461 / 2097152), lit (16733293 / 16777216),
    lit 0, lit 0, lit 0, lit 0, lit 0, lit 0, lit 20, lit 1⟩
private def lp0 : LowPass F32 F64 :=
  ⟨lit 20, lit 1, lit (5037409 / 281474976710656), lit (12571903 / 4194304), lit (-6280461 / 2097152),
    lit (16733293 / 16777216), lit 0, lit 0, lit 0⟩

private theorem hp_new : (HighPass.new (lit 20) (lit 1) : HighPass F32 F64) = hp0 := by
  have e1 : (Flt.fmin (lit 20) (srM / lit 2) : F64) = lit 20 := by decide +kernel
  have e2 : (Flt.fmax (Flt.fmin (lit 1) (lit 1)) (lit 0) : F64) = lit 1 := by decide +kernel
  obtain ⟨-, c1, c2, c3, c4, c5, c6⟩ := coefs ha (th := SM.piM F32 * (lit 4 - lit 1) / lit 6)
    (t := lit 2 * SM.piM F32 * lit 20 * invSR) (by decide +kernel) (by decide +kernel)
  unfold HighPass.new
  simp only [e1, e2]
  unfold HighPass.reset
  simp only [c1, c2, c3, c4, c5, c6]
  rfl

private theorem lp_new : (LowPass.new (lit 20) (lit 1) : LowPass F32 F64) = lp0 := by
  have e1 : (Flt.fmin (lit 20) (srM / lit 2) : F64) = lit 20 := by decide +kernel
  have e2 : (Flt.fmax (Flt.fmin (lit 1) (lit 1)) (lit 0) : F64) = lit 1 := by decide +kernel
  obtain ⟨c0, c1, -, -, -, c5, c6⟩ := coefs ha (th := (SM.piM F32 / lit 6) * (lit 4 - lit 1))
    (t := lit 2 * SM.piM F32 * lit 20 * invSR) (by decide +kernel) (by decide +kernel)
  unfold LowPass.new
  simp only [e1, e2]
  unfold LowPass.reset
  simp only [c0, c1, c5, c6]
  rfl
end

/-! ## the runs -/

/-- States and outputs of a filter that never panics. -/
private theorem run_exists {X : Type} (p : X → F32 → F32 × X) (x : ℕ → F32) (m : X) :
    ∃ (s : ℕ → X) (y : ℕ → F32), s 0 = m ∧ (∀ n, (y n, s (n + 1)) = p (s n) (x n)) ∧
      ∀ n, modOut (fun m v => (Except.ok (p m v) : Res (F32 × X))) x m n = .ok (y n) := by
  let s : ℕ → X := fun n => Nat.rec m (fun n s => (p s (x n)).2) n
  refine ⟨s, fun n => (p (s n) (x n)).1, rfl, fun n => rfl, fun n => ?_⟩
  have h : ∀ n, modAfter (fun m v => (Except.ok (p m v) : Res (F32 × X))) x m n = .ok (s n) := by
    intro n
    induction n with
    | zero => rfl
    | succ n ih => exact modAfter_succ ih rfl
  exact modOut_of (h n) rfl

private theorem hp_run (x : ℕ → F32) : ∃ y : ℕ → F32,
    (∀ n, modOut Modifier.process x hp0 n = .ok (y n)) ∧
    y 0 = (hp0.process (x 0)).1 ∧
    y 1 = ((hp0.process (x 0)).2.process (x 1)).1 ∧
    y 2 = (((hp0.process (x 0)).2.process (x 1)).2.process (x 2)).1 ∧
    y 3 = ((((hp0.process (x 0)).2.process (x 1)).2.process (x 2)).2.process (x 3)).1 ∧
    ∀ n, y (n + 4) = hp0.a0 * x (n + 4) + hp0.a1 * x (n + 3) + hp0.a2 * x (n + 2) + hp0.a3 * x (n + 1) +
      hp0.b1 * y (n + 3) + hp0.b2 * y (n + 2) + hp0.b3 * y (n + 1) := by
  obtain ⟨s, y, h0, hs, hy⟩ := run_exists HighPass.process x hp0
  have hs1 : ∀ n, y n = ((s n).process (x n)).1 := fun n => congrArg Prod.fst (hs n)
  have hs2 : ∀ n, s (n + 1) = ((s n).process (x n)).2 := fun n => congrArg Prod.snd (hs n)
  refine ⟨y, hy, ?_, ?_, ?_, ?_, fun n => ?_⟩
  · rw [hs1, h0]
  · rw [hs1, hs2, h0]
  · rw [hs1, hs2, hs2, h0]
  · rw [hs1, hs2, hs2, hs2, h0]
  · have hc : ∀ n, (s n).a0 = hp0.a0 ∧ (s n).a1 = hp0.a1 ∧ (s n).a2 = hp0.a2 ∧ (s n).a3 = hp0.a3 ∧
        (s n).b1 = hp0.b1 ∧ (s n).b2 = hp0.b2 ∧ (s n).b3 = hp0.b3 := by
      intro n
      induction n with
      | zero => rw [h0]; exact ⟨rfl, rfl, rfl, rfl, rfl, rfl, rfl⟩
      | succ n ih => rw [hs2]; exact ih
    have hx1 : ∀ n, (s (n + 1)).x1 = x n := fun n => by rw [hs2]; rfl
    have hx2 : ∀ n, (s (n + 2)).x2 = x n := fun n => by rw [hs2]; exact hx1 n
    have hx3 : ∀ n, (s (n + 3)).x3 = x n := fun n => by rw [hs2]; exact hx2 n
    have hy1 : ∀ n, (s (n + 1)).y1 = y n := fun n => by rw [hs2, hs1]; rfl
    have hy2 : ∀ n, (s (n + 2)).y2 = y n := fun n => by rw [hs2]; exact hy1 n
    have hy3 : ∀ n, (s (n + 3)).y3 = y n := fun n => by rw [hs2]; exact hy2 n
    obtain ⟨c0, c1, c2, c3, c4, c5, c6⟩ := hc (n + 4)
    rw [hs1 (n + 4)]
    unfold HighPass.process
    simp only
    rw [c0, c1, c2, c3, c4, c5, c6, hx1, hx2, hx3, hy1, hy2, hy3]

private theorem lp_run (x : ℕ → F32) : ∃ y : ℕ → F32,
    (∀ n, modOut Modifier.process x lp0 n = .ok (y n)) ∧
    y 0 = (lp0.process (x 0)).1 ∧
    y 1 = ((lp0.process (x 0)).2.process (x 1)).1 ∧
    y 2 = (((lp0.process (x 0)).2.process (x 1)).2.process (x 2)).1 ∧
    y 3 = ((((lp0.process (x 0)).2.process (x 1)).2.process (x 2)).2.process (x 3)).1 ∧
    ∀ n, y (n + 4) = lp0.c0 * x (n + 4) + lp0.c1 * y (n + 3) + lp0.c2 * y (n + 2) + lp0.c3 * y (n + 1) := by
  obtain ⟨s, y, h0, hs, hy⟩ := run_exists LowPass.process x lp0
  have hs1 : ∀ n, y n = ((s n).process (x n)).1 := fun n => congrArg Prod.fst (hs n)
  have hs2 : ∀ n, s (n + 1) = ((s n).process (x n)).2 := fun n => congrArg Prod.snd (hs n)
  refine ⟨y, hy, ?_, ?_, ?_, ?_, fun n => ?_⟩
  · rw [hs1, h0]
  · rw [hs1, hs2, h0]
  · rw [hs1, hs2, hs2, h0]
  · rw [hs1, hs2, hs2, hs2, h0]
  · have hc : ∀ n, (s n).c0 = lp0.c0 ∧ (s n).c1 = lp0.c1 ∧ (s n).c2 = lp0.c2 ∧ (s n).c3 = lp0.c3 := by
      intro n
      induction n with
      | zero => rw [h0]; exact ⟨rfl, rfl, rfl, rfl⟩
      | succ n ih => rw [hs2]; exact ih
    have hy1 : ∀ n, (s (n + 1)).o0 = y n := fun n => by rw [hs2, hs1]; rfl
    have hy2 : ∀ n, (s (n + 2)).o1 = y n := fun n => by rw [hs2]; exact hy1 n
    have hy3 : ∀ n, (s (n + 3)).o2 = y n := fun n => by rw [hs2]; exact hy2 n
    obtain ⟨c0, c1, c2, c3⟩ := hc (n + 4)
    rw [hs1 (n + 4)]
    unfold LowPass.process
    simp only
    rw [c0, c1, c2, c3, hy1, hy2, hy3]

private theorem mul_zero_is {c : F32} {q : ℚ} (h : c.Is q) : (c * lit 0 : F32).Is 0 := by
  have h0 : (lit 0 : F32).Is 0 := by decide +kernel
  have := h.mul h0 (by rw [mul_zero]; exact h0.fits)
  rwa [mul_zero, h0.rnd] at this

private theorem add_zero_is {x y : F32} (h : x.Is 0) (h' : y.Is 0) : (x + y).Is 0 := by
  have h0 : (lit 0 : F32).Is 0 := by decide +kernel
  have := h.add h' (by rw [add_zero]; exact h0.fits)
  rwa [add_zero, h0.rnd] at this

section
variable [Libm F64] (ha : LibmAccurate)
include ha

/-- A 20 Hz high pass filter with resonance 1, given one sample of 1.0 and then silence, never outputs a finite
sample again from sample 34004 (0.71 s) on, whatever its input is from then on. -/
theorem C96_highpass_violated (x : ℕ → F32) (h1 : x 0 = lit 1) (h0 : ∀ i, 0 < i → i < 34004 → x i = lit 0)
    (n : ℕ) (hn : 34004 ≤ n) : ∃ y, modOut Modifier.process x (HighPass.new (lit 20) (lit 1) : HighPass F32 F64) n = .ok y ∧
      ¬ y.Finite := by
  rw [hp_new ha]
  obtain ⟨y, hy, y0, y1, y2, y3, hr⟩ := hp_run x
  refine ⟨y n, hy n, ?_⟩
  rw [h1, h0 1 (by norm_num) (by norm_num)] at y1
  rw [h1, h0 1 (by norm_num) (by norm_num), h0 2 (by norm_num) (by norm_num)] at y2
  rw [h1, h0 1 (by norm_num) (by norm_num), h0 2 (by norm_num) (by norm_num), h0 3 (by norm_num) (by norm_num)] at y3
  have z : ∀ {c : F32} {q : ℚ}, c.Is q → ∀ i, 0 < i → i < 34004 → (c * x i).Is 0 := fun hc i h h' => by
    rw [h0 i h h']; exact mul_zero_is hc
  have base : ¬ (y 34004).Finite := by
    refine iir_sound (B1 := hp0.b1) (B2 := hp0.b2) (B3 := hp0.b3) (c1 := 0) (c2 := 1) (c3 := 0) (by decide +kernel) (by decide +kernel)
      (by decide +kernel) (by decide) (by decide) (by decide) (N := 34000) (y := fun n => y (n + 1)) ?_ (fun n _ => hr n)
      (s1 := 1) (s2 := 1) (s3 := 1) ?_ ?_ ?_ run_highpass
    · intro n hn
      exact add_zero_is (add_zero_is (add_zero_is
        (z (q := 16733293 / 16777216) (by decide +kernel) _ (by omega) (by omega))
        (z (q := -6274985 / 2097152) (by decide +kernel) _ (by omega) (by omega)))
        (z (q := 6274985 / 2097152) (by decide +kernel) _ (by omega) (by omega)))
        (z (q := -16733293 / 16777216) (by decide +kernel) _ (by omega) (by omega))
    · simp only [y3]; decide +kernel
    · simp only [y2]; decide +kernel
    · simp only [y1]; decide +kernel
  induction n, hn using Nat.le_induction with
  | base => exact base
  | succ n hn ih =>
    obtain ⟨k, rfl⟩ : ∃ k, n = k + 3 := ⟨n - 3, by omega⟩
    rw [hr k]
    exact not_finite_add_left (not_finite_add_left (not_finite_add_right (not_finite_mul_right ih)))

/-- The same for a 20 Hz low pass filter with resonance 1, from sample 34637 (0.72 s) on. -/
theorem C96_lowpass_violated (x : ℕ → F32) (h1 : x 0 = lit 1) (h0 : ∀ i, 0 < i → i < 34637 → x i = lit 0)
    (n : ℕ) (hn : 34637 ≤ n) : ∃ y, modOut Modifier.process x (LowPass.new (lit 20) (lit 1) : LowPass F32 F64) n = .ok y ∧
      ¬ y.Finite := by
  rw [lp_new ha]
  obtain ⟨y, hy, y0, y1, y2, y3, hr⟩ := lp_run x
  refine ⟨y n, hy n, ?_⟩
  rw [h1, h0 1 (by norm_num) (by norm_num)] at y1
  rw [h1, h0 1 (by norm_num) (by norm_num), h0 2 (by norm_num) (by norm_num)] at y2
  rw [h1, h0 1 (by norm_num) (by norm_num), h0 2 (by norm_num) (by norm_num), h0 3 (by norm_num) (by norm_num)] at y3
  have base : ¬ (y 34637).Finite := by
    refine iir_sound (B1 := lp0.c1) (B2 := lp0.c2) (B3 := lp0.c3) (c1 := 0) (c2 := 1) (c3 := 0) (by decide +kernel) (by decide +kernel)
      (by decide +kernel) (by decide) (by decide) (by decide) (N := 34633) (y := fun n => y (n + 1)) ?_ (fun n _ => hr n)
      (s1 := 0) (s2 := 0) (s3 := 0) ?_ ?_ ?_ run_lowpass
    · intro n hn
      rw [h0 (n + 4) (by omega) (by omega)]
      exact mul_zero_is (q := 5037409 / 281474976710656) (by decide +kernel)
    · simp only [y3]; decide +kernel
    · simp only [y2]; decide +kernel
    · simp only [y1]; decide +kernel
  induction n, hn using Nat.le_induction with
  | base => exact base
  | succ n hn ih =>
    obtain ⟨k, rfl⟩ : ∃ k, n = k + 3 := ⟨n - 3, by omega⟩
    rw [hr k]
    exact not_finite_add_left (not_finite_add_left (not_finite_add_right (not_finite_mul_right ih)))

end

/-- One sample of 1.0 and then silence. -/
example : ∃ l : Libm F64, @LibmAccurate l ∧ ∃ x : ℕ → F32, x 0 = lit 1 ∧ (∀ i, 0 < i → x i = lit 0) ∧ ∀ i, (x i).Finite := by
  obtain ⟨l, hl⟩ := libmAccurate_exists
  refine ⟨l, hl, fun i => if i = 0 then lit 1 else lit 0, rfl, fun i h => if_neg h.ne', fun i => ?_⟩
  dsimp only
  split_ifs
  · exact ⟨1, by decide +kernel⟩
  · exact ⟨0, by decide +kernel⟩
end Verif
