import Verif.Float.Runs
import Verif.Float.Interval
import Verif.Proofs.FilterF32
import Verif.Props.Filters
import Mathlib.Analysis.Real.Pi.Bounds

/-! # A high pass filter that lets a constant through: C118 -/

namespace Verif
open Fl Fast Filter Topology

/- `w * INV_SAMPLE_RATE` at 85 Hz. -/
private def tq : ℚ := 6413975561839119 / 576460752303423488
/- The angle at resonance 0, next to 2π/3. -/
private def thq : ℚ := 4716158501352293 / 2251799813685248
private def CI : Iv := ⟨-1 - pow2 (-38), -1 + pow2 (-38), true⟩
private def KI : Iv := Iv.sub b64 (.pt 1) CI
private def P2I : Iv := ⟨tq ^ 2 - (2 ^ 40)⁻¹ * tq ^ 2, tq ^ 2 + (2 ^ 40)⁻¹ * tq ^ 2, true⟩
private def P3I : Iv := ⟨tq ^ 3 - (2 ^ 40)⁻¹ * tq ^ 3, tq ^ 3 + (2 ^ 40)⁻¹ * tq ^ 3, true⟩
private def GI : Iv := .add b64 (.add b64 (.add b64 P3I (.mul b64 KI P2I)) (.mul b64 KI (.pt tq))) (.pt 1)

private theorem cos_thq : |Real.cos thq + 1 / 2| ≤ (2 ^ 40 : ℝ)⁻¹ := by
  have e : Real.cos (2 * Real.pi / 3) = -(1 / 2) := by
    rw [show 2 * Real.pi / 3 = Real.pi - Real.pi / 3 by ring, Real.cos_pi_sub, Real.cos_pi_div_three]
  have h := Real.abs_cos_sub_cos_le thq (2 * Real.pi / 3)
  rw [e, sub_neg_eq_add] at h
  refine h.trans ?_
  have h1 := Real.pi_gt_d20
  have h2 := Real.pi_lt_d20
  have : ((thq : ℚ) : ℝ) = 4716158501352293 / 2251799813685248 := by unfold thq; push_cast; rfl
  rw [this, abs_le]
  constructor <;> norm_num at h1 h2 ⊢ <;> linarith

section
variable [Libm F64] (ha : LibmAccurate)
include ha

private theorem K_has {th : F64} (h : th.Is thq) : KI.Has (lit 1 - lit 2 * Libm.cos th : F64) := by
  obtain ⟨c, hc, h1⟩ := ha.cos th thq h (by decide +kernel)
  have h2 : |(c : ℝ) + 1 / 2| ≤ ((pow2 (-39) : ℚ) : ℝ) := by
    have : |(c : ℝ) + 1 / 2| ≤ |(c : ℝ) - Real.cos thq| + |Real.cos thq + 1 / 2| := by
      have := abs_add_le ((c : ℝ) - Real.cos thq) (Real.cos thq + 1 / 2)
      rwa [← add_assoc, sub_add_cancel] at this
    have e : ((pow2 (-39) : ℚ) : ℝ) = (2 ^ 40 : ℝ)⁻¹ + (2 ^ 40 : ℝ)⁻¹ := by
      rw [pow2_eq]; push_cast; norm_num
    rw [e]
    have := cos_thq
    linarith
  have h3 : |c + 1 / 2| ≤ pow2 (-39) := by
    have : ((|c + 1 / 2| : ℚ) : ℝ) ≤ ((pow2 (-39) : ℚ) : ℝ) := by push_cast; exact h2
    exact_mod_cast this
  have e38 : pow2 (-38) = 2 * pow2 (-39) := by decide +kernel
  have e39 : pow2 (-39) ≤ 1 / 2 := by decide +kernel
  obtain ⟨a, b⟩ := abs_le.mp h3
  have hb : |2 * c| ≤ pow2 1 := by
    rw [show pow2 1 = 2 by decide +kernel, abs_le]
    constructor <;> linarith
  have hm : CI.Has (lit 2 * Libm.cos th : F64) := by
    intro _
    have h2 : (lit 2 : F64).Is 2 := by decide +kernel
    refine ⟨_, h2.mul hc (Fmt.fits_of_le_pow2 (k := 1) (by decide) (by decide) hb), ?_, ?_⟩
    · exact b64.repr_le_rnd ((show (lit (-1 - pow2 (-38)) : F64).Is (-1 - pow2 (-38)) by decide +kernel).repr) (by simp only [CI]; rw [e38]; linarith)
    · exact b64.rnd_le_repr ((show (lit (-1 + pow2 (-38)) : F64).Is (-1 + pow2 (-38)) by decide +kernel).repr) (by simp only [CI]; rw [e38]; linarith)
  exact Iv.sub_has (Iv.pt_has (by decide +kernel)) hm

private theorem P_has {t : F64} (h : t.Is tq) : P2I.Has (Libm.pow t (lit 2) : F64) ∧ P3I.Has (Libm.pow t (lit 3) : F64) := by
  have h1 : pow2 (-20) ≤ tq := by decide +kernel
  have h2 : tq ≤ 4 := by decide +kernel
  constructor
  · obtain ⟨p, hp, hb⟩ := ha.pow t tq 2 h h1 h2 (.inl rfl)
    exact fun _ => ⟨p, hp, by have := (abs_le.mp hb).1; simp only [P2I]; linarith, by have := (abs_le.mp hb).2; simp only [P2I]; linarith⟩
  · obtain ⟨p, hp, hb⟩ := ha.pow t tq 3 h h1 h2 (.inr rfl)
    exact fun _ => ⟨p, hp, by have := (abs_le.mp hb).1; simp only [P3I]; linarith, by have := (abs_le.mp hb).2; simp only [P3I]; linarith⟩

private theorem coefs {th t : F64} (hth : th.Is thq) (ht : t.Is tq) :
    let k := lit 1 - lit 2 * Libm.cos th
    let g := Libm.pow t (lit 3) + k * Libm.pow t (lit 2) + k * t + lit 1
    (SM.down (Libm.pow t (lit 3) / g) : F32) = lit (5924727 / 4398046511104) ∧
    (SM.down (lit 1 / g) : F32) = lit (4102001 / 4194304) ∧
    (SM.down ((k * Libm.pow t (lit 2) + lit 2 * k * t + lit 3) / g) : F32) = lit (6244791 / 2097152) ∧
    (SM.down ((-k * t - lit 3) / g) : F32) = lit (-12397285 / 4194304) ∧
    (SM.down (-lit 3 / g) : F32) = lit (-12306003 / 4194304) ∧ (SM.down (lit 3 / g) : F32) = lit (12306003 / 4194304) ∧
    (SM.down (-lit 1 / g) : F32) = lit (-4102001 / 4194304) := by
  intro k g
  have hk : KI.Has k := K_has ha hth
  obtain ⟨h2, h3⟩ := P_has ha ht
  have htI := Iv.pt_has ht
  have hg : GI.Has g := Iv.add_has (Iv.add_has (Iv.add_has h3 (Iv.mul_has hk h2)) (Iv.mul_has hk htI)) (Iv.pt_has (by decide +kernel))
  have l1 := Iv.pt_has (f := b64) (x := lit 1) (q := 1) (by decide +kernel)
  have l2 := Iv.pt_has (f := b64) (x := lit 2) (q := 2) (by decide +kernel)
  have l3 := Iv.pt_has (f := b64) (x := lit 3) (q := 3) (by decide +kernel)
  have m1 := Iv.pt_has (f := b64) (x := -lit 1) (q := -1) (by decide +kernel)
  have m3 := Iv.pt_has (f := b64) (x := -lit 3) (q := -3) (by decide +kernel)
  refine ⟨?_, ?_, ?_, ?_, ?_, ?_, ?_⟩
  · exact ((Iv.down_has (Iv.div_has h3 hg)).is (q := 5924727 / 4398046511104) (by decide +kernel)).eq_lit (by norm_num)
  · exact ((Iv.down_has (Iv.div_has l1 hg)).is (q := 4102001 / 4194304) (by decide +kernel)).eq_lit (by norm_num)
  · exact ((Iv.down_has (Iv.div_has (Iv.add_has (Iv.add_has (Iv.mul_has hk h2) (Iv.mul_has (Iv.mul_has l2 hk) htI)) l3) hg)).is
      (q := 6244791 / 2097152) (by decide +kernel)).eq_lit (by norm_num)
  · exact ((Iv.down_has (Iv.divn_has (Iv.sub_has (Iv.muln_has (Iv.neg_has hk) htI) l3) hg)).is
      (q := -12397285 / 4194304) (by decide +kernel)).eq_lit (by norm_num)
  · exact ((Iv.down_has (Iv.divn_has m3 hg)).is (q := -12306003 / 4194304) (by decide +kernel)).eq_lit (by norm_num)
  · exact ((Iv.down_has (Iv.div_has l3 hg)).is (q := 12306003 / 4194304) (by decide +kernel)).eq_lit (by norm_num)
  · exact ((Iv.down_has (Iv.divn_has m1 hg)).is (q := -4102001 / 4194304) (by decide +kernel)).eq_lit (by norm_num)

private theorem hp_new : (HighPass.new (lit 85) (lit 0) : HighPass F32 F64) =
    ⟨lit (4102001 / 4194304), lit (-12306003 / 4194304), lit (12306003 / 4194304), lit (-4102001 / 4194304), lit (6244791 / 2097152),
      lit (-12397285 / 4194304), lit (4102001 / 4194304), lit 0, lit 0, lit 0, lit 0, lit 0, lit 0, lit 85, lit 0⟩ := by
  have e1 : (Flt.fmin (lit 85) (srM / lit 2) : F64) = lit 85 := by decide +kernel
  have e2 : (Flt.fmax (Flt.fmin (lit 0) (lit 1)) (lit 0) : F64) = lit 0 := by decide +kernel
  obtain ⟨-, c1, c5, c6, c7, c8, c9⟩ := coefs ha (th := SM.piM F32 * (lit 4 - lit 0) / lit 6)
    (t := lit 2 * SM.piM F32 * lit 85 * invSR) (by decide +kernel) (by decide +kernel)
  unfold HighPass.new
  simp only [e1, e2]
  unfold HighPass.reset
  simp only [c1, c5, c6, c7, c8, c9]
  rfl

omit [Libm F64] ha in
private theorem run_high : drv 0 42535295865117307932921825928971026432 0 6244791 21 1 12397285 22 0 4102001 22
    29703782158183024011898876813157279876513792 8219
    0 400220213453942945825508605846711011874177024 0 409433783891286005896858802561185425909612544
    0 418751608338794468489952590671011747930832896 = true := by decide +kernel

/-- An 85 Hz high pass filter without resonance, given the constant 0.6, outputs exactly 11173321 / 2 ^ 28 (about 6.9 % of the
input) from sample 8219 (0.17 s) on, where the filter in exact arithmetic goes to 0: the four input coefficients do not add up
to 0 in `f32`. -/
theorem C118_highpass_violated :
    (∀ n ≥ 8219, ∃ y : F32, modOut Modifier.process (fun _ => lit (3 / 5)) (HighPass.new (lit 85) (lit 0) : HighPass F32 F64) n = .ok y ∧
      y.Is (11173321 / 2 ^ 28)) ∧
    ∃ z : ℕ → ℝ, (∀ n, modOut Modifier.process (fun _ => 3 / 5) (HighPass.new 85 0 : HighPass ℝ ℝ) n = .ok (z n)) ∧
      ∃ N, ∀ n ≥ N, 6 / 100 * (3 / 5) < |((11173321 / 2 ^ 28 : ℚ) : ℝ) - z n| := by
  constructor
  · rw [hp_new ha]
    obtain ⟨y, hy, hr⟩ := hp_recurrence (lit 85 : F64) (lit 0 : F64) (lit (4102001 / 4194304) : F32) (lit (-12306003 / 4194304)) (lit (12306003 / 4194304))
      (lit (-4102001 / 4194304)) (lit (6244791 / 2097152)) (lit (-12397285 / 4194304)) (lit (4102001 / 4194304)) (lit 0) (fun _ => lit (3 / 5))
    have h0 := hr 0
    have h1 := hr 1
    have h2 := hr 2
    simp only [delayed_startS, delayed_succS, delayed_zeroS] at h0 h1 h2
    have i0 : (y 0).Is (val 0 418751608338794468489952590671011747930832896) := by
      rw [h0]; decide +kernel
    have i1 : (y 1).Is (val 0 409433783891286005896858802561185425909612544) := by
      rw [h1, i0.eq_lit (by decide +kernel)]; decide +kernel
    have i2 : (y 2).Is (val 0 400220213453942945825508605846711011874177024) := by
      rw [h2, i1.eq_lit (by decide +kernel), i0.eq_lit (by decide +kernel)]; decide +kernel
    have h3 : ∀ n, y (n + 3) = lit (4102001 / 4194304) * lit (3 / 5) + lit (-12306003 / 4194304) * lit (3 / 5) + lit (12306003 / 4194304) * lit (3 / 5) +
      lit (-4102001 / 4194304) * lit (3 / 5) + lit (6244791 / 2097152) * y (n + 2) +
        lit (-12397285 / 4194304) * y (n + 1) + lit (4102001 / 4194304) * y n := fun n => by
      have := hr (n + 3)
      simp only [delayed_succS, delayed_zeroS] at this
      exact this
    obtain ⟨j2, j1, j0⟩ := drv_sound (sd := 0) (d := 42535295865117307932921825928971026432)
      (B1 := lit (6244791 / 2097152)) (B2 := lit (-12397285 / 4194304)) (B3 := lit (4102001 / 4194304)) (c1 := 0) (c2 := 1) (c3 := 0)
      (by decide) (by decide +kernel) (by decide +kernel) (by decide +kernel)
      (by decide +kernel) (by decide) (by decide) (by decide) (N := 8219) (y := y)
      (z := fun _ => lit (4102001 / 4194304) * lit (3 / 5) + lit (-12306003 / 4194304) * lit (3 / 5) + lit (12306003 / 4194304) * lit (3 / 5) +
      lit (-4102001 / 4194304) * lit (3 / 5)) (fun n _ => by decide +kernel) (fun n _ => h3 n) i2 i1 i0 run_high
    have ev : val 0 29703782158183024011898876813157279876513792 = 11173321 / 2 ^ 28 := by decide +kernel
    rw [ev] at j0 j1 j2
    have key : ∀ k, (y (8219 + k)).Is (11173321 / 2 ^ 28) ∧ (y (8219 + k + 1)).Is (11173321 / 2 ^ 28) ∧ (y (8219 + k + 2)).Is (11173321 / 2 ^ 28) := by
      intro k
      induction k with
      | zero => exact ⟨j0, j1, j2⟩
      | succ k ih =>
        obtain ⟨a, b, c⟩ := ih
        refine ⟨b, c, ?_⟩
        show (y (8219 + k + 3)).Is _
        rw [h3, a.eq_lit (by norm_num), b.eq_lit (by norm_num), c.eq_lit (by norm_num)]
        decide +kernel
    intro n hn
    obtain ⟨k, rfl⟩ := Nat.exists_eq_add_of_le hn
    exact ⟨_, hy _, (key k).1⟩
  · obtain ⟨z, hz, ht⟩ := C60_settles 85 0 (by norm_num) (3 / 5)
    refine ⟨z, hz, ?_⟩
    obtain ⟨N, hN⟩ := (Metric.tendsto_atTop.mp ht) (1 / 2000) (by norm_num)
    refine ⟨N, fun n hn => ?_⟩
    have h := hN n hn
    rw [Real.dist_eq, abs_lt] at h
    refine lt_of_lt_of_le ?_ (le_abs_self _)
    push_cast
    norm_num
    linarith
end

/-- The libm assumption can be met. -/
example : ∃ l : Libm F64, @LibmAccurate l := libmAccurate_exists

end Verif
