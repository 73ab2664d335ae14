import Verif.Float.Runs
import Verif.Float.Interval
import Verif.Proofs.FilterF32
import Verif.Props.Filters
import Mathlib.Analysis.Real.Pi.Bounds

/-! # A low pass filter that never gets near its input: C118 -/

namespace Verif
open Fl Fast Filter Topology

/-- `w * INV_SAMPLE_RATE` at 90 Hz. -/
private def tq : ℚ := 3395634120973651 / 288230376151711744
/-- The angle at resonance 0, next to 2π/3. -/
private def thq : ℚ := 4716158501352293 / 2251799813685248
private def CI : Iv := ⟨-1 - pow2 (-38), -1 + pow2 (-38), true⟩
private def KI : Iv := Iv.sub b64 (.pt 1) CI
private def P2I : Iv := ⟨tq ^ 2 - (2 ^ 40)⁻¹ * tq ^ 2, tq ^ 2 + (2 ^ 40)⁻¹ * tq ^ 2, true⟩
private def P3I : Iv := ⟨tq ^ 3 - (2 ^ 40)⁻¹ * tq ^ 3, tq ^ 3 + (2 ^ 40)⁻¹ * tq ^ 3, true⟩
private def GI : Iv := .add b64 (.add b64 (.add b64 P3I (.mul b64 KI P2I)) (.mul b64 KI (.pt tq))) (.pt 1)

private theorem cos_thq : |Real.cos thq + 1 / 2| ≤ (2 ^ 40 : ℝ)⁻¹ := by
  have e : Real.cos (2 * Real.pi / 3) = -(1 / 2) := by
    rw [show 2 * Real.pi / 3 = Real.pi - Real.pi / 3 by ring, Real.cos_pi_sub, Real.cos_pi_div_three]
  have h := Real.abs_cos_sub_cos_le thq (2 * Real.pi / 3)
  rw [e, sub_neg_eq_add] at h
  refine h.trans ?_
  have h1 := Real.pi_gt_d20
  have h2 := Real.pi_lt_d20
  have : ((thq : ℚ) : ℝ) = 4716158501352293 / 2251799813685248 := by unfold thq; push_cast; rfl
  rw [this, abs_le]
  constructor <;> norm_num at h1 h2 ⊢ <;> linarith

section
variable [Libm F64] (ha : LibmAccurate)
include ha

private theorem K_has {th : F64} (h : th.Is thq) : KI.Has (lit 1 - lit 2 * Libm.cos th : F64) := by
  obtain ⟨c, hc, h1⟩ := ha.cos th thq h (by decide +kernel)
  have h2 : |(c : ℝ) + 1 / 2| ≤ ((pow2 (-39) : ℚ) : ℝ) := by
    have : |(c : ℝ) + 1 / 2| ≤ |(c : ℝ) - Real.cos thq| + |Real.cos thq + 1 / 2| := by
      have := abs_add_le ((c : ℝ) - Real.cos thq) (Real.cos thq + 1 / 2)
      rwa [← add_assoc, sub_add_cancel] at this
    have e : ((pow2 (-39) : ℚ) : ℝ) = (2 ^ 40 : ℝ)⁻¹ + (2 ^ 40 : ℝ)⁻¹ := by
      rw [pow2_eq]; push_cast; norm_num
    rw [e]
    have := cos_thq
    linarith
  have h3 : |c + 1 / 2| ≤ pow2 (-39) := by
    have : ((|c + 1 / 2| : ℚ) : ℝ) ≤ ((pow2 (-39) : ℚ) : ℝ) := by push_cast; exact h2
    exact_mod_cast this
  have e38 : pow2 (-38) = 2 * pow2 (-39) := by decide +kernel
  have e39 : pow2 (-39) ≤ 1 / 2 := by decide +kernel
  obtain ⟨a, b⟩ := abs_le.mp h3
  have hb : |2 * c| ≤ pow2 1 := by
    rw [show pow2 1 = 2 by decide +kernel, abs_le]
    constructor <;> linarith
  have hm : CI.Has (lit 2 * Libm.cos th : F64) := by
    intro _
    have h2 : (lit 2 : F64).Is 2 := by decide +kernel
    refine ⟨_, h2.mul hc (Fmt.fits_of_le_pow2 (k := 1) (by decide) (by decide) hb), ?_, ?_⟩
    · exact b64.repr_le_rnd ((show (lit (-1 - pow2 (-38)) : F64).Is (-1 - pow2 (-38)) by decide +kernel).repr) (by simp only [CI]; rw [e38]; linarith)
    · exact b64.rnd_le_repr ((show (lit (-1 + pow2 (-38)) : F64).Is (-1 + pow2 (-38)) by decide +kernel).repr) (by simp only [CI]; rw [e38]; linarith)
  exact Iv.sub_has (Iv.pt_has (by decide +kernel)) hm

private theorem P_has {t : F64} (h : t.Is tq) : P2I.Has (Libm.pow t (lit 2) : F64) ∧ P3I.Has (Libm.pow t (lit 3) : F64) := by
  have h1 : pow2 (-20) ≤ tq := by decide +kernel
  have h2 : tq ≤ 4 := by decide +kernel
  constructor
  · obtain ⟨p, hp, hb⟩ := ha.pow t tq 2 h h1 h2 (.inl rfl)
    exact fun _ => ⟨p, hp, by have := (abs_le.mp hb).1; simp only [P2I]; linarith, by have := (abs_le.mp hb).2; simp only [P2I]; linarith⟩
  · obtain ⟨p, hp, hb⟩ := ha.pow t tq 3 h h1 h2 (.inr rfl)
    exact fun _ => ⟨p, hp, by have := (abs_le.mp hb).1; simp only [P3I]; linarith, by have := (abs_le.mp hb).2; simp only [P3I]; linarith⟩

private theorem coefs {th t : F64} (hth : th.Is thq) (ht : t.Is tq) :
    let k := lit 1 - lit 2 * Libm.cos th
    let g := Libm.pow t (lit 3) + k * Libm.pow t (lit 2) + k * t + lit 1
    (SM.down (Libm.pow t (lit 3) / g) : F32) = lit (219493 / 137438953472) ∧
    (SM.down (lit 1 / g) : F32) = lit (8193271 / 8388608) ∧
    (SM.down ((k * Libm.pow t (lit 2) + lit 2 * k * t + lit 3) / g) : F32) = lit (12484093 / 4194304) ∧
    (SM.down ((-k * t - lit 3) / g) : F32) = lit (-12386431 / 4194304) := by
  intro k g
  have hk : KI.Has k := K_has ha hth
  obtain ⟨h2, h3⟩ := P_has ha ht
  have htI := Iv.pt_has ht
  have hg : GI.Has g := Iv.add_has (Iv.add_has (Iv.add_has h3 (Iv.mul_has hk h2)) (Iv.mul_has hk htI)) (Iv.pt_has (by decide +kernel))
  have l1 := Iv.pt_has (f := b64) (x := lit 1) (q := 1) (by decide +kernel)
  have l2 := Iv.pt_has (f := b64) (x := lit 2) (q := 2) (by decide +kernel)
  have l3 := Iv.pt_has (f := b64) (x := lit 3) (q := 3) (by decide +kernel)
  refine ⟨?_, ?_, ?_, ?_⟩
  · exact ((Iv.down_has (Iv.div_has h3 hg)).is (q := 219493 / 137438953472) (by decide +kernel)).eq_lit (by norm_num)
  · exact ((Iv.down_has (Iv.div_has l1 hg)).is (q := 8193271 / 8388608) (by decide +kernel)).eq_lit (by norm_num)
  · exact ((Iv.down_has (Iv.div_has (Iv.add_has (Iv.add_has (Iv.mul_has hk h2) (Iv.mul_has (Iv.mul_has l2 hk) htI)) l3) hg)).is
      (q := 12484093 / 4194304) (by decide +kernel)).eq_lit (by norm_num)
  · exact ((Iv.down_has (Iv.divn_has (Iv.sub_has (Iv.muln_has (Iv.neg_has hk) htI) l3) hg)).is
      (q := -12386431 / 4194304) (by decide +kernel)).eq_lit (by norm_num)

private theorem lp_new : (LowPass.new (lit 90) (lit 0) : LowPass F32 F64) =
    ⟨lit 90, lit 0, lit (219493 / 137438953472), lit (12484093 / 4194304), lit (-12386431 / 4194304), lit (8193271 / 8388608),
      lit 0, lit 0, lit 0⟩ := by
  have e1 : (Flt.fmin (lit 90) (srM / lit 2) : F64) = lit 90 := by decide +kernel
  have e2 : (Flt.fmax (Flt.fmin (lit 0) (lit 1)) (lit 0) : F64) = lit 0 := by decide +kernel
  obtain ⟨c0, c1, c5, c6⟩ := coefs ha (th := (SM.piM F32 / lit 6) * (lit 4 - lit 0))
    (t := lit 2 * SM.piM F32 * lit 90 * invSR) (by decide +kernel) (by decide +kernel)
  unfold LowPass.new
  simp only [e1, e2]
  unfold LowPass.reset
  simp only [c0, c1, c5, c6]
  rfl

/-- A 90 Hz low pass filter without resonance, given the constant 1.0, outputs exactly 4533317 / 2^22 (about 1.0808) from sample
31385 (0.65 s) on, 8 % above the 1.0 that the filter in exact arithmetic approaches. -/
theorem C118_lowpass_violated :
    (∀ n ≥ 31385, ∃ y : F32, modOut Modifier.process (fun _ => lit 1) (LowPass.new (lit 90) (lit 0) : LowPass F32 F64) n = .ok y ∧
      y.Is (4533317 / 2 ^ 22)) ∧
    ∃ z : ℕ → ℝ, (∀ n, modOut Modifier.process (fun _ => 1) (LowPass.new 90 0 : LowPass ℝ ℝ) n = .ok (z n)) ∧
      ∃ N, ∀ n ≥ N, 8 / 100 * 1 < |((4533317 / 2 ^ 22 : ℚ) : ℝ) - z n| := by
  constructor
  · rw [lp_new ha]
    obtain ⟨y, hy, hr⟩ := lp_recurrence (lit 90 : F64) (lit 0 : F64) (lit (219493 / 137438953472) : F32) (lit (12484093 / 4194304))
      (lit (-12386431 / 4194304)) (lit (8193271 / 8388608)) (lit 0) (fun _ => lit 1)
    have h0 := hr 0
    have h1 := hr 1
    have h2 := hr 2
    simp only [delayed_startS, delayed_succS, delayed_zeroS] at h0 h1 h2
    have i0 : (y 0).Is (val 0 1139672814370384920669044230789506531328) := by
      rw [h0]; decide +kernel
    have i1 : (y 1).Is (val 0 4531840267833287796875411810859526127616) := by
      rw [h1, h0]; decide +kernel
    have i2 : (y 2).Is (val 0 11262791548163728694305591022458750631936) := by
      rw [h2, h1, h0]; decide +kernel
    have h3 : ∀ n, y (n + 3) = lit (219493 / 137438953472) * lit 1 + lit (12484093 / 4194304) * y (n + 2) +
        lit (-12386431 / 4194304) * y (n + 1) + lit (8193271 / 8388608) * y n := fun n => by
      have := hr (n + 3)
      simp only [delayed_succS, delayed_zeroS] at this
      exact this
    obtain ⟨j2, j1, j0⟩ := drv_sound (sd := 0) (d := 1139672814370384920669044230789506531328)
      (B1 := lit (12484093 / 4194304)) (B2 := lit (-12386431 / 4194304)) (B3 := lit (8193271 / 8388608)) (c1 := 0) (c2 := 1) (c3 := 0)
      (by decide) (by decide +kernel) (by decide +kernel) (by decide +kernel)
      (by decide +kernel) (by decide) (by decide) (by decide) (N := 31385) (y := y)
      (z := fun _ => lit (219493 / 137438953472) * lit 1) (fun n _ => by decide +kernel) (fun n _ => h3 n) i2 i1 i0 run_constant
    have ev : val 0 771303919381463996186197492619380586526539776 = 4533317 / 2 ^ 22 := by decide +kernel
    rw [ev] at j0 j1 j2
    have key : ∀ k, (y (31385 + k)).Is (4533317 / 2 ^ 22) ∧ (y (31385 + k + 1)).Is (4533317 / 2 ^ 22) ∧ (y (31385 + k + 2)).Is (4533317 / 2 ^ 22) := by
      intro k
      induction k with
      | zero => exact ⟨j0, j1, j2⟩
      | succ k ih =>
        obtain ⟨a, b, c⟩ := ih
        refine ⟨b, c, ?_⟩
        show (y (31385 + k + 3)).Is _
        rw [h3, a.eq_lit (by norm_num), b.eq_lit (by norm_num), c.eq_lit (by norm_num)]
        decide +kernel
    intro n hn
    obtain ⟨k, rfl⟩ := Nat.exists_eq_add_of_le hn
    exact ⟨_, hy _, (key k).1⟩
  · obtain ⟨z, hz, ht⟩ := C59_settles 90 0 (by norm_num) 1
    refine ⟨z, hz, ?_⟩
    obtain ⟨N, hN⟩ := (Metric.tendsto_atTop.mp ht) (1 / 2000) (by norm_num)
    refine ⟨N, fun n hn => ?_⟩
    have h := hN n hn
    rw [Real.dist_eq, abs_lt] at h
    refine lt_of_lt_of_le ?_ (le_abs_self _)
    push_cast
    norm_num
    linarith
end

/-- The libm assumption can be met. -/
example : ∃ l : Libm F64, @LibmAccurate l := libmAccurate_exists

end Verif
