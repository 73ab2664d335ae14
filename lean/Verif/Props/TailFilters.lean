import Verif.Float.Runs
import Verif.Float.Interval
import Verif.Proofs.FilterF32
import Verif.Props.Filters
import Mathlib.Analysis.Real.Pi.Bounds

/-! # Tails of LowPass and HighPass: C140 -/

namespace Verif
open Fl Fast Filter Topology

/-- `w * INV_SAMPLE_RATE` at 5 kHz. -/
private def tq : ℚ := 5895198126690367 / 9007199254740992
/-- The angle at resonance 0, next to 2π/3. -/
private def thq : ℚ := 4716158501352293 / 2251799813685248
private def CI : Iv := ⟨-1 - pow2 (-38), -1 + pow2 (-38), true⟩
private def KI : Iv := Iv.sub b64 (.pt 1) CI
private def P2I : Iv := ⟨tq ^ 2 - (2 ^ 40)⁻¹ * tq ^ 2, tq ^ 2 + (2 ^ 40)⁻¹ * tq ^ 2, true⟩
private def P3I : Iv := ⟨tq ^ 3 - (2 ^ 40)⁻¹ * tq ^ 3, tq ^ 3 + (2 ^ 40)⁻¹ * tq ^ 3, true⟩
private def GI : Iv := .add b64 (.add b64 (.add b64 P3I (.mul b64 KI P2I)) (.mul b64 KI (.pt tq))) (.pt 1)

private theorem cos_thq : |Real.cos thq + 1 / 2| ≤ (2 ^ 40 : ℝ)⁻¹ := by
  have e : Real.cos (2 * Real.pi / 3) = -(1 / 2) := by
    rw [show 2 * Real.pi / 3 = Real.pi - Real.pi / 3 by ring, Real.cos_pi_sub, Real.cos_pi_div_three]
  have h := Real.abs_cos_sub_cos_le thq (2 * Real.pi / 3)
  rw [e, sub_neg_eq_add] at h
  refine h.trans ?_
  have h1 := Real.pi_gt_d20
  have h2 := Real.pi_lt_d20
  have : ((thq : ℚ) : ℝ) = 4716158501352293 / 2251799813685248 := by unfold thq; push_cast; rfl
  rw [this, abs_le]
  constructor <;> norm_num at h1 h2 ⊢ <;> linarith

section
variable [Libm F64] (ha : LibmAccurate)
include ha

private theorem K_has {th : F64} (h : th.Is thq) : KI.Has (lit 1 - lit 2 * Libm.cos th : F64) := by
  obtain ⟨c, hc, h1⟩ := ha.cos th thq h (by decide +kernel)
  have h2 : |(c : ℝ) + 1 / 2| ≤ ((pow2 (-39) : ℚ) : ℝ) := by
    have : |(c : ℝ) + 1 / 2| ≤ |(c : ℝ) - Real.cos thq| + |Real.cos thq + 1 / 2| := by
      have := abs_add_le ((c : ℝ) - Real.cos thq) (Real.cos thq + 1 / 2)
      rwa [← add_assoc, sub_add_cancel] at this
    have e : ((pow2 (-39) : ℚ) : ℝ) = (2 ^ 40 : ℝ)⁻¹ + (2 ^ 40 : ℝ)⁻¹ := by
      rw [pow2_eq]; push_cast; norm_num
    rw [e]
    have := cos_thq
    linarith
  have h3 : |c + 1 / 2| ≤ pow2 (-39) := by
    have : ((|c + 1 / 2| : ℚ) : ℝ) ≤ ((pow2 (-39) : ℚ) : ℝ) := by push_cast; exact h2
    exact_mod_cast this
  have e38 : pow2 (-38) = 2 * pow2 (-39) := by decide +kernel
  have e39 : pow2 (-39) ≤ 1 / 2 := by decide +kernel
  obtain ⟨a, b⟩ := abs_le.mp h3
  have hb : |2 * c| ≤ pow2 1 := by
    rw [show pow2 1 = 2 by decide +kernel, abs_le]
    constructor <;> linarith
  have hm : CI.Has (lit 2 * Libm.cos th : F64) := by
    intro _
    have h2 : (lit 2 : F64).Is 2 := by decide +kernel
    refine ⟨_, h2.mul hc (Fmt.fits_of_le_pow2 (k := 1) (by decide) (by decide) hb), ?_, ?_⟩
    · exact b64.repr_le_rnd ((show (lit (-1 - pow2 (-38)) : F64).Is (-1 - pow2 (-38)) by decide +kernel).repr) (by simp only [CI]; rw [e38]; linarith)
    · exact b64.rnd_le_repr ((show (lit (-1 + pow2 (-38)) : F64).Is (-1 + pow2 (-38)) by decide +kernel).repr) (by simp only [CI]; rw [e38]; linarith)
  exact Iv.sub_has (Iv.pt_has (by decide +kernel)) hm

private theorem P_has {t : F64} (h : t.Is tq) : P2I.Has (Libm.pow t (lit 2) : F64) ∧ P3I.Has (Libm.pow t (lit 3) : F64) := by
  have h1 : pow2 (-20) ≤ tq := by decide +kernel
  have h2 : tq ≤ 4 := by decide +kernel
  constructor
  · obtain ⟨p, hp, hb⟩ := ha.pow t tq 2 h h1 h2 (.inl rfl)
    exact fun _ => ⟨p, hp, by have := (abs_le.mp hb).1; simp only [P2I]; linarith, by have := (abs_le.mp hb).2; simp only [P2I]; linarith⟩
  · obtain ⟨p, hp, hb⟩ := ha.pow t tq 3 h h1 h2 (.inr rfl)
    exact fun _ => ⟨p, hp, by have := (abs_le.mp hb).1; simp only [P3I]; linarith, by have := (abs_le.mp hb).2; simp only [P3I]; linarith⟩

private theorem coefs {th t : F64} (hth : th.Is thq) (ht : t.Is tq) :
    let k := lit 1 - lit 2 * Libm.cos th
    let g := Libm.pow t (lit 3) + k * Libm.pow t (lit 2) + k * t + lit 1
    (SM.down (Libm.pow t (lit 3) / g) : F32) = lit (5459815 / 67108864) ∧
    (SM.down (lit 1 / g) : F32) = lit (4868465 / 16777216) ∧
    (SM.down ((k * Libm.pow t (lit 2) + lit 2 * k * t + lit 3) / g) : F32) = lit (15760999 / 8388608) ∧
    (SM.down ((-k * t - lit 3) / g) : F32) = lit (-2622275 / 2097152) ∧
    (SM.down (-lit 3 / g) : F32) = lit (-14605395 / 16777216) ∧ (SM.down (lit 3 / g) : F32) = lit (14605395 / 16777216) ∧
    (SM.down (-lit 1 / g) : F32) = lit (-4868465 / 16777216) := by
  intro k g
  have hk : KI.Has k := K_has ha hth
  obtain ⟨h2, h3⟩ := P_has ha ht
  have htI := Iv.pt_has ht
  have hg : GI.Has g := Iv.add_has (Iv.add_has (Iv.add_has h3 (Iv.mul_has hk h2)) (Iv.mul_has hk htI)) (Iv.pt_has (by decide +kernel))
  have l1 := Iv.pt_has (f := b64) (x := lit 1) (q := 1) (by decide +kernel)
  have l2 := Iv.pt_has (f := b64) (x := lit 2) (q := 2) (by decide +kernel)
  have l3 := Iv.pt_has (f := b64) (x := lit 3) (q := 3) (by decide +kernel)
  have m1 := Iv.pt_has (f := b64) (x := -lit 1) (q := -1) (by decide +kernel)
  have m3 := Iv.pt_has (f := b64) (x := -lit 3) (q := -3) (by decide +kernel)
  refine ⟨?_, ?_, ?_, ?_, ?_, ?_, ?_⟩
  · exact ((Iv.down_has (Iv.div_has h3 hg)).is (q := 5459815 / 67108864) (by decide +kernel)).eq_lit (by norm_num)
  · exact ((Iv.down_has (Iv.div_has l1 hg)).is (q := 4868465 / 16777216) (by decide +kernel)).eq_lit (by norm_num)
  · exact ((Iv.down_has (Iv.div_has (Iv.add_has (Iv.add_has (Iv.mul_has hk h2) (Iv.mul_has (Iv.mul_has l2 hk) htI)) l3) hg)).is
      (q := 15760999 / 8388608) (by decide +kernel)).eq_lit (by norm_num)
  · exact ((Iv.down_has (Iv.divn_has (Iv.sub_has (Iv.muln_has (Iv.neg_has hk) htI) l3) hg)).is
      (q := -2622275 / 2097152) (by decide +kernel)).eq_lit (by norm_num)
  · exact ((Iv.down_has (Iv.divn_has m3 hg)).is (q := -14605395 / 16777216) (by decide +kernel)).eq_lit (by norm_num)
  · exact ((Iv.down_has (Iv.div_has l3 hg)).is (q := 14605395 / 16777216) (by decide +kernel)).eq_lit (by norm_num)
  · exact ((Iv.down_has (Iv.divn_has m1 hg)).is (q := -4868465 / 16777216) (by decide +kernel)).eq_lit (by norm_num)

private theorem lp_new : (LowPass.new (lit 5000) (lit 0) : LowPass F32 F64) =
    ⟨lit 5000, lit 0, lit (5459815 / 67108864), lit (15760999 / 8388608), lit (-2622275 / 2097152), lit (4868465 / 16777216),
      lit 0, lit 0, lit 0⟩ := by
  have e1 : (Flt.fmin (lit 5000) (srM / lit 2) : F64) = lit 5000 := by decide +kernel
  have e2 : (Flt.fmax (Flt.fmin (lit 0) (lit 1)) (lit 0) : F64) = lit 0 := by decide +kernel
  obtain ⟨c0, c1, c5, c6, -⟩ := coefs ha (th := (SM.piM F32 / lit 6) * (lit 4 - lit 0))
    (t := lit 2 * SM.piM F32 * lit 5000 * invSR) (by decide +kernel) (by decide +kernel)
  unfold LowPass.new
  simp only [e1, e2]
  unfold LowPass.reset
  simp only [c0, c1, c5, c6]
  rfl

private theorem hp_new : (HighPass.new (lit 5000) (lit 0) : HighPass F32 F64) =
    ⟨lit (4868465 / 16777216), lit (-14605395 / 16777216), lit (14605395 / 16777216), lit (-4868465 / 16777216), lit (15760999 / 8388608),
      lit (-2622275 / 2097152), lit (4868465 / 16777216), lit 0, lit 0, lit 0, lit 0, lit 0, lit 0, lit 5000, lit 0⟩ := by
  have e1 : (Flt.fmin (lit 5000) (srM / lit 2) : F64) = lit 5000 := by decide +kernel
  have e2 : (Flt.fmax (Flt.fmin (lit 0) (lit 1)) (lit 0) : F64) = lit 0 := by decide +kernel
  obtain ⟨-, c1, c5, c6, c7, c8, c9⟩ := coefs ha (th := SM.piM F32 * (lit 4 - lit 0) / lit 6)
    (t := lit 2 * SM.piM F32 * lit 5000 * invSR) (by decide +kernel) (by decide +kernel)
  unfold HighPass.new
  simp only [e1, e2]
  unfold HighPass.reset
  simp only [c1, c5, c6, c7, c8, c9]
  rfl

omit [Libm F64] ha in
/-- Once three outputs in a row are 3 · 2^-149 all later ones are, for both filters. -/
private theorem stuck {y z : ℕ → F32} {k : ℕ} (hz : ∀ n ≥ k, (z n).Is 0)
    (hr : ∀ n ≥ k, y (n + 3) = z n + lit (15760999 / 8388608) * y (n + 2) + lit (-2622275 / 2097152) * y (n + 1) +
      lit (4868465 / 16777216) * y n) (h0 : (y k).Is (3 / 2 ^ 149)) (h1 : (y (k + 1)).Is (3 / 2 ^ 149)) (h2 : (y (k + 2)).Is (3 / 2 ^ 149)) :
    ∀ n ≥ k, (y n).Is (3 / 2 ^ 149) := by
  have key : ∀ j, (y (k + j)).Is (3 / 2 ^ 149) ∧ (y (k + j + 1)).Is (3 / 2 ^ 149) ∧ (y (k + j + 2)).Is (3 / 2 ^ 149) := by
    intro j
    induction j with
    | zero => exact ⟨h0, h1, h2⟩
    | succ j ih =>
      obtain ⟨a, b, c⟩ := ih
      refine ⟨b, c, ?_⟩
      show (y (k + j + 3)).Is _
      rw [hr _ (by omega), a.eq_lit (by norm_num), b.eq_lit (by norm_num), c.eq_lit (by norm_num)]
      have m1 : (lit (15760999 / 8388608) * lit (3 / 2 ^ 149) : F32).Is (6 / 2 ^ 149) := by decide +kernel
      have e : (z (k + j) + lit (15760999 / 8388608) * lit (3 / 2 ^ 149) : F32).Is (6 / 2 ^ 149) := by
        have f : b32.Fits (0 + 6 / 2 ^ 149) := by rw [zero_add]; exact m1.fits
        have r := (hz (k + j) (by omega)).add m1 f
        rw [zero_add, m1.rnd] at r
        exact r
      rw [e.eq_lit (by norm_num)]
      decide +kernel
  intro n hn
  obtain ⟨j, rfl⟩ := Nat.exists_eq_add_of_le hn
  exact (key j).1

omit [Libm F64] ha in
private theorem run_lp : drv 0 0 0 15760999 23 1 2622275 21 0 4868465 24 3 276
    1 132356867467006201508333181134049498093322240 1 109084041884422119969952433912533397234778112
    1 58058711598451363652946394758596236169707520 = true := by decide +kernel

omit [Libm F64] ha in
private theorem run_hp : drv 0 0 0 15760999 23 1 2622275 21 0 4868465 24 3 275
    1 4464435534146931825014083851537664356384768 0 73900206274264766601693353002518291243073536
    0 232167980908705490203715025924024602225278976 = true := by decide +kernel

/-- IEEE, every math library accurate to 2^-40: the tail of a 5 kHz low pass without resonance, given one sample of -1.0 and then
silence, never ends. From sample 276 on every output is 3 · 2^-149, a subnormal number. -/
theorem C140_lowpass_violated : ∀ n ≥ 276, ∃ y : F32,
    modOut Modifier.process (fun n => if n = 0 then lit (-1) else lit 0) (LowPass.new (lit 5000) (lit 0) : LowPass F32 F64) n = .ok y ∧
      y.Is (3 / 2 ^ 149) := by
  rw [lp_new ha]
  obtain ⟨y, hy, hr⟩ := lp_recurrence (lit 5000 : F64) (lit 0 : F64) (lit (5459815 / 67108864) : F32) (lit (15760999 / 8388608))
      (lit (-2622275 / 2097152)) (lit (4868465 / 16777216)) (lit 0) (fun n => if n = 0 then lit (-1) else lit 0)
  have h0 := hr 0
  have h1 := hr 1
  have h2 := hr 2
  simp only [delayed_startS, delayed_succS, delayed_zeroS] at h0 h1 h2
  have i0 : (y 0).Is (val 1 58058711598451363652946394758596236169707520) := by
    rw [h0]; decide +kernel
  have i1 : (y 1).Is (val 1 109084041884422119969952433912533397234778112) := by
    rw [h1, h0]; decide +kernel
  have i2 : (y 2).Is (val 1 132356867467006201508333181134049498093322240) := by
    rw [h2, h1, h0]; decide +kernel
  have h3 : ∀ n, y (n + 3) = lit (5459815 / 67108864) * lit 0 + lit (15760999 / 8388608) * y (n + 2) +
      lit (-2622275 / 2097152) * y (n + 1) + lit (4868465 / 16777216) * y n := fun n => by
    have := hr (n + 3)
    simp only [delayed_succS, delayed_zeroS, if_neg (Nat.succ_ne_zero (n + 2))] at this
    exact this
  obtain ⟨j2, j1, j0⟩ := drv_sound (sd := 0) (d := 0)
    (B1 := lit (15760999 / 8388608)) (B2 := lit (-2622275 / 2097152)) (B3 := lit (4868465 / 16777216)) (c1 := 0) (c2 := 1) (c3 := 0)
    (by decide) (by decide +kernel) (by decide +kernel) (by decide +kernel)
    (by decide +kernel) (by decide) (by decide) (by decide) (N := 276) (y := y)
    (z := fun _ => lit (5459815 / 67108864) * lit 0) (fun n _ => by decide +kernel) (fun n _ => h3 n) i2 i1 i0 run_lp
  have ev : val 0 3 = 3 / 2 ^ 149 := by decide +kernel
  rw [ev] at j0 j1 j2
  intro n hn
  exact ⟨_, hy n, stuck (z := fun _ => lit (5459815 / 67108864) * lit 0) (fun n _ => by decide +kernel) (fun n _ => h3 n) j0 j1 j2 n hn⟩

/-- The same for the high pass: the impulse response ends in the same subnormal number and stays there. -/
theorem C140_highpass_violated : ∀ n ≥ 276, ∃ y : F32,
    modOut Modifier.process (fun n => if n = 0 then lit (-1) else lit 0) (HighPass.new (lit 5000) (lit 0) : HighPass F32 F64) n = .ok y ∧
      y.Is (3 / 2 ^ 149) := by
  rw [hp_new ha]
  obtain ⟨y, hy, hr⟩ := hp_recurrence (lit 5000 : F64) (lit 0 : F64) (lit (4868465 / 16777216) : F32) (lit (-14605395 / 16777216))
      (lit (14605395 / 16777216)) (lit (-4868465 / 16777216)) (lit (15760999 / 8388608))
      (lit (-2622275 / 2097152)) (lit (4868465 / 16777216)) (lit 0) (fun n => if n = 0 then lit (-1) else lit 0)
  have h0 := hr 0
  have h1 := hr 1
  have h2 := hr 2
  have h3 := hr 3
  simp only [delayed_startS, delayed_succS, delayed_zeroS] at h0 h1 h2 h3
  have i0 : (y 0).Is (val 1 207081599183968334565652257271287928198266880) := by
    rw [h0]; decide +kernel
  have i1 : (y 1).Is (val 0 232167980908705490203715025924024602225278976) := by
    rw [h1, h0]; decide +kernel
  have i2 : (y 2).Is (val 0 73900206274264766601693353002518291243073536) := by
    rw [h2, i1.eq_lit (by decide +kernel), i0.eq_lit (by decide +kernel)]; decide +kernel
  have i3 : (y 3).Is (val 1 4464435534146931825014083851537664356384768) := by
    rw [h3, i2.eq_lit (by decide +kernel), i1.eq_lit (by decide +kernel), i0.eq_lit (by decide +kernel)]; decide +kernel
  have h4 : ∀ n, y (n + 4) = lit (4868465 / 16777216) * lit 0 + lit (-14605395 / 16777216) * lit 0 + lit (14605395 / 16777216) * lit 0 +
      lit (-4868465 / 16777216) * lit 0 + lit (15760999 / 8388608) * y (n + 3) +
      lit (-2622275 / 2097152) * y (n + 2) + lit (4868465 / 16777216) * y (n + 1) := fun n => by
    have := hr (n + 4)
    simp only [delayed_succS, delayed_zeroS, Nat.succ_ne_zero, if_false] at this
    exact this
  have hz : (lit (4868465 / 16777216) * lit 0 + lit (-14605395 / 16777216) * lit 0 + lit (14605395 / 16777216) * lit 0 +
      lit (-4868465 / 16777216) * lit 0 : F32).Is 0 := by decide +kernel
  obtain ⟨j2, j1, j0⟩ := drv_sound (sd := 0) (d := 0)
    (B1 := lit (15760999 / 8388608)) (B2 := lit (-2622275 / 2097152)) (B3 := lit (4868465 / 16777216)) (c1 := 0) (c2 := 1) (c3 := 0)
    (by decide) (by decide +kernel) (by decide +kernel) (by decide +kernel)
    (by decide +kernel) (by decide) (by decide) (by decide) (N := 275) (y := fun n => y (n + 1))
    (z := fun _ => lit (4868465 / 16777216) * lit 0 + lit (-14605395 / 16777216) * lit 0 + lit (14605395 / 16777216) * lit 0 +
      lit (-4868465 / 16777216) * lit 0) (fun n _ => by decide +kernel) (fun n _ => h4 n) i3 i2 i1 run_hp
  have ev : val 0 3 = 3 / 2 ^ 149 := by decide +kernel
  rw [ev] at j0 j1 j2
  intro n hn
  obtain ⟨m, rfl⟩ : ∃ m, n = m + 1 := ⟨n - 1, by omega⟩
  exact ⟨_, hy _, stuck (y := fun n => y (n + 1)) (k := 275) (z := fun _ => lit (4868465 / 16777216) * lit 0 + lit (-14605395 / 16777216) * lit 0 +
    lit (14605395 / 16777216) * lit 0 + lit (-4868465 / 16777216) * lit 0) (fun n _ => hz) (fun n _ => h4 n) j0 j1 j2 m (by omega)⟩
end

/-- The libm assumption can be met. -/
example : ∃ l : Libm F64, @LibmAccurate l := libmAccurate_exists

end Verif
