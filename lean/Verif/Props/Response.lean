import Verif.Props.Filters
import Verif.Spec.Steady
import Mathlib.Analysis.Real.Pi.Bounds

/-! # Frequency responses in exact arithmetic: C123, C124, C125 -/

namespace Verif
open Filter Topology

/-! ## LowPass and HighPass -/

/-- `(2 sin(πν/48000))²`: the square of the angular frequency per sample, up to the bending of the frequency axis. -/
noncomputable def bent (ν : ℝ) : ℝ := (2 * Real.sin (Real.pi * ν / 48000)) ^ 2

/-- Squared denominator of the third order filters with angular cutoff `T`, damping `κ + 1`, at bent frequency `q`. -/
noncomputable def lpDen (T κ q : ℝ) : ℝ :=
  (T ^ 2 + (1 + T) * q) * (T ^ 4 + T ^ 2 * (κ ^ 2 - 2 + κ * T) * q + (1 + κ * T + T ^ 2) * q ^ 2)

/-- Gain of a low pass of cutoff `fc` and resonance `r` at frequency `ν`. -/
noncomputable def lowGain (fc r ν : ℝ) : ℝ := Real.sqrt (omega fc ^ 6 / lpDen (omega fc) (damping r - 1) (bent ν))
/-- Gain of a high pass. -/
noncomputable def highGain (fc r ν : ℝ) : ℝ := Real.sqrt (bent ν ^ 3 / lpDen (omega fc) (damping r - 1) (bent ν))

theorem bent_nonneg (ν : ℝ) : 0 ≤ bent ν := sq_nonneg _

private theorem bent_cos (ν : ℝ) : bent ν = 2 - 2 * Real.cos (2 * Real.pi * ν / 48000) := by
  unfold bent
  rw [show 2 * Real.pi * ν / 48000 = 2 * (Real.pi * ν / 48000) by ring, Real.cos_two_mul]
  nlinarith [Real.sin_sq_add_cos_sq (Real.pi * ν / 48000)]

theorem lpDen_pos {T κ q : ℝ} (hT : 0 < T) (hκ : 0 ≤ κ) (hq : 0 ≤ q) : 0 < lpDen T κ q := by
  unfold lpDen
  have h1 : 0 < T ^ 2 + (1 + T) * q := by positivity
  have e : T ^ 4 + T ^ 2 * (κ ^ 2 - 2 + κ * T) * q + (1 + κ * T + T ^ 2) * q ^ 2 =
      (T ^ 2 - q) ^ 2 + κ ^ 2 * T ^ 2 * q + κ * T ^ 3 * q + κ * T * q ^ 2 + T ^ 2 * q ^ 2 := by ring
  refine mul_pos h1 ?_
  rw [e]
  rcases hq.eq_or_lt with h | h
  · rw [← h]
    have : 0 < T ^ 4 := by positivity
    nlinarith
  · have : 0 < T ^ 2 * q ^ 2 := by positivity
    positivity

private noncomputable def polyP (T κ : ℝ) (z : ℂ) : ℂ := ((1 + T) * z - 1) * ((1 + κ * T + T ^ 2) * z ^ 2 - (2 + κ * T) * z + 1)

private theorem normSq_polyP (T κ w : ℝ) : Complex.normSq (polyP T κ (zw w)) = lpDen T κ (2 - 2 * Real.cos w) := by
  have hz : zw w = ⟨Real.cos w, Real.sin w⟩ := by
    unfold zw
    apply Complex.ext
    · exact expI_re w
    · exact Complex.exp_ofReal_mul_I_im w
  have hs : Real.sin w ^ 2 = 1 - Real.cos w ^ 2 := by linarith [Real.sin_sq_add_cos_sq w]
  unfold polyP lpDen
  rw [Complex.normSq_mul, hz]
  generalize Real.cos w = c at hs ⊢
  generalize Real.sin w = s at hs ⊢
  have e1 : Complex.normSq ((1 + (T : ℂ)) * ⟨c, s⟩ - 1) = T ^ 2 + (1 + T) * (2 - 2 * c) := by
    rw [Complex.normSq_apply]
    simp
    linear_combination (1 + T) ^ 2 * hs
  have e2 : Complex.normSq ((1 + (κ : ℂ) * T + (T : ℂ) ^ 2) * (⟨c, s⟩ : ℂ) ^ 2 - (2 + (κ : ℂ) * T) * ⟨c, s⟩ + 1) =
      T ^ 4 + T ^ 2 * (κ ^ 2 - 2 + κ * T) * (2 - 2 * c) + (1 + κ * T + T ^ 2) * (2 - 2 * c) ^ 2 := by
    have h1 : (1 + (κ : ℂ) * T + (T : ℂ) ^ 2) * (⟨c, s⟩ : ℂ) ^ 2 - (2 + (κ : ℂ) * T) * ⟨c, s⟩ + 1 =
        ⟨(1 + κ * T + T ^ 2) * (c ^ 2 - s ^ 2) - (2 + κ * T) * c + 1, (1 + κ * T + T ^ 2) * (2 * c * s) - (2 + κ * T) * s⟩ := by
      apply Complex.ext
      · simp [pow_two]
      · simp [pow_two]
        left
        ring
    rw [h1, Complex.normSq_mk]
    have hs4 : s ^ 4 = (1 - c ^ 2) ^ 2 := by rw [← hs]; ring
    ring_nf
    rw [hs4, hs]
    ring
  rw [e1, e2]

private theorem third_phasor (T κ w : ℝ) (F : ℂ) (hP : polyP T κ (zw w) ≠ 0) :
    ThirdOrder T κ (fun n => (F / polyP T κ (zw w) * zw w ^ n).re) (fun n => (F * zw w ^ n).re) := by
  intro n
  have e : ((T ^ 3 + (κ + 1) * T ^ 2 + (κ + 1) * T + 1 : ℝ) : ℂ) * (F / polyP T κ (zw w) * zw w ^ (n + 3)) =
      (((κ + 1) * T ^ 2 + 2 * (κ + 1) * T + 3 : ℝ) : ℂ) * (F / polyP T κ (zw w) * zw w ^ (n + 2)) +
      ((-(κ + 1) * T - 3 : ℝ) : ℂ) * (F / polyP T κ (zw w) * zw w ^ (n + 1)) + F / polyP T κ (zw w) * zw w ^ n + F * zw w ^ n := by
    have h1 : F * zw w ^ n = polyP T κ (zw w) * (F / polyP T κ (zw w)) * zw w ^ n := by rw [mul_div_cancel₀ _ hP]
    rw [h1]
    generalize F / polyP T κ (zw w) = E
    unfold polyP
    push_cast
    ring
  have := congrArg Complex.re e
  simp only [Complex.add_re, Complex.re_ofReal_mul] at this
  exact this

private theorem polyP_ne {T κ : ℝ} (hT : 0 < T) (hκ : 0 ≤ κ) (w : ℝ) : polyP T κ (zw w) ≠ 0 := by
  intro h
  have h1 := normSq_polyP T κ w
  rw [h, Complex.normSq_zero] at h1
  exact (lpDen_pos hT hκ (by linarith [Real.cos_le_one w])).ne h1

section third
variable (fc r : ℝ) (hfc : 0 < fc) (ν : ℝ)
include hfc

/-- Exact arithmetic: the low pass has gain `lowGain` at every frequency. -/
theorem C123_lowpass : SteadyGain Modifier.process (LowPass.new fc r : LowPass ℝ ℝ) ν (lowGain fc r ν) := by
  set w := 2 * Real.pi * ν / 48000 with hw
  have hT := omega_pos hfc
  have hκ : 0 ≤ damping r - 1 := by linarith [(damping_mem r).1]
  have hP := polyP_ne hT hκ w
  set T := omega fc
  set κ := damping r - 1
  refine steady_of (((T ^ 3 : ℝ) : ℂ) * zw w ^ 3 / polyP T κ (zw w)) ?_ ?_
  · unfold lowGain
    rw [bent_cos, ← hw, ← normSq_polyP, norm_div, norm_mul, norm_pow, zw_norm, one_pow, mul_one, Complex.norm_real, Complex.normSq_eq_norm_sq,
      Real.sqrt_div (by positivity), Real.sqrt_sq (norm_nonneg _), show T ^ 6 = (T ^ 3) ^ 2 by ring, Real.sqrt_sq (by positivity),
      Real.norm_of_nonneg (by positivity)]
  · intro A φ
    obtain ⟨y, h1, h2⟩ := lp_third fc r hfc (fun n : ℕ => A * Real.cos (w * n + φ))
    refine ⟨y, h1, ?_⟩
    have h3 := third_phasor T κ w (((T ^ 3 : ℝ) : ℂ) * phasor A φ) hP
    have h4 : ThirdOrder T κ (fun n => delayed 0 y 3 n - (((T ^ 3 : ℝ) : ℂ) * phasor A φ / polyP T κ (zw w) * zw w ^ n).re) (fun _ => 0) := by
      intro n
      have a := h2 n
      have b := h3 n
      simp only [mul_assoc, Complex.re_ofReal_mul, phasor_re] at a b ⊢
      linarith
    have h5 := thirdOrder_tendsto hT hκ (by linarith [(damping_mem r).2]) h4 tendsto_const_nhds
    have h6 := (tendsto_add_atTop_iff_nat 3).mpr h5
    simp only [delayed_succ, delayed_zero'] at h6
    refine h6.congr fun n => ?_
    rw [pow_add]
    congr 2
    ring

/-- Exact arithmetic: the high pass has gain `highGain` at every frequency. -/
theorem C123_highpass : SteadyGain Modifier.process (HighPass.new fc r : HighPass ℝ ℝ) ν (highGain fc r ν) := by
  set w := 2 * Real.pi * ν / 48000 with hw
  have hT := omega_pos hfc
  have hκ : 0 ≤ damping r - 1 := by linarith [(damping_mem r).1]
  have hP := polyP_ne hT hκ w
  set T := omega fc
  set κ := damping r - 1
  have hz := zw_ne w
  refine steady_of ((zw w - 1) ^ 3 / polyP T κ (zw w)) ?_ ?_
  · have hq : ‖zw w - 1‖ ^ 2 = bent ν := by
      rw [← Complex.normSq_eq_norm_sq, bent_cos, ← hw]
      have hz : zw w = ⟨Real.cos w, Real.sin w⟩ := by
        unfold zw
        apply Complex.ext
        · exact expI_re w
        · exact Complex.exp_ofReal_mul_I_im w
      rw [hz, Complex.normSq_apply]
      simp
      nlinarith [Real.sin_sq_add_cos_sq w]
    unfold highGain
    rw [← hq, show (‖zw w - 1‖ ^ 2) ^ 3 = (‖zw w - 1‖ ^ 3) ^ 2 by ring, hq, bent_cos, ← hw, ← normSq_polyP, norm_div, norm_pow, Complex.normSq_eq_norm_sq,
      Real.sqrt_div (by positivity), Real.sqrt_sq (norm_nonneg _), Real.sqrt_sq (by positivity)]
  · intro A φ
    obtain ⟨y, h1, h2⟩ := hp_third fc r hfc (fun n : ℕ => A * Real.cos (w * n + φ))
    refine ⟨y, h1, ?_⟩
    have h3 := third_phasor T κ w ((1 - (zw w)⁻¹) ^ 3 * phasor A φ) hP
    have h4 : ThirdOrder T κ (fun n => delayed 0 y 3 n - ((1 - (zw w)⁻¹) ^ 3 * phasor A φ / polyP T κ (zw w) * zw w ^ n).re)
        (fun n => bdiff (bdiff (bdiff (fun n : ℕ => A * Real.cos (w * n + φ)))) n - ((1 - (zw w)⁻¹) ^ 3 * phasor A φ * zw w ^ n).re) := by
      intro n
      have a := h2 n
      have b := h3 n
      simp only at a b ⊢
      linarith
    have h5 := thirdOrder_tendsto hT hκ (by linarith [(damping_mem r).2]) h4 (by
      refine tendsto_const_nhds.congr' ?_
      filter_upwards [eventually_ge_atTop 3] with n hn
      obtain ⟨k, rfl⟩ : ∃ k, n = k + 3 := ⟨n - 3, by omega⟩
      rw [bdiff3_eq]
      simp only [delayed_succ, delayed_zero', ← phasor_re]
      have e : (1 - (zw w)⁻¹) ^ 3 * phasor A φ * zw w ^ (k + 3) = phasor A φ * zw w ^ (k + 3) - ((3 : ℝ) : ℂ) * (phasor A φ * zw w ^ (k + 2)) +
          ((3 : ℝ) : ℂ) * (phasor A φ * zw w ^ (k + 1)) - phasor A φ * zw w ^ k := by
        field_simp
        push_cast
        ring
      rw [e]
      simp only [Complex.sub_re, Complex.add_re, Complex.re_ofReal_mul]
      ring)
    have h6 := (tendsto_add_atTop_iff_nat 3).mpr h5
    simp only [delayed_succ, delayed_zero'] at h6
    refine h6.congr fun n => ?_
    congr 2
    field_simp
    rw [← hw]
    ring
end third

/-! ## BandPass -/

/-- Gain of a band pass with corners `l < h` at frequency `ν`. -/
noncomputable def bandGain (l h ν : ℝ) : ℝ :=
  let s := Real.sin (Real.pi * ν / 48000)
  let c := Real.cos (Real.pi * ν / 48000)
  let a := Real.tan (Real.pi * l / 48000)
  let b := Real.tan (Real.pi * h / 48000)
  Real.sqrt ((b * s * c) ^ 2 / ((s ^ 2 + (b * c) ^ 2) * (s ^ 2 + (a * c) ^ 2)))

private theorem sub_real_ne {b : ℝ} (hb : |b| < 1) (w : ℝ) : zw w - b ≠ 0 := by
  intro h
  have h1 : ‖zw w‖ = ‖(b : ℂ)‖ := by rw [sub_eq_zero.mp h]
  rw [zw_norm, Complex.norm_real, Real.norm_eq_abs] at h1
  linarith

private theorem normSq_pole {t ν : ℝ} (ht : 0 < t) : Complex.normSq (zw (2 * Real.pi * ν / 48000) - ((1 - t) / (1 + t) : ℝ)) =
    4 * (Real.sin (Real.pi * ν / 48000) ^ 2 + (t * Real.cos (Real.pi * ν / 48000)) ^ 2) / (1 + t) ^ 2 := by
  have hz : zw (2 * Real.pi * ν / 48000) = ⟨Real.cos (2 * Real.pi * ν / 48000), Real.sin (2 * Real.pi * ν / 48000)⟩ := by
    unfold zw
    apply Complex.ext
    · exact expI_re _
    · exact Complex.exp_ofReal_mul_I_im _
  have hs := Real.sin_sq_add_cos_sq (2 * Real.pi * ν / 48000)
  have hc : Real.cos (2 * Real.pi * ν / 48000) = 2 * Real.cos (Real.pi * ν / 48000) ^ 2 - 1 := by
    rw [show 2 * Real.pi * ν / 48000 = 2 * (Real.pi * ν / 48000) by ring, Real.cos_two_mul]
  have hs' := Real.sin_sq_add_cos_sq (Real.pi * ν / 48000)
  rw [hz, Complex.normSq_apply]
  simp only [Complex.sub_re, Complex.sub_im, Complex.ofReal_re, Complex.ofReal_im, sub_zero]
  generalize Real.cos (2 * Real.pi * ν / 48000) = c2 at *
  generalize Real.sin (2 * Real.pi * ν / 48000) = s2 at *
  generalize Real.cos (Real.pi * ν / 48000) = c at *
  generalize Real.sin (Real.pi * ν / 48000) = s at *
  have hp : (1 + t) ≠ 0 := by positivity
  rw [eq_div_iff (by positivity)]
  have e : ((c2 - (1 - t) / (1 + t)) * (c2 - (1 - t) / (1 + t)) + s2 * s2) * (1 + t) ^ 2 =
      (s2 ^ 2 + c2 ^ 2) * (1 + t) ^ 2 - 2 * c2 * (1 - t) * (1 + t) + (1 - t) ^ 2 := by
    field_simp
    ring
  rw [e, hs, hc]
  linear_combination -4 * hs'

/-- Exact arithmetic: the band pass has gain `bandGain` at every frequency. -/
theorem C123_bandpass {l h : ℝ} (hl : 0 < l) (hlh : l < h) (hh : h < 24000) (ν : ℝ) :
    SteadyGain Modifier.process (BandPass.fromCorners (l, h) : BandPass ℝ ℝ) ν (bandGain l h ν) ∧
    SteadyGain Modifier.process (BandPass.fromCorners (h, l) : BandPass ℝ ℝ) ν (bandGain l h ν) := by
  have hP : 0 < l * h := mul_pos hl (hl.trans hlh)
  have hS : 0 < Real.sqrt (l * h) := Real.sqrt_pos.mpr hP
  have e1 : (BandPass.fromCorners (l, h) : BandPass ℝ ℝ) = BandPass.new (Real.sqrt (l * h)) (Real.sqrt (l * h) / (h - l)) := by
    unfold BandPass.fromCorners BandPass.new
    real_simp
    rw [abs_of_pos hP, abs_of_pos (sub_pos.mpr hlh)]
  have e2 : (BandPass.fromCorners (h, l) : BandPass ℝ ℝ) = BandPass.new (Real.sqrt (l * h)) (Real.sqrt (l * h) / (h - l)) := by
    unfold BandPass.fromCorners BandPass.new
    real_simp
    rw [mul_comm h l, abs_of_pos hP, abs_sub_comm, abs_of_pos (sub_pos.mpr hlh)]
  rw [e1, e2, and_self]
  have hd : Real.sqrt (l * h) / (Real.sqrt (l * h) / (h - l)) = h - l := by
    have : h - l ≠ 0 := (sub_pos.mpr hlh).ne'
    field_simp
  have e := bp_new hl hlh rfl hd
  set w := 2 * Real.pi * ν / 48000 with hw
  set a := Real.tan (Real.pi * l / 48000) with ha'
  set b := Real.tan (Real.pi * h / 48000) with hb'
  have ha : 0 < a := tan_pos' hl (hlh.trans hh)
  have hb : 0 < b := tan_pos' (hl.trans hlh) hh
  have pa : |bpPole l| < 1 := bpPole_abs hl (hlh.trans hh)
  have pb : |bpPole h| < 1 := bpPole_abs (hl.trans hlh) hh
  have na := sub_real_ne pa w
  have nb := sub_real_ne pb w
  have hz := zw_ne w
  set A0 : ℝ := (1 - 1 / (1 + b)) * (1 / (1 + a)) with hA0
  refine steady_of ((A0 : ℂ) * (zw w ^ 2 - 1) / ((zw w - bpPole h) * (zw w - bpPole l))) ?_ ?_
  · have k1 := normSq_pole (ν := ν) ha
    have k2 := normSq_pole (ν := ν) hb
    rw [← hw] at k1 k2
    have k3 : Complex.normSq (zw w ^ 2 - 1) = 16 * (Real.sin (Real.pi * ν / 48000) * Real.cos (Real.pi * ν / 48000)) ^ 2 := by
      have hz2 : zw w ^ 2 = zw (2 * w) := by
        unfold zw
        rw [← Complex.exp_nat_mul]
        congr 1
        push_cast
        ring
      have hz : zw (2 * w) = ⟨Real.cos (2 * w), Real.sin (2 * w)⟩ := by
        unfold zw
        apply Complex.ext
        · exact expI_re _
        · exact Complex.exp_ofReal_mul_I_im _
      rw [hz2, hz, Complex.normSq_apply]
      simp only [Complex.sub_re, Complex.sub_im, Complex.one_re, Complex.one_im, sub_zero]
      have s1 := Real.sin_sq_add_cos_sq (2 * w)
      have s2 := Real.sin_sq_add_cos_sq w
      have s3 : Real.sin w = 2 * Real.sin (Real.pi * ν / 48000) * Real.cos (Real.pi * ν / 48000) := by
        rw [hw, show 2 * Real.pi * ν / 48000 = 2 * (Real.pi * ν / 48000) by ring, Real.sin_two_mul]
      have s4 := Real.cos_two_mul w
      have s5 : Real.sin w ^ 2 = 4 * (Real.sin (Real.pi * ν / 48000) * Real.cos (Real.pi * ν / 48000)) ^ 2 := by rw [s3]; ring
      linear_combination s1 - 2 * s4 - 4 * s2 + 4 * s5
    unfold bandGain
    simp only
    rw [← ha', ← hb', norm_div, norm_mul, norm_mul, Complex.norm_real, Real.norm_eq_abs]
    have k4 : ‖zw w - (bpPole h : ℂ)‖ ^ 2 = 4 * (Real.sin (Real.pi * ν / 48000) ^ 2 + (b * Real.cos (Real.pi * ν / 48000)) ^ 2) / (1 + b) ^ 2 := by
      rw [← Complex.normSq_eq_norm_sq, ← k2]; rfl
    have k5 : ‖zw w - (bpPole l : ℂ)‖ ^ 2 = 4 * (Real.sin (Real.pi * ν / 48000) ^ 2 + (a * Real.cos (Real.pi * ν / 48000)) ^ 2) / (1 + a) ^ 2 := by
      rw [← Complex.normSq_eq_norm_sq, ← k1]; rfl
    rw [Complex.normSq_eq_norm_sq] at k3
    have hpos : 0 ≤ |A0| * ‖zw w ^ 2 - 1‖ / (‖zw w - (bpPole h : ℂ)‖ * ‖zw w - (bpPole l : ℂ)‖) := by positivity
    rw [← Real.sqrt_sq hpos]
    congr 1
    rw [div_pow, mul_pow, mul_pow, k3, k4, k5, sq_abs]
    have p4 : 0 < ‖zw w - (bpPole h : ℂ)‖ ^ 2 := by have := norm_pos_iff.mpr nb; positivity
    have p5 : 0 < ‖zw w - (bpPole l : ℂ)‖ ^ 2 := by have := norm_pos_iff.mpr na; positivity
    rw [k4] at p4
    rw [k5] at p5
    have q4 : Real.sin (Real.pi * ν / 48000) ^ 2 + (b * Real.cos (Real.pi * ν / 48000)) ^ 2 ≠ 0 := by
      intro h0; rw [h0] at p4; simp at p4
    have q5 : Real.sin (Real.pi * ν / 48000) ^ 2 + (a * Real.cos (Real.pi * ν / 48000)) ^ 2 ≠ 0 := by
      intro h0; rw [h0] at p5; simp at p5
    have e3 : A0 = b / ((1 + b) * (1 + a)) := by
      rw [hA0]
      field_simp
      ring
    rw [e3]
    field_simp
    ring
  · intro A φ
    obtain ⟨y, hy⟩ := bandpass_out (BandPass.new (Real.sqrt (l * h)) (Real.sqrt (l * h) / (h - l))) (by rw [e]) (by rw [e]) (by rw [e]) (by rw [e])
      (fun n : ℕ => A * Real.cos (w * n + φ))
    refine ⟨y, fun n => (hy n).1, ?_⟩
    set E : ℂ := (A0 : ℂ) * (1 - (zw w)⁻¹ ^ 2) * phasor A φ / ((zw w - bpPole h) * (zw w - bpPole l)) with hE
    have h4 : ∀ n, (delayed 0 y 2 (n + 2) - (E * zw w ^ (n + 2)).re) = (bpPole h + bpPole l) * (delayed 0 y 2 (n + 1) - (E * zw w ^ (n + 1)).re) -
        bpPole h * bpPole l * (delayed 0 y 2 n - (E * zw w ^ n).re) +
        (A0 * (A * Real.cos (w * n + φ) - delayed 0 (fun n : ℕ => A * Real.cos (w * n + φ)) 2 n) - ((A0 : ℂ) * (1 - (zw w)⁻¹ ^ 2) * phasor A φ * zw w ^ n).re) := by
      intro n
      have hq := (hy n).2
      rw [e] at hq
      simp only at hq
      have e5 : E * zw w ^ (n + 2) = ((bpPole h + bpPole l : ℝ) : ℂ) * (E * zw w ^ (n + 1)) - ((bpPole h * bpPole l : ℝ) : ℂ) * (E * zw w ^ n) +
          (A0 : ℂ) * (1 - (zw w)⁻¹ ^ 2) * phasor A φ * zw w ^ n := by
        have e6 : (A0 : ℂ) * (1 - (zw w)⁻¹ ^ 2) * phasor A φ = E * ((zw w - bpPole h) * (zw w - bpPole l)) := by
          rw [hE, div_mul_cancel₀ _ (mul_ne_zero nb na)]
        rw [e6]
        push_cast
        ring
      have e7 := congrArg Complex.re e5
      simp only [Complex.add_re, Complex.sub_re, Complex.re_ofReal_mul] at e7
      rw [e7, show delayed 0 y 2 (n + 2) = y n by rw [delayed_succ, delayed_succ, delayed_zero'],
        show delayed 0 y 2 (n + 1) = delayed 0 y 1 n by rw [delayed_succ]]
      linarith
    have h5 := twoPole_tendsto (e := fun n => delayed 0 y 2 n - (E * zw w ^ n).re) pb pa h4 (by
      refine tendsto_const_nhds.congr' ?_
      filter_upwards [eventually_ge_atTop 2] with n hn
      obtain ⟨k, rfl⟩ : ∃ k, n = k + 2 := ⟨n - 2, by omega⟩
      simp only [delayed_succ, delayed_zero', ← phasor_re]
      have e8 : (A0 : ℂ) * (1 - (zw w)⁻¹ ^ 2) * phasor A φ * zw w ^ (k + 2) = (A0 : ℂ) * (phasor A φ * zw w ^ (k + 2) - phasor A φ * zw w ^ k) := by
        field_simp
        ring
      rw [e8, Complex.re_ofReal_mul, Complex.sub_re]
      ring)
    have h6 := (tendsto_add_atTop_iff_nat 2).mpr h5
    simp only [delayed_succ, delayed_zero'] at h6
    refine h6.congr fun n => ?_
    congr 2
    rw [hE]
    field_simp
    rw [← hw]
    ring

example : SteadyGain Modifier.process (LowPass.new 440 (1 / 2) : LowPass ℝ ℝ) 1000 (lowGain 440 (1 / 2) 1000) ∧
    SteadyGain Modifier.process (HighPass.new 440 (1 / 2) : HighPass ℝ ℝ) 1000 (highGain 440 (1 / 2) 1000) ∧
    SteadyGain Modifier.process (BandPass.fromCorners (400, 3600) : BandPass ℝ ℝ) 1000 (bandGain 400 3600 1000) :=
  ⟨C123_lowpass _ _ (by norm_num) _, C123_highpass _ _ (by norm_num) _, (C123_bandpass (by norm_num) (by norm_num) (by norm_num) _).1⟩

/-! ## C124: what the low pass and the high pass do to each frequency -/

/-- The frequency the filters see in place of `ν`: below `ν`, equal to it in the limit of low frequencies. -/
noncomputable def warped (ν : ℝ) : ℝ := 48000 / Real.pi * Real.sin (Real.pi * ν / 48000)

private theorem bent_warped (ν : ℝ) : bent ν = (2 * Real.pi / 48000 * warped ν) ^ 2 := by
  unfold bent warped
  have := Real.pi_ne_zero
  field_simp

private theorem omega_eq {fc : ℝ} (h : fc ≤ 24000) : omega fc = 2 * Real.pi / 48000 * fc := by
  unfold omega
  rw [min_eq_left h]
  ring

private theorem lpDen_one (T q : ℝ) : lpDen T 1 q = T ^ 6 + 2 * T ^ 5 * q + (T + 2 * T ^ 2) * T ^ 2 * q ^ 2 + (1 + 2 * T + 2 * T ^ 2 + T ^ 3) * q ^ 3 := by
  unfold lpDen
  ring

private theorem damping_low {r : ℝ} (hr : r ≤ 0) : damping r - 1 = 1 := by
  unfold damping
  rw [min_eq_left (by linarith), max_eq_right hr, show Real.pi * (4 - 0) / 6 = Real.pi - Real.pi / 3 by ring, Real.cos_pi_sub, Real.cos_pi_div_three]
  norm_num

private theorem damping_high {r : ℝ} (hr : 1 ≤ r) : damping r - 1 = 0 := by
  unfold damping
  rw [min_eq_right hr, max_eq_left (by norm_num), show Real.pi * (4 - 1) / 6 = Real.pi / 2 by ring, Real.cos_pi_div_two]
  norm_num

private theorem damping_anti {r r' : ℝ} (h : r ≤ r') : damping r' ≤ damping r := by
  unfold damping
  have hp := Real.pi_pos
  set a := max (min r 1) 0
  set b := max (min r' 1) 0
  have hab : a ≤ b := max_le_max (min_le_min h le_rfl) le_rfl
  have h1 : Real.cos (Real.pi * (4 - a) / 6) ≤ Real.cos (Real.pi * (4 - b) / 6) := by
    have h0 : 0 ≤ a := le_max_right _ _
    have hb1 : b ≤ 1 := max_le (min_le_right _ _) (by norm_num)
    exact Real.cos_le_cos_of_nonneg_of_le_pi (by nlinarith) (by nlinarith) (by nlinarith)
  linarith

private theorem lpDen_mono_damping {T κ κ' q : ℝ} (hT : 0 < T) (hκ : 0 ≤ κ) (h : κ ≤ κ') (hq : 0 ≤ q) : lpDen T κ q ≤ lpDen T κ' q := by
  unfold lpDen
  refine mul_le_mul_of_nonneg_left ?_ (by positivity)
  have h1 : κ ^ 2 ≤ κ' ^ 2 := by nlinarith
  have h2 : κ * T ≤ κ' * T := mul_le_mul_of_nonneg_right h hT.le
  have h3 : T ^ 2 * (κ ^ 2 - 2 + κ * T) * q ≤ T ^ 2 * (κ' ^ 2 - 2 + κ' * T) * q :=
    mul_le_mul_of_nonneg_right (mul_le_mul_of_nonneg_left (by linarith) (by positivity)) hq
  have h4 : (1 + κ * T + T ^ 2) * q ^ 2 ≤ (1 + κ' * T + T ^ 2) * q ^ 2 := mul_le_mul_of_nonneg_right (by linarith) (by positivity)
  linarith

private theorem bent_mono {ν ν' : ℝ} (h0 : 0 ≤ ν) (h : ν ≤ ν') (h1 : ν' ≤ 24000) : bent ν ≤ bent ν' := by
  have hp := Real.pi_pos
  unfold bent
  have a : 0 ≤ Real.sin (Real.pi * ν / 48000) := Real.sin_nonneg_of_nonneg_of_le_pi (by positivity) (by nlinarith)
  have b : Real.sin (Real.pi * ν / 48000) ≤ Real.sin (Real.pi * ν' / 48000) :=
    Real.sin_le_sin_of_le_of_le_pi_div_two (by nlinarith [mul_nonneg hp.le h0]) (by nlinarith) (by nlinarith)
  nlinarith

private theorem lowGain_sq {fc : ℝ} (hfc : 0 < fc) (r ν : ℝ) : lowGain fc r ν ^ 2 = omega fc ^ 6 / lpDen (omega fc) (damping r - 1) (bent ν) := by
  have hT := omega_pos hfc
  have := lpDen_pos hT (κ := damping r - 1) (by linarith [(damping_mem r).1]) (bent_nonneg ν)
  exact Real.sq_sqrt (by positivity)

private theorem highGain_sq {fc : ℝ} (hfc : 0 < fc) (r ν : ℝ) : highGain fc r ν ^ 2 = bent ν ^ 3 / lpDen (omega fc) (damping r - 1) (bent ν) := by
  have hT := omega_pos hfc
  have := lpDen_pos hT (κ := damping r - 1) (by linarith [(damping_mem r).1]) (bent_nonneg ν)
  have := bent_nonneg ν
  exact Real.sq_sqrt (by positivity)

theorem lowGain_nonneg (fc r ν : ℝ) : 0 ≤ lowGain fc r ν := Real.sqrt_nonneg _
theorem highGain_nonneg (fc r ν : ℝ) : 0 ≤ highGain fc r ν := Real.sqrt_nonneg _

/-- Without resonance both filters attenuate at least as much as the third order Butterworth responses `1/√(1+(x/fc)⁶)` and
`1/√(1+(fc/x)⁶)` at the warped frequency `x`; in particular neither ever amplifies. -/
theorem C124_butterworth {fc r : ℝ} (hfc : 0 < fc) (hn : fc ≤ 24000) (hr : r ≤ 0) (ν : ℝ) :
    lowGain fc r ν ^ 2 * (fc ^ 6 + warped ν ^ 6) ≤ fc ^ 6 ∧ highGain fc r ν ^ 2 * (fc ^ 6 + warped ν ^ 6) ≤ warped ν ^ 6 := by
  have hT := omega_pos hfc
  have hd := lpDen_pos hT (κ := 1) (by norm_num) (bent_nonneg ν)
  have hq := bent_nonneg ν
  have hp : (0 : ℝ) < 2 * Real.pi / 48000 := by have := Real.pi_pos; positivity
  rw [lowGain_sq hfc, highGain_sq hfc, damping_low hr]
  have h1 : omega fc ^ 6 + bent ν ^ 3 ≤ lpDen (omega fc) 1 (bent ν) := by
    rw [lpDen_one]
    have : 0 ≤ 2 * omega fc ^ 5 * bent ν := by positivity
    have : 0 ≤ (omega fc + 2 * omega fc ^ 2) * omega fc ^ 2 * bent ν ^ 2 := by positivity
    have : 0 ≤ (2 * omega fc + 2 * omega fc ^ 2 + omega fc ^ 3) * bent ν ^ 3 := by positivity
    nlinarith
  have h2 : omega fc ^ 6 = (2 * Real.pi / 48000) ^ 6 * fc ^ 6 := by rw [omega_eq hn]; ring
  have h3 : bent ν ^ 3 = (2 * Real.pi / 48000) ^ 6 * warped ν ^ 6 := by rw [bent_warped]; ring
  have hk : 0 < (2 * Real.pi / 48000) ^ 6 := by positivity
  have h4 : fc ^ 6 + warped ν ^ 6 ≤ lpDen (omega fc) 1 (bent ν) / (2 * Real.pi / 48000) ^ 6 := by
    rw [le_div_iff₀ hk]
    linarith
  constructor
  · rw [div_mul_eq_mul_div, div_le_iff₀ hd, h2]
    have h5 := mul_le_mul_of_nonneg_left h4 (show 0 ≤ (2 * Real.pi / 48000) ^ 6 * fc ^ 6 by positivity)
    refine h5.trans (le_of_eq ?_)
    field_simp
  · rw [div_mul_eq_mul_div, div_le_iff₀ hd, h3]
    have h5 := mul_le_mul_of_nonneg_left h4 (show 0 ≤ (2 * Real.pi / 48000) ^ 6 * warped ν ^ 6 by positivity)
    refine h5.trans (le_of_eq ?_)
    field_simp

example : lowGain 440 0 1000 ^ 2 * (440 ^ 6 + warped 1000 ^ 6) ≤ 440 ^ 6 := (C124_butterworth (by norm_num) (by norm_num) le_rfl _).1

/-- Neither filter amplifies anything when there is no resonance. -/
theorem C124_never_amplifies {fc r : ℝ} (hfc : 0 < fc) (hn : fc ≤ 24000) (hr : r ≤ 0) (ν : ℝ) : lowGain fc r ν ≤ 1 ∧ highGain fc r ν ≤ 1 := by
  obtain ⟨h1, h2⟩ := C124_butterworth hfc hn hr ν
  have h6 : 0 < fc ^ 6 := by positivity
  have hw : 0 ≤ warped ν ^ 6 := by positivity
  constructor
  · by_contra h
    have : 1 < lowGain fc r ν ^ 2 := by nlinarith
    nlinarith
  · by_contra h
    have : 1 < highGain fc r ν ^ 2 := by nlinarith
    nlinarith

example (ν : ℝ) : lowGain 10000 (-1 / 2) ν ≤ 1 ∧ highGain 10000 (-1 / 2) ν ≤ 1 := C124_never_amplifies (by norm_num) (by norm_num) (by norm_num) ν

/-- Raising the resonance never lowers the gain, at any frequency. -/
theorem C124_resonance {fc r r' : ℝ} (hfc : 0 < fc) (hr : r ≤ r') (ν : ℝ) :
    lowGain fc r ν ≤ lowGain fc r' ν ∧ highGain fc r ν ≤ highGain fc r' ν := by
  have hT := omega_pos hfc
  have hd := lpDen_pos hT (κ := damping r' - 1) (by linarith [(damping_mem r').1]) (bent_nonneg ν)
  have hm := lpDen_mono_damping hT (κ := damping r' - 1) (κ' := damping r - 1) (by linarith [(damping_mem r').1]) (by linarith [damping_anti hr]) (bent_nonneg ν)
  have := bent_nonneg ν
  exact ⟨Real.sqrt_le_sqrt (div_le_div_of_nonneg_left (by positivity) hd hm), Real.sqrt_le_sqrt (div_le_div_of_nonneg_left (by positivity) hd hm)⟩

example (ν : ℝ) : lowGain 440 0 ν ≤ lowGain 440 (1 / 2) ν := (C124_resonance (by norm_num) (by norm_num) ν).1

/-- Without resonance the low pass passes less of a higher frequency and the high pass more, up to half the sample rate. -/
theorem C124_monotone {fc r ν ν' : ℝ} (hfc : 0 < fc) (hr : r ≤ 0) (h0 : 0 ≤ ν) (h : ν ≤ ν') (h1 : ν' ≤ 24000) :
    lowGain fc r ν' ≤ lowGain fc r ν ∧ highGain fc r ν ≤ highGain fc r ν' := by
  have hT := omega_pos hfc
  have hb := bent_mono h0 h h1
  have hq := bent_nonneg ν
  have hq' := bent_nonneg ν'
  unfold lowGain highGain
  rw [damping_low hr]
  have hd := lpDen_pos hT (κ := 1) (by norm_num) hq
  have hd' := lpDen_pos hT (κ := 1) (by norm_num) hq'
  set q := bent ν
  set q' := bent ν'
  have b2 : q ^ 2 ≤ q' ^ 2 := pow_le_pow_left₀ hq hb 2
  have b3 : q ^ 3 ≤ q' ^ 3 := pow_le_pow_left₀ hq hb 3
  constructor
  · refine Real.sqrt_le_sqrt (div_le_div_of_nonneg_left (by positivity) hd ?_)
    rw [lpDen_one, lpDen_one]
    gcongr
  · refine Real.sqrt_le_sqrt ?_
    rw [div_le_div_iff₀ hd hd', lpDen_one, lpDen_one]
    have c1 : q ^ 3 * omega fc ^ 6 ≤ q' ^ 3 * omega fc ^ 6 := by gcongr
    have c2 : q ^ 3 * q' ≤ q' ^ 3 * q := by
      have : q * q' * q ^ 2 ≤ q * q' * q' ^ 2 := by gcongr
      nlinarith
    have c3 : q ^ 3 * q' ^ 2 ≤ q' ^ 3 * q ^ 2 := by
      have : q ^ 2 * q' ^ 2 * q ≤ q ^ 2 * q' ^ 2 * q' := by gcongr
      nlinarith
    have d2 := mul_le_mul_of_nonneg_left c2 (show 0 ≤ 2 * omega fc ^ 5 by positivity)
    have d3 := mul_le_mul_of_nonneg_left c3 (show 0 ≤ (omega fc + 2 * omega fc ^ 2) * omega fc ^ 2 by positivity)
    nlinarith

example : lowGain 440 0 880 ≤ lowGain 440 0 220 ∧ highGain 440 0 220 ≤ highGain 440 0 880 :=
  C124_monotone (by norm_num) le_rfl (by norm_num) (by norm_num) (by norm_num)

/-- With full resonance the low pass boosts some frequency by at least `16000/(π·fc)`. -/
theorem C124_peak {fc r : ℝ} (hfc : 0 < fc) (hn : fc ≤ 24000) (hr : 1 ≤ r) :
    ∃ ν, 0 < ν ∧ ν < 24000 ∧ 16000 / (Real.pi * fc) ≤ lowGain fc r ν := by
  have hT := omega_pos hfc
  have hp := Real.pi_pos
  set T := omega fc with hTd
  have hx : 0 < T / (2 * Real.sqrt (1 + T ^ 2)) := by positivity
  have hs : T < Real.sqrt (1 + T ^ 2) := Real.lt_sqrt_of_sq_lt (by linarith)
  have hx1 : T / (2 * Real.sqrt (1 + T ^ 2)) < 1 := by
    rw [div_lt_one (by positivity)]
    linarith
  have ha := Real.arcsin_pos.mpr hx
  have ha' := Real.arcsin_lt_pi_div_two.mpr hx1
  refine ⟨48000 / Real.pi * Real.arcsin (T / (2 * Real.sqrt (1 + T ^ 2))), by positivity, ?_, ?_⟩
  · rw [div_mul_eq_mul_div, div_lt_iff₀ hp]
    linarith
  · have hb : bent (48000 / Real.pi * Real.arcsin (T / (2 * Real.sqrt (1 + T ^ 2)))) = T ^ 2 / (1 + T ^ 2) := by
      unfold bent
      rw [show Real.pi * (48000 / Real.pi * Real.arcsin (T / (2 * Real.sqrt (1 + T ^ 2)))) / 48000 = Real.arcsin (T / (2 * Real.sqrt (1 + T ^ 2))) by field_simp,
        Real.sin_arcsin (by linarith) hx1.le, ← mul_div_assoc, mul_div_mul_left _ _ two_ne_zero, div_pow, Real.sq_sqrt (by positivity)]
    unfold lowGain
    rw [hb, damping_high hr, ← hTd]
    refine Real.le_sqrt_of_sq_le ?_
    have e : lpDen T 0 (T ^ 2 / (1 + T ^ 2)) = T ^ 8 * (2 + T + T ^ 2) / (1 + T ^ 2) ^ 2 := by
      unfold lpDen
      field_simp
      ring
    have e2 : 16000 / (Real.pi * fc) = 2 / (3 * T) := by
      rw [hTd, omega_eq hn]
      field_simp
      norm_num
    rw [e, e2, div_pow, div_div_eq_mul_div, div_le_div_iff₀ (by positivity) (by positivity)]
    have : 4 * (2 + T + T ^ 2) ≤ 9 * (1 + T ^ 2) ^ 2 := by nlinarith [sq_nonneg (4 * T - 1)]
    have := mul_le_mul_of_nonneg_left this (show 0 ≤ T ^ 8 by positivity)
    nlinarith

example : ∃ ν, 0 < ν ∧ ν < 24000 ∧ 16000 / (Real.pi * 440) ≤ lowGain 440 1 ν := C124_peak (by norm_num) (by norm_num) le_rfl

private theorem lpDen_upper {T q : ℝ} (hT : 0 < T) (hq : 0 ≤ q) : lpDen T 1 q ≤ (1 + 10 / 3 * T + 10 / 3 * T ^ 2 + T ^ 3) * (T ^ 6 + q ^ 3) := by
  have key : ∀ a : ℝ, 0 ≤ a → 2 * T ^ 4 * a + T ^ 2 * a ^ 2 + 2 * a ^ 3 ≤ 10 / 3 * (T ^ 6 + a ^ 3) ∧ 2 * T ^ 2 * a ^ 2 + 2 * a ^ 3 ≤ 10 / 3 * (T ^ 6 + a ^ 3) := by
    intro a ha
    set t := T ^ 2 with ht
    have ht0 : 0 < t := by positivity
    have e4 : T ^ 4 = t ^ 2 := by rw [ht]; ring
    have e6 : T ^ 6 = t ^ 3 := by rw [ht]; ring
    rw [e4, e6]
    have h1 : 0 ≤ (a + 2 * t) * (a - t) ^ 2 := by positivity
    have h2 : 0 ≤ (2 * a + t) * (a - t) ^ 2 := by positivity
    have h3 : 0 ≤ t ^ 3 := by positivity
    have h4 : 0 ≤ a ^ 3 := by positivity
    constructor <;> nlinarith
  obtain ⟨k1, k2⟩ := key q hq
  rw [lpDen_one]
  have m1 := mul_le_mul_of_nonneg_left k1 hT.le
  have m2 := mul_le_mul_of_nonneg_left k2 (sq_nonneg T)
  have : 0 ≤ T ^ 3 * T ^ 6 := by positivity
  nlinarith

/-- The other side: without resonance both filters keep at least the Butterworth response up to the factor
`1 + 10/3·T + 10/3·T² + T³` in power, `T = 2π·fc/48000`. -/
theorem C124_two_sided {fc r : ℝ} (hfc : 0 < fc) (hn : fc ≤ 24000) (hr : r ≤ 0) (ν : ℝ) :
    let T := 2 * Real.pi * fc / 48000
    let k := 1 + 10 / 3 * T + 10 / 3 * T ^ 2 + T ^ 3
    fc ^ 6 ≤ k * (lowGain fc r ν ^ 2 * (fc ^ 6 + warped ν ^ 6)) ∧ warped ν ^ 6 ≤ k * (highGain fc r ν ^ 2 * (fc ^ 6 + warped ν ^ 6)) := by
  intro T k
  have hT := omega_pos hfc
  have eT : omega fc = T := by rw [omega_eq hn]; ring
  have hq := bent_nonneg ν
  have hd := lpDen_pos hT (κ := 1) (by norm_num) hq
  have hp : (0 : ℝ) < 2 * Real.pi / 48000 := by have := Real.pi_pos; positivity
  rw [lowGain_sq hfc, highGain_sq hfc, damping_low hr]
  have h1 := lpDen_upper hT hq
  rw [eT] at h1 hd hT ⊢
  have h2 : T ^ 6 = (2 * Real.pi / 48000) ^ 6 * fc ^ 6 := by rw [← eT, omega_eq hn]; ring
  have h3 : bent ν ^ 3 = (2 * Real.pi / 48000) ^ 6 * warped ν ^ 6 := by rw [bent_warped]; ring
  have hk : 0 < (2 * Real.pi / 48000) ^ 6 := by positivity
  have h4 : lpDen T 1 (bent ν) ≤ k * ((2 * Real.pi / 48000) ^ 6 * (fc ^ 6 + warped ν ^ 6)) := by
    refine h1.trans (le_of_eq ?_)
    rw [h2, h3]
    ring
  constructor
  · rw [div_mul_eq_mul_div, ← mul_div_assoc, le_div_iff₀ hd, h2]
    have h5 := mul_le_mul_of_nonneg_left h4 (show 0 ≤ fc ^ 6 by positivity)
    refine h5.trans (le_of_eq ?_)
    ring
  · rw [div_mul_eq_mul_div, ← mul_div_assoc, le_div_iff₀ hd, h3]
    have h5 := mul_le_mul_of_nonneg_left h4 (show 0 ≤ warped ν ^ 6 by positivity)
    refine h5.trans (le_of_eq ?_)
    ring

example : 440 ^ 6 ≤ (1 + 10 / 3 * (2 * Real.pi * 440 / 48000) + 10 / 3 * (2 * Real.pi * 440 / 48000) ^ 2 + (2 * Real.pi * 440 / 48000) ^ 3) *
    (lowGain 440 0 880 ^ 2 * (440 ^ 6 + warped 880 ^ 6)) := (C124_two_sided (by norm_num) (by norm_num) le_rfl 880).1

/-- For cutoffs up to 500 Hz and no resonance both filters stay within 1 dB of the Butterworth response at every frequency. -/
theorem C124_butterworth_partial {fc r : ℝ} (hfc : 0 < fc) (hn : fc ≤ 500) (hr : r ≤ 0) (ν : ℝ) :
    (lowGain fc r ν ^ 2 * (fc ^ 6 + warped ν ^ 6) ≤ fc ^ 6 ∧ 4 / 5 * fc ^ 6 ≤ lowGain fc r ν ^ 2 * (fc ^ 6 + warped ν ^ 6)) ∧
    (highGain fc r ν ^ 2 * (fc ^ 6 + warped ν ^ 6) ≤ warped ν ^ 6 ∧ 4 / 5 * warped ν ^ 6 ≤ highGain fc r ν ^ 2 * (fc ^ 6 + warped ν ^ 6)) := by
  obtain ⟨a, b⟩ := C124_butterworth hfc (by linarith) hr ν
  obtain ⟨c, d⟩ := C124_two_sided hfc (by linarith) hr ν
  have hp := Real.pi_lt_d2
  have hp0 := Real.pi_pos
  have hT0 : 0 < 2 * Real.pi * fc / 48000 := by positivity
  have hT : 2 * Real.pi * fc / 48000 ≤ 0.066 := by nlinarith
  have hk : 1 + 10 / 3 * (2 * Real.pi * fc / 48000) + 10 / 3 * (2 * Real.pi * fc / 48000) ^ 2 + (2 * Real.pi * fc / 48000) ^ 3 ≤ 5 / 4 := by
    generalize 2 * Real.pi * fc / 48000 = T at hT hT0
    have h2 : T ^ 2 ≤ 0.066 ^ 2 := pow_le_pow_left₀ hT0.le hT 2
    have h3 : T ^ 3 ≤ 0.066 ^ 3 := pow_le_pow_left₀ hT0.le hT 3
    norm_num at h2 h3 ⊢
    linarith
  refine ⟨⟨a, ?_⟩, b, ?_⟩
  · have := c.trans (mul_le_mul_of_nonneg_right hk (by positivity))
    linarith
  · have := d.trans (mul_le_mul_of_nonneg_right hk (by positivity))
    linarith

example : 4 / 5 * 440 ^ 6 ≤ lowGain 440 0 880 ^ 2 * (440 ^ 6 + warped 880 ^ 6) := (C124_butterworth_partial (by norm_num) (by norm_num) le_rfl 880).1.2

private theorem warped_le {ν : ℝ} (h : 0 ≤ ν) : warped ν ≤ ν := by
  have hp := Real.pi_pos
  unfold warped
  rw [div_mul_eq_mul_div, div_le_iff₀ hp]
  have := Real.sin_le (show 0 ≤ Real.pi * ν / 48000 by positivity)
  linarith

private theorem warped_nonneg {ν : ℝ} (h : 0 ≤ ν) (h1 : ν ≤ 24000) : 0 ≤ warped ν := by
  have hp := Real.pi_pos
  unfold warped
  exact mul_nonneg (by positivity) (Real.sin_nonneg_of_nonneg_of_le_pi (by positivity) (by nlinarith))

private theorem le_warped {ν : ℝ} (h : 0 ≤ ν) (h1 : ν ≤ 24000) : 2 / Real.pi * ν ≤ warped ν := by
  have hp := Real.pi_pos
  have := Real.mul_le_sin (show 0 ≤ Real.pi * ν / 48000 by positivity) (by nlinarith)
  unfold warped
  calc 2 / Real.pi * ν = 48000 / Real.pi * (2 / Real.pi * (Real.pi * ν / 48000)) := by field_simp
    _ ≤ _ := mul_le_mul_of_nonneg_left this (by positivity)

/-- For cutoffs up to 500 Hz and no resonance the cutoff is the −3 dB point: the gain there lies between −4 dB and −3 dB. -/
theorem C124_cutoff_partial {fc r : ℝ} (hfc : 0 < fc) (hn : fc ≤ 500) (hr : r ≤ 0) :
    (0.632 ≤ lowGain fc r fc ∧ lowGain fc r fc ≤ 0.708) ∧ (0.632 ≤ highGain fc r fc ∧ highGain fc r fc ≤ 0.708) := by
  obtain ⟨⟨a, b⟩, c, d⟩ := C124_butterworth_partial hfc hn hr fc
  have hp := Real.pi_lt_d2
  have hp0 := Real.pi_pos
  have hx : warped fc ≤ fc := warped_le hfc.le
  have hx' : 0.9999 ^ 1 * (0.9998 * fc) ≤ warped fc := by
    have hy : 0 < Real.pi * fc / 48000 := by positivity
    have hy' : Real.pi * fc / 48000 ≤ 0.033 := by nlinarith
    have h := Real.sin_gt_sub_cube hy
    unfold warped
    rw [div_mul_eq_mul_div, le_div_iff₀ hp0]
    have : (Real.pi * fc / 48000) ^ 2 ≤ 0.033 ^ 2 := pow_le_pow_left₀ hy.le hy' 2
    have h2 : Real.pi * fc / 48000 * (Real.pi * fc / 48000) ^ 2 ≤ Real.pi * fc / 48000 * 0.033 ^ 2 := by gcongr
    nlinarith
  have h6 : 0 < fc ^ 6 := by positivity
  have x6 : warped fc ^ 6 ≤ fc ^ 6 := pow_le_pow_left₀ (by nlinarith) hx 6
  have x6' : 0.998 * fc ^ 6 ≤ warped fc ^ 6 := by
    refine le_trans ?_ (pow_le_pow_left₀ (by positivity) hx' 6)
    norm_num [mul_pow]
    nlinarith
  have g1 := lowGain_nonneg fc r fc
  have g2 := highGain_nonneg fc r fc
  refine ⟨⟨?_, ?_⟩, ?_, ?_⟩ <;> by_contra h <;> push Not at h
  · have : lowGain fc r fc ^ 2 < 0.632 ^ 2 := by nlinarith
    nlinarith
  · have : 0.708 ^ 2 < lowGain fc r fc ^ 2 := by nlinarith
    nlinarith
  · have : highGain fc r fc ^ 2 < 0.632 ^ 2 := by nlinarith
    nlinarith
  · have : 0.708 ^ 2 < highGain fc r fc ^ 2 := by nlinarith
    nlinarith

/-- 18 dB per octave as an upper bound: without resonance the low pass stays below the line `(π/2·fc/ν)³` and the high pass below
`(ν/fc)³`, for all cutoffs. -/
theorem C124_rolloff_partial {fc r ν : ℝ} (hfc : 0 < fc) (hn : fc ≤ 24000) (hr : r ≤ 0) (h0 : 0 < ν) (h1 : ν ≤ 24000) :
    lowGain fc r ν ≤ (Real.pi / 2 * (fc / ν)) ^ 3 ∧ highGain fc r ν ≤ (ν / fc) ^ 3 := by
  obtain ⟨a, b⟩ := C124_butterworth hfc hn hr ν
  have hp0 := Real.pi_pos
  have w0 := le_warped h0.le h1
  have wp : 0 < 2 / Real.pi * ν := by positivity
  have w1 := warped_le h0.le
  have g1 := lowGain_nonneg fc r ν
  have g2 := highGain_nonneg fc r ν
  constructor
  · have h : lowGain fc r ν * (2 / Real.pi * ν) ^ 3 ≤ fc ^ 3 := by
      refine le_of_sq_le_sq ?_ (by positivity)
      have p6 : (2 / Real.pi * ν) ^ 6 ≤ warped ν ^ 6 := pow_le_pow_left₀ wp.le w0 6
      have : lowGain fc r ν ^ 2 * (2 / Real.pi * ν) ^ 6 ≤ lowGain fc r ν ^ 2 * warped ν ^ 6 := by gcongr
      nlinarith [mul_nonneg (sq_nonneg (lowGain fc r ν)) (show 0 ≤ fc ^ 6 by positivity)]
    rw [← le_div_iff₀ (by positivity)] at h
    refine h.trans (le_of_eq ?_)
    field_simp
  · rw [div_pow, le_div_iff₀ (by positivity)]
    refine le_of_sq_le_sq ?_ (by positivity)
    have p6 : warped ν ^ 6 ≤ ν ^ 6 := pow_le_pow_left₀ (wp.le.trans w0) w1 6
    have := mul_nonneg (sq_nonneg (highGain fc r ν)) (show 0 ≤ warped ν ^ 6 by positivity)
    nlinarith

/-- Violated: the cutoff is not the −3 dB point. At 12 kHz a low pass without resonance passes less than 0.27 (−11 dB). -/
theorem C124_cutoff_violated {g : ℝ} (h : SteadyGain Modifier.process (LowPass.new 12000 0 : LowPass ℝ ℝ) 12000 g) : g < 0.27 := by
  rw [h.unique (C123_lowpass 12000 0 (by norm_num) 12000)]
  refine lt_of_pow_lt_pow_left₀ 2 (by norm_num) ?_
  have hb : bent 12000 = 2 := by
    rw [bent_cos, show 2 * Real.pi * 12000 / 48000 = Real.pi / 2 by ring, Real.cos_pi_div_two]
    norm_num
  have hd := lpDen_pos (omega_pos (show (0 : ℝ) < 12000 by norm_num)) (κ := 1) (by norm_num) (bent_nonneg 12000)
  rw [lowGain_sq (by norm_num), damping_low le_rfl, div_lt_iff₀ hd, hb, lpDen_one]
  have eT : omega 12000 = Real.pi / 2 := by rw [omega_eq (by norm_num)]; ring
  have t1 : 1.57 ≤ omega 12000 := by rw [eT]; linarith [Real.pi_gt_d2]
  have t2 : omega 12000 ≤ 1.575 := by rw [eT]; linarith [Real.pi_lt_d2]
  generalize omega 12000 = T at t1 t2
  have u2 := pow_le_pow_left₀ (by norm_num) t1 2
  have u3 := pow_le_pow_left₀ (by norm_num) t1 3
  have u4 := pow_le_pow_left₀ (by norm_num) t1 4
  have u5 := pow_le_pow_left₀ (by norm_num) t1 5
  have v6 := pow_le_pow_left₀ (by linarith) t2 6
  norm_num at u2 u3 u4 u5 v6 ⊢
  nlinarith

/-- Violated: a high pass does not pass what lies above its cutoff. One at 12 kHz without resonance passes no frequency by more
than 0.28 (−11 dB). -/
theorem C124_highpass_violated {ν g : ℝ} (h : SteadyGain Modifier.process (HighPass.new 12000 0 : HighPass ℝ ℝ) ν g) : g < 0.28 := by
  rw [h.unique (C123_highpass 12000 0 (by norm_num) ν)]
  refine lt_of_pow_lt_pow_left₀ 2 (by norm_num) ?_
  have hq := bent_nonneg ν
  have hT := omega_pos (show (0 : ℝ) < 12000 by norm_num)
  have hd := lpDen_pos hT (κ := 1) (by norm_num) hq
  rw [highGain_sq (by norm_num), damping_low le_rfl, div_lt_iff₀ hd, lpDen_one]
  have eT : omega 12000 = Real.pi / 2 := by rw [omega_eq (by norm_num)]; ring
  have t1 : 1.57 ≤ omega 12000 := by rw [eT]; linarith [Real.pi_gt_d2]
  generalize omega 12000 = T at *
  have u2 := pow_le_pow_left₀ (by norm_num) t1 2
  have u3 := pow_le_pow_left₀ (by norm_num) t1 3
  have hc : 12.8 ≤ 1 + 2 * T + 2 * T ^ 2 + T ^ 3 := by
    norm_num at u2 u3 ⊢
    linarith
  have h3 : 12.8 * bent ν ^ 3 ≤ (1 + 2 * T + 2 * T ^ 2 + T ^ 3) * bent ν ^ 3 := mul_le_mul_of_nonneg_right hc (by positivity)
  have : 0 < T ^ 6 := by positivity
  have : 0 ≤ 2 * T ^ 5 * bent ν := by positivity
  have : 0 ≤ (T + 2 * T ^ 2) * T ^ 2 * bent ν ^ 2 := by positivity
  have : 0 ≤ bent ν ^ 3 := by positivity
  norm_num at h3 ⊢
  nlinarith

/-- Violated: the slope is not 18 dB per octave. Over the octave from 12 to 24 kHz every low pass without resonance falls by at
most 9.1 dB (a factor 8 in power where 18 dB are a factor 63). -/
theorem C124_slope_violated {fc r g g' : ℝ} (hfc : 0 < fc) (hr : r ≤ 0)
    (h : SteadyGain Modifier.process (LowPass.new fc r : LowPass ℝ ℝ) 12000 g)
    (h' : SteadyGain Modifier.process (LowPass.new fc r : LowPass ℝ ℝ) 24000 g') : g ^ 2 ≤ 8 * g' ^ 2 ∧ 0 < g := by
  rw [h.unique (C123_lowpass fc r hfc 12000), h'.unique (C123_lowpass fc r hfc 24000)]
  have hT := omega_pos hfc
  have hb : bent 12000 = 2 := by
    rw [bent_cos, show 2 * Real.pi * 12000 / 48000 = Real.pi / 2 by ring, Real.cos_pi_div_two]
    norm_num
  have hb' : bent 24000 = 4 := by
    rw [bent_cos, show 2 * Real.pi * 24000 / 48000 = Real.pi by ring, Real.cos_pi]
    norm_num
  have hd := lpDen_pos hT (κ := 1) (by norm_num) (show (0 : ℝ) ≤ 2 by norm_num)
  have hd' := lpDen_pos hT (κ := 1) (by norm_num) (show (0 : ℝ) ≤ 4 by norm_num)
  refine ⟨?_, ?_⟩
  · rw [lowGain_sq hfc, lowGain_sq hfc, damping_low hr, hb, hb', ← mul_div_assoc, div_le_div_iff₀ hd hd']
    have : lpDen (omega fc) 1 4 ≤ 8 * lpDen (omega fc) 1 2 := by
      rw [lpDen_one, lpDen_one]
      have : 0 < omega fc ^ 6 := by positivity
      have : 0 < omega fc ^ 5 := by positivity
      have : 0 < (omega fc + 2 * omega fc ^ 2) * omega fc ^ 2 := by positivity
      nlinarith
    have := mul_le_mul_of_nonneg_left this (show 0 ≤ omega fc ^ 6 by positivity)
    linarith
  · unfold lowGain
    rw [damping_low hr, hb]
    positivity

/-- The hypotheses of the C124 theorems hold for an ordinary filter, and the three violations concern gains that exist. -/
example : (0.632 ≤ lowGain 440 0 440) ∧ (∃ g, SteadyGain Modifier.process (LowPass.new 12000 0 : LowPass ℝ ℝ) 12000 g) ∧
    (∃ g, SteadyGain Modifier.process (HighPass.new 12000 0 : HighPass ℝ ℝ) 20000 g) ∧ lowGain 100 0 1600 ≤ 0.001 ∧
    (∃ ν, 50 ≤ lowGain 100 1 ν) := by
  refine ⟨(C124_cutoff_partial (by norm_num) (by norm_num) le_rfl).1.1, ⟨_, C123_lowpass 12000 0 (by norm_num) _⟩,
    ⟨_, C123_highpass 12000 0 (by norm_num) _⟩, ?_, ?_⟩
  · refine ((C124_rolloff_partial (fc := 100) (ν := 1600) (by norm_num) (by norm_num) le_rfl (by norm_num) (by norm_num)).1).trans ?_
    have h : Real.pi / 2 * (100 / 1600) ≤ 0.1 := by linarith [Real.pi_lt_d2]
    refine (pow_le_pow_left₀ (by have := Real.pi_pos; positivity) h 3).trans (by norm_num)
  · obtain ⟨ν, -, -, h⟩ := C124_peak (fc := 100) (r := 1) (by norm_num) (by norm_num) le_rfl
    refine ⟨ν, le_trans ?_ h⟩
    rw [le_div_iff₀ (by have := Real.pi_pos; positivity)]
    linarith [Real.pi_lt_d2]

/-! ## C125: what the band pass does to each frequency -/

section band
variable {l h : ℝ} (hl : 0 < l) (hlh : l < h) (hh : h < 24000)
include hl hlh hh

private theorem tan_lt' : Real.tan (Real.pi * l / 48000) < Real.tan (Real.pi * h / 48000) := by
  have hp := Real.pi_pos
  refine Real.tan_lt_tan_of_lt_of_lt_pi_div_two ?_ (by nlinarith) (by nlinarith)
  have : 0 < Real.pi * l / 48000 := by positivity
  linarith

private theorem bandGain_sq {ν : ℝ} (h0 : 0 < ν) (h1 : ν < 24000) : bandGain l h ν ^ 2 =
    (Real.tan (Real.pi * h / 48000) * Real.tan (Real.pi * ν / 48000)) ^ 2 /
    ((Real.tan (Real.pi * ν / 48000) ^ 2 + Real.tan (Real.pi * h / 48000) ^ 2) * (Real.tan (Real.pi * ν / 48000) ^ 2 + Real.tan (Real.pi * l / 48000) ^ 2)) := by
  have hp := Real.pi_pos
  have hc : 0 < Real.cos (Real.pi * ν / 48000) := by
    refine Real.cos_pos_of_mem_Ioo ⟨?_, by nlinarith⟩
    have : 0 < Real.pi * ν / 48000 := by positivity
    linarith
  have ht := tan_pos' h0 h1
  have ha := tan_pos' hl (hlh.trans hh)
  have hb := tan_pos' (hl.trans hlh) hh
  have hs : Real.sin (Real.pi * ν / 48000) = Real.tan (Real.pi * ν / 48000) * Real.cos (Real.pi * ν / 48000) := by
    rw [Real.tan_eq_sin_div_cos, div_mul_cancel₀ _ hc.ne']
  unfold bandGain
  simp only
  rw [Real.sq_sqrt (by positivity), hs]
  generalize Real.cos (Real.pi * ν / 48000) = c at *
  generalize Real.tan (Real.pi * ν / 48000) = t at *
  field_simp

theorem bandGain_nonneg (ν : ℝ) : 0 ≤ bandGain l h ν := by
  have := hl; have := hlh; have := hh
  exact Real.sqrt_nonneg _

/-- No frequency is passed by more than `tan h / (tan h + tan l)`, which is less than one. -/
theorem C125_peak_bound (ν : ℝ) :
    bandGain l h ν ≤ Real.tan (Real.pi * h / 48000) / (Real.tan (Real.pi * h / 48000) + Real.tan (Real.pi * l / 48000)) ∧
    Real.tan (Real.pi * h / 48000) / (Real.tan (Real.pi * h / 48000) + Real.tan (Real.pi * l / 48000)) < 1 := by
  have ha := tan_pos' hl (hlh.trans hh)
  have hb := tan_pos' (hl.trans hlh) hh
  refine ⟨?_, by rw [div_lt_one (by positivity)]; linarith⟩
  unfold bandGain
  simp only
  refine Real.sqrt_le_iff.mpr ⟨by positivity, ?_⟩
  have h1 := Real.sin_sq_add_cos_sq (Real.pi * ν / 48000)
  generalize Real.cos (Real.pi * ν / 48000) = c at *
  generalize Real.sin (Real.pi * ν / 48000) = s at *
  generalize Real.tan (Real.pi * h / 48000) = b at *
  generalize Real.tan (Real.pi * l / 48000) = a at *
  have hd : 0 < (s ^ 2 + (b * c) ^ 2) * (s ^ 2 + (a * c) ^ 2) := by
    rcases eq_or_ne s 0 with h0 | h0
    · rw [h0] at h1 ⊢
      have hc : c ≠ 0 := by rintro rfl; norm_num at h1
      have : 0 < (b * c) ^ 2 := by positivity
      have : 0 < (a * c) ^ 2 := by positivity
      nlinarith
    · have : 0 < s ^ 2 := by positivity
      positivity
  rw [div_pow, div_le_div_iff₀ hd (by positivity)]
  have h2 : (s * c) ^ 2 * (b + a) ^ 2 ≤ (s ^ 2 + (b * c) ^ 2) * (s ^ 2 + (a * c) ^ 2) := by
    nlinarith [sq_nonneg (s ^ 2 - a * b * c ^ 2)]
  have := mul_le_mul_of_nonneg_left h2 (sq_nonneg b)
  nlinarith

/-- Partial: the band pass peaks inside its band, and the peak is the bound above, between one half and one. -/
theorem C125_peak_partial : ∃ ν, l < ν ∧ ν < h ∧
    bandGain l h ν = Real.tan (Real.pi * h / 48000) / (Real.tan (Real.pi * h / 48000) + Real.tan (Real.pi * l / 48000)) ∧
    1 / 2 < bandGain l h ν ∧ ∀ ν', bandGain l h ν' ≤ bandGain l h ν := by
  have hp := Real.pi_pos
  have ha := tan_pos' hl (hlh.trans hh)
  have hb := tan_pos' (hl.trans hlh) hh
  have hab := tan_lt' hl hlh hh
  have hbound := C125_peak_bound hl hlh hh
  set a := Real.tan (Real.pi * l / 48000) with ha'
  set b := Real.tan (Real.pi * h / 48000) with hb'
  have e : ∀ x, Real.pi * (48000 / Real.pi * x) / 48000 = x := by intro x; field_simp
  have l1 : a < Real.sqrt (a * b) := Real.lt_sqrt_of_sq_lt (by nlinarith)
  have l2 : Real.sqrt (a * b) < b := (Real.sqrt_lt' hb).mpr (by nlinarith)
  have at1 : Real.arctan a = Real.pi * l / 48000 := by
    refine Real.arctan_tan ?_ (by nlinarith)
    have : 0 < Real.pi * l / 48000 := by positivity
    linarith
  have at2 : Real.arctan b = Real.pi * h / 48000 := by
    refine Real.arctan_tan ?_ (by nlinarith)
    have : 0 < Real.pi * h / 48000 := by have := hl.trans hlh; positivity
    linarith
  have o1 := Real.arctan_strictMono l1
  have o2 := Real.arctan_strictMono l2
  rw [at1] at o1
  rw [at2] at o2
  set ν := 48000 / Real.pi * Real.arctan (Real.sqrt (a * b)) with hν
  have n1 : l < ν := by
    rw [hν, div_mul_eq_mul_div, lt_div_iff₀ hp]
    linarith
  have n2 : ν < h := by
    rw [hν, div_mul_eq_mul_div, div_lt_iff₀ hp]
    linarith
  have hg : bandGain l h ν = b / (b + a) := by
    have hsq := bandGain_sq hl hlh hh (hl.trans n1) (n2.trans hh)
    have ht : Real.tan (Real.pi * ν / 48000) = Real.sqrt (a * b) := by rw [hν, e, Real.tan_arctan]
    rw [ht, ← ha', ← hb', mul_pow, Real.sq_sqrt (by positivity)] at hsq
    have h2 : bandGain l h ν ^ 2 = (b / (b + a)) ^ 2 := by
      rw [hsq]
      field_simp
      ring
    exact (pow_left_inj₀ (bandGain_nonneg hl hlh hh ν) (by positivity) two_ne_zero).mp h2
  refine ⟨ν, n1, n2, hg, ?_, ?_⟩
  · rw [hg, lt_div_iff₀ (by positivity)]
    linarith
  · intro ν'
    rw [hg]
    exact (hbound ν').1

/-- Partial: at both corners the band pass has the same gain, between −6 and −3 dB. -/
theorem C125_corners_partial : bandGain l h l = bandGain l h h ∧ 1 / 4 < bandGain l h l ^ 2 ∧ bandGain l h l ^ 2 < 1 / 2 := by
  have ha := tan_pos' hl (hlh.trans hh)
  have hb := tan_pos' (hl.trans hlh) hh
  have hab := tan_lt' hl hlh hh
  have h1 := bandGain_sq hl hlh hh hl (hlh.trans hh)
  have h2 := bandGain_sq hl hlh hh (hl.trans hlh) hh
  have n1 := bandGain_nonneg hl hlh hh l
  have n2 := bandGain_nonneg hl hlh hh h
  generalize bandGain l h l = g at *
  generalize bandGain l h h = g' at *
  generalize Real.tan (Real.pi * h / 48000) = b at *
  generalize Real.tan (Real.pi * l / 48000) = a at *
  have e1 : g ^ 2 = b ^ 2 / (2 * (a ^ 2 + b ^ 2)) := by
    rw [h1]
    field_simp
    ring
  have e2 : g' ^ 2 = b ^ 2 / (2 * (a ^ 2 + b ^ 2)) := by
    rw [h2]
    field_simp
    ring
  refine ⟨(pow_left_inj₀ n1 n2 two_ne_zero).mp (e1.trans e2.symm), ?_, ?_⟩
  · rw [e1, lt_div_iff₀ (by positivity)]
    nlinarith
  · rw [e1, div_lt_iff₀ (by positivity)]
    nlinarith

/-- Partial: the gain stays below a line of 6 dB per octave on both sides of the band. -/
theorem C125_rolloff_partial {ν : ℝ} (h0 : 0 < ν) (h1 : ν < 24000) :
    bandGain l h ν ≤ Real.tan (Real.pi * ν / 48000) / Real.tan (Real.pi * l / 48000) ∧
    bandGain l h ν ≤ Real.tan (Real.pi * h / 48000) / Real.tan (Real.pi * ν / 48000) := by
  have ha := tan_pos' hl (hlh.trans hh)
  have hb := tan_pos' (hl.trans hlh) hh
  have ht := tan_pos' h0 h1
  have hg := bandGain_sq hl hlh hh h0 h1
  have n := bandGain_nonneg hl hlh hh ν
  generalize bandGain l h ν = g at *
  generalize Real.tan (Real.pi * h / 48000) = b at *
  generalize Real.tan (Real.pi * l / 48000) = a at *
  generalize Real.tan (Real.pi * ν / 48000) = t at *
  constructor
  · refine le_of_sq_le_sq ?_ (by positivity)
    rw [hg, div_pow, div_le_div_iff₀ (by positivity) (by positivity)]
    have : 0 ≤ t ^ 2 * (t ^ 4 + t ^ 2 * a ^ 2 + t ^ 2 * b ^ 2) := by positivity
    nlinarith
  · refine le_of_sq_le_sq ?_ (by positivity)
    rw [hg, div_pow, div_le_div_iff₀ (by positivity) (by positivity)]
    have : 0 ≤ b ^ 2 * (t ^ 2 * a ^ 2 + b ^ 2 * t ^ 2 + b ^ 2 * a ^ 2) := by positivity
    nlinarith

example : bandGain 200 800 50 ≤ Real.tan (Real.pi * 50 / 48000) / Real.tan (Real.pi * 200 / 48000) ∧
    bandGain 200 800 200 = bandGain 200 800 800 ∧ bandGain 200 800 200 ^ 2 < 1 / 2 :=
  ⟨(C125_rolloff_partial (by norm_num) (by norm_num) (by norm_num) (by norm_num) (by norm_num)).1,
    (C125_corners_partial (by norm_num) (by norm_num) (by norm_num)).1, (C125_corners_partial (by norm_num) (by norm_num) (by norm_num)).2.2⟩

/-- Violated: the slope is not 12 dB per octave. Going up one octave, the gain of any band pass at `2ν ≤ 12000` is still at least
2/5 of that at `ν` (−8 dB where 12 dB are a factor 1/4). -/
theorem C125_slope_violated {ν g g' : ℝ} (h0 : 0 < ν) (h1 : ν ≤ 6000)
    (hg : SteadyGain Modifier.process (BandPass.fromCorners (l, h) : BandPass ℝ ℝ) ν g)
    (hg' : SteadyGain Modifier.process (BandPass.fromCorners (l, h) : BandPass ℝ ℝ) (2 * ν) g') : 2 / 5 * g ≤ g' ∧ 0 < g := by
  have hp := Real.pi_pos
  rw [hg.unique (C123_bandpass hl hlh hh ν).1, hg'.unique (C123_bandpass hl hlh hh (2 * ν)).1]
  have ha := tan_pos' hl (hlh.trans hh)
  have hb := tan_pos' (hl.trans hlh) hh
  have ht := tan_pos' h0 (by linarith)
  have ht' := tan_pos' (show 0 < 2 * ν by linarith) (by linarith)
  have s1 := bandGain_sq hl hlh hh h0 (by linarith)
  have s2 := bandGain_sq hl hlh hh (show 0 < 2 * ν by linarith) (by linarith)
  have n := bandGain_nonneg hl hlh hh ν
  have n' := bandGain_nonneg hl hlh hh (2 * ν)
  have hx : Real.tan (Real.pi * (2 * ν) / 48000) ≤ 1 := by
    rw [← Real.tan_pi_div_four]
    have : 0 < Real.pi * (2 * ν) / 48000 := by positivity
    exact Real.strictMonoOn_tan.monotoneOn ⟨by linarith, by nlinarith⟩ ⟨by linarith, by linarith⟩ (by nlinarith)
  have h2 : Real.tan (Real.pi * (2 * ν) / 48000) = 2 * Real.tan (Real.pi * ν / 48000) / (1 - Real.tan (Real.pi * ν / 48000) ^ 2) := by
    rw [show Real.pi * (2 * ν) / 48000 = 2 * (Real.pi * ν / 48000) by ring, Real.tan_two_mul]
  generalize bandGain l h ν = g at *
  generalize bandGain l h (2 * ν) = g' at *
  generalize Real.tan (Real.pi * h / 48000) = b at *
  generalize Real.tan (Real.pi * l / 48000) = a at *
  generalize Real.tan (Real.pi * ν / 48000) = t at *
  generalize Real.tan (Real.pi * (2 * ν) / 48000) = u at *
  have hd : 0 < 1 - t ^ 2 := by
    by_contra hc
    have : 2 * t / (1 - t ^ 2) ≤ 0 := div_nonpos_of_nonneg_of_nonpos (by positivity) (by linarith)
    linarith
  have hu : u * (1 - t ^ 2) = 2 * t := by rw [h2, div_mul_cancel₀ _ hd.ne']
  have ht2 : t ≤ 0.42 := by nlinarith
  have hut : u ≤ 5 / 2 * t := by nlinarith
  have htu : t ≤ u := by nlinarith
  have hgp : 0 < g := by
    have : 0 < g ^ 2 := by rw [s1]; positivity
    exact lt_of_le_of_ne n (by rintro rfl; norm_num at this)
  refine ⟨?_, hgp⟩
  have hmono : g ^ 2 * t ^ 2 ≤ g' ^ 2 * u ^ 2 := by
    rw [s1, s2, div_mul_eq_mul_div, div_mul_eq_mul_div, div_le_div_iff₀ (by positivity) (by positivity)]
    have p2 : t ^ 2 ≤ u ^ 2 := pow_le_pow_left₀ ht.le htu 2
    have q1 : t ^ 2 * (u ^ 2 + b ^ 2) ≤ u ^ 2 * (t ^ 2 + b ^ 2) := by nlinarith [mul_le_mul_of_nonneg_right p2 (sq_nonneg b)]
    have q2 : t ^ 2 * (u ^ 2 + a ^ 2) ≤ u ^ 2 * (t ^ 2 + a ^ 2) := by nlinarith [mul_le_mul_of_nonneg_right p2 (sq_nonneg a)]
    have q3 := mul_le_mul q1 q2 (by positivity) (by positivity)
    have := mul_le_mul_of_nonneg_left q3 (sq_nonneg b)
    nlinarith
  have h3 : g * t ≤ g' * u := le_of_sq_le_sq (by rw [mul_pow, mul_pow]; exact hmono) (by positivity)
  have h4 : g' * u ≤ g' * (5 / 2 * t) := mul_le_mul_of_nonneg_left hut n'
  have h5 : g * t ≤ 5 / 2 * g' * t := by linarith
  have := le_of_mul_le_mul_right h5 ht
  linarith

end band

/-- Violated: the band pass does not pass its band. With corners 1000 and 1020 Hz every frequency comes out below 0.51 (−5.8 dB). -/
theorem C125_unity_violated {ν g : ℝ} (h : SteadyGain Modifier.process (BandPass.fromCorners (1000, 1020) : BandPass ℝ ℝ) ν g) : g < 0.51 := by
  have hp := Real.pi_pos
  have hp1 := Real.pi_lt_d2
  rw [h.unique (C123_bandpass (by norm_num) (by norm_num) (by norm_num) ν).1]
  refine lt_of_le_of_lt (C125_peak_bound (by norm_num) (by norm_num) (by norm_num) ν).1 ?_
  have hl : Real.pi * 1000 / 48000 < Real.tan (Real.pi * 1000 / 48000) := Real.lt_tan (by positivity) (by linarith)
  have hh : Real.tan (Real.pi * 1020 / 48000) ≤ 1.003 * (Real.pi * 1020 / 48000) := by
    have hx0 : 0 < Real.pi * 1020 / 48000 := by positivity
    have hx1 : Real.pi * 1020 / 48000 ≤ 0.067 := by linarith
    have hc := Real.one_sub_sq_div_two_le_cos (x := Real.pi * 1020 / 48000)
    have hs := Real.sin_le hx0.le
    generalize Real.pi * 1020 / 48000 = x at *
    have hc' : 0.9977 ≤ Real.cos x := by nlinarith
    rw [Real.tan_eq_sin_div_cos, div_le_iff₀ (by linarith)]
    nlinarith
  rw [div_lt_iff₀ (by linarith [tan_pos' (f := 1020) (by norm_num) (by norm_num), tan_pos' (f := 1000) (by norm_num) (by norm_num)])]
  nlinarith

/-- The hypotheses of the C125 theorems hold for an ordinary band, and the gains they speak of exist. -/
example : (∃ ν, 200 < ν ∧ ν < 800 ∧ 1 / 2 < bandGain 200 800 ν) ∧
    (∃ g, SteadyGain Modifier.process (BandPass.fromCorners (1000, 1020) : BandPass ℝ ℝ) 1010 g) ∧
    (∃ g g', SteadyGain Modifier.process (BandPass.fromCorners (200, 800) : BandPass ℝ ℝ) 3000 g ∧
      SteadyGain Modifier.process (BandPass.fromCorners (200, 800) : BandPass ℝ ℝ) (2 * 3000) g') := by
  obtain ⟨ν, a, b, -, c, -⟩ := C125_peak_partial (l := 200) (h := 800) (by norm_num) (by norm_num) (by norm_num)
  exact ⟨⟨ν, a, b, c⟩, ⟨_, (C123_bandpass (by norm_num) (by norm_num) (by norm_num) _).1⟩,
    _, _, (C123_bandpass (by norm_num) (by norm_num) (by norm_num) _).1, (C123_bandpass (by norm_num) (by norm_num) (by norm_num) _).1⟩

end Verif
