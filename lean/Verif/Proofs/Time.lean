import Verif.Proofs.Codec
import Verif.Model.Utils

/-! # Lemmas for binary64 time arithmetic -/

namespace Verif
open Fl

theorem two_pow_le (a b : ℕ) (h : a ≤ b) : (2 : ℚ) ^ a ≤ 2 ^ b := pow_le_pow_right₀ (by norm_num) h

/-- An integer of at most 53 bits is an exact `f64` literal. -/
theorem lit64_int {n : ℤ} (h : |n| ≤ 9007199254740992) : (lit (n : ℚ) : F64).Is n := by
  refine lit_is_repr ?_ (Fmt.repr64_int h)
  refine Fmt.fits64 (le_trans (b := (9007199254740992 : ℚ)) (by exact_mod_cast h) ?_)
  exact le_trans (by norm_num) (two_pow_le 53 1000 (by norm_num))

theorem lit64_nat {n : ℕ} (h : n ≤ 9007199254740992) : (lit (n : ℚ) : F64).Is n := by
  have := lit64_int (n := (n : ℤ)) (by rw [abs_of_nonneg (by positivity)]; exact_mod_cast h)
  exact_mod_cast this

theorem fits64' {q : ℚ} (k : ℕ) (hk : k ≤ 1000) (h : |q| ≤ 2 ^ k) : b64.Fits q :=
  Fmt.fits64 (h.trans (two_pow_le _ _ hk))

theorem fits32' {q : ℚ} (k : ℕ) (hk : k ≤ 100) (h : |q| ≤ 2 ^ k) : b32.Fits q :=
  Fmt.fits32 (h.trans (two_pow_le _ _ hk))

theorem lit64_0 : (lit 0 : F64).Is 0 := by simpa using lit64_nat (n := 0) (by norm_num)
theorem lit64_1 : (lit 1 : F64).Is 1 := by simpa using lit64_nat (n := 1) (by norm_num)
theorem srM64 : (srM : F64).Is 48000 := by
  unfold srM SAMPLE_RATE
  exact_mod_cast lit64_nat (n := 48000) (by norm_num)

theorem rnd64_pow2_le {q : ℚ} (k : ℕ) (h : |q| ≤ 2 ^ k) : |b64.rnd q| ≤ 2 ^ k := by
  rw [b64.abs_rnd]
  have := b64.rnd_le_pow2 (q := |q|) (k := (k : ℤ)) (by show (-1074 : ℤ) ≤ k; omega)
    (by rw [pow2_eq, zpow_natCast]; exact h)
  rwa [pow2_eq, zpow_natCast] at this

theorem rnd32_pow2_le {q : ℚ} (k : ℕ) (h : |q| ≤ 2 ^ k) : |b32.rnd q| ≤ 2 ^ k := by
  rw [b32.abs_rnd]
  have := b32.rnd_le_pow2 (q := |q|) (k := (k : ℤ)) (by show (-149 : ℤ) ≤ k; omega)
    (by rw [pow2_eq, zpow_natCast]; exact h)
  rwa [pow2_eq, zpow_natCast] at this

namespace Duration

/-- The exact value of the nanosecond part, rounded to binary64. -/
def frac64 (d : Duration) : ℚ := b64.rnd ((d.nanos : ℚ) / 10 ^ 9)
/-- Value of `as_secs_f64`. -/
def secs64 (d : Duration) : ℚ := b64.rnd (b64.rnd d.secs + d.frac64)
/-- Value of `as_secs_f64() * 48000`. -/
def samp64 (d : Duration) : ℚ := b64.rnd (d.secs64 * 48000)

theorem frac_bounds (d : Duration) : 0 ≤ d.frac64 ∧ d.frac64 < 1 := by
  have h0 : (0 : ℚ) ≤ (d.nanos : ℚ) / 10 ^ 9 := by positivity
  refine ⟨b64.rnd_nonneg h0, ?_⟩
  have h1 : (d.nanos : ℚ) ≤ 999999999 := by exact_mod_cast Nat.lt_succ_iff.mp d.hn
  have h2 : (d.nanos : ℚ) / 10 ^ 9 ≤ 999999999 / 10 ^ 9 := div_le_div_of_nonneg_right h1 (by norm_num)
  refine lt_of_le_of_lt (b64.rnd_mono h2) ?_
  decide +kernel

theorem rnd_secs_bounds (d : Duration) : 0 ≤ b64.rnd d.secs ∧ b64.rnd d.secs ≤ 2 ^ 64 := by
  refine ⟨b64.rnd_nonneg (by positivity), ?_⟩
  have h : (d.secs : ℚ) ≤ 2 ^ 64 := by exact_mod_cast d.hs.le
  have := rnd64_pow2_le (q := d.secs) 64 (by rw [abs_of_nonneg (by positivity)]; exact h)
  exact (le_abs_self _).trans this

theorem secs_bounds (d : Duration) : 0 ≤ d.secs64 ∧ d.secs64 ≤ 2 ^ 65 := by
  have h1 := d.frac_bounds
  have h2 := d.rnd_secs_bounds
  refine ⟨b64.rnd_nonneg (by linarith [h1.1, h2.1]), ?_⟩
  have := rnd64_pow2_le (q := b64.rnd d.secs + d.frac64) 65 (by
    rw [abs_of_nonneg (by linarith [h1.1, h2.1])]
    linarith [h1.2, h2.2, (by norm_num : (2 : ℚ) ^ 64 + 1 ≤ 2 ^ 65)])
  exact (le_abs_self _).trans this

theorem samp_bounds (d : Duration) : 0 ≤ d.samp64 ∧ d.samp64 ≤ 2 ^ 81 := by
  have h := d.secs_bounds
  refine ⟨b64.rnd_nonneg (by linarith [h.1]), ?_⟩
  have := rnd64_pow2_le (q := d.secs64 * 48000) 81 (by
    rw [abs_of_nonneg (by linarith [h.1])]
    linarith [h.2, (by norm_num : (2 : ℚ) ^ 65 * 48000 ≤ 2 ^ 81)])
  exact (le_abs_self _).trans this

theorem asSecs_is (d : Duration) : (d.asSecs : F64).Is d.secs64 := by
  have h1 := d.frac_bounds
  have h2 := d.rnd_secs_bounds
  have hs : (lit (d.secs : ℚ) : F64).Is (b64.rnd d.secs) := lit_is (fits64' 64 (by norm_num) (by
    rw [abs_of_nonneg (by positivity)]; exact_mod_cast d.hs.le))
  have hn := lit64_nat (n := d.nanos) (by have := d.hn; omega)
  have h9 : (lit (10 ^ 9) : F64).Is (10 ^ 9) := by exact_mod_cast lit64_nat (n := 10 ^ 9) (by norm_num)
  have hf := Is.div hn h9 (by norm_num) (fits64' 0 (by norm_num) (by
    rw [abs_of_nonneg (by positivity), pow_zero, div_le_one (by norm_num)]
    exact_mod_cast d.hn.le))
  exact Is.add hs hf (fits64' 65 (by norm_num) (by
    have := abs_of_nonneg (add_nonneg h2.1 h1.1)
    rw [this]
    linarith [h1.2, h2.2, (by norm_num : (2 : ℚ) ^ 64 + 1 ≤ 2 ^ 65)]))

theorem samp_is (d : Duration) : ((d.asSecs : F64) * srM).Is d.samp64 := by
  have h := d.secs_bounds
  exact Is.mul d.asSecs_is srM64 (fits64' 81 (by norm_num) (by
    rw [abs_of_nonneg (by linarith [h.1])]
    linarith [h.2, (by norm_num : (2 : ℚ) ^ 65 * 48000 ≤ 2 ^ 81)]))

theorem samples_eq (d : Duration) :
    (secondsToSamples F64 d : ℤ) = min (2 ^ 64 - 1) (roundAwayQ d.samp64) := by
  unfold secondsToSamples toUsize
  rw [d.samp_is.round64.toInt, truncQ_int]
  have : 0 ≤ roundAwayQ d.samp64 := by
    have := roundAwayQ_mono d.samp_bounds.1
    rw [show (0 : ℚ) = ((0 : ℤ) : ℚ) by norm_num, roundAwayQ_int] at this
    exact this
  omega

end Duration

/-- Above `2^53` adding less than 1 to a representable number is lost in rounding. -/
theorem rnd64_absorb {R δ : ℚ} (hR : b64.Repr R) (hb : 2 ^ 53 ≤ R) (h0 : 0 ≤ δ) (h1 : δ < 1) :
    b64.rnd (R + δ) = R := by
  have hRp : 0 < R := lt_of_lt_of_le (by norm_num) hb
  have hi1 := ilog2_spec hRp.ne'
  rw [abs_of_pos hRp] at hi1
  have h53 : 53 ≤ ilog2 R := le_ilog2_of hRp.ne' (by rw [abs_of_pos hRp, pow2_eq]; exact_mod_cast hb)
  obtain ⟨k, hk, -⟩ := pow2_nonneg_int (e := ilog2 R + 1) (by omega)
  have hu : b64.ue R = ilog2 R - 52 := by
    unfold Fmt.ue
    show max (ilog2 R - (53 - 1)) (-1074) = _
    omega
  -- `R` is an integer
  have hRr : R = rne (R * pow2 (-(b64.ue R))) * pow2 (b64.ue R) := (b64.rnd_of_repr hR).symm
  obtain ⟨j, hj, -⟩ := pow2_nonneg_int (e := b64.ue R) (by omega)
  have hRi : R = ((rne (R * pow2 (-(b64.ue R))) * j : ℤ) : ℚ) := by rw [hj] at hRr; push_cast; exact hRr
  have hlt : R + δ < pow2 (ilog2 R + 1) := by
    have : R + 1 ≤ pow2 (ilog2 R + 1) := by
      have h := hi1.2
      rw [hk] at h ⊢
      rw [hRi] at h ⊢
      exact_mod_cast h
    linarith
  have hlog : ilog2 (R + δ) = ilog2 R := by
    have hp : 0 < R + δ := by linarith
    apply le_antisymm
    · have := ilog2_lt_of hp.ne' (k := ilog2 R + 1) (by rw [abs_of_pos hp]; exact hlt)
      omega
    · exact ilog2_mono hRp.ne' (by rw [abs_of_pos hRp, abs_of_pos hp]; linarith)
  have hue : b64.ue (R + δ) = b64.ue R := by unfold Fmt.ue; rw [hlog]
  have hhalf : pow2 (-(b64.ue R)) ≤ 1 / 2 := by
    rw [show (1 / 2 : ℚ) = pow2 (-1) by rw [pow2_neg, pow2_one]; norm_num]
    exact pow2_le (by omega)
  have hrne : rne ((R + δ) * pow2 (-(b64.ue R))) = rne (R * pow2 (-(b64.ue R))) := by
    apply rne_eq_of_abs_lt
    have e : R * pow2 (-(b64.ue R)) = (rne (R * pow2 (-(b64.ue R))) : ℤ) := by
      nth_rw 1 [hRr]
      rw [mul_assoc, pow2_mul_neg, mul_one]
    rw [add_mul, e]
    simp only [rne_int]
    rw [add_sub_cancel_left, abs_of_nonneg (mul_nonneg h0 (pow2_pos _).le)]
    nlinarith [pow2_pos (-(b64.ue R))]
  unfold Fmt.rnd
  rw [hue, hrne]
  exact hRr.symm

theorem Duration.secs64_mono {d e : Duration} (h : d.total ≤ e.total) : d.secs64 ≤ e.secs64 := by
  have hd := d.hn
  have he := e.hn
  unfold Duration.total at h
  by_cases hs : d.secs = e.secs
  · unfold Duration.secs64 Duration.frac64
    rw [hs] at h ⊢
    apply b64.rnd_mono
    have h1 : (d.nanos : ℚ) ≤ e.nanos := by exact_mod_cast (by omega : d.nanos ≤ e.nanos)
    have := b64.rnd_mono (div_le_div_of_nonneg_right h1 (by norm_num : (0 : ℚ) ≤ 10 ^ 9))
    linarith
  · have hlt : d.secs + 1 ≤ e.secs := by omega
    have hlt' : (d.secs : ℚ) + 1 ≤ e.secs := by exact_mod_cast hlt
    have hfe := e.frac_bounds
    have hfd := d.frac_bounds
    have hup : b64.rnd e.secs ≤ e.secs64 := by
      rw [← b64.rnd_rnd (e.secs : ℚ)]
      exact b64.rnd_mono (by linarith [hfe.1])
    refine le_trans ?_ hup
    by_cases hbig : d.secs < 2 ^ 53
    · have hrs : b64.rnd d.secs = d.secs := by
        have := b64.rnd_of_repr (Fmt.repr64_int (n := (d.secs : ℤ)) (by
          rw [abs_of_nonneg (by positivity)]; omega))
        exact_mod_cast this
      unfold Duration.secs64
      rw [hrs]
      exact b64.rnd_mono (by linarith [hfd.2])
    · have h53 : (2 : ℚ) ^ 53 ≤ d.secs := by exact_mod_cast not_lt.mp hbig
      have hb : (2 : ℚ) ^ 53 ≤ b64.rnd d.secs := by
        have := b64.repr_le_rnd (Fmt.repr64_int (n := 2 ^ 53) (by norm_num)) (x := d.secs)
          (by exact_mod_cast h53)
        exact_mod_cast this
      unfold Duration.secs64
      rw [rnd64_absorb (b64.repr_rnd _) hb hfd.1 hfd.2]
      exact b64.rnd_mono (by linarith)

end Verif
