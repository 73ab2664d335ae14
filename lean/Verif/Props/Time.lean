import Verif.Proofs.Time

/-! # Time conversion: C20, C21 -/

namespace Verif
open Fl

/-! ## C21 seconds_to_samples -/

/-- The exact duration in seconds. -/
def Duration.exact (d : Duration) : ℚ := (d.total : ℚ) / 10 ^ 9

private theorem exact_eq (d : Duration) : d.exact = d.secs + (d.nanos : ℚ) / 10 ^ 9 := by
  unfold Duration.exact Duration.total
  push_cast
  ring

/-- For durations below `2^30` seconds (34 years) the result is the nearest sample, up to `2^-6` of a
sample lost in three binary64 roundings. -/
theorem C21_nearest (d : Duration) (h : d.secs < 2 ^ 30) :
    |(secondsToSamples F64 d : ℚ) - 48000 * d.exact| ≤ 1 / 2 + 2 ^ (-6 : ℤ) := by
  have hs : (d.secs : ℚ) + 1 ≤ 2 ^ 30 := by exact_mod_cast h
  have hf := d.frac_bounds
  have hrs : b64.rnd d.secs = d.secs := by
    have := b64.rnd_of_repr (Fmt.repr64_int (n := (d.secs : ℤ)) (by rw [abs_of_nonneg (by positivity)]; omega))
    exact_mod_cast this
  have hd0 : (0 : ℚ) ≤ d.secs := by positivity
  have hn0 : (0 : ℚ) ≤ (d.nanos : ℚ) / 10 ^ 9 := by positivity
  have hn1 : (d.nanos : ℚ) / 10 ^ 9 ≤ 1 := by
    rw [div_le_one (by norm_num)]; exact_mod_cast d.hn.le
  have e1 := err64 (q := (d.nanos : ℚ) / 10 ^ 9) 0 (by norm_num) (by
    rw [abs_of_nonneg hn0, zpow_zero]; exact hn1)
  have e2 := err64 (q := d.secs + d.frac64) 30 (by norm_num) (by
    rw [abs_of_nonneg (by linarith [hf.1])]
    exact_mod_cast (by linarith [hf.2] : (d.secs : ℚ) + d.frac64 ≤ 2 ^ 30))
  have hsec : d.secs64 = b64.rnd (d.secs + d.frac64) := by unfold Duration.secs64; rw [hrs]
  have hsec30 : |d.secs64| ≤ 2 ^ 30 := by
    rw [hsec]
    exact rnd64_pow2_le 30 (by rw [abs_of_nonneg (by linarith [hf.1])]; linarith [hf.2])
  have e3 := err64 (q := d.secs64 * 48000) 46 (by norm_num) (by
    rw [abs_mul]
    have : |(48000 : ℚ)| ≤ 2 ^ 16 := by norm_num
    calc |d.secs64| * |(48000 : ℚ)| ≤ 2 ^ 30 * 2 ^ 16 :=
          mul_le_mul hsec30 this (abs_nonneg _) (by positivity)
      _ = _ := by norm_num)
  have hcap : roundAwayQ d.samp64 ≤ 2 ^ 64 - 1 := by
    have h1 : d.samp64 ≤ ((2 ^ 46 : ℤ) : ℚ) := by
      have := rnd64_pow2_le (q := d.secs64 * 48000) 46 (by
        rw [abs_mul]
        have : |(48000 : ℚ)| ≤ 2 ^ 16 := by norm_num
        calc |d.secs64| * |(48000 : ℚ)| ≤ 2 ^ 30 * 2 ^ 16 :=
              mul_le_mul hsec30 this (abs_nonneg _) (by positivity)
          _ = _ := by norm_num)
      exact_mod_cast (le_abs_self _).trans this
    have := roundAwayQ_mono h1
    rw [roundAwayQ_int] at this
    omega
  have hval : (secondsToSamples F64 d : ℚ) = roundAwayQ d.samp64 := by
    have := d.samples_eq
    rw [min_eq_right hcap] at this
    exact_mod_cast this
  rw [hval, exact_eq]
  have e4 := abs_roundAwayQ_sub_le d.samp64
  rw [← hsec] at e2
  have hfr : d.frac64 = b64.rnd ((d.nanos : ℚ) / 10 ^ 9) := rfl
  rw [← hfr] at e1
  have hsm : d.samp64 = b64.rnd (d.secs64 * 48000) := rfl
  rw [← hsm] at e3
  rw [abs_le] at *
  norm_num at e1 e2 e3 e4 ⊢
  constructor <;> linarith

example : |(secondsToSamples F64 ⟨1, 500000000, by norm_num, by norm_num⟩ : ℚ) - 48000 * (3 / 2)| ≤ 1 / 2 + 2 ^ (-6 : ℤ) := by
  have := C21_nearest ⟨1, 500000000, by norm_num, by norm_num⟩ (by norm_num)
  rwa [show (⟨1, 500000000, by norm_num, by norm_num⟩ : Duration).exact = 3 / 2 by decide +kernel] at this

/-- Longer durations never give fewer samples, for all durations (no bound). -/
theorem C21_monotone (d e : Duration) (h : d.total ≤ e.total) :
    secondsToSamples F64 d ≤ secondsToSamples F64 e := by
  have key : d.secs64 ≤ e.secs64 := Duration.secs64_mono h
  have h2 : d.samp64 ≤ e.samp64 := b64.rnd_mono (by linarith)
  have h3 := roundAwayQ_mono h2
  have h4 := d.samples_eq
  have h5 := e.samples_eq
  omega

example : secondsToSamples F64 ⟨1, 0, by norm_num, by norm_num⟩ ≤ secondsToSamples F64 ⟨1, 1, by norm_num, by norm_num⟩ := C21_monotone _ _ (by decide)

example : secondsToSamples F64 ⟨1, 500000000, by norm_num, by norm_num⟩ = 72000 ∧
    (⟨1, 500000000, by norm_num, by norm_num⟩ : Duration).exact = 3 / 2 := by decide +kernel

/-! ## C20 samples_to_seconds -/

/-- What is assumed of `Duration::from_secs_f64` (either rounding it has had): defined on every
nonnegative value below `2^63`, with error at most one nanosecond plus one binary64 rounding. -/
def FromSecsSpec (fs : F64 → Res Duration) : Prop :=
  ∀ x q, x.Is q → 0 ≤ q → q < 2 ^ 63 →
    ∃ d, fs x = .ok d ∧ |(d.total : ℚ) - q * 10 ^ 9| ≤ 1 + q * 10 ^ 9 / 2 ^ 52

/-- The specification is satisfiable: truncation to whole nanoseconds meets it. -/
theorem fromSecsSpec_inhabited : ∃ fs, FromSecsSpec fs := by
  classical
  have key : ∀ q : ℚ, 0 ≤ q → q < 2 ^ 63 → ∃ d : Duration, |(d.total : ℚ) - q * 10 ^ 9| ≤ 1 + q * 10 ^ 9 / 2 ^ 52 := by
    intro q h0 h1
    have hf0 : 0 ≤ ⌊q * 10 ^ 9⌋ := Int.floor_nonneg.mpr (by positivity)
    have hf1 : ⌊q * 10 ^ 9⌋ < 2 ^ 63 * 10 ^ 9 := by
      rw [Int.floor_lt]; push_cast; nlinarith
    obtain ⟨n, hn⟩ := Int.eq_ofNat_of_zero_le hf0
    refine ⟨⟨n / 10 ^ 9, n % 10 ^ 9, by omega, Nat.mod_lt _ (by norm_num)⟩, ?_⟩
    have ht : (⟨n / 10 ^ 9, n % 10 ^ 9, by omega, Nat.mod_lt _ (by norm_num)⟩ : Duration).total = n := by
      unfold Duration.total; simp only; omega
    rw [ht]
    have hq : ((n : ℤ) : ℚ) = ⌊q * 10 ^ 9⌋ := by rw [hn]
    have h3 := Int.floor_le (q * 10 ^ 9)
    have h4 := Int.lt_floor_add_one (q * 10 ^ 9)
    rw [← hq] at h3 h4
    push_cast at h3 h4
    have : 0 ≤ q * 10 ^ 9 / 2 ^ 52 := by positivity
    rw [abs_le]
    constructor <;> linarith
  refine ⟨fun x => if h : ∃ q, x.Is q ∧ 0 ≤ q ∧ q < 2 ^ 63 then
    .ok (Classical.choose (key h.choose h.choose_spec.2.1 h.choose_spec.2.2)) else .error .duration, ?_⟩
  intro x q hx h0 h1
  have hex : ∃ q, x.Is q ∧ 0 ≤ q ∧ q < 2 ^ 63 := ⟨q, hx, h0, h1⟩
  refine ⟨_, by simp only [dif_pos hex]; rfl, ?_⟩
  have hq : hex.choose = q := hex.choose_spec.1.unique hx
  have := Classical.choose_spec (key hex.choose hex.choose_spec.2.1 hex.choose_spec.2.2)
  simpa only [hq] using this

private theorem samples_value (n : ℕ) (h : n ≤ 2 ^ 32) : (lit (n : ℚ) * (srM : F64)).Is ((n : ℚ) * 48000) := by
  have hr : b64.Repr ((n : ℚ) * 48000) := by
    have := Fmt.repr64_int (n := (n : ℤ) * 48000) (by rw [abs_of_nonneg (by positivity)]; omega)
    exact_mod_cast this
  have := Is.mul (lit64_nat (n := n) (by omega)) srM64 (fits64' 53 (by norm_num) (by
    rw [abs_of_nonneg (by positivity)]
    have : (n : ℚ) ≤ 2 ^ 32 := by exact_mod_cast h
    linarith [(by norm_num : (2 : ℚ) ^ 32 * 48000 ≤ 2 ^ 53)]))
  rwa [b64.rnd_of_repr hr] at this

/-- The property fails for every conforming `from_secs_f64`: one sample becomes 48000 seconds, which is
2304000000 samples and not 1. -/
theorem C20_roundtrip_violated (fs : F64 → Res Duration) (hfs : FromSecsSpec fs) :
    ¬ ∀ n : ℕ, ∃ d, samplesToSeconds fs n = .ok d ∧ secondsToSamples F64 d = n := by
  intro h
  obtain ⟨d, h1, h2⟩ := h 1
  obtain ⟨d', h3, h4⟩ := hfs _ _ (samples_value 1 (by norm_num)) (by norm_num) (by norm_num)
  unfold samplesToSeconds at h1
  rw [h3] at h1
  cases h1
  norm_num at h4
  rw [abs_le] at h4
  have hs : d.secs < 2 ^ 30 := by
    by_contra hc
    have h5 : (2 : ℚ) ^ 30 ≤ d.secs := by exact_mod_cast not_lt.mp hc
    have h6 : (d.total : ℚ) = d.secs * 10 ^ 9 + d.nanos := by unfold Duration.total; push_cast; ring
    have h7 : (0 : ℚ) ≤ d.nanos := by positivity
    norm_num at h6
    linarith [h4.2, (by norm_num : (48000000000000 : ℚ) + 2 ≤ 2 ^ 30 * 1000000000)]
  have h5 := C21_nearest d hs
  rw [h2] at h5
  unfold Duration.exact at h5
  rw [abs_le] at h5
  norm_num at h5
  linarith [h4.1, h5.1]

/-- What the code computes: `n` samples are taken to be `n*48000` seconds. The inverse property holds
only at `n = 0`, which is included. Missing: the property itself. -/
theorem C20_value_partial (fs : F64 → Res Duration) (hfs : FromSecsSpec fs) (n : ℕ) (h : n ≤ 2 ^ 32) :
    ∃ d, samplesToSeconds fs n = .ok d ∧ |d.exact - n * 48000| ≤ 1 / 10 ^ 9 + n * 48000 / 2 ^ 52 ∧
      (n = 0 → d.total ≤ 1) := by
  have hn : (n : ℚ) ≤ 2 ^ 32 := by exact_mod_cast h
  obtain ⟨d, h3, h4⟩ := hfs _ _ (samples_value n h) (by positivity) (by
    linarith [(by norm_num : (2 : ℚ) ^ 32 * 48000 < 2 ^ 63)])
  refine ⟨d, h3, ?_, ?_⟩
  · unfold Duration.exact
    rw [abs_le] at h4 ⊢
    norm_num at h4 ⊢
    constructor <;> linarith [h4.1, h4.2]
  · rintro rfl
    norm_num at h4
    exact h4

end Verif
