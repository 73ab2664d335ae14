import Verif.Proofs.Codec

/-! # Sample codecs: C01-C09

All statements are about IEEE binary32 (`F32`). `x.Is q` reads: `x` is finite and its exact value is
the rational `q`. -/

set_option linter.unnecessarySeqFocus false

namespace Verif
open Fl

/-! ## C01 u8 round trip -/

/-- Every byte survives decode then encode. -/
theorem C01_u8_roundtrip (v : UInt8) : sampleToU8 (sampleFromU8 v : F32) = v := by
  have hv : v.toNat < 256 := v.toNat_lt
  have h0 := sampleFromU8_is v
  have hm := Is.mul h0 lit32_128 (Fmt.fits32 (by
    rw [div_mul_cancel₀ _ (by norm_num)]
    have : |((v.toNat : ℤ) - 128)| ≤ 256 := by rw [abs_le]; omega
    have : |(((v.toNat : ℤ) - 128 : ℤ) : ℚ)| ≤ 256 := by exact_mod_cast this
    exact this.trans (by norm_num)))
  rw [div_mul_cancel₀ _ (by norm_num : (128 : ℚ) ≠ 0),
    Fmt.rnd_int (by rw [abs_le]; constructor <;> norm_num [b32] <;> omega)] at hm
  have ha := Is.add hm lit32_128 (Fmt.fits32 (by
    rw [show ((((v.toNat : ℤ) - 128 : ℤ) : ℚ) + 128) = (v.toNat : ℚ) by push_cast; ring,
      abs_of_nonneg (by positivity)]
    have : (v.toNat : ℚ) ≤ 256 := by exact_mod_cast hv.le
    exact this.trans (by norm_num)))
  rw [show ((((v.toNat : ℤ) - 128 : ℤ) : ℚ) + 128) = ((v.toNat : ℤ) : ℚ) by push_cast; ring,
    Fmt.rnd_int (by rw [abs_le]; constructor <;> norm_num [b32] <;> omega)] at ha
  unfold sampleToU8
  rw [ha.round32.toInt, roundAwayQ_int, truncQ_int,
    show (max (0 : ℤ) (min 255 (v.toNat : ℤ))).toNat = v.toNat by omega]
  exact UInt8.ofNat_toNat

/-- The decoded value is exactly `(v-128)/128`. -/
theorem C01_u8_value (v : UInt8) : (sampleFromU8 v : F32).Is (((v.toNat : ℚ) - 128) / 128) := by
  have := sampleFromU8_is v
  push_cast at this
  exact this

/-- Hence in `[-1, 127/128]`. -/
theorem C01_u8_range (v : UInt8) : (sampleFromU8 v : F32).In (-1) (127 / 128) := by
  have hv : v.toNat < 256 := v.toNat_lt
  have h1 : (v.toNat : ℚ) ≤ 255 := by exact_mod_cast Nat.lt_succ_iff.mp hv
  have h2 : (0 : ℚ) ≤ v.toNat := by positivity
  refine (C01_u8_value v).in' ?_ ?_ <;> linarith

example : (sampleFromU8 200 : F32).Is (72 / 128) ∧ sampleToU8 (sampleFromU8 200 : F32) = 200 :=
  ⟨by have := C01_u8_value 200; rwa [show (((200 : UInt8).toNat : ℚ) - 128) / 128 = 72 / 128 by decide +kernel] at this, C01_u8_roundtrip 200⟩

/-! ## C02 i16 round trip -/

/-- Every `i16` survives decode then encode, `-32768` included. -/
theorem C02_i16_roundtrip (v : Int16) : sampleToI16 (sampleFromI16 v : F32) = v := by
  obtain ⟨h1, h2⟩ := Int16.toInt_bounds v
  have hn : |v.toInt| ≤ 32767 + 1 := by rw [abs_le]; omega
  have hd := decode_is (n := v.toInt) (c := scale16) (k := 32767) (by exact_mod_cast scale16_is)
    (by norm_num) hn (by norm_num)
  have hq := abs_div_le (n := v.toInt) (k := 32767) (by norm_num) hn
  have hq' : |b32.rnd ((v.toInt : ℚ) / ((32767 : ℤ) : ℚ))| ≤ 2 := by
    rw [b32.abs_rnd]; exact b32.rnd_le_repr (Fmt.repr32_int (n := 2) (by norm_num)) hq
  unfold sampleToI16 sampleFromI16
  rw [encode_is hd (by exact_mod_cast scale16_is : (scale16 : F32).Is ((32767 : ℤ) : ℚ))
    (hq'.trans (by norm_num)) (by norm_num) (by norm_num),
    roundtrip_core (a := 1) (b := 16) (by norm_num) (hq.trans (by norm_num)) (by norm_num) (by
      rw [abs_mul]
      calc _ ≤ (2 : ℚ) * |((32767 : ℤ) : ℚ)| := mul_le_mul_of_nonneg_right hq' (abs_nonneg _)
        _ ≤ _ := by norm_num) (by norm_num) (by norm_num),
    show max (-32768 : ℤ) (min 32767 v.toInt) = v.toInt by omega]
  exact Int16.ofInt_toInt v

/-- `-32768` decodes below `-1` and still round-trips. -/
theorem C02_i16_min : (∃ q < (-1 : ℚ), (sampleFromI16 (-32768) : F32).Is q) ∧
    sampleToI16 (sampleFromI16 (-32768) : F32) = -32768 := by
  refine ⟨⟨b32.rnd (-32768 / 32767), by decide +kernel, ?_⟩, C02_i16_roundtrip _⟩
  have := decode_is (n := -32768) (c := scale16) (k := 32767) (by exact_mod_cast scale16_is)
    (by norm_num) (by norm_num) (by norm_num)
  norm_num at this
  norm_num
  exact this

/-! ## C03 24-bit round trip -/

/-- Every 24-bit signed value survives decode then encode. -/
theorem C03_i24_roundtrip (v : Int32) (h1 : -8388608 ≤ v.toInt) (h2 : v.toInt ≤ 8388607) :
    sampleToI24 (sampleFromI24 v : F32) = v := by
  have hs : (scale24 : F32).Is ((8388607 : ℤ) : ℚ) := by exact_mod_cast scale24_is
  have hn : |v.toInt| ≤ 8388607 + 1 := by rw [abs_le]; omega
  have hd := decode_is (n := v.toInt) hs (by norm_num) hn (by norm_num)
  have hq := abs_div_le (n := v.toInt) (k := 8388607) (by norm_num) hn
  have hq' : |b32.rnd ((v.toInt : ℚ) / ((8388607 : ℤ) : ℚ))| ≤ 2 := by
    rw [b32.abs_rnd]; exact b32.rnd_le_repr (Fmt.repr32_int (n := 2) (by norm_num)) hq
  unfold sampleToI24 sampleFromI24
  rw [encode_is hd hs (hq'.trans (by norm_num)) (by norm_num) (by norm_num)]
  have key : roundAwayQ (b32.rnd (b32.rnd ((v.toInt : ℚ) / ((8388607 : ℤ) : ℚ)) * ((8388607 : ℤ) : ℚ)))
      = v.toInt := by
    by_cases hm : v.toInt = -8388608
    · rw [hm]; decide +kernel
    · have hn' : |v.toInt| ≤ 8388607 := by rw [abs_le]; omega
      have hq1 : |(v.toInt : ℚ) / ((8388607 : ℤ) : ℚ)| ≤ 1 := by
        rw [abs_div, div_le_one (by norm_num)]
        have : |(v.toInt : ℚ)| ≤ 8388607 := by exact_mod_cast hn'
        exact this.trans (by norm_num)
      have hq1' : |b32.rnd ((v.toInt : ℚ) / ((8388607 : ℤ) : ℚ))| ≤ 1 := by
        rw [b32.abs_rnd]
        exact_mod_cast b32.rnd_le_repr (Fmt.repr32_int (n := 1) (by norm_num)) (by exact_mod_cast hq1)
      exact roundtrip_core (a := 0) (b := 23) (by norm_num) (hq1.trans (by norm_num)) (by norm_num) (by
        rw [abs_mul]
        calc _ ≤ (1 : ℚ) * |((8388607 : ℤ) : ℚ)| := mul_le_mul_of_nonneg_right hq1' (abs_nonneg _)
          _ ≤ _ := by norm_num) (by norm_num) (by norm_num)
  rw [key, show max (-2147483648 : ℤ) (min 2147483647 v.toInt) = v.toInt by omega]
  exact Int32.ofInt_toInt v

example : sampleToI24 (sampleFromI24 (-8388608) : F32) = -8388608 ∧
    sampleToI24 (sampleFromI24 5000001 : F32) = 5000001 :=
  ⟨C03_i24_roundtrip _ (by decide) (by decide), C03_i24_roundtrip _ (by decide) (by decide)⟩

/-! ## C04 saturation -/

/-- NaN encodes as 0 (u8) and 0 (i16). -/
theorem C04_nan : sampleToU8 (.nan : F32) = 0 ∧ sampleToI16 (.nan : F32) = 0 := ⟨rfl, rfl⟩

private theorem u8_mono_core {s t : F32} (h : (s ≤? t) = true) :
    Flt.toInt 0 255 (Flt.round (s * lit 128 + lit 128)) ≤
      Flt.toInt 0 255 (Flt.round (t * lit 128 + lit 128)) :=
  toInt_mono (by norm_num)
    (round_le_round (add_le_add_const (mul_le_mul_const h lit32_128 (by norm_num)) lit32_128))

private theorem i16_mono_core {s t : F32} (h : (s ≤? t) = true) :
    Flt.toInt (-32768) 32767 (Flt.round (s * scale16)) ≤
      Flt.toInt (-32768) 32767 (Flt.round (t * scale16)) :=
  toInt_mono (by norm_num) (round_le_round (mul_le_mul_const h scale16_is (by norm_num)))

private theorem i24_mono_core {s t : F32} (h : (s ≤? t) = true) :
    Flt.toInt (-2147483648) 2147483647 (Flt.round (s * scale24)) ≤
      Flt.toInt (-2147483648) 2147483647 (Flt.round (t * scale24)) :=
  toInt_mono (by norm_num) (round_le_round (mul_le_mul_const h scale24_is (by norm_num)))

private theorem u8_toNat (s : F32) : ((sampleToU8 s).toNat : ℤ) =
    Flt.toInt 0 255 (Flt.round (s * lit 128 + lit 128)) := by
  obtain ⟨h1, h2⟩ := toInt_mem (lo := 0) (hi := 255) (by norm_num) (by norm_num)
    (Flt.round (s * lit 128 + lit 128))
  unfold sampleToU8
  rw [UInt8.toNat_ofNat', Nat.mod_eq_of_lt (by omega)]
  omega

private theorem i16_toInt (s : F32) : (sampleToI16 s).toInt =
    Flt.toInt (-32768) 32767 (Flt.round (s * scale16)) := by
  obtain ⟨h1, h2⟩ := toInt_mem (lo := -32768) (hi := 32767) (by norm_num) (by norm_num)
    (Flt.round (s * scale16))
  unfold sampleToI16
  exact Int16.toInt_ofInt_of_le h1 (by omega)

private theorem i24_toInt (s : F32) : (sampleToI24 s).toInt =
    Flt.toInt (-2147483648) 2147483647 (Flt.round (s * scale24)) := by
  obtain ⟨h1, h2⟩ := toInt_mem (lo := -2147483648) (hi := 2147483647) (by norm_num) (by norm_num)
    (Flt.round (s * scale24))
  unfold sampleToI24
  exact Int32.toInt_ofInt_of_le h1 (by omega)

/-- Samples at or above `+1`, `+∞` included, encode to the largest code. -/
theorem C04_high (s : F32) (h : (lit 1 ≤? s) = true) : sampleToU8 s = 255 ∧ sampleToI16 s = 32767 := by
  have e1 : Flt.toInt 0 255 (Flt.round ((lit 1 : F32) * lit 128 + lit 128)) = 255 := by decide +kernel
  have e2 : Flt.toInt (-32768) 32767 (Flt.round ((lit 1 : F32) * scale16)) = 32767 := by decide +kernel
  constructor
  · have h1 := u8_mono_core h
    rw [e1, ← u8_toNat] at h1
    apply UInt8.toNat_inj.mp
    have := (sampleToU8 s).toNat_lt
    show (sampleToU8 s).toNat = 255
    omega
  · have h1 := i16_mono_core h
    rw [e2, ← i16_toInt] at h1
    apply Int16.toInt_inj.mp
    have := Int16.toInt_bounds (sampleToI16 s)
    show (sampleToI16 s).toInt = 32767
    omega

example : sampleToU8 (.inf false : F32) = 255 ∧ sampleToI16 (lit 3 : F32) = 32767 :=
  ⟨(C04_high _ (by decide +kernel)).1, (C04_high _ (by decide +kernel)).2⟩

/-- Samples at or below `-1`, `-∞` included, encode to 0 (u8) and to at most -32767 (i16). -/
theorem C04_low (s : F32) (h : (s ≤? -lit 1) = true) :
    sampleToU8 s = 0 ∧ (sampleToI16 s).toInt ≤ -32767 := by
  have e1 : Flt.toInt 0 255 (Flt.round ((-lit 1 : F32) * lit 128 + lit 128)) = 0 := by decide +kernel
  have e2 : Flt.toInt (-32768) 32767 (Flt.round ((-lit 1 : F32) * scale16)) = -32767 := by decide +kernel
  constructor
  · have h1 := u8_mono_core h
    rw [e1, ← u8_toNat] at h1
    apply UInt8.toNat_inj.mp
    show (sampleToU8 s).toNat = 0
    omega
  · have h1 := i16_mono_core h
    rwa [e2, ← i16_toInt] at h1

example : sampleToU8 (.inf true : F32) = 0 ∧ (sampleToI16 (lit (-3) : F32)).toInt ≤ -32767 :=
  ⟨(C04_low _ (by decide +kernel)).1, (C04_low _ (by decide +kernel)).2⟩

/-- `-∞` gives the smallest code of each type. -/
theorem C04_neg_inf : sampleToU8 (.inf true : F32) = 0 ∧ sampleToI16 (.inf true : F32) = -32768 := by
  decide +kernel

example : ((lit 1 : F32) ≤? .inf false) = true ∧ ((lit 1 : F32) ≤? lit 3) = true ∧
    ((.inf true : F32) ≤? -lit 1) = true := by decide +kernel

/-! ## C05 24-bit codes within 24 bits: violated -/

/-- The property fails: `2.0` encodes to `16777214`, which needs 26 bits. -/
theorem C05_i24_range_violated :
    ¬ ∀ s : F32, -8388608 ≤ (sampleToI24 s).toInt ∧ (sampleToI24 s).toInt ≤ 8388607 := by
  intro h
  have := (h (lit 2)).2
  rw [i24_toInt] at this
  revert this
  decide +kernel

/-- What holds: for samples in `[-1,1]` the code is within `±8388607`. Missing: samples outside
`[-1,1]`, which saturate only at the range of `i32`. -/
theorem C05_i24_range_partial (s : F32) (h1 : (-lit 1 ≤? s) = true) (h2 : (s ≤? lit 1) = true) :
    -8388607 ≤ (sampleToI24 s).toInt ∧ (sampleToI24 s).toInt ≤ 8388607 := by
  have e1 : Flt.toInt (-2147483648) 2147483647 (Flt.round ((-lit 1 : F32) * scale24)) = -8388607 := by
    decide +kernel
  have e2 : Flt.toInt (-2147483648) 2147483647 (Flt.round ((lit 1 : F32) * scale24)) = 8388607 := by
    decide +kernel
  rw [i24_toInt]
  exact ⟨e1 ▸ i24_mono_core h1, e2 ▸ i24_mono_core h2⟩

example : (-lit 1 ≤? (lit (3 / 4) : F32)) = true ∧ ((lit (3 / 4) : F32) ≤? lit 1) = true := by
  decide +kernel

/-- An f32 value above `1 + j * 2^-23` is at least the next one. -/
private theorem above_one {q : ℚ} (j : ℕ) (h : b32.Repr q) (h1 : 1 + (j : ℚ) / 2 ^ 23 < q) : 1 + ((j : ℚ) + 1) / 2 ^ 23 ≤ q := by
  have hj : (0 : ℚ) ≤ (j : ℚ) / 2 ^ 23 := by positivity
  obtain ⟨m, e, hq, hm, -⟩ := h
  rcases le_or_gt (-23) e with he | he
  · obtain ⟨n, hn⟩ : ∃ n : ℤ, q * 2 ^ 23 = n := by
      obtain ⟨k, rfl⟩ : ∃ k : ℕ, e = k - 23 := ⟨(e + 23).toNat, by omega⟩
      refine ⟨m * 2 ^ k, ?_⟩
      rw [hq, pow2_eq, sub_eq_add_neg, zpow_add₀ (by norm_num)]
      push_cast
      rw [zpow_natCast]
      norm_num
      ring
    have h2 : (2 ^ 23 + j : ℚ) < n := by rw [← hn]; linarith
    have h3 : (2 ^ 23 + j : ℤ) < n := by exact_mod_cast h2
    have h4 : ((2 ^ 23 + j + 1 : ℤ) : ℚ) ≤ n := by exact_mod_cast h3
    push_cast at h4
    linarith
  · exfalso
    have h2 : pow2 e ≤ pow2 (-24) := pow2_le (by omega)
    have h3 : (m : ℚ) ≤ 2 ^ 24 := by
      have := (le_abs_self m).trans hm
      exact_mod_cast this
    have h4 : pow2 (-24) = 1 / 2 ^ 24 := by rw [pow2_eq]; norm_num
    have h5 : (0 : ℚ) < pow2 e := pow2_pos e
    rcases le_or_gt 0 m with hm0 | hm0
    · have : (m : ℚ) * pow2 e ≤ 2 ^ 24 * (1 / 2 ^ 24) := mul_le_mul h3 (h4 ▸ h2) h5.le (by norm_num)
      rw [← hq] at this
      norm_num at this
      linarith
    · have : (m : ℚ) * pow2 e < 0 := mul_neg_of_neg_of_pos (by exact_mod_cast hm0) h5
      rw [← hq] at this
      linarith

/-- The exact set of samples with a 24-bit code: NaN (code 0) and everything from `-(1 + 2^-23)` to `1`. Missing: all other
samples. -/
theorem C05_i24_range_iff_partial (s : F32) :
    (-8388608 ≤ (sampleToI24 s).toInt ∧ (sampleToI24 s).toInt ≤ 8388607) ↔
      s = .nan ∨ ((-lit (1 + 1 / 2 ^ 23) ≤? s) = true ∧ (s ≤? lit 1) = true) := by
  have hlo : Flt.toInt (-2147483648) 2147483647 (Flt.round ((-lit (1 + 1 / 2 ^ 23) : F32) * scale24)) = -8388608 := by decide +kernel
  have hlo' : Flt.toInt (-2147483648) 2147483647 (Flt.round ((-lit (1 + 1 / 2 ^ 22) : F32) * scale24)) = -8388609 := by decide +kernel
  have hhi : Flt.toInt (-2147483648) 2147483647 (Flt.round ((lit 1 : F32) * scale24)) = 8388607 := by decide +kernel
  have hhi' : Flt.toInt (-2147483648) 2147483647 (Flt.round ((lit (1 + 1 / 2 ^ 23) : F32) * scale24)) = 8388608 := by decide +kernel
  rw [i24_toInt]
  constructor
  · intro h
    cases s with
    | nan => exact Or.inl rfl
    | inf b =>
      exfalso
      revert h
      cases b <;> decide +kernel
    | fin b q hq =>
      right
      have hi : (Fl.fin b q hq : F32).Is q := rfl
      have l0 : (lit (1 + 1 / 2 ^ 23) : F32).Is (1 + 1 / 2 ^ 23) := by decide +kernel
      have l1 : (-lit (1 + 1 / 2 ^ 23) : F32).Is (-(1 + 1 / 2 ^ 23)) := by decide +kernel
      have l2 : (-lit (1 + 1 / 2 ^ 22) : F32).Is (-(1 + 1 / 2 ^ 22)) := by decide +kernel
      constructor
      · by_contra hc
        have h1 : q < -(1 + 1 / 2 ^ 23) := by
          by_contra h2
          exact hc ((by rw [Is.le l1 hi]; exact decide_eq_true (not_lt.mp h2)))
        have h2 := above_one 1 (b32.repr_neg hi.repr) (by push_cast; linarith)
        have h3 : (Fl.fin b q hq : F32) ≤? -lit (1 + 1 / 2 ^ 22) := (by rw [Is.le hi l2]; exact decide_eq_true (by push_cast at h2; linarith))
        have := i24_mono_core h3
        rw [hlo'] at this
        omega
      · by_contra hc
        have h1 : 1 < q := by
          by_contra h2
          exact hc ((by rw [Is.le hi lit32_1]; exact decide_eq_true (not_lt.mp h2)))
        have h2 := above_one 0 hi.repr (by push_cast; linarith)
        have h3 : lit (1 + 1 / 2 ^ 23) ≤? (Fl.fin b q hq : F32) := (by rw [Is.le l0 hi]; exact decide_eq_true (by push_cast at h2; linarith))
        have := i24_mono_core h3
        rw [hhi'] at this
        omega
  · rintro (h | ⟨h1, h2⟩)
    · subst h; decide +kernel
    · exact ⟨hlo ▸ i24_mono_core h1, hhi ▸ i24_mono_core h2⟩

/-! ## C06 monotonicity -/

/-- Louder samples never get smaller codes, infinities included. -/
theorem C06_monotone (s t : F32) (h : (s ≤? t) = true) :
    (sampleToU8 s).toNat ≤ (sampleToU8 t).toNat ∧ (sampleToI16 s).toInt ≤ (sampleToI16 t).toInt ∧
      (sampleToI24 s).toInt ≤ (sampleToI24 t).toInt := by
  refine ⟨?_, ?_, ?_⟩
  · have := u8_mono_core h
    rw [← u8_toNat, ← u8_toNat] at this
    exact_mod_cast this
  · rw [i16_toInt, i16_toInt]; exact i16_mono_core h
  · rw [i24_toInt, i24_toInt]; exact i24_mono_core h

example : ((lit (1 / 3) : F32) ≤? lit (1 / 2)) = true ∧
    sampleToI16 (lit (1 / 3) : F32) = 10922 ∧ sampleToI16 (lit (1 / 2) : F32) = 16384 := by
  decide +kernel

/-! ## C07 quantisation error -/

private theorem triangle3 {a b c : ℚ} (x y : ℚ) (h1 : |a - x| ≤ b) (h2 : |x - y| ≤ c) : |a - y| ≤ b + c := by
  calc |a - y| = |(a - x) + (x - y)| := by ring_nf
    _ ≤ _ := abs_add_le _ _
    _ ≤ _ := add_le_add h1 h2

/-- 8 bit: the error is at most half a step plus one `f32` rounding, when `s ≤ 127/128`. -/
theorem C07_u8 (s : F32) (q : ℚ) (hs : s.Is q) (h1 : -1 ≤ q) (h2 : q ≤ 127 / 128) :
    ∃ r, (sampleFromU8 (sampleToU8 s) : F32).Is r ∧ |r - q| ≤ 1 / 256 + 2 ^ (-24 : ℤ) := by
  refine ⟨_, C01_u8_value _, ?_⟩
  have hm := Is.mul hs lit32_128 (Fmt.fits32 (abs_le_of_mem (lo := -128) (hi := 127) _ (by linarith)
    (by linarith) (by norm_num) (by norm_num)))
  have hmr : b32.Repr (q * 128) := by
    obtain ⟨m, e, rfl, hm, he⟩ := hs.repr
    exact ⟨m, e + 7, by rw [pow2_add, show pow2 7 = 128 by rw [pow2_eq]; norm_num]; ring, hm, by omega⟩
  rw [b32.rnd_of_repr hmr] at hm
  have ha := Is.add hm lit32_128 (Fmt.fits32 (abs_le_of_mem (lo := 0) (hi := 255) _ (by linarith)
    (by linarith) (by norm_num) (by norm_num)))
  have hin := rnd_in (f := b32) (q := q * 128 + 128) (lo := (0 : ℤ)) (hi := (255 : ℤ)) (by push_cast; linarith)
    (by push_cast; linarith) (Fmt.repr32_int (by norm_num)) (Fmt.repr32_int (by norm_num))
  have herr := err32 (q := q * 128 + 128) 8 (by norm_num) (abs_le_of_mem (lo := 0) (hi := 255) _
    (by linarith) (by linarith) (by norm_num) (by norm_num))
  have hrd := abs_roundAwayQ_sub_le (b32.rnd (q * 128 + 128))
  have hlo := roundAwayQ_mono hin.1
  have hhi := roundAwayQ_mono hin.2
  rw [roundAwayQ_int] at hlo hhi
  have hcode : ((sampleToU8 s).toNat : ℤ) = roundAwayQ (b32.rnd (q * 128 + 128)) := by
    rw [u8_toNat, ha.round32.toInt, truncQ_int]; omega
  have hcode' : ((sampleToU8 s).toNat : ℚ) = roundAwayQ (b32.rnd (q * 128 + 128)) := by
    exact_mod_cast hcode
  rw [hcode']
  have h3 := triangle3 _ _ hrd herr
  rw [abs_le] at h3 ⊢
  norm_num at h3 ⊢
  constructor <;> linarith

example : ∃ r, (sampleFromU8 (sampleToU8 (lit (3 / 7) : F32)) : F32).Is r ∧ |r - b32.rnd (3 / 7)| ≤ 1 / 256 + 2 ^ (-24 : ℤ) :=
  C07_u8 _ _ (by decide +kernel) (by decide +kernel) (by decide +kernel)

/-- 8 bit, whole range `[-1,1]`: near `+1` the code saturates, the error stays within one step. -/
theorem C07_u8_full (s : F32) (q : ℚ) (hs : s.Is q) (h1 : -1 ≤ q) (h2 : q ≤ 1) :
    ∃ r, (sampleFromU8 (sampleToU8 s) : F32).Is r ∧ |r - q| ≤ 1 / 128 := by
  by_cases h : q ≤ 127 / 128
  · obtain ⟨r, hr, hb⟩ := C07_u8 s q hs h1 h
    exact ⟨r, hr, hb.trans (by norm_num)⟩
  · have hc : sampleToU8 s = 255 := by
      have e : Flt.toInt 0 255 (Flt.round ((lit (127 / 128) : F32) * lit 128 + lit 128)) = 255 := by
        decide +kernel
      have hl : (lit (127 / 128) : F32).Is (127 / 128) := by decide +kernel
      have := u8_mono_core (s := lit (127 / 128)) (t := s) (by
        rw [hl.le hs]; exact decide_eq_true (le_of_lt (not_le.mp h)))
      rw [e, ← u8_toNat] at this
      apply UInt8.toNat_inj.mp
      have := (sampleToU8 s).toNat_lt
      show (sampleToU8 s).toNat = 255
      omega
    refine ⟨_, C01_u8_value _, ?_⟩
    rw [hc, show (255 : UInt8).toNat = 255 from rfl, abs_le]
    push_cast
    constructor <;> linarith [not_le.mp h]

example : ∃ r, (sampleFromU8 (sampleToU8 (lit 1 : F32)) : F32).Is r ∧ |r - 1| ≤ 1 / 128 :=
  C07_u8_full _ _ (by decide +kernel) (by norm_num) (by norm_num)

/-- Common part of the 16 and 24 bit cases. -/
private theorem quant_core {c : F32} {q : ℚ} {k : ℤ} {b : ℤ} (hc : c.Is k)
    (hk : 32767 ≤ k) (hk2 : k ≤ 8388607) (hb : (k : ℚ) ≤ 2 ^ b) (hb' : 0 ≤ b) (h1 : -1 ≤ q) (h2 : q ≤ 1) :
    let n := roundAwayQ (b32.rnd (q * k));
    -k ≤ n ∧ n ≤ k ∧ (lit (n : ℚ) / c : F32).Is (b32.rnd (n / k)) ∧
      |b32.rnd (n / k) - q| ≤ (1 / 2 + 2 ^ (b - 25)) / k + 2 ^ (-25 : ℤ) := by
  intro n
  have hk0 : (0 : ℚ) < k := by exact_mod_cast (by omega : 0 < k)
  have hin := rnd_in (f := b32) (q := q * k) (lo := ((-k : ℤ) : ℚ)) (hi := (k : ℚ))
    (by push_cast; nlinarith) (by nlinarith)
    (Fmt.repr32_int (by rw [abs_le]; omega)) (Fmt.repr32_int (by rw [abs_le]; omega))
  have hlo : -k ≤ n := by have := roundAwayQ_mono hin.1; rwa [roundAwayQ_int] at this
  have hhi : n ≤ k := by have := roundAwayQ_mono hin.2; rwa [roundAwayQ_int] at this
  refine ⟨hlo, hhi, decode_is hc hk (by rw [abs_le]; omega) hk2, ?_⟩
  have herr := err32 (q := q * k) b (by omega) (by
    rw [abs_mul, abs_of_pos hk0]
    have : |q| ≤ 1 := abs_le.mpr ⟨h1, h2⟩
    nlinarith)
  have hrd := abs_roundAwayQ_sub_le (b32.rnd (q * k))
  have h3 : |(n : ℚ) - q * k| ≤ 1 / 2 + 2 ^ (b - 25) := triangle3 _ _ hrd herr
  have h4 : |(n : ℚ) / k - q| ≤ (1 / 2 + 2 ^ (b - 25)) / k := by
    rw [show (n : ℚ) / k - q = (n - q * k) / k by field_simp, abs_div, abs_of_pos hk0]
    exact div_le_div_of_nonneg_right h3 hk0.le
  have h5 : |(n : ℚ) / k| ≤ 2 ^ (0 : ℤ) := by
    rw [abs_div, abs_of_pos hk0, zpow_zero, div_le_one hk0, abs_le]
    constructor
    · exact_mod_cast hlo
    · exact_mod_cast hhi
  have h6 := triangle3 _ _ (err32 0 (by norm_num) h5) h4
  rw [show (0 : ℤ) - 25 = -25 by norm_num] at h6
  linarith

/-- 16 bit: half a step, plus the roundings of the two `f32` operations. -/
theorem C07_i16 (s : F32) (q : ℚ) (hs : s.Is q) (h1 : -1 ≤ q) (h2 : q ≤ 1) :
    ∃ r, (sampleFromI16 (sampleToI16 s) : F32).Is r ∧
      |r - q| ≤ (1 / 2 + 2 ^ (-10 : ℤ)) / 32767 + 2 ^ (-25 : ℤ) := by
  have hc : (scale16 : F32).Is ((32767 : ℤ) : ℚ) := by exact_mod_cast scale16_is
  obtain ⟨hlo, hhi, hd, he⟩ := quant_core (b := 15) hc (by norm_num) (by norm_num) (by norm_num)
    (by norm_num) h1 h2
  have hcode : (sampleToI16 s).toInt = roundAwayQ (b32.rnd (q * ((32767 : ℤ) : ℚ))) := by
    rw [i16_toInt, encode_is hs hc (abs_le_of_mem _ h1 h2 (by norm_num) (by norm_num)) (by norm_num)
      (by norm_num)]
    omega
  refine ⟨_, ?_, by norm_num at he ⊢; exact he⟩
  unfold sampleFromI16
  rw [hcode]
  exact hd

example : ∃ r, (sampleFromI16 (sampleToI16 (lit (-1) : F32)) : F32).Is r ∧ |r - -1| ≤ (1 / 2 + 2 ^ (-10 : ℤ)) / 32767 + 2 ^ (-25 : ℤ) :=
  C07_i16 _ _ (by decide +kernel) (by norm_num) (by norm_num)

/-- 24 bit: half a step plus a quarter step for the `f32` product, plus the final rounding. -/
theorem C07_i24 (s : F32) (q : ℚ) (hs : s.Is q) (h1 : -1 ≤ q) (h2 : q ≤ 1) :
    ∃ r, (sampleFromI24 (sampleToI24 s) : F32).Is r ∧
      |r - q| ≤ (1 / 2 + 1 / 4) / 8388607 + 2 ^ (-25 : ℤ) := by
  have hc : (scale24 : F32).Is ((8388607 : ℤ) : ℚ) := by exact_mod_cast scale24_is
  obtain ⟨hlo, hhi, hd, he⟩ := quant_core (b := 23) hc (by norm_num) (by norm_num) (by norm_num)
    (by norm_num) h1 h2
  have hcode : (sampleToI24 s).toInt = roundAwayQ (b32.rnd (q * ((8388607 : ℤ) : ℚ))) := by
    rw [i24_toInt, encode_is hs hc (abs_le_of_mem _ h1 h2 (by norm_num) (by norm_num)) (by norm_num)
      (by norm_num)]
    omega
  refine ⟨_, ?_, by norm_num at he ⊢; exact he⟩
  unfold sampleFromI24
  rw [hcode]
  exact hd

example : (lit (1 / 3) : F32).Is (11184811 / 33554432) ∧ (-1 : ℚ) ≤ 11184811 / 33554432 ∧
    (11184811 / 33554432 : ℚ) ≤ 127 / 128 := by decide +kernel

/-! ## C08 byte layouts -/

/-- Little-endian two's complement reading of a byte list, written independently of the model:
the unsigned value, minus `256^n` when the top bit is set. -/
def leValue (bs : List UInt8) : ℤ :=
  let u : ℤ := bs.foldr (fun b acc => b.toNat + 256 * acc) 0
  if 2 * u < 256 ^ bs.length then u else u - 256 ^ bs.length

theorem i16FromLe_value (b0 b1 : UInt8) : (i16FromLe b0 b1).toInt = leValue [b0, b1] := by
  have h0 := b0.toNat_lt
  have h1 := b1.toNat_lt
  unfold i16FromLe leValue
  rw [Int16.toInt_ofInt]
  simp only [List.foldr_cons, List.foldr_nil, List.length_cons, List.length_nil, Int.bmod]
  norm_num
  split_ifs <;> omega

theorem i16ToLe_value (v : Int16) : leValue [(i16ToLe v).1, (i16ToLe v).2] = v.toInt := by
  obtain ⟨h1, h2⟩ := Int16.toInt_bounds v
  unfold i16ToLe leValue
  simp only [List.foldr_cons, List.foldr_nil, List.length_cons, List.length_nil, UInt8.toNat_ofNat']
  norm_num
  split_ifs <;> omega

theorem i16_le_inj {a b c d : UInt8} (h : leValue [a, b] = leValue [c, d]) : a = c ∧ b = d := by
  have ha := a.toNat_lt
  have hb := b.toNat_lt
  have hc := c.toNat_lt
  have hd := d.toNat_lt
  unfold leValue at h
  simp only [List.foldr_cons, List.foldr_nil, List.length_cons, List.length_nil] at h
  norm_num at h
  constructor <;> apply UInt8.toNat_inj.mp <;> split_ifs at h <;> omega

/-- u8: the byte-array functions are the integer functions. -/
theorem C08_u8 (b : UInt8) (s : F32) : (sampleFromU8Bytes b : F32) = sampleFromU8 b ∧
    sampleToU8Bytes s = sampleToU8 s ∧ sampleToU8Bytes (sampleFromU8Bytes b : F32) = b :=
  ⟨rfl, rfl, C01_u8_roundtrip b⟩

/-- i16 decoding of bytes is decoding of their little-endian value, for every byte pair. -/
theorem C08_i16_from (b0 b1 : UInt8) (v : Int16) (h : v.toInt = leValue [b0, b1]) :
    (sampleFromI16Bytes b0 b1 : F32) = sampleFromI16 v := by
  have : i16FromLe b0 b1 = v := Int16.toInt_inj.mp (by rw [i16FromLe_value, h])
  unfold sampleFromI16Bytes sampleFromI16
  rw [this]

example : (sampleFromI16Bytes 0x34 0x92 : F32) = sampleFromI16 (-28108) := C08_i16_from _ _ _ (by decide)

/-- i16 encoding to bytes writes the code little-endian, for every sample. -/
theorem C08_i16_to (s : F32) :
    leValue [(sampleToI16Bytes s).1, (sampleToI16Bytes s).2] = (sampleToI16 s).toInt :=
  i16ToLe_value _

/-- i16 bytes survive decode then encode. -/
theorem C08_i16_roundtrip (b0 b1 : UInt8) : sampleToI16Bytes (sampleFromI16Bytes b0 b1 : F32) = (b0, b1) := by
  have h1 := C08_i16_to (sampleFromI16Bytes b0 b1)
  rw [C08_i16_from b0 b1 (i16FromLe b0 b1) (i16FromLe_value b0 b1), C02_i16_roundtrip,
    i16FromLe_value] at h1
  rw [C08_i16_from b0 b1 (i16FromLe b0 b1) (i16FromLe_value b0 b1)]
  exact Prod.ext (i16_le_inj h1).1 (i16_le_inj h1).2

/-- 24 bit: the three bytes written are the low three bytes of the code, so reading them back as a
24-bit two's complement number gives the code modulo `2^24`. -/
theorem C08_i24_to (s : F32) :
    let b := sampleToI24Bytes s
    leValue [b.1, b.2.1, b.2.2] = Int.bmod (sampleToI24 s).toInt (2 ^ 24) := by
  intro b
  have h := Int32.toInt_bounds (sampleToI24 s)
  simp only [b, sampleToI24Bytes, i32ToLe, leValue, List.foldr_cons, List.foldr_nil, List.length_cons,
    List.length_nil, UInt8.toNat_ofNat', Int.bmod]
  norm_num
  generalize (sampleToI24 s).toInt = x at *
  split_ifs <;> omega

example : sampleToI16Bytes (sampleFromI16Bytes 0x34 0x92 : F32) = (0x34, 0x92) ∧
    leValue [0x34, 0x92] = -28108 := ⟨C08_i16_roundtrip _ _, by decide⟩

/-! ## C09 24-bit byte decoding: violated for negative values -/

/-- The property fails: the bytes of `-1` decode as if they were `16777215`. -/
theorem C09_i24_bytes_violated :
    ¬ ∀ (b0 b1 b2 : UInt8) (v : Int32), v.toInt = leValue [b0, b1, b2] →
      (sampleFromI24Bytes b0 b1 b2 : F32) = sampleFromI24 v := by
  intro h
  have := h 255 255 255 (-1) (by decide)
  revert this
  decide +kernel

/-- What holds: byte triples whose top bit is clear decode correctly. Missing: negative values. -/
theorem C09_i24_bytes_partial (b0 b1 b2 : UInt8) (hb : b2.toNat < 128) (v : Int32)
    (hv : v.toInt = leValue [b0, b1, b2]) : (sampleFromI24Bytes b0 b1 b2 : F32) = sampleFromI24 v := by
  have h0 := b0.toNat_lt
  have h1 := b1.toNat_lt
  have : i32FromLe b0 b1 b2 0 = v := by
    apply Int32.toInt_inj.mp
    rw [hv]
    unfold i32FromLe leValue
    rw [Int32.toInt_ofInt]
    simp only [List.foldr_cons, List.foldr_nil, List.length_cons, List.length_nil, Int.bmod]
    norm_num
    split_ifs <;> omega
  unfold sampleFromI24Bytes sampleFromI24
  rw [this]

/-- Every negative 24-bit value decodes wrongly: the result is positive. -/
theorem C09_i24_bytes_negative (b0 b1 b2 : UInt8) (hb : 128 ≤ b2.toNat) :
    ∃ q, (sampleFromI24Bytes b0 b1 b2 : F32).Is q ∧ 1 ≤ q := by
  have h0 := b0.toNat_lt
  have h1 := b1.toNat_lt
  have h2 := b2.toNat_lt
  have hv : (i32FromLe b0 b1 b2 0).toInt = b0.toNat + 256 * b1.toNat + 65536 * b2.toNat := by
    unfold i32FromLe
    rw [Int32.toInt_ofInt]
    simp only [Int.bmod]
    norm_num
    split_ifs <;> omega
  unfold sampleFromI24Bytes
  rw [hv]
  generalize hn : (b0.toNat : ℤ) + 256 * b1.toNat + 65536 * b2.toNat = n
  have hn1 : 8388607 ≤ n := by omega
  have hn2 : n ≤ 16777215 := by omega
  have hq1 : (1 : ℚ) ≤ (n : ℚ) / 8388607 := by
    rw [le_div_iff₀ (by norm_num), one_mul]; exact_mod_cast hn1
  have hd := Is.div (lit32_int (n := n) (by rw [abs_le]; omega)) scale24_is (by norm_num) (Fmt.fits32 (by
    rw [abs_of_nonneg (by linarith), div_le_iff₀ (by norm_num)]
    have : (n : ℚ) ≤ 16777215 := by exact_mod_cast hn2
    linarith))
  exact ⟨_, hd, by exact_mod_cast b32.repr_le_rnd (Fmt.repr32_int (n := 1) (by norm_num)) (by exact_mod_cast hq1)⟩

example : ∃ q, (sampleFromI24Bytes 0xff 0xff 0xff : F32).Is q ∧ 1 ≤ q := C09_i24_bytes_negative _ _ _ (by decide)

example : (sampleFromI24Bytes 1 2 3 : F32) = sampleFromI24 197121 :=
  C09_i24_bytes_partial 1 2 3 (by decide) _ (by decide)

end Verif
