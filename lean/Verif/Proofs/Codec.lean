import Verif.Float.Order
import Verif.Model.SampleFormat

/-! # Lemmas for the sample codecs (C01-C09) -/

namespace Verif
open Fl

theorem abs_le_of_mem {x lo hi : ℚ} (b : ℚ) (h1 : lo ≤ x) (h2 : x ≤ hi) (hl : -b ≤ lo) (hh : hi ≤ b) :
    |x| ≤ b := abs_le.mpr ⟨hl.trans h1, h2.trans hh⟩

/-- An integer of at most 24 bits is an exact `f32` literal. -/
theorem lit32_int {n : ℤ} (h : |n| ≤ 16777216) : (lit (n : ℚ) : F32).Is n := by
  refine lit_is_repr ?_ (Fmt.repr32_int h)
  refine Fmt.fits32 (le_trans (b := (16777216 : ℚ)) (by exact_mod_cast h) (by norm_num))

theorem lit32_nat {n : ℕ} (h : n ≤ 16777216) : (lit (n : ℚ) : F32).Is n := by
  have := lit32_int (n := (n : ℤ)) (by rw [abs_of_nonneg (by positivity)]; exact_mod_cast h)
  exact_mod_cast this

theorem lit32_128 : (lit 128 : F32).Is 128 := lit32_nat (n := 128) (by norm_num)
theorem lit32_1 : (lit 1 : F32).Is 1 := by simpa using lit32_nat (n := 1) (by norm_num)
theorem lit32_0 : (lit 0 : F32).Is 0 := by simpa using lit32_nat (n := 0) (by norm_num)
theorem lit32_2 : (lit 2 : F32).Is 2 := lit32_nat (n := 2) (by norm_num)

theorem scale16_is : (scale16 : F32).Is 32767 := by
  have h := Is.sub (lit32_nat (n := 32768) (by norm_num)) lit32_1
    (Fmt.fits32 (by norm_num))
  rw [show ((32768 : ℕ) : ℚ) - 1 = (32767 : ℤ) by norm_num, Fmt.rnd_int (by decide)] at h
  exact_mod_cast h

theorem scale24_is : (scale24 : F32).Is 8388607 := by
  have h := Is.sub (lit32_nat (n := 8388608) (by norm_num)) lit32_1
    (Fmt.fits32 (by norm_num))
  rw [show ((8388608 : ℕ) : ℚ) - 1 = (8388607 : ℤ) by norm_num, Fmt.rnd_int (by decide)] at h
  exact_mod_cast h

/-- Rounding error in `f32` for a value below `2^k`. -/
theorem err32 {q : ℚ} (k : ℤ) (hk : -120 ≤ k) (h : |q| ≤ (2 : ℚ) ^ k) :
    |b32.rnd q - q| ≤ (2 : ℚ) ^ (k - 25) := by
  have := b32.abs_rnd_sub_le_of_abs_le (q := q) (k := k) (by show (-149 : ℤ) ≤ k; omega)
    (by rw [pow2_eq]; exact h)
  rw [pow2_eq] at this
  have e : max (k - (b32.p : ℤ)) b32.emin - 1 = k - 25 := by
    show max (k - 24) (-149) - 1 = k - 25
    omega
  rwa [e] at this

theorem err64 {q : ℚ} (k : ℤ) (hk : -1000 ≤ k) (h : |q| ≤ (2 : ℚ) ^ k) :
    |b64.rnd q - q| ≤ (2 : ℚ) ^ (k - 54) := by
  have := b64.abs_rnd_sub_le_of_abs_le (q := q) (k := k) (by show (-1074 : ℤ) ≤ k; omega)
    (by rw [pow2_eq]; exact h)
  rw [pow2_eq] at this
  have e : max (k - (b64.p : ℤ)) b64.emin - 1 = k - 54 := by
    show max (k - 53) (-1074) - 1 = k - 54
    omega
  rwa [e] at this

theorem Int16.toInt_bounds (v : Int16) : -32768 ≤ v.toInt ∧ v.toInt ≤ 32767 :=
  ⟨v.le_toInt, by have := v.toInt_lt; omega⟩

theorem Int32.toInt_bounds (v : Int32) : -2147483648 ≤ v.toInt ∧ v.toInt ≤ 2147483647 :=
  ⟨v.le_toInt, by have := v.toInt_lt; omega⟩

/-! ## Decoding -/

theorem sampleFromU8_is (v : UInt8) : (sampleFromU8 v : F32).Is (((v.toNat : ℤ) - 128 : ℤ) / 128) := by
  have hv : v.toNat < 256 := v.toNat_lt
  have h1 := Is.sub (lit32_nat (n := v.toNat) (by omega)) lit32_128
    (Fmt.fits32 (abs_le_of_mem (lo := -128) (hi := 128) _ (by
      have : (0 : ℚ) ≤ (v.toNat : ℚ) := by positivity
      linarith) (by
      have : (v.toNat : ℚ) ≤ 256 := by exact_mod_cast hv.le
      linarith) (by norm_num) (by norm_num)))
  rw [show ((v.toNat : ℚ) - 128) = (((v.toNat : ℤ) - 128 : ℤ) : ℚ) by push_cast; ring,
    Fmt.rnd_int (by rw [abs_le]; constructor <;> norm_num [b32] <;> omega)] at h1
  have hb : |((((v.toNat : ℤ) - 128 : ℤ) : ℚ)) / 128| ≤ 2 := by
    rw [abs_div, abs_of_pos (by norm_num : (0 : ℚ) < 128), div_le_iff₀ (by norm_num)]
    have : |((v.toNat : ℤ) - 128)| ≤ 256 := by rw [abs_le]; omega
    have : |(((v.toNat : ℤ) - 128 : ℤ) : ℚ)| ≤ 256 := by exact_mod_cast this
    linarith
  have h2 := Is.div h1 lit32_128 (by norm_num) (Fmt.fits32 (hb.trans (by norm_num)))
  rwa [b32.rnd_of_repr ⟨(v.toNat : ℤ) - 128, -7, by
      rw [pow2_eq]; norm_num; ring, by
      rw [abs_le]; constructor <;> norm_num [b32] <;> omega, by decide⟩] at h2

/-- Value of a decoded integer sample: the quotient, rounded once. -/
theorem decode_is {n : ℤ} {c : F32} {k : ℤ} (hc : c.Is k) (hk : 32767 ≤ k) (hn : |n| ≤ k + 1) (hk2 : k ≤ 8388607) :
    (lit (n : ℚ) / c : F32).Is (b32.rnd (n / k)) := by
  have hk0 : (0 : ℚ) < k := by exact_mod_cast (by omega : 0 < k)
  refine Is.div (lit32_int (by omega)) hc hk0.ne' (Fmt.fits32 ?_)
  rw [abs_div, abs_of_pos hk0, div_le_iff₀ hk0]
  have h1 : |(n : ℚ)| ≤ k + 1 := by exact_mod_cast hn
  have h2 : (1 : ℚ) ≤ k := by exact_mod_cast (by omega : (1 : ℤ) ≤ k)
  nlinarith

theorem abs_div_le {n k : ℤ} (hk : 32767 ≤ k) (hn : |n| ≤ k + 1) : |(n : ℚ) / k| ≤ 2 := by
  have hk0 : (0 : ℚ) < k := by exact_mod_cast (by omega : 0 < k)
  rw [abs_div, abs_of_pos hk0, div_le_iff₀ hk0]
  have h1 : |(n : ℚ)| ≤ k + 1 := by exact_mod_cast hn
  have h2 : (1 : ℚ) ≤ k := by exact_mod_cast (by omega : (1 : ℤ) ≤ k)
  linarith

/-- Encoding: the integer nearest to the rounded product. -/
theorem encode_is {s c : F32} {q : ℚ} {k : ℤ} (hs : s.Is q) (hc : c.Is k) (hq : |q| ≤ 2 ^ 40)
    (hk0 : 0 ≤ k) (hk2 : k ≤ 8388607) (lo hi : ℤ) :
    Flt.toInt lo hi (Flt.round (s * c)) = max lo (min hi (roundAwayQ (b32.rnd (q * k)))) := by
  have hk' : |(k : ℚ)| ≤ 8388607 := by
    rw [abs_of_nonneg (by exact_mod_cast hk0)]; exact_mod_cast hk2
  have h := Is.mul hs hc (Fmt.fits32 (by
    rw [abs_mul]
    calc |q| * |(k : ℚ)| ≤ 2 ^ 40 * 8388607 := mul_le_mul hq hk' (abs_nonneg _) (by norm_num)
      _ ≤ _ := by norm_num))
  rw [h.round32.toInt, truncQ_int]

/-- The product of a decoded sample with the scale is within `1/2` of the original code. -/
theorem roundtrip_core {n k : ℤ} {a b : ℤ} (hk : 32767 ≤ k)
    (hq : |(n : ℚ) / k| ≤ 2 ^ a) (ha : -120 ≤ a)
    (hp : |b32.rnd ((n : ℚ) / k) * k| ≤ 2 ^ b) (hb : -120 ≤ b)
    (hsum : (2 : ℚ) ^ (a - 25) * k + 2 ^ (b - 25) < 1 / 2) :
    roundAwayQ (b32.rnd (b32.rnd ((n : ℚ) / k) * k)) = n := by
  have hk0 : (0 : ℚ) < k := by exact_mod_cast (by omega : 0 < k)
  apply roundAwayQ_eq_of_abs_lt
  have e1 := err32 a ha hq
  have e2 := err32 b hb hp
  have e3 : |b32.rnd ((n : ℚ) / k) * k - n| ≤ 2 ^ (a - 25) * k := by
    have : b32.rnd ((n : ℚ) / k) * k - n = (b32.rnd ((n : ℚ) / k) - n / k) * k := by
      field_simp
    rw [this, abs_mul, abs_of_pos hk0]
    exact mul_le_mul_of_nonneg_right e1 hk0.le
  calc |b32.rnd (b32.rnd ((n : ℚ) / k) * k) - n|
      = |(b32.rnd (b32.rnd ((n : ℚ) / k) * k) - b32.rnd ((n : ℚ) / k) * k) +
          (b32.rnd ((n : ℚ) / k) * k - n)| := by ring_nf
    _ ≤ _ := abs_add_le _ _
    _ < 1 / 2 := by linarith

end Verif
