import Verif.Props.Wav

/-! # Property theorems: C160 (changing the bit depth of a recording) -/

namespace Verif
open Fl

private theorem u8_code (s : F32) : ((sampleToU8 s).toNat : ℤ) = Flt.toInt 0 255 (Flt.round (s * lit 128 + lit 128)) := by
  obtain ⟨h1, h2⟩ := toInt_mem (lo := 0) (hi := 255) (by norm_num) (by norm_num) (Flt.round (s * lit 128 + lit 128))
  unfold sampleToU8
  rw [UInt8.toNat_ofNat', Nat.mod_eq_of_lt (by omega)]
  omega

private theorem i16_code (s : F32) : (sampleToI16 s).toInt = Flt.toInt (-32768) 32767 (Flt.round (s * scale16)) := by
  obtain ⟨h1, h2⟩ := toInt_mem (lo := -32768) (hi := 32767) (by norm_num) (by norm_num) (Flt.round (s * scale16))
  unfold sampleToI16
  exact Int16.toInt_ofInt_of_le h1 (by omega)

private theorem i24_code (s : F32) : (sampleToI24 s).toInt = Flt.toInt (-2147483648) 2147483647 (Flt.round (s * scale24)) := by
  obtain ⟨h1, h2⟩ := toInt_mem (lo := -2147483648) (hi := 2147483647) (by norm_num) (by norm_num) (Flt.round (s * scale24))
  unfold sampleToI24
  exact Int32.toInt_ofInt_of_le h1 (by omega)

/-- A sample near a decoded byte is encoded as that byte. -/
private theorem near8 {s : F32} {q : ℚ} (v : UInt8) (hs : s.Is q) (h : |q - ((v.toNat : ℚ) - 128) / 128| ≤ 1 / 300) :
    sampleToU8 s = v := by
  have hv : v.toNat < 256 := v.toNat_lt
  have v1 : (v.toNat : ℚ) ≤ 255 := by exact_mod_cast Nat.lt_succ_iff.mp hv
  have v0 : (0 : ℚ) ≤ v.toNat := by positivity
  obtain ⟨a1, a2⟩ := abs_le.mp h
  have hm := Is.mul hs lit32_128 (Fmt.fits32 (abs_le_of_mem (lo := -130) (hi := 130) _ (by linarith) (by linarith) (by norm_num) (by norm_num)))
  have hmr : b32.Repr (q * 128) := by
    obtain ⟨m, e, rfl, hm, he⟩ := hs.repr
    exact ⟨m, e + 7, by rw [pow2_add, show pow2 7 = 128 by rw [pow2_eq]; norm_num]; ring, hm, by omega⟩
  rw [b32.rnd_of_repr hmr] at hm
  have ha := Is.add hm lit32_128 (Fmt.fits32 (abs_le_of_mem (lo := -130) (hi := 258) _ (by linarith) (by linarith) (by norm_num) (by norm_num)))
  have herr := err32 (q := q * 128 + 128) 9 (by norm_num) (abs_le_of_mem (lo := -130) (hi := 258) _ (by linarith) (by linarith) (by norm_num) (by norm_num))
  have hr : roundAwayQ (b32.rnd (q * 128 + 128)) = (v.toNat : ℤ) := by
    apply roundAwayQ_eq_of_abs_lt
    obtain ⟨b1, b2⟩ := abs_le.mp herr
    rw [abs_lt]
    push_cast
    norm_num at b1 b2 ⊢
    constructor <;> linarith
  have hcode : ((sampleToU8 s).toNat : ℤ) = (v.toNat : ℤ) := by
    rw [u8_code, ha.round32.toInt, truncQ_int, hr]; omega
  exact UInt8.toNat_inj.mp (by exact_mod_cast hcode)

/-- A sample near a decoded integer is encoded close to that integer (scale 32767). -/
private theorem near16 {s : F32} {q δ : ℚ} {n : ℤ} (hs : s.Is q) (hn : -32768 ≤ n ∧ n ≤ 32767) (hδ : δ ≤ 1 / 2)
    (h : |q - n / 32767| ≤ δ) : (|(sampleToI16 s).toInt - n| : ℤ) ≤ 32767 * δ + 1 / 2 + (2 ^ 9)⁻¹ := by
  have n1 : (n : ℚ) ≤ 32767 := by exact_mod_cast hn.2
  have n0 : (-32768 : ℚ) ≤ n := by exact_mod_cast hn.1
  obtain ⟨a1, a2⟩ := abs_le.mp h
  have hc : (scale16 : F32).Is ((32767 : ℤ) : ℚ) := by exact_mod_cast scale16_is
  have q1 : -2 ≤ q := by linarith
  have q2 : q ≤ 2 := by linarith
  rw [i16_code, encode_is hs hc (abs_le_of_mem _ q1 q2 (by norm_num) (by norm_num)) (by norm_num) (by norm_num)]
  have herr := err32 (q := q * ((32767 : ℤ) : ℚ)) 16 (by norm_num) (abs_le_of_mem (lo := -65536) (hi := 65536) _
    (by push_cast; linarith) (by push_cast; linarith) (by norm_num) (by norm_num))
  have hrd := abs_roundAwayQ_sub_le (b32.rnd (q * ((32767 : ℤ) : ℚ)))
  set k := roundAwayQ (b32.rnd (q * ((32767 : ℤ) : ℚ))) with hk
  have h2 : |(k : ℚ) - n| ≤ 32767 * δ + 1 / 2 + (2 ^ 9)⁻¹ := by
    obtain ⟨b1, b2⟩ := abs_le.mp hrd
    obtain ⟨c1, c2⟩ := abs_le.mp herr
    rw [abs_le]
    norm_num at b1 b2 c1 c2 ⊢
    constructor <;> linarith
  have h3 : |max (-32768) (min 32767 k) - n| ≤ |k - n| := by
    rcases le_or_gt n k with c | c
    · rw [abs_of_nonneg (by omega : 0 ≤ k - n), abs_of_nonneg (by omega)]; omega
    · rw [abs_of_neg (by omega : k - n < 0), abs_of_nonpos (by omega)]; omega
  calc ((|max (-32768) (min 32767 k) - n| : ℤ) : ℚ) ≤ ((|k - n| : ℤ) : ℚ) := by exact_mod_cast h3
    _ = |(k : ℚ) - n| := by push_cast; rfl
    _ ≤ _ := h2

/-- The same for 24 bits. -/
private theorem near24 {s : F32} {q δ : ℚ} {n : ℤ} (hs : s.Is q) (hn : -8388608 ≤ n ∧ n ≤ 8388607) (hδ : δ ≤ 1 / 2)
    (h : |q - n / 8388607| ≤ δ) : (|(sampleToI24 s).toInt - n| : ℤ) ≤ 8388607 * δ + 1 := by
  have n1 : (n : ℚ) ≤ 8388607 := by exact_mod_cast hn.2
  have n0 : (-8388608 : ℚ) ≤ n := by exact_mod_cast hn.1
  obtain ⟨a1, a2⟩ := abs_le.mp h
  have hc : (scale24 : F32).Is ((8388607 : ℤ) : ℚ) := by exact_mod_cast scale24_is
  have q1 : -2 ≤ q := by linarith
  have q2 : q ≤ 2 := by linarith
  rw [i24_code, encode_is hs hc (abs_le_of_mem _ q1 q2 (by norm_num) (by norm_num)) (by norm_num) (by norm_num)]
  have herr := err32 (q := q * ((8388607 : ℤ) : ℚ)) 24 (by norm_num) (abs_le_of_mem (lo := -16777216) (hi := 16777216) _
    (by push_cast; linarith) (by push_cast; linarith) (by norm_num) (by norm_num))
  have hrd := abs_roundAwayQ_sub_le (b32.rnd (q * ((8388607 : ℤ) : ℚ)))
  set k := roundAwayQ (b32.rnd (q * ((8388607 : ℤ) : ℚ))) with hk
  have h2 : |(k : ℚ) - n| ≤ 8388607 * δ + 1 := by
    obtain ⟨b1, b2⟩ := abs_le.mp hrd
    obtain ⟨c1, c2⟩ := abs_le.mp herr
    rw [abs_le]
    norm_num at b1 b2 c1 c2 ⊢
    constructor <;> linarith
  have h3 : |max (-2147483648) (min 2147483647 k) - n| ≤ |k - n| := by
    rcases le_or_gt n k with c | c
    · rw [abs_of_nonneg (by omega : 0 ≤ k - n), abs_of_nonneg (by omega)]; omega
    · rw [abs_of_neg (by omega : k - n < 0), abs_of_nonpos (by omega)]; omega
  calc ((|max (-2147483648) (min 2147483647 k) - n| : ℤ) : ℚ) ≤ ((|k - n| : ℤ) : ℚ) := by exact_mod_cast h3
    _ = |(k : ℚ) - n| := by push_cast; rfl
    _ ≤ _ := h2

/-- A decoded 16-bit sample other than the lowest: within `[-1,1]`, and near the quotient. -/
private theorem dec16 (v : Int16) (h : v ≠ -32768) : ∃ q, (sampleFromI16 v : F32).Is q ∧ -1 ≤ q ∧ q ≤ 1 ∧ |q - (v.toInt : ℚ) / 32767| ≤ 2 ^ (-25 : ℤ) := by
  obtain ⟨h1, h2⟩ := Int16.toInt_bounds v
  have h1' : -32767 ≤ v.toInt := by
    rcases lt_or_ge v.toInt (-32767) with c | c
    · exact absurd (Int16.toInt_inj.mp (show v.toInt = (-32768 : Int16).toInt by rw [show ((-32768 : Int16)).toInt = -32768 by decide]; omega)) h
    · exact c
  have hd := decode_is (n := v.toInt) (c := scale16) (k := 32767) (by exact_mod_cast scale16_is) (by norm_num) (by rw [abs_le]; omega) (by norm_num)
  have i1 : (v.toInt : ℚ) ≤ 32767 := by exact_mod_cast h2
  have i0 : (-32767 : ℚ) ≤ v.toInt := by exact_mod_cast h1'
  have l1 : -1 ≤ (v.toInt : ℚ) / ((32767 : ℤ) : ℚ) := by rw [le_div_iff₀ (by norm_num)]; push_cast; linarith
  have l2 : (v.toInt : ℚ) / ((32767 : ℤ) : ℚ) ≤ 1 := by rw [div_le_iff₀ (by norm_num)]; push_cast; linarith
  have hin := rnd_in (f := b32) (q := (v.toInt : ℚ) / ((32767 : ℤ) : ℚ)) (lo := ((-1 : ℤ) : ℚ)) (hi := ((1 : ℤ) : ℚ)) (by push_cast at l1 ⊢; exact l1)
    (by push_cast at l2 ⊢; exact l2) (Fmt.repr32_int (by norm_num)) (Fmt.repr32_int (by norm_num))
  push_cast at hin
  have he := err32 (q := (v.toInt : ℚ) / ((32767 : ℤ) : ℚ)) 0 (by norm_num) (by rw [zpow_zero, abs_le]; exact ⟨l1, l2⟩)
  exact ⟨_, hd, hin.1, hin.2, by push_cast at he; norm_num at he ⊢; exact he⟩

/-- The same for 24 bits. -/
private theorem dec24 (v : Int32) (h1 : -8388607 ≤ v.toInt) (h2 : v.toInt ≤ 8388607) :
    ∃ q, (sampleFromI24 v : F32).Is q ∧ -1 ≤ q ∧ q ≤ 1 ∧ |q - (v.toInt : ℚ) / 8388607| ≤ 2 ^ (-25 : ℤ) := by
  have hd := decode_is (n := v.toInt) (c := scale24) (k := 8388607) (by exact_mod_cast scale24_is) (by norm_num) (by rw [abs_le]; omega) (by norm_num)
  have i1 : (v.toInt : ℚ) ≤ 8388607 := by exact_mod_cast h2
  have i0 : (-8388607 : ℚ) ≤ v.toInt := by exact_mod_cast h1
  have l1 : -1 ≤ (v.toInt : ℚ) / ((8388607 : ℤ) : ℚ) := by rw [le_div_iff₀ (by norm_num)]; push_cast; linarith
  have l2 : (v.toInt : ℚ) / ((8388607 : ℤ) : ℚ) ≤ 1 := by rw [div_le_iff₀ (by norm_num)]; push_cast; linarith
  have hin := rnd_in (f := b32) (q := (v.toInt : ℚ) / ((8388607 : ℤ) : ℚ)) (lo := ((-1 : ℤ) : ℚ)) (hi := ((1 : ℤ) : ℚ)) (by push_cast at l1 ⊢; exact l1)
    (by push_cast at l2 ⊢; exact l2) (Fmt.repr32_int (by norm_num)) (Fmt.repr32_int (by norm_num))
  push_cast at hin
  have he := err32 (q := (v.toInt : ℚ) / ((8388607 : ℤ) : ℚ)) 0 (by norm_num) (by rw [zpow_zero, abs_le]; exact ⟨l1, l2⟩)
  exact ⟨_, hd, hin.1, hin.2, by push_cast at he; norm_num at he ⊢; exact he⟩

/-! ## up and back -/

/-- An 8-bit sample converted to 16 or 24 bits and back is the same sample. -/
theorem C160_up_u8 (v : UInt8) :
    sampleToU8 (sampleFromI16 (sampleToI16 (sampleFromU8 v : F32)) : F32) = v ∧
    sampleToU8 (sampleFromI24 (sampleToI24 (sampleFromU8 v : F32)) : F32) = v := by
  have hv : v.toNat < 256 := v.toNat_lt
  have v1 : (v.toNat : ℚ) ≤ 255 := by exact_mod_cast Nat.lt_succ_iff.mp hv
  have v0 : (0 : ℚ) ≤ v.toNat := by positivity
  obtain ⟨r, hr, e⟩ := C07_i16 _ _ (C01_u8_value v) (by linarith) (by linarith)
  obtain ⟨r', hr', e'⟩ := C07_i24 _ _ (C01_u8_value v) (by linarith) (by linarith)
  exact ⟨near8 v hr (e.trans (by norm_num)), near8 v hr' (e'.trans (by norm_num))⟩

/-- A 16-bit sample converted to 24 bits and back is the same sample. -/
theorem C160_up_i16 (v : Int16) : sampleToI16 (sampleFromI24 (sampleToI24 (sampleFromI16 v : F32)) : F32) = v := by
  by_cases h : v = -32768
  · subst h; decide +kernel
  obtain ⟨q, hq, q1, q2, e⟩ := dec16 v h
  obtain ⟨r, hr, e'⟩ := C07_i24 _ _ hq q1 q2
  have h1 := near16 (n := v.toInt) (δ := (1 / 2 + 1 / 4) / 8388607 + 2 ^ (-25 : ℤ) + 2 ^ (-25 : ℤ)) hr ⟨(Int16.toInt_bounds v).1, (Int16.toInt_bounds v).2⟩ (by norm_num)
    (by
      obtain ⟨a1, a2⟩ := abs_le.mp e
      obtain ⟨b1, b2⟩ := abs_le.mp e'
      rw [abs_le]; constructor <;> linarith)
  have h2 : (|(sampleToI16 (sampleFromI24 (sampleToI24 (sampleFromI16 v : F32)) : F32)).toInt - v.toInt| : ℤ) < 1 := by
    have : ((|(sampleToI16 (sampleFromI24 (sampleToI24 (sampleFromI16 v : F32)) : F32)).toInt - v.toInt| : ℤ) : ℚ) < 1 := h1.trans_lt (by norm_num)
    exact_mod_cast this
  exact Int16.toInt_inj.mp (by rw [abs_lt] at h2; omega)

/-- Violated: the lowest 16-bit sample becomes a code below the 24-bit range; clipped first, it comes back as -32767. -/
theorem C160_range_violated : (sampleToI24 (sampleFromI16 (-32768) : F32)).toInt = -8388863 ∧
    sampleToI16 (sampleFromI24 (sampleToI24 (clip1 (sampleFromI16 (-32768) : F32))) : F32) = -32767 := by decide +kernel

/-- Every other sample stays in range. -/
theorem C160_range_partial (v : Int16) (w : UInt8) :
    (v ≠ -32768 → |(sampleToI24 (sampleFromI16 v : F32)).toInt| ≤ 8388607) ∧
    |(sampleToI24 (sampleFromU8 w : F32)).toInt| ≤ 8388607 := by
  have key : ∀ (s : F32) (q : ℚ), s.Is q → -1 ≤ q → q ≤ 1 → |(sampleToI24 s).toInt| ≤ 8388607 := by
    intro s q hs h1 h2
    exact abs_le.mpr (C05_i24_range_partial s (by rw [lit32_1.neg.le hs]; exact decide_eq_true h1) (by rw [hs.le lit32_1]; exact decide_eq_true h2))
  constructor
  · intro h
    obtain ⟨q, hq, q1, q2, -⟩ := dec16 v h
    exact key _ q hq q1 q2
  · obtain ⟨q, hq, h1, h2⟩ := C01_u8_range w
    exact key _ q hq h1 (h2.trans (by norm_num))

example : (12345 : Int16) ≠ -32768 ∧ (sampleToI24 (sampleFromI16 12345 : F32)).toInt = 3160416 := by
  decide +kernel

/-! ## down and back -/

/-- A 16-bit sample converted to 8 bits and back is off by at most 129 (half an 8-bit step and a rounding), up to 257
above the highest 8-bit sample (code 32511). -/
theorem C160_down_i16 (v : Int16) :
    |(sampleToI16 (sampleFromU8 (sampleToU8 (sampleFromI16 v : F32)) : F32)).toInt - v.toInt| ≤ if v.toInt ≤ 32511 then 129 else 257 := by
  by_cases h : v = -32768
  · subst h; decide +kernel
  obtain ⟨q, hq, q1, q2, e⟩ := dec16 v h
  obtain ⟨b1, b2⟩ := Int16.toInt_bounds v
  obtain ⟨a1, a2⟩ := abs_le.mp e
  obtain ⟨r, hr, er⟩ := C07_u8_full _ _ hq q1 q2
  by_cases hv : v.toInt ≤ 32511
  · rw [if_pos hv]
    have hrq : |r - q| ≤ 1 / 256 + 2 ^ (-22 : ℤ) := by
      by_cases hc : q ≤ 127 / 128
      · obtain ⟨r', hr', er'⟩ := C07_u8 _ _ hq q1 hc
        rw [hr.unique hr']
        exact er'.trans (by norm_num)
      · exfalso
        have : (v.toInt : ℚ) ≤ 32511 := by exact_mod_cast hv
        have h3 : 127 / 128 < q := not_le.mp hc
        norm_num at a2
        have : (32511 : ℚ) / 32767 ≤ 127 / 128 - 1 / 10 ^ 9 := by norm_num
        nlinarith
    obtain ⟨c1, c2⟩ := abs_le.mp hrq
    have h1 := near16 (n := v.toInt) (δ := 1 / 256 + 2 ^ (-22 : ℤ) + 2 ^ (-25 : ℤ)) hr ⟨b1, b2⟩ (by norm_num) (by rw [abs_le]; constructor <;> linarith)
    have h2 : ((|(sampleToI16 (sampleFromU8 (sampleToU8 (sampleFromI16 v : F32)) : F32)).toInt - v.toInt| : ℤ) : ℚ) < 130 := h1.trans_lt (by norm_num)
    have h3 : |(sampleToI16 (sampleFromU8 (sampleToU8 (sampleFromI16 v : F32)) : F32)).toInt - v.toInt| < 130 := by exact_mod_cast h2
    omega
  · rw [if_neg hv]
    obtain ⟨c1, c2⟩ := abs_le.mp er
    have h1 := near16 (n := v.toInt) (δ := 1 / 128 + 2 ^ (-25 : ℤ)) hr ⟨b1, b2⟩ (by norm_num) (by rw [abs_le]; constructor <;> linarith)
    have h2 : ((|(sampleToI16 (sampleFromU8 (sampleToU8 (sampleFromI16 v : F32)) : F32)).toInt - v.toInt| : ℤ) : ℚ) < 258 := h1.trans_lt (by norm_num)
    have h3 : |(sampleToI16 (sampleFromU8 (sampleToU8 (sampleFromI16 v : F32)) : F32)).toInt - v.toInt| < 258 := by exact_mod_cast h2
    omega

/-- A 24-bit sample converted to 16 bits and back is off by at most 129 (half a 16-bit step is 128). -/
theorem C160_down_i24 (v : Int32) (h1 : -8388608 ≤ v.toInt) (h2 : v.toInt ≤ 8388607) :
    |(sampleToI24 (sampleFromI16 (sampleToI16 (sampleFromI24 v : F32)) : F32)).toInt - v.toInt| ≤ 129 := by
  by_cases h : v.toInt = -8388608
  · have : v = -8388608 := Int32.toInt_inj.mp (by rw [h]; decide)
    subst this; decide +kernel
  obtain ⟨q, hq, q1, q2, e⟩ := dec24 v (by omega) h2
  obtain ⟨r, hr, er⟩ := C07_i16 _ _ hq q1 q2
  obtain ⟨a1, a2⟩ := abs_le.mp e
  obtain ⟨c1, c2⟩ := abs_le.mp er
  have k1 := near24 (n := v.toInt) (δ := (1 / 2 + 2 ^ (-10 : ℤ)) / 32767 + 2 ^ (-25 : ℤ) + 2 ^ (-25 : ℤ)) hr ⟨h1, h2⟩ (by norm_num) (by rw [abs_le]; constructor <;> linarith)
  have k2 : ((|(sampleToI24 (sampleFromI16 (sampleToI16 (sampleFromI24 v : F32)) : F32)).toInt - v.toInt| : ℤ) : ℚ) < 130 := k1.trans_lt (by norm_num)
  have k3 : |(sampleToI24 (sampleFromI16 (sampleToI16 (sampleFromI24 v : F32)) : F32)).toInt - v.toInt| < 130 := by exact_mod_cast k2
  omega

example : -8388608 ≤ (1000000 : Int32).toInt ∧ (1000000 : Int32).toInt ≤ 8388607 := by decide

/-! ## files -/

private theorem deint_map {D : Type} {dec : D → F32} {C : ℕ} {d : List D} {tr : List (List F32)} (h : Deint dec C d tr) (g : F32 → F32) :
    Deint (fun x => g (dec x)) C d (tr.map fun t => t.map g) := by
  refine ⟨by rw [List.length_map]; exact h.1, fun c hc f => ?_⟩
  have := h.2 c hc f
  rw [List.getElem?_map]
  cases ht : tr[c]? with
  | none => rw [ht] at this; simp only [Option.bind_none, Option.map_none] at this ⊢; rw [eq_comm, Option.map_eq_none_iff] at this; rw [this]; rfl
  | some t =>
    rw [ht] at this
    simp only [Option.bind_some, Option.map_some] at this ⊢
    rw [List.getElem?_map, this, Option.map_map]; rfl

/-- A file read, written at a higher depth, read again and written at its own depth is the same file: 8 bits by way of
16 or 24, 16 bits by way of 24 (as 32-bit numbers; see `C160_range_violated` for -32768). Whole frames, any number of
channels, any writer. -/
theorem C160_files {W : Type} (wr : WavHeader → BitDepth → W → Except IoErr Unit × W) (dst : W)
    (h : WavHeader) (n : ℕ) (hC : 0 < h.channelCount.toNat) (d8 : List UInt8) (d16 : List Int16) :
    (d8.length = n * h.channelCount.toNat → ∀ bps ∈ [(16 : UInt16), 24], ∃ f, rewrite store (h, .eight d8) bps none = .ok (.ok (), some f) ∧
      rewrite wr f 8 dst = .ok (wr ⟨1, h.channelCount, 48000, 8⟩ (.eight d8) dst)) ∧
    (d16.length = n * h.channelCount.toNat → ∃ f, rewrite store (h, .sixteen d16) 24 none = .ok (.ok (), some f) ∧
      rewrite wr f 16 dst = .ok (wr ⟨1, h.channelCount, 48000, 16⟩ (.sixteen d16) dst)) := by
  have hdr : ∀ (C : ℕ) (bps : UInt16), C = h.channelCount.toNat →
      (⟨1, UInt16.ofNat C, UInt32.ofNat SAMPLE_RATE, bps⟩ : WavHeader) = ⟨1, h.channelCount, 48000, bps⟩ := by
    rintro C bps rfl
    congr 1
    exact UInt16.ofNat_toNat
  have last8 : ∀ (tr : List (List F32)) (dec : UInt8 → F32), Deint dec h.channelCount.toNat d8 tr → d8.length = n * h.channelCount.toNat →
      (∀ x, sampleToU8 (dec x) = x) → writeWav wr tr 8 dst false = .ok (wr ⟨1, h.channelCount, 48000, 8⟩ (.eight d8) dst) := by
    intro tr dec h2 hd hx
    obtain ⟨h3, h4⟩ := roundtrip_data sampleToU8 dec _ n d8 hd tr h2 (fun x _ => hx x)
    cases tr with
    | nil => have := h2.1; simp at this; omega
    | cons t0 ts =>
      have h0 : t0.length = n := h3 t0 (List.mem_cons_self ..)
      subst h0
      unfold writeWav
      simp only [checkClip_isSome, if_pos h3, Bool.false_eq_true, if_false, List.map_id', h4, if_true]
      rw [hdr _ 8 h2.1]
  have last16 : ∀ (tr : List (List F32)) (dec : Int16 → F32), Deint dec h.channelCount.toNat d16 tr → d16.length = n * h.channelCount.toNat →
      (∀ x, sampleToI16 (dec x) = x) → writeWav wr tr 16 dst false = .ok (wr ⟨1, h.channelCount, 48000, 16⟩ (.sixteen d16) dst) := by
    intro tr dec h2 hd hx
    obtain ⟨h3, h4⟩ := roundtrip_data sampleToI16 dec _ n d16 hd tr h2 (fun x _ => hx x)
    cases tr with
    | nil => have := h2.1; simp at this; omega
    | cons t0 ts =>
      have h0 : t0.length = n := h3 t0 (List.mem_cons_self ..)
      subst h0
      unfold writeWav
      simp only [checkClip_isSome, if_pos h3, Bool.false_eq_true, if_false, List.map_id', h4, if_true]
      rw [hdr _ 16 h2.1]
      rfl
  have hlt : h.channelCount.toNat < 65536 := h.channelCount.toNat_lt
  constructor
  · intro hd bps hb
    obtain ⟨tr, h1, h2⟩ := deinterleave_zero (sampleFromU8 (S := F32)) _ hC d8
    obtain ⟨h3, -⟩ := roundtrip_data sampleToU8 sampleFromU8 _ n d8 hd tr h2 (fun x _ => C01_u8_roundtrip x)
    have hr : readWav (S := F32) (.ok (h, .eight d8)) = .ok (.ok (h, tr)) := by unfold readWav; simp only [h1]
    have hne : tr ≠ [] := by rintro rfl; have := h2.1; simp at this; omega
    obtain ⟨-, ⟨f16, g16, w16, r16⟩, ⟨f24, g24, w24, r24⟩⟩ := C29_write_read tr n hne (by rw [h2.1]; exact hlt) h3
    simp only [List.mem_cons, List.not_mem_nil, or_false] at hb
    rcases hb with rfl | rfl
    · refine ⟨(f16, g16), by unfold rewrite; rw [hr]; exact w16, ?_⟩
      unfold rewrite; rw [r16]
      exact last8 _ _ (deint_map h2 _) hd (fun x => (C160_up_u8 x).1)
    · refine ⟨(f24, g24), by unfold rewrite; rw [hr]; exact w24, ?_⟩
      unfold rewrite; rw [r24]
      exact last8 _ _ (deint_map h2 _) hd (fun x => (C160_up_u8 x).2)
  · intro hd
    obtain ⟨tr, h1, h2⟩ := deinterleave_zero (sampleFromI16 (S := F32)) _ hC d16
    obtain ⟨h3, -⟩ := roundtrip_data sampleToI16 sampleFromI16 _ n d16 hd tr h2 (fun x _ => C02_i16_roundtrip x)
    have hr : readWav (S := F32) (.ok (h, .sixteen d16)) = .ok (.ok (h, tr)) := by unfold readWav; simp only [h1]
    have hne : tr ≠ [] := by rintro rfl; have := h2.1; simp at this; omega
    obtain ⟨-, -, ⟨f24, g24, w24, r24⟩⟩ := C29_write_read tr n hne (by rw [h2.1]; exact hlt) h3
    refine ⟨(f24, g24), by unfold rewrite; rw [hr]; exact w24, ?_⟩
    unfold rewrite; rw [r24]
    exact last16 _ _ (deint_map h2 _) hd C160_up_i16

/-- Three stereo frames. -/
example : ([1, 2, 3, 4, 5, 6] : List UInt8).length = 3 * (⟨1, 2, 44100, 8⟩ : WavHeader).channelCount.toNat ∧
    (24 : UInt16) ∈ [(16 : UInt16), 24] ∧ 0 < (⟨1, 2, 44100, 8⟩ : WavHeader).channelCount.toNat := by decide

end Verif
