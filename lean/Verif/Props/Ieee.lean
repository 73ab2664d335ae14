import Verif.Float.Lemmas
import Mathlib.Analysis.SpecialFunctions.Sqrt

/-! # The float model is IEEE-754

Not a property of BAE: these theorems check the definition of `Fl` against the wording of the standard, independently of how
rounding is computed. -/

namespace Verif
open Fl

/-! ## Rounding is to nearest, ties to even (§4.3.1) -/

private theorem rne_nearest (x : ℚ) (k : ℤ) : |(rne x : ℚ) - x| ≤ |(k : ℚ) - x| := by
  by_contra hc
  push Not at hc
  have h1 := abs_rne_sub_le x
  have : |x - k| < 1 / 2 := by rw [abs_sub_comm]; linarith
  rw [rne_eq_of_abs_lt this] at hc
  exact lt_irrefl _ hc

private theorem rne_tie (x : ℚ) (k : ℤ) (hk : k ≠ rne x) (h : |(k : ℚ) - x| = |(rne x : ℚ) - x|) : rne x % 2 = 0 := by
  have h1 := abs_rne_sub_le x
  have hlt : (1 : ℚ) ≤ |(k : ℚ) - rne x| := by
    have : 1 ≤ |k - rne x| := Int.one_le_abs (sub_ne_zero.mpr hk)
    exact_mod_cast this
  have h2 : |(k : ℚ) - rne x| ≤ |(k : ℚ) - x| + |(rne x : ℚ) - x| := by
    rw [show (k : ℚ) - rne x = (k - x) - (rne x - x) by ring]; exact abs_sub _ _
  have h3 : |(rne x : ℚ) - x| = 1 / 2 := by linarith
  have hf := Rat.floor_le x
  have hf' := Rat.lt_floor_add_one x
  push_cast at hf'
  unfold rne at h3 ⊢
  simp only at h3 ⊢
  split_ifs at h3 ⊢ with a b c
  · rw [abs_of_nonpos (by linarith)] at h3; linarith
  · push_cast at h3; rw [abs_of_pos (by linarith)] at h3; linarith
  · exact c
  · omega

/-- A representable number whose exponent is not below that of `q` is a multiple of the unit in the last place of `q`. -/
private theorem grid {f : Fmt} {q r : ℚ} (hr : f.Repr r) (h : f.ue q ≤ f.ue r) : ∃ k : ℤ, r = k * pow2 (f.ue q) := by
  have e := f.rnd_of_repr hr
  obtain ⟨n, hn⟩ := Int.eq_ofNat_of_zero_le (by omega : 0 ≤ f.ue r - f.ue q)
  refine ⟨rne (r * pow2 (-(f.ue r))) * 2 ^ n, ?_⟩
  conv_lhs => rw [← e]
  unfold Fmt.rnd
  rw [show f.ue r = (n : ℤ) + f.ue q by omega, pow2_add, pow2_nat]
  push_cast
  ring

/-- Among the multiples of the unit in the last place of `q` there is one at least as near to `q` as any representable number. -/
private theorem grid_near {f : Fmt} {q : ℚ} (hq : 0 < q) {r : ℚ} (hr : f.Repr r) :
    ∃ k : ℤ, |(k * pow2 (f.ue q) : ℚ) - q| ≤ |r - q| ∧ (r ≠ k * pow2 (f.ue q) → |(k * pow2 (f.ue q) : ℚ) - q| < |r - q|) := by
  by_cases h : f.ue q ≤ f.ue r
  · obtain ⟨k, hk⟩ := grid hr h
    exact ⟨k, by rw [hk], fun h => absurd hk h⟩
  · push Not at h
    -- then `r` is below the binade of `q`
    have hq2 : f.ue q = ilog2 q - (f.p - 1) := by
      unfold Fmt.ue at h ⊢
      rcases max_choice (ilog2 q - ((f.p : ℤ) - 1)) f.emin with e | e
      · exact e
      · rw [e] at h; exact absurd h (not_lt.mpr (le_max_right _ _))
    obtain ⟨s1, s2⟩ := ilog2_spec hq.ne'
    rw [abs_of_pos hq] at s1 s2
    have hrl : r < pow2 (ilog2 q) := by
      by_contra hc
      push Not at hc
      have hr0 : r ≠ 0 := by rintro rfl; exact absurd hc (not_le.mpr (pow2_pos _))
      have := le_ilog2_of hr0 (k := ilog2 q) (hc.trans (le_abs_self r))
      unfold Fmt.ue at h
      omega
    have hp := f.hp
    obtain ⟨n, hn⟩ := Int.eq_ofNat_of_zero_le (by omega : 0 ≤ (f.p : ℤ) - 1)
    have hgrid : ((2 ^ n : ℤ) : ℚ) * pow2 (f.ue q) = pow2 (ilog2 q) := by
      rw [← pow2_nat, ← pow2_add, hq2]; congr 1; omega
    refine ⟨2 ^ n, ?_, fun _ => ?_⟩ <;> rw [hgrid, abs_of_nonpos (by linarith), abs_of_nonpos (by linarith)] <;> linarith

private theorem nearest_pos {f : Fmt} {q : ℚ} (hq : 0 < q) {r : ℚ} (hr : f.Repr r) :
    |f.rnd q - q| ≤ |r - q| ∧ (|r - q| = |f.rnd q - q| → r ≠ f.rnd q → ∃ k : ℤ, f.rnd q = (2 * k : ℤ) * pow2 (f.ue q)) := by
  obtain ⟨k, h1, h2⟩ := grid_near hq hr
  have hu := pow2_pos (f.ue q)
  have scale : ∀ j : ℤ, |(j * pow2 (f.ue q) : ℚ) - q| = |(j : ℚ) - q * pow2 (-(f.ue q))| * pow2 (f.ue q) := by
    intro j
    rw [← abs_of_pos hu, ← abs_mul, abs_of_pos hu, sub_mul, mul_assoc q, pow2_neg_mul, mul_one]
  have hn := rne_nearest (q * pow2 (-(f.ue q))) k
  have hle : |f.rnd q - q| ≤ |(k * pow2 (f.ue q) : ℚ) - q| := by
    unfold Fmt.rnd
    rw [scale, scale]
    exact mul_le_mul_of_nonneg_right hn hu.le
  refine ⟨hle.trans h1, fun he hne => ?_⟩
  have hk : r = k * pow2 (f.ue q) := by
    by_contra hc
    have := h2 hc
    linarith
  have hev := rne_tie (q * pow2 (-(f.ue q))) k (by
    rintro rfl
    exact hne hk) (by
    rw [hk] at he
    unfold Fmt.rnd at he
    rw [scale, scale] at he
    exact mul_right_cancel₀ hu.ne' he)
  refine ⟨rne (q * pow2 (-(f.ue q))) / 2, ?_⟩
  unfold Fmt.rnd
  congr 2
  omega

/-- Rounding gives a representable number that is nearest to the exact result. -/
theorem ieee_nearest (f : Fmt) (q : ℚ) {r : ℚ} (hr : f.Repr r) : f.Repr (f.rnd q) ∧ |f.rnd q - q| ≤ |r - q| := by
  refine ⟨f.repr_rnd q, ?_⟩
  rcases lt_trichotomy q 0 with h | rfl | h
  · have := (nearest_pos (f := f) (q := -q) (by linarith) (f.repr_neg hr)).1
    rw [f.rnd_neg, show -f.rnd q - -q = -(f.rnd q - q) by ring, show -r - -q = -(r - q) by ring, abs_neg, abs_neg] at this
    exact this
  · simp
  · exact (nearest_pos h hr).1

/-- If another representable number is equally near, the result is the one with the even significand. -/
theorem ieee_ties_even (f : Fmt) (q : ℚ) {r : ℚ} (hr : f.Repr r) (he : |r - q| = |f.rnd q - q|) (hne : r ≠ f.rnd q) :
    ∃ k : ℤ, f.rnd q = (2 * k : ℤ) * pow2 (f.ue q) := by
  rcases lt_trichotomy q 0 with h | rfl | h
  · have := (nearest_pos (f := f) (q := -q) (by linarith) (f.repr_neg hr)).2 (by
      rw [f.rnd_neg, show -f.rnd q - -q = -(f.rnd q - q) by ring, show -r - -q = -(r - q) by ring, abs_neg, abs_neg]; exact he) (by
      rw [f.rnd_neg]; exact fun h => hne (neg_injective h))
    obtain ⟨k, hk⟩ := this
    refine ⟨-k, ?_⟩
    rw [f.rnd_neg, f.ue_neg] at hk
    push_cast at hk ⊢
    linarith
  · simp at he; exact absurd he (by simpa using hne)
  · exact (nearest_pos h hr).2 he hne

/-- `2^24 + 1` is half way between two f32 values; the even one, `2^24`, is chosen; `2^24 + 3` goes up, to `2^24 + 4`. -/
example : b32.rnd 16777217 = 16777216 ∧ b32.rnd 16777219 = 16777220 ∧ b32.Repr 16777218 ∧ |(16777218 : ℚ) - 16777217| = |16777216 - 16777217| := by
  refine ⟨by decide +kernel, by decide +kernel, ⟨8388609, 1, by decide +kernel, by decide, by decide⟩, by norm_num⟩


/-! ## Overflow (§7.4): to infinity from `2^emax·(2 - 2^-p)` on -/

/-- A result becomes infinite exactly when its magnitude is at least half a unit beyond the largest finite number; otherwise it is the
rounded value. -/
theorem ieee_overflow (f : Fmt) (z : Bool) (q : ℚ) :
    ((ofQ z q : Fl f) = .inf (decide (q < 0)) ↔ pow2 f.emax * (2 - pow2 (-f.p)) ≤ |q|) ∧
    (|q| < pow2 f.emax * (2 - pow2 (-f.p)) → (ofQ z q : Fl f).Is (f.rnd q)) := by
  have hp := f.hp
  have he := f.hemin
  -- the largest finite number
  set B := pow2 (f.emax + 1) with hB
  set u := pow2 (f.emax + 1 - f.p) with hu
  have hu0 : 0 < u := pow2_pos _
  have hmax : B - u = ((2 ^ f.p - 1 : ℤ) : ℚ) * u := by
    push_cast
    rw [sub_mul, one_mul, hB, hu, show (2 : ℚ) ^ f.p = pow2 f.p by rw [pow2_nat]; push_cast; rfl, ← pow2_add]
    congr 2
    omega
  have hBu : B = 2 ^ f.p * u := by push_cast at hmax; linarith
  have hB2 : B = 2 * pow2 f.emax := by rw [hB, pow2_add, pow2_one]; ring
  have hmid : pow2 f.emax * (2 - pow2 (-f.p)) = B - u / 2 := by
    have : u = 2 * (pow2 f.emax * pow2 (-f.p)) := by
      rw [hu, show f.emax + 1 - f.p = (f.emax + -f.p) + 1 by ring, pow2_add, pow2_one, pow2_add]; ring
    rw [hB2, this]; ring
  have rmax : f.Repr (B - u) := ⟨2 ^ f.p - 1, f.emax + 1 - f.p, hmax, by
    rw [abs_of_nonneg (by have : (1 : ℤ) ≤ 2 ^ f.p := by exact_mod_cast Nat.one_le_two_pow
                          omega)]; omega, by omega⟩
  have rB : f.Repr B := f.repr_pow2 (by omega)
  have key : |f.rnd q| < B ↔ |q| < B - u / 2 := by
    rw [f.abs_rnd]
    have a0 := abs_nonneg q
    generalize |q| = x at *
    constructor
    · intro h
      by_contra hc
      push Not at hc
      have hx : x < B := by
        by_contra hx
        exact absurd (f.repr_le_rnd rB (not_lt.mp hx)) (not_le.mpr h)
      have hx0 : 0 < x := lt_of_lt_of_le (by
        have : 2 * u ≤ B := by
          have : (2 : ℚ) ≤ 2 ^ f.p := by
            calc (2 : ℚ) = 2 ^ 1 := by norm_num
              _ ≤ 2 ^ f.p := pow_le_pow_right₀ (by norm_num) hp
          rw [hBu]
          exact mul_le_mul_of_nonneg_right this hu0.le
        linarith) hc
      have hi : ilog2 x = f.emax := by
        apply le_antisymm
        · have := ilog2_lt_of hx0.ne' (k := f.emax + 1) (by rw [abs_of_pos hx0]; exact hx); omega
        · refine le_ilog2_of hx0.ne' ?_
          rw [abs_of_pos hx0]
          refine le_trans ?_ hc
          have : u ≤ pow2 f.emax := pow2_le (by omega)
          linarith
      have hue : f.ue x = f.emax + 1 - f.p := by unfold Fmt.ue; rw [hi]; omega
      -- the rounded value is at most the largest finite number
      have hle : f.rnd x ≤ B - u := by
        by_contra hgt
        push Not at hgt
        unfold Fmt.rnd at h hgt
        rw [hue, ← hu] at h hgt
        rw [hmax] at hgt
        rw [show B = ((2 ^ f.p : ℤ) : ℚ) * u by push_cast; exact hBu] at h
        have h1 := lt_of_mul_lt_mul_right h hu0.le
        have h2 := lt_of_mul_lt_mul_right hgt hu0.le
        have h1' : rne (x * pow2 (-(f.emax + 1 - f.p))) < 2 ^ f.p := by exact_mod_cast h1
        have h2' : 2 ^ f.p - 1 < rne (x * pow2 (-(f.emax + 1 - f.p))) := by exact_mod_cast h2
        omega
      have hn := (ieee_nearest f x rB).2
      rw [abs_of_nonpos (by linarith), abs_of_pos (by linarith)] at hn
      have hxe : x = B - u / 2 := by linarith
      have hre : f.rnd x = B - u := by linarith
      obtain ⟨k, hk⟩ := ieee_ties_even f x rB (by
        rw [hre, hxe, abs_of_nonneg (by linarith), abs_of_nonpos (by linarith)]; ring) (by rw [hre]; linarith)
      rw [hre, hmax, hue, ← hu] at hk
      have hk' : (2 ^ f.p - 1 : ℤ) = 2 * k := by exact_mod_cast mul_right_cancel₀ hu0.ne' hk
      obtain ⟨n, hn⟩ : ∃ n, f.p = n + 1 := ⟨f.p - 1, by omega⟩
      rw [hn, pow_succ] at hk'
      omega
    · intro h
      rcases le_or_gt x (B - u) with hx | hx
      · exact lt_of_le_of_lt (f.rnd_le_repr rmax hx) (by linarith)
      · by_contra hc
        push Not at hc
        have hn := (ieee_nearest f x rmax).2
        rw [abs_of_nonneg (by linarith), abs_of_nonpos (by linarith)] at hn
        linarith
  rw [hmid]
  unfold ofQ
  constructor
  · rw [← not_lt, ← key]
    split_ifs with h <;> simp [hB] at * <;> exact h
  · intro h
    rw [dif_pos (key.mpr h)]
    rfl

/-- The largest f32 and the next step: `2^128 - 2^103` is the smallest f32 result that overflows. -/
example : (ofQ false (2 ^ 128 - 2 ^ 103) : F32) = .inf false ∧ (ofQ false (2 ^ 128 - 2 ^ 103 - 1) : F32).Is (2 ^ 128 - 2 ^ 104) := by
  constructor <;> decide +kernel


/-! ## The set of finite numbers (§3.4): biased exponent `E` and trailing significand `F` -/

/-- Magnitude encoded by the fields of a binary interchange format. -/
def fieldValue (f : Fmt) (E F : ℕ) : ℚ :=
  if E = 0 then F * 2 ^ f.emin else (2 ^ (f.p - 1) + F) * 2 ^ ((E : ℤ) - 1 + f.emin)

private theorem field_lt (f : Fmt) {E F : ℕ} (hF : F < 2 ^ (f.p - 1)) : fieldValue f E F < 2 ^ ((f.p : ℤ) - 1 + E + f.emin) := by
  have hp := f.hp
  have hF' : (F : ℚ) < 2 ^ (f.p - 1) := by exact_mod_cast hF
  have e2 : (2 : ℚ) ^ (f.p - 1) = 2 ^ ((f.p : ℤ) - 1) := by
    rw [← zpow_natCast]; congr 1; omega
  unfold fieldValue
  split_ifs with h
  · rw [h, Nat.cast_zero, add_zero, zpow_add₀ (by norm_num), ← e2]
    exact mul_lt_mul_of_pos_right hF' (by positivity)
  · rw [show (f.p : ℤ) - 1 + E + f.emin = ((f.p : ℤ) - 1 + 1) + ((E : ℤ) - 1 + f.emin) by ring, zpow_add₀ (by norm_num) _ ((E : ℤ) - 1 + f.emin),
      zpow_add₀ (by norm_num) _ (1 : ℤ), ← e2, zpow_one]
    exact mul_lt_mul_of_pos_right (by linarith) (by positivity)

private theorem field_ge (f : Fmt) {E F : ℕ} (hE : E ≠ 0) : (2 : ℚ) ^ ((f.p : ℤ) - 1 + E - 1 + f.emin) ≤ fieldValue f E F := by
  have hp := f.hp
  have e2 : (2 : ℚ) ^ (f.p - 1) = 2 ^ ((f.p : ℤ) - 1) := by
    rw [← zpow_natCast]; congr 1; omega
  unfold fieldValue
  rw [if_neg hE, show (f.p : ℤ) - 1 + E - 1 + f.emin = ((f.p : ℤ) - 1) + ((E : ℤ) - 1 + f.emin) by ring, zpow_add₀ (by norm_num), ← e2]
  exact mul_le_mul_of_nonneg_right (by linarith [(Nat.cast_nonneg F : (0 : ℚ) ≤ F)]) (by positivity)

/-- The finite data of the model are exactly the values of the bit patterns with exponent field below all ones. -/
theorem ieee_encoding (f : Fmt) (s : Bool) (q : ℚ) :
    f.Ok s q ↔ ∃ E F : ℕ, F < 2 ^ (f.p - 1) ∧ (E : ℤ) ≤ f.emax - f.p + 2 - f.emin ∧ q = (if s then -1 else 1) * fieldValue f E F := by
  have hp := f.hp
  have he := f.hemin
  have e2 : (2 : ℚ) ^ (f.p - 1) = 2 ^ ((f.p : ℤ) - 1) := by
    rw [← zpow_natCast]; congr 1; omega
  constructor
  · rintro ⟨hr, hb, hn, hpos⟩
    -- the magnitude
    obtain ⟨v, v0, hv, hvr, hvb⟩ : ∃ v : ℚ, 0 ≤ v ∧ q = (if s then -1 else 1) * v ∧ f.Repr v ∧ v < pow2 (f.emax + 1) := by
      refine ⟨|q|, abs_nonneg q, ?_, f.repr_abs hr, hb⟩
      rcases lt_trichotomy q 0 with h | h | h
      · rw [hn h, if_pos rfl, abs_of_neg h]; ring
      · simp [h]
      · rw [hpos h, if_neg (by simp), abs_of_pos h]; ring
    have hp1 : (1 : ℕ) ≤ 2 ^ (f.p - 1) := Nat.one_le_two_pow
    rcases v0.eq_or_lt with hv0 | hv0
    · exact ⟨0, 0, by omega, by push_cast; omega, by rw [hv, ← hv0]; simp [fieldValue]⟩
    obtain ⟨k, hk⟩ : ∃ k : ℤ, v = k * pow2 (f.ue v) := grid hvr le_rfl
    rw [pow2_eq] at hk
    have hu := zpow_pos (show (0 : ℚ) < 2 by norm_num) (f.ue v)
    have k0 : 0 ≤ k := by
      by_contra hc
      have : (k : ℚ) < 0 := by exact_mod_cast not_le.mp hc
      nlinarith
    obtain ⟨n, rfl⟩ := Int.eq_ofNat_of_zero_le k0
    rw [Int.cast_natCast] at hk
    rcases lt_or_ge v (2 ^ ((f.p : ℤ) - 1 + f.emin)) with h | h
    · have hue : f.ue v = f.emin := by
        have := ilog2_lt_of hv0.ne' (k := (f.p : ℤ) - 1 + f.emin) (by rw [abs_of_pos hv0, pow2_eq]; exact h)
        unfold Fmt.ue; omega
      rw [hue] at hk hu
      refine ⟨0, n, ?_, by push_cast; omega, by rw [hv]; simp [fieldValue, hk]⟩
      rw [hk, zpow_add₀ (by norm_num), ← e2] at h
      exact_mod_cast lt_of_mul_lt_mul_right h hu.le
    · have hl := le_ilog2_of hv0.ne' (k := (f.p : ℤ) - 1 + f.emin) (by rw [abs_of_pos hv0, pow2_eq]; exact h)
      have hl' := ilog2_lt_of hv0.ne' (k := f.emax + 1) (by rw [abs_of_pos hv0]; exact hvb)
      obtain ⟨s1, s2⟩ := ilog2_spec hv0.ne'
      rw [abs_of_pos hv0, pow2_eq] at s1 s2
      have hue : f.ue v = ilog2 v - (f.p - 1) := by unfold Fmt.ue; omega
      rw [show ilog2 v = ((f.p : ℤ) - 1) + f.ue v by omega] at s1 s2
      set w := f.ue v with hw
      clear_value w
      rw [hk, zpow_add₀ (by norm_num), ← e2] at s1
      rw [hk, show (f.p : ℤ) - 1 + w + 1 = ((f.p : ℤ) - 1) + 1 + w by ring, zpow_add₀ (by norm_num) _ w, zpow_add₀ (by norm_num) _ (1 : ℤ), ← e2, zpow_one] at s2
      have t1 : 2 ^ (f.p - 1) ≤ n := by exact_mod_cast le_of_mul_le_mul_right s1 hu
      have t2 : n < 2 ^ (f.p - 1) * 2 := by exact_mod_cast lt_of_mul_lt_mul_right s2 hu.le
      obtain ⟨E, hE⟩ := Int.eq_ofNat_of_zero_le (by omega : 0 ≤ w - f.emin + 1)
      refine ⟨E, n - 2 ^ (f.p - 1), by omega, by omega, ?_⟩
      rw [hv]
      congr 1
      unfold fieldValue
      rw [if_neg (by omega), Nat.cast_sub t1]
      push_cast
      rw [add_sub_cancel, show (E : ℤ) - 1 + f.emin = w by omega]
      exact hk
  · rintro ⟨E, F, hF, hE, rfl⟩
    have hlt := field_lt f (E := E) hF
    have hnn : 0 ≤ fieldValue f E F := by unfold fieldValue; split_ifs <;> positivity
    have hrep : f.Repr (fieldValue f E F) := by
      have hFp : 2 ^ (f.p - 1) + F ≤ 2 ^ f.p := by
        have : 2 ^ f.p = 2 ^ (f.p - 1) * 2 := by rw [← pow_succ]; congr 1; omega
        omega
      unfold fieldValue
      split_ifs with h
      · refine ⟨F, f.emin, by rw [pow2_eq]; push_cast; rfl, ?_, le_rfl⟩
        rw [abs_of_nonneg (by positivity)]
        exact_mod_cast (by omega : F ≤ 2 ^ f.p)
      · refine ⟨2 ^ (f.p - 1) + F, (E : ℤ) - 1 + f.emin, by rw [pow2_eq]; push_cast; rfl, ?_, by omega⟩
        rw [abs_of_nonneg (by positivity)]
        exact_mod_cast hFp
    have hb : fieldValue f E F < pow2 (f.emax + 1) := by
      rw [pow2_eq]
      exact lt_of_lt_of_le hlt (zpow_le_zpow_right₀ (by norm_num) (by omega))
    cases s
    · simp only [Bool.false_eq_true, if_false, one_mul]
      exact ⟨hrep, by rwa [abs_of_nonneg hnn], fun h => absurd hnn (not_le.mpr h), fun _ => rfl⟩
    · simp only [if_true, neg_one_mul]
      exact ⟨f.repr_neg hrep, by rwa [abs_neg, abs_of_nonneg hnn], fun _ => rfl, fun h => by linarith⟩

/-- Different fields encode different magnitudes. -/
theorem ieee_encoding_unique (f : Fmt) {E E' F F' : ℕ} (hF : F < 2 ^ (f.p - 1)) (hF' : F' < 2 ^ (f.p - 1))
    (h : fieldValue f E F = fieldValue f E' F') : E = E' ∧ F = F' := by
  have key : ∀ {E E' F F' : ℕ}, F < 2 ^ (f.p - 1) → E < E' → fieldValue f E F < fieldValue f E' F' := by
    intro E E' F F' hF hE
    refine lt_of_lt_of_le (field_lt f hF) (le_trans ?_ (field_ge f (by omega)))
    exact zpow_le_zpow_right₀ (by norm_num) (by omega)
  rcases lt_trichotomy E E' with hE | rfl | hE
  · exact absurd h (key hF hE).ne
  · refine ⟨rfl, ?_⟩
    unfold fieldValue at h
    split_ifs at h
    · exact_mod_cast mul_right_cancel₀ (by positivity) h
    · have := mul_right_cancel₀ (by positivity) h
      exact_mod_cast add_left_cancel this
  · exact absurd h (key hF' hE).ne'

/-- The fields of 1.0f32 (0x3F800000), of the smallest subnormal and of `f32::MAX`; exponent field at most 254. -/
example : fieldValue b32 127 0 = 1 ∧ fieldValue b32 0 1 = 2 ^ (-149 : ℤ) ∧ fieldValue b32 254 (2 ^ 23 - 1) = 2 ^ 128 - 2 ^ 104 ∧
    b32.emax - b32.p + 2 - b32.emin = 254 ∧ b64.emax - b64.p + 2 - b64.emin = 2046 := by
  refine ⟨?_, ?_, ?_, by decide, by decide⟩ <;> norm_num [fieldValue, b32]

/-! ## Square root (§5.4.1): correctly rounded -/

/-- The square root of the model is a representable number nearest to the real square root. -/
theorem ieee_sqrt (f : Fmt) {q : ℚ} (hq : pow2 f.emin ≤ q) {r : ℚ} (hr : f.Repr r) :
    f.Repr (f.rnd (sqrtQ f q)) ∧ |(f.rnd (sqrtQ f q) : ℝ) - Real.sqrt q| ≤ |(r : ℝ) - Real.sqrt q| := by
  refine ⟨f.repr_rnd _, ?_⟩
  have hq0 : 0 < q := lt_of_lt_of_le (pow2_pos _) hq
  have hqR : (0 : ℝ) < q := by exact_mod_cast hq0
  have hz := f.hz
  have hp := f.hp
  obtain ⟨l1, l2⟩ := ilog2_spec hq0.ne'
  rw [abs_of_pos hq0] at l1 l2
  have hle : f.emin ≤ ilog2 q := le_ilog2_of hq0.ne' (by rw [abs_of_pos hq0]; exact hq)
  set e := ilog2 q / 2 with he
  set u := max (e - (f.p - 1)) f.emin with hu
  have hue : u ≤ e := by omega
  set k := 2 - u with hk
  set N := (q * pow2 (2 * k)).floor with hN
  set m := N.toNat.sqrt with hm
  have hs : sqrtQ f q = if (m * pow2 (-k)) * (m * pow2 (-k)) = q then (m : ℚ) * pow2 (-k) else m * pow2 (-k) + pow2 (-k - 1) := rfl
  have g0 : (0 : ℚ) < pow2 (-k) := pow2_pos _
  have gk : pow2 (2 * k) * (pow2 (-k) * pow2 (-k)) = 1 := by
    rw [← pow2_add, ← pow2_add, show 2 * k + (-k + -k) = 0 by ring, pow2_zero]
  -- `m·2^-k ≤ √q < (m+1)·2^-k`
  have hN0 : 0 ≤ N := Rat.le_floor_iff.mpr (by push_cast; exact (mul_pos hq0 (pow2_pos _)).le)
  have hN1 : (N : ℚ) ≤ q * pow2 (2 * k) := Rat.floor_le _
  have hN2 : q * pow2 (2 * k) < N + 1 := by have := Rat.lt_floor_add_one (q * pow2 (2 * k)); push_cast at this; exact this
  have hm1 : (m : ℚ) ^ 2 ≤ N := by
    have : m ^ 2 ≤ N.toNat := Nat.sqrt_le' _
    have : ((m ^ 2 : ℕ) : ℤ) ≤ N := by rw [← Int.toNat_of_nonneg hN0]; exact_mod_cast this
    exact_mod_cast this
  have hm2 : (N : ℚ) + 1 ≤ (m + 1) ^ 2 := by
    have : N.toNat < (m + 1) ^ 2 := Nat.lt_succ_sqrt' _
    have : N + 1 ≤ (((m + 1) ^ 2 : ℕ) : ℤ) := by rw [← Int.toNat_of_nonneg hN0]; exact_mod_cast this
    exact_mod_cast this
  set g := pow2 (-k) with hg
  have lo : (m * g) ^ 2 ≤ q := by
    calc (m * g) ^ 2 = (m : ℚ) ^ 2 * (g * g) := by ring
      _ ≤ (q * pow2 (2 * k)) * (g * g) := mul_le_mul_of_nonneg_right (hm1.trans hN1) (by positivity)
      _ = q := by rw [mul_assoc, gk, mul_one]
  have hi : q < ((m + 1) * g) ^ 2 := by
    calc q = (q * pow2 (2 * k)) * (g * g) := by rw [mul_assoc, gk, mul_one]
      _ < (m + 1) ^ 2 * (g * g) := mul_lt_mul_of_pos_right (hN2.trans_le hm2) (by positivity)
      _ = _ := by ring
  have g0R : (0 : ℝ) < g := by exact_mod_cast g0
  have loR : ((m * g : ℚ) : ℝ) ≤ Real.sqrt q := Real.le_sqrt_of_sq_le (by exact_mod_cast lo)
  have hiR : Real.sqrt q < (((m + 1) * g : ℚ) : ℝ) := (Real.sqrt_lt' (by push_cast; positivity)).mpr (by exact_mod_cast hi)
  -- `2^e ≤ m·2^-k`
  obtain ⟨n, hn⟩ := Int.eq_ofNat_of_zero_le (by omega : 0 ≤ e + k)
  have hen : pow2 e = ((2 ^ n : ℕ) : ℚ) * g := by
    rw [hg, show e = (n : ℤ) + -k by omega, pow2_add, pow2_nat]; push_cast; rfl
  have heq : pow2 e * pow2 e ≤ q := by
    rw [← pow2_add]; exact le_trans (pow2_le (by omega)) l1
  have hnm : 2 ^ n ≤ m := by
    by_contra hc
    have hc' : ((m : ℚ) + 1) ≤ ((2 ^ n : ℕ) : ℚ) := by exact_mod_cast (by omega : m + 1 ≤ 2 ^ n)
    have : (m + 1) * g ≤ pow2 e := by rw [hen]; exact mul_le_mul_of_nonneg_right hc' g0.le
    have := mul_self_le_mul_self (by positivity) this
    linarith [pow_two ((m + 1) * g)]
  have hem : pow2 e ≤ m * g := by
    rw [hen]; exact mul_le_mul_of_nonneg_right (by exact_mod_cast hnm) g0.le
  have hsm : m * g ≤ sqrtQ f q := by
    rw [hs]; split_ifs
    · exact le_rfl
    · linarith [pow2_pos (-k - 1)]
  have hs0 : 0 < sqrtQ f q := lt_of_lt_of_le (pow2_pos e) (hem.trans hsm)
  -- numbers with exponent at least `u` are multiples of `2^u`
  have mult : ∀ w : ℤ, u ≤ w → ∀ j : ℤ, ∃ i : ℤ, (j : ℚ) * pow2 w = i * pow2 u := by
    intro w hw j
    obtain ⟨n, hn⟩ := Int.eq_ofNat_of_zero_le (by omega : 0 ≤ w - u)
    refine ⟨j * 2 ^ n, ?_⟩
    rw [show w = (n : ℤ) + u by omega, pow2_add, pow2_nat]
    push_cast; ring
  have up : ∀ x : ℚ, pow2 e ≤ x → u ≤ f.ue x := by
    intro x hx
    have hx0 : 0 < x := lt_of_lt_of_le (pow2_pos e) hx
    have := le_ilog2_of hx0.ne' (k := e) (by rw [abs_of_pos hx0]; exact hx)
    unfold Fmt.ue
    omega
  obtain ⟨iv, hiv⟩ : ∃ i : ℤ, f.rnd (sqrtQ f q) = i * pow2 u := mult _ (up _ (hem.trans hsm)) _
  -- the claim for multiples of `2^u`
  have main : ∀ r : ℚ, f.Repr r → (∃ i : ℤ, r = i * pow2 u) → |(f.rnd (sqrtQ f q) : ℝ) - Real.sqrt q| ≤ |(r : ℝ) - Real.sqrt q| := by
    rintro r hr ⟨ir, hir⟩
    have near := (ieee_nearest f (sqrtQ f q) hr).2
    by_cases hex : (m * g) * (m * g) = q
    · have hsq : Real.sqrt q = ((sqrtQ f q : ℚ) : ℝ) := by
        rw [hs, if_pos hex, ← hex]
        push_cast
        exact Real.sqrt_mul_self (by positivity)
      rw [hsq]
      exact_mod_cast near
    · rw [if_neg hex] at hs
      have hg2 : pow2 (-k - 1) = g / 2 := by
        rw [hg, show -k = (-k - 1) + 1 by ring, pow2_add (-k - 1), pow2_one]; ring_nf
      rw [hg2] at hs
      have hu4 : pow2 u = 4 * g := by
        rw [hg, show u = -k + 2 by omega, pow2_add, show pow2 2 = 4 by decide +kernel]; ring
      have strict : ((m * g : ℚ) : ℝ) < Real.sqrt q := by
        refine lt_of_le_of_ne loR fun h => hex ?_
        have : ((m * g : ℚ) : ℝ) * ((m * g : ℚ) : ℝ) = q := by rw [h]; exact Real.mul_self_sqrt hqR.le
        exact_mod_cast this
      by_contra hc
      push Not at hc
      set v := f.rnd (sqrtQ f q) with hv
      -- the midpoint of `r` and `v` is a multiple of `2^-k` strictly between two consecutive ones
      have hmid : (r + v) / 2 = ((2 * (ir + iv) : ℤ) : ℚ) * g := by
        rw [hir, hiv, hu4]; push_cast; ring
      have hlast : ((m * g : ℚ) : ℝ) < ((r + v) / 2 : ℚ) ∧ (((r + v) / 2 : ℚ) : ℝ) < ((m + 1) * g : ℚ) := by
        have hsR : ((sqrtQ f q : ℚ) : ℝ) = m * g + g / 2 := by rw [hs]; push_cast; ring
        rcases lt_or_ge r v with hrv | hrv
        · have hrvR : (r : ℝ) < v := by exact_mod_cast hrv
          have a1 : Real.sqrt q < (r + v) / 2 := by
            by_contra h
            push Not at h
            rcases le_or_gt (v : ℝ) (Real.sqrt q) with h' | h'
            · rw [abs_of_nonpos (by linarith), abs_of_nonpos (by linarith)] at hc; linarith
            · rw [abs_of_nonpos (by linarith), abs_of_pos (by linarith)] at hc; linarith
          have a2 : (r + v) / 2 ≤ sqrtQ f q := by
            by_contra h
            push Not at h
            rcases le_or_gt r (sqrtQ f q) with h' | h'
            · rw [abs_of_nonneg (by linarith), abs_of_nonpos (by linarith)] at near; linarith
            · rw [abs_of_nonneg (by linarith), abs_of_nonneg (by linarith)] at near; linarith
          have a2R : (((r + v) / 2 : ℚ) : ℝ) ≤ m * g + g / 2 := by rw [← hsR]; exact_mod_cast a2
          push_cast at *
          constructor <;> nlinarith
        · have hrvR : (v : ℝ) ≤ r := by exact_mod_cast hrv
          have a1 : (r + v) / 2 < Real.sqrt q := by
            by_contra h
            push Not at h
            rcases le_or_gt (r : ℝ) (Real.sqrt q) with h' | h'
            · rw [abs_of_nonpos (by linarith), abs_of_nonpos (by linarith)] at hc; linarith
            · rcases le_or_gt (v : ℝ) (Real.sqrt q) with h'' | h''
              · rw [abs_of_pos (by linarith), abs_of_nonpos (by linarith)] at hc; linarith
              · rw [abs_of_pos (by linarith), abs_of_pos (by linarith)] at hc; linarith
          have hne : v ≠ r := by rintro h; rw [h] at hc; exact lt_irrefl _ hc
          have hrv' : v < r := lt_of_le_of_ne hrv hne
          have a2 : sqrtQ f q ≤ (r + v) / 2 := by
            by_contra h
            push Not at h
            rcases le_or_gt r (sqrtQ f q) with h' | h'
            · rw [abs_of_nonpos (by linarith), abs_of_nonpos (by linarith)] at near; linarith
            · rw [abs_of_nonpos (by linarith), abs_of_pos (by linarith)] at near; linarith
          have a2R : (m : ℝ) * g + g / 2 ≤ (((r + v) / 2 : ℚ) : ℝ) := by rw [← hsR]; exact_mod_cast a2
          push_cast at *
          constructor <;> nlinarith
      obtain ⟨b1, b2⟩ := hlast
      have b1' : m * g < (r + v) / 2 := by exact_mod_cast b1
      have b2' : (r + v) / 2 < (m + 1) * g := by exact_mod_cast b2
      rw [hmid] at b1' b2'
      have c1 : (m : ℤ) < 2 * (ir + iv) := by exact_mod_cast lt_of_mul_lt_mul_right b1' g0.le
      have c2 : 2 * (ir + iv) < (m : ℤ) + 1 := by exact_mod_cast lt_of_mul_lt_mul_right b2' g0.le
      omega
  by_cases hru : u ≤ f.ue r
  · refine main r hr ?_
    have := f.rnd_of_repr hr
    rw [← this]
    exact mult _ hru _
  · -- a number below the binade: `2^e` is nearer
    have hre : r < pow2 e := by
      by_contra h
      exact hru (up r (not_lt.mp h))
    have he1 : f.emin ≤ e := by omega
    obtain ⟨j, hj⟩ := mult e hue 1
    refine (main (pow2 e) (f.repr_pow2 he1) ⟨j, by rw [← hj]; push_cast; ring⟩).trans ?_
    have hreR : (r : ℝ) < (pow2 e : ℚ) := by exact_mod_cast hre
    have hesR : ((pow2 e : ℚ) : ℝ) ≤ Real.sqrt q := le_trans (by exact_mod_cast hem) loR
    rw [abs_of_nonpos (by linarith), abs_of_nonpos (by linarith)]
    linarith

/-- The f32 square root of 2. -/
example : b32.rnd (sqrtQ b32 2) = 11863283 / 8388608 ∧ pow2 b32.emin ≤ 2 := by constructor <;> decide +kernel

end Verif
