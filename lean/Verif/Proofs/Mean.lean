import Verif.Proofs.Time

/-! # The mean of a track as `normalize` computes it: no larger than the samples, for tracks of any length -/

namespace Verif
open Fl

private theorem stall : ∀ e : Fin 101, b32.rnd ((2 ^ 24 + 1) * 2 ^ (e : ℕ)) ≤ 2 ^ 24 * 2 ^ (e : ℕ) := by decide +kernel

/-- A sum of samples of size `2^e` cannot pass `2^24 * 2^e`, where adding one more is rounded away. -/
theorem sum_min32 (t : List F32) (e : ℕ) (he : e ≤ 100) (acc : F32) (a : ℚ) (k : ℕ) (hacc : acc.Is a) (ha : |a| ≤ (min k (2 ^ 24) : ℕ) * 2 ^ e)
    (ht : ∀ s ∈ t, ∃ q, s.Is q ∧ |q| ≤ 2 ^ e) :
    ∃ b, (t.foldl (fun dc s => dc + s) acc).Is b ∧ |b| ≤ (min (k + t.length) (2 ^ 24) : ℕ) * 2 ^ e := by
  induction t generalizing acc a k with
  | nil => exact ⟨a, hacc, by simpa using ha⟩
  | cons x t ih =>
    obtain ⟨q, hq, hq1⟩ := ht x (List.mem_cons_self ..)
    have hs : |a + q| ≤ ((min k (2 ^ 24) : ℕ) + 1 : ℚ) * 2 ^ e :=
      (abs_add_le _ _).trans ((add_le_add ha hq1).trans (le_of_eq (by ring)))
    have h2 : (2 : ℚ) ^ e ≤ 2 ^ 100 := pow_le_pow_right₀ (by norm_num) he
    have hfit : b32.Fits (a + q) := by
      refine Fmt.fits_of_le_pow2 (k := 125) (by decide) (by decide) (hs.trans ?_)
      have h1 : ((min k (2 ^ 24) : ℕ) : ℚ) + 1 ≤ 2 ^ 24 + 1 := by
        have : ((min k (2 ^ 24) : ℕ) : ℚ) ≤ ((2 ^ 24 : ℕ) : ℚ) := by exact_mod_cast min_le_right _ _
        push_cast at this ⊢; linarith
      calc _ ≤ (2 ^ 24 + 1) * 2 ^ 100 := mul_le_mul h1 h2 (by positivity) (by positivity)
        _ ≤ _ := by decide +kernel
    have hadd := Is.add hacc hq hfit
    have hle : |b32.rnd (a + q)| ≤ (min (k + 1) (2 ^ 24) : ℕ) * 2 ^ e := by
      rw [b32.abs_rnd]
      by_cases hk : k + 1 ≤ 2 ^ 24
      · rw [min_eq_left (by omega)] at hs
        rw [min_eq_left hk]
        have hr : b32.Repr (((k + 1 : ℕ) : ℚ) * 2 ^ e) := by
          refine Fmt.repr_dyadic (m := ((k + 1 : ℕ) : ℤ)) (e := e) ?_ ?_ (le_trans (by decide) (Int.natCast_nonneg e))
          · rw [pow2_nat]; push_cast; rfl
          · rw [abs_of_nonneg (by positivity)]; show ((k + 1 : ℕ) : ℤ) ≤ 2 ^ 24; exact_mod_cast hk
        refine b32.rnd_le_repr hr ?_
        push_cast; exact hs
      · rw [min_eq_right (by omega)] at hs ⊢
        push_cast at hs ⊢
        exact (b32.rnd_mono hs).trans (stall ⟨e, by omega⟩)
    obtain ⟨b, h1, h3⟩ := ih _ _ (k + 1) hadd hle (fun s hs => ht s (List.mem_cons_of_mem _ hs))
    exact ⟨b, h1, by rw [show k + (x :: t).length = k + 1 + t.length by simp only [List.length_cons]; omega]; exact h3⟩

/-- The length of a track as an `f32`: positive, and not below the length capped at `2^24`. -/
theorem len32 (n : ℕ) (h0 : 0 < n) (hn : n < 2 ^ 64) : ∃ r : ℚ, (lit (n : ℚ) : F32).Is r ∧ 0 < r ∧ ((min n (2 ^ 24) : ℕ) : ℚ) ≤ r := by
  have hn' : |(n : ℚ)| ≤ 2 ^ 64 := by rw [abs_of_nonneg (by positivity)]; exact_mod_cast hn.le
  have hle : ((min n (2 ^ 24) : ℕ) : ℚ) ≤ b32.rnd n := by
    refine b32.repr_le_rnd (by exact_mod_cast Fmt.repr32_int (n := ((min n (2 ^ 24) : ℕ) : ℤ)) (by rw [abs_of_nonneg (by positivity)]; exact_mod_cast min_le_right _ _)) ?_
    exact_mod_cast min_le_left _ _
  refine ⟨b32.rnd n, Fl.lit_is (fits32' 64 (by norm_num) hn'), lt_of_lt_of_le ?_ hle, hle⟩
  have : 0 < min n (2 ^ 24) := by omega
  exact_mod_cast this

/-- The computed mean of samples of size at most `2^e` is at most `2^e`. -/
theorem mean32 (t : List F32) (e : ℕ) (he : e ≤ 100) (h0 : t ≠ []) (hlen : t.length < 2 ^ 64)
    (ht : ∀ s ∈ t, ∃ q, s.Is q ∧ |q| ≤ 2 ^ e) :
    ∃ d : ℚ, (t.foldl (fun dc s => dc + s) (lit 0 : F32) / lit (t.length : ℚ)).Is d ∧ |d| ≤ 2 ^ e := by
  have hpos : 0 < t.length := List.length_pos_of_ne_nil h0
  obtain ⟨b, hb, hb1⟩ := sum_min32 t e he (lit 0) 0 0 lit32_0 (by simp) ht
  rw [zero_add] at hb1
  obtain ⟨r, hr, r0, hr1⟩ := len32 t.length hpos hlen
  have hbn : |b / r| ≤ pow2 (e : ℕ) := by
    rw [abs_div, abs_of_pos r0, div_le_iff₀ r0, pow2_nat]
    have : ((min t.length (2 ^ 24) : ℕ) : ℚ) * 2 ^ e ≤ r * 2 ^ e := mul_le_mul_of_nonneg_right hr1 (by positivity)
    push_cast at hb1 this ⊢; linarith
  have he0 : b32.emin ≤ ((e : ℕ) : ℤ) := le_trans (by decide) (Int.natCast_nonneg e)
  refine ⟨_, Is.div hb hr r0.ne' (Fmt.fits_of_le_pow2 he0 (by show (e : ℤ) ≤ 127; omega) hbn), ?_⟩
  rw [b32.abs_rnd]
  have := b32.rnd_le_pow2 he0 hbn
  rw [pow2_nat] at this; exact_mod_cast this

end Verif
