import Verif.Float.Lemmas
import Mathlib.RingTheory.Coprime.Lemmas

/-!
# Scaling forth and back with rounding

Rounding `c·x`, dividing the result by `c` with rounding and multiplying by `c` again with rounding gives the first
product back, unless that product is a power of two (the spacing of floats changes there, and the case is left to a
check of `c`).
-/

namespace Verif

theorem rne_nearest (x : ℚ) (n : ℤ) : |(rne x : ℚ) - x| ≤ |n - x| := by
  have h1 := Int.floor_le x
  have h2 := Int.lt_floor_add_one x
  rcases le_or_gt n ⌊x⌋ with hn | hn
  · have hn' : (n : ℚ) ≤ ⌊x⌋ := by exact_mod_cast hn
    rw [abs_of_nonpos (show (n : ℚ) - x ≤ 0 by linarith)]
    rcases rne_cases x with ⟨h, hr⟩ | ⟨h, hr⟩ <;> rw [h, abs_le] <;> push_cast <;> constructor <;> linarith
  · have hn' : (⌊x⌋ : ℚ) + 1 ≤ n := by exact_mod_cast hn
    rw [abs_of_nonneg (show 0 ≤ (n : ℚ) - x by linarith)]
    rcases rne_cases x with ⟨h, hr⟩ | ⟨h, hr⟩ <;> rw [h, abs_le] <;> push_cast <;> constructor <;> linarith

theorem rne_reflect (N : ℤ) (x : ℚ) : rne (2 * N - x) = 2 * N - rne x := by
  have sh : ∀ y : ℚ, rne (((2 * N : ℤ) : ℚ) + y) = 2 * N + rne y := by
    intro y
    have e : (((2 * N : ℤ) : ℚ) + y).floor = 2 * N + y.floor := by
      exact Int.floor_intCast_add (2 * N) y
    unfold rne
    simp only [e]
    rw [show ((2 * N : ℤ) : ℚ) + y - ((2 * N + y.floor : ℤ) : ℚ) = y - y.floor by push_cast; ring,
      show (2 * N + y.floor) % 2 = y.floor % 2 by omega]
    split_ifs <;> ring
  have := sh (-x)
  rw [rne_neg] at this
  push_cast at this
  rw [← sub_eq_add_neg] at this
  rw [this]; ring

namespace Fmt
variable (f : Fmt)

private theorem rnd_eq_mul (q : ℚ) : f.rnd q = rne (q * pow2 (-(f.ue q))) * pow2 (f.ue q) := rfl

/-- A representable number is a multiple of the unit of any number it is not below in exponent. -/
private theorem repr_mul {r : ℚ} (hr : f.Repr r) {u : ℤ} (hu : u ≤ f.ue r) : ∃ n : ℤ, r = n * pow2 u := by
  have h := f.rnd_of_repr hr
  obtain ⟨k, hk, -⟩ := pow2_nonneg_int (e := f.ue r - u) (by omega)
  refine ⟨rne (r * pow2 (-(f.ue r))) * k, ?_⟩
  conv_lhs => rw [← h, rnd_eq_mul]
  push_cast
  rw [← hk, mul_assoc, ← pow2_add]
  congr 2; ring

theorem emin_le_ue (q : ℚ) : f.emin ≤ f.ue q := le_max_right _ _

theorem rnd_nearest {q r : ℚ} (hq : 0 < q) (hr : f.Repr r) : |f.rnd q - q| ≤ |r - q| := by
  set u := f.ue q with hu
  have pu := pow2_pos u
  -- distance in units
  have key : ∀ n : ℤ, |f.rnd q - q| ≤ |n * pow2 u - q| := by
    intro n
    have h := rne_nearest (q * pow2 (-u)) n
    have e : ∀ a : ℚ, |a * pow2 u - q| = |a - q * pow2 (-u)| * pow2 u := by
      intro a
      rw [← abs_of_pos pu, ← abs_mul, abs_of_pos pu, sub_mul, mul_assoc q, pow2_neg_mul, mul_one]
    rw [rnd_eq_mul, ← hu, e, e]
    exact mul_le_mul_of_nonneg_right h pu.le
  obtain ⟨E1, E2⟩ := ilog2_spec hq.ne'
  rw [abs_of_pos hq] at E1 E2
  by_cases hc : u = f.emin
  · obtain ⟨n, hn⟩ := f.repr_mul hr (u := u) (by rw [hc]; exact f.emin_le_ue r)
    rw [hn]; exact key n
  · have hue : u = ilog2 q - (f.p - 1) := by
      have := hu
      unfold Fmt.ue at this
      rcases max_choice (ilog2 q - (f.p - 1 : ℤ)) f.emin with h | h
      · rw [h] at this; exact this
      · rw [h] at this; exact absurd this hc
    by_cases hb : r < pow2 (ilog2 q)
    · obtain ⟨k, hk, -⟩ := pow2_nonneg_int (e := ilog2 q - u) (by have := f.hp; omega)
      have h := key k
      rw [← hk, ← pow2_add, show ilog2 q - u + u = ilog2 q by ring] at h
      refine h.trans ?_
      rw [abs_of_nonpos (by linarith), abs_of_nonpos (by linarith)]
      linarith
    · have hr0 : 0 < r := lt_of_lt_of_le (pow2_pos _) (not_lt.mp hb)
      have hl : ilog2 q ≤ ilog2 r := le_ilog2_of hr0.ne' (by rw [abs_of_pos hr0]; exact not_lt.mp hb)
      obtain ⟨n, hn⟩ := f.repr_mul hr (u := u) (by
        refine le_trans ?_ (le_max_left _ _)
        omega)
      rw [hn]; exact key n

/-- With the same unit, rounding is symmetric about a result. -/
private theorem rnd_refl_same {y i : ℚ} (h : f.rnd y = i) (hu : f.ue (2 * i - y) = f.ue y) : f.rnd (2 * i - y) = i := by
  rw [rnd_eq_mul, hu]
  rw [rnd_eq_mul] at h
  set N := rne (y * pow2 (-(f.ue y))) with hN
  have : (2 * i - y) * pow2 (-(f.ue y)) = 2 * N - y * pow2 (-(f.ue y)) := by
    rw [← h, sub_mul, mul_assoc, mul_assoc, pow2_mul_neg, mul_one]
  rw [this, rne_reflect, ← hN, ← h]
  congr 2; ring

private theorem ue_le_of {x y : ℚ} (hx : 0 < x) (h : x ≤ y) : f.ue x ≤ f.ue y := by
  have := ilog2_mono hx.ne' (show |x| ≤ |y| by rw [abs_of_pos hx, abs_of_pos (hx.trans_le h)]; exact h)
  unfold Fmt.ue
  exact max_le_max (by omega) le_rfl

/-- The interval of numbers rounding to a positive float reaches at least as far up as down. -/
theorem rnd_refl_up {y i : ℚ} (hy : 0 < y) (h : f.rnd y = i) (hle : y ≤ i) : f.rnd (2 * i - y) = i := by
  have hz : y ≤ 2 * i - y := by linarith
  have hz0 : 0 < 2 * i - y := by linarith
  by_cases hu : f.ue (2 * i - y) = f.ue y
  · exact f.rnd_refl_same h hu
  · have hlt : f.ue y < f.ue (2 * i - y) := lt_of_le_of_ne (f.ue_le_of hy hz) (fun e => hu e.symm)
    set u := f.ue y with hud
    set v := f.ue (2 * i - y) with hvd
    have herr := f.abs_rnd_sub_le y
    rw [h, ← hud, abs_of_nonneg (by linarith)] at herr
    have hv : v = ilog2 (2 * i - y) - (f.p - 1) := by
      rcases max_choice (ilog2 (2 * i - y) - (f.p - 1 : ℤ)) f.emin with hm | hm
      · exact hm
      · have h1 : v = f.emin := hm
        have := f.emin_le_ue y
        omega
    have hl : ilog2 y < ilog2 (2 * i - y) := by
      have : ilog2 y - (f.p - 1 : ℤ) ≤ u := le_max_left _ _
      omega
    -- the result is at or above the next power of two
    obtain ⟨_, E2⟩ := ilog2_spec hy.ne'
    obtain ⟨Z1, _⟩ := ilog2_spec hz0.ne'
    rw [abs_of_pos hy] at E2
    rw [abs_of_pos hz0] at Z1
    set K := ilog2 (2 * i - y) with hK
    have hKu : u ≤ K := by
      have : (1 : ℤ) ≤ f.p := by exact_mod_cast f.hp
      omega
    have hiR : f.Repr i := h ▸ f.repr_rnd y
    have hiK : pow2 K ≤ i := by
      -- both are multiples of the unit of y, and i > 2^K - unit
      by_contra hc
      obtain ⟨k, hk, -⟩ := pow2_nonneg_int (e := K - u) (by omega)
      have hi2 : i = rne (y * pow2 (-u)) * pow2 u := h.symm
      have hK2 : pow2 K = k * pow2 u := by rw [← hk, ← pow2_add]; congr 1; ring
      have hu2 : pow2 u = 2 * pow2 (u - 1) := by
        rw [show u = (u - 1) + 1 by ring, pow2_add, pow2_one, show u - 1 + 1 - 1 = u - 1 by ring]; ring
      have h1 : rne (y * pow2 (-u)) < k := by
        have h3 : (rne (y * pow2 (-u)) : ℚ) * pow2 u < k * pow2 u := by rw [← hi2, ← hK2]; exact not_le.mp hc
        exact_mod_cast lt_of_mul_lt_mul_right h3 (pow2_pos u).le
      have h2 : (rne (y * pow2 (-u)) : ℚ) + 1 ≤ k := by exact_mod_cast h1
      have h3 := mul_le_mul_of_nonneg_right h2 (pow2_pos u).le
      rw [add_mul, ← hi2, ← hK2] at h3
      have := pow2_pos (u - 1)
      linarith
    have hiv : v ≤ f.ue i := by
      have hi0 : 0 < i := lt_of_lt_of_le (pow2_pos _) hiK
      have : K ≤ ilog2 i := le_ilog2_of hi0.ne' (by rw [abs_of_pos hi0]; exact hiK)
      refine le_trans ?_ (le_max_left _ _)
      omega
    obtain ⟨n, hn⟩ := f.repr_mul hiR hiv
    have hp1 : pow2 (u - 1) * 4 ≤ pow2 v := by
      rw [show (4 : ℚ) = pow2 2 by rfl, ← pow2_add]
      exact pow2_le (by omega)
    rw [rnd_eq_mul, ← hvd]
    have : rne ((2 * i - y) * pow2 (-v)) = n := by
      refine rne_eq_of_abs_lt ?_
      have e : (2 * i - y) * pow2 (-v) - n = (i - y) * pow2 (-v) := by
        have : i * pow2 (-v) = n := by
          conv_lhs => rw [hn]
          rw [mul_assoc, pow2_mul_neg, mul_one]
        rw [← this]; ring
      rw [e, abs_of_nonneg (mul_nonneg (by linarith) (pow2_pos _).le), pow2_neg, ← div_eq_mul_inv, div_lt_iff₀ (pow2_pos v)]
      have := pow2_pos v
      linarith
    rw [this, ← hn]

/-- Away from powers of two it also reaches as far down as up. -/
theorem rnd_refl_down {y i : ℚ} (hi : 0 < i) (h : f.rnd y = i) (hle : i ≤ y) (hne : ∀ e, i ≠ pow2 e) : f.rnd (2 * i - y) = i := by
  have hy : 0 < y := by linarith
  refine f.rnd_refl_same h ?_
  set u := f.ue y with hud
  have herr := f.abs_rnd_sub_le y
  rw [h, ← hud, abs_of_nonpos (by linarith)] at herr
  have hi2 : i = rne (y * pow2 (-u)) * pow2 u := h.symm
  have hu2 : pow2 u = 2 * pow2 (u - 1) := by
    rw [show u = (u - 1) + 1 by ring, pow2_add, pow2_one, show u - 1 + 1 - 1 = u - 1 by ring]; ring
  have hup := pow2_pos (u - 1)
  have hN : (1 : ℤ) ≤ rne (y * pow2 (-u)) := by
    by_contra hc
    have : (rne (y * pow2 (-u)) : ℚ) ≤ 0 := by exact_mod_cast (by omega : rne (y * pow2 (-u)) ≤ 0)
    have := mul_nonpos_of_nonpos_of_nonneg this (pow2_pos u).le
    linarith
  have hiu : pow2 u ≤ i := by
    rw [hi2]
    have : (1 : ℚ) ≤ rne (y * pow2 (-u)) := by exact_mod_cast hN
    have := mul_le_mul_of_nonneg_right this (pow2_pos u).le
    linarith
  have hz0 : 0 < 2 * i - y := by linarith
  have hzy : 2 * i - y ≤ y := by linarith
  refine le_antisymm (f.ue_le_of hz0 hzy) ?_
  by_cases hc : u = f.emin
  · rw [hc]; exact f.emin_le_ue _
  have hue : u = ilog2 y - (f.p - 1) := by
    rcases max_choice (ilog2 y - (f.p - 1 : ℤ)) f.emin with hm | hm
    · exact hm
    · exact absurd hm hc
  obtain ⟨E1, _⟩ := ilog2_spec hy.ne'
  rw [abs_of_pos hy] at E1
  set K := ilog2 y with hK
  have hKe : f.emin ≤ K := by
    have := f.emin_le_ue y
    have : (1 : ℤ) ≤ f.p := by exact_mod_cast f.hp
    omega
  have hKi : pow2 K ≤ i := by rw [← h]; exact f.pow2_le_rnd hKe E1
  have hKi' : pow2 K < i := lt_of_le_of_ne hKi (fun e => hne K e.symm)
  obtain ⟨k, hk, -⟩ := pow2_nonneg_int (e := K - u) (by
    have : (1 : ℤ) ≤ f.p := by exact_mod_cast f.hp
    omega)
  have hK2 : pow2 K = k * pow2 u := by rw [← hk, ← pow2_add]; congr 1; ring
  have h1 : k + 1 ≤ rne (y * pow2 (-u)) := by
    have h3 : (k : ℚ) * pow2 u < rne (y * pow2 (-u)) * pow2 u := by rw [← hi2, ← hK2]; exact hKi'
    exact_mod_cast lt_of_mul_lt_mul_right h3 (pow2_pos u).le
  have h2 : (k : ℚ) + 1 ≤ rne (y * pow2 (-u)) := by exact_mod_cast h1
  have h3 := mul_le_mul_of_nonneg_right h2 (pow2_pos u).le
  rw [add_mul, ← hi2, ← hK2] at h3
  have hKz : pow2 K ≤ 2 * i - y := by linarith
  have : K ≤ ilog2 (2 * i - y) := le_ilog2_of hz0.ne' (by rw [abs_of_pos hz0]; exact hKz)
  refine le_trans ?_ (le_max_left _ _)
  omega

/-- `c·x` rounded, divided by `c` and multiplied by `c` again is unchanged. -/
theorem rnd_forth_back {c x : ℚ} (hc : 0 < c) (hx : 0 < x) (hr : f.Repr x)
    (H : ∀ e, f.rnd (c * x) = pow2 e → f.rnd (c * f.rnd (pow2 e / c)) = pow2 e) :
    f.rnd (c * f.rnd (f.rnd (c * x) / c)) = f.rnd (c * x) := by
  have hcx : 0 < c * x := by positivity
  generalize hi : f.rnd (c * x) = i at H ⊢
  have hi0 : 0 ≤ i := hi ▸ f.rnd_nonneg hcx.le
  rcases hi0.eq_or_lt with h0 | hpos
  · rw [← h0]; simp
  by_cases hpow : ∃ e, i = pow2 e
  · obtain ⟨e, he⟩ := hpow
    have := H e he
    rw [he]; exact this
  have hiR : f.Repr i := hi ▸ f.repr_rnd _
  have hic : 0 < i / c := by positivity
  have near := f.rnd_nearest hic hr
  generalize f.rnd (i / c) = x' at near ⊢
  have near' : |c * x' - i| ≤ |c * x - i| := by
    have e : ∀ a : ℚ, |c * a - i| = c * |a - i / c| := by
      intro a
      rw [← abs_of_pos hc, ← abs_mul, abs_of_pos hc]
      congr 1; field_simp
    rw [e, e]
    exact mul_le_mul_of_nonneg_left near hc.le
  rcases le_total (c * x) i with hlt | hgt
  · rw [abs_of_nonpos (show c * x - i ≤ 0 by linarith), abs_le] at near'
    have up := f.rnd_refl_up hcx hi hlt
    have a1 := f.rnd_mono (show c * x ≤ c * x' by linarith)
    have a2 := f.rnd_mono (show c * x' ≤ 2 * i - c * x by linarith)
    rw [hi] at a1
    rw [up] at a2
    exact le_antisymm a2 a1
  · rw [abs_of_nonneg (show 0 ≤ c * x - i by linarith), abs_le] at near'
    have dn := f.rnd_refl_down hpos hi hgt (fun e he => hpow ⟨e, he⟩)
    have a1 := f.rnd_mono (show c * x' ≤ c * x by linarith)
    have a2 := f.rnd_mono (show 2 * i - c * x ≤ c * x' by linarith)
    rw [hi] at a1
    rw [dn] at a2
    exact le_antisymm a1 a2

/-- If something below rounds up to `i`, all within half a unit above rounds down to it. -/
theorem rnd_half_up {y i w : ℚ} (hy : 0 < y) (h : f.rnd y = i) (hlt : y < i) (hw : i ≤ w) (hw' : w < i + pow2 (f.ue y) / 2) : f.rnd w = i := by
  set u := f.ue y with hud
  have pu := pow2_pos u
  have hi2 : i = rne (y * pow2 (-u)) * pow2 u := h.symm
  have hi0 : 0 < i := hy.trans hlt
  have hN : (1 : ℤ) ≤ rne (y * pow2 (-u)) := by
    by_contra hc
    have : (rne (y * pow2 (-u)) : ℚ) ≤ 0 := by exact_mod_cast (by omega : rne (y * pow2 (-u)) ≤ 0)
    have := mul_nonpos_of_nonpos_of_nonneg this pu.le
    linarith
  have hiu : pow2 u ≤ i := by
    rw [hi2]
    have : (1 : ℚ) ≤ rne (y * pow2 (-u)) := by exact_mod_cast hN
    have := mul_le_mul_of_nonneg_right this pu.le
    linarith
  have hz0 : 0 < 2 * i - w := by linarith
  have hz : f.rnd (2 * i - w) = i := by
    have hiR : f.Repr i := h ▸ f.repr_rnd y
    rcases le_or_gt y (2 * i - w) with hle | hgt
    · have a1 := f.rnd_mono hle
      have a2 := f.rnd_le_repr hiR (show 2 * i - w ≤ i by linarith)
      rw [h] at a1
      exact le_antisymm a2 a1
    · have hue : f.ue (2 * i - w) = u := by
        refine le_antisymm (f.ue_le_of hz0 hgt.le) ?_
        by_cases hc : u = f.emin
        · rw [hc]; exact f.emin_le_ue _
        have hue : u = ilog2 y - (f.p - 1) := by
          rcases max_choice (ilog2 y - (f.p - 1 : ℤ)) f.emin with hm | hm
          · exact hm
          · exact absurd hm hc
        obtain ⟨E1, _⟩ := ilog2_spec hy.ne'
        rw [abs_of_pos hy] at E1
        set K := ilog2 y with hK
        obtain ⟨k, hk, -⟩ := pow2_nonneg_int (e := K - u) (by
          have : (1 : ℤ) ≤ f.p := by exact_mod_cast f.hp
          omega)
        have hK2 : pow2 K = k * pow2 u := by rw [← hk, ← pow2_add]; congr 1; ring
        have h1 : k + 1 ≤ rne (y * pow2 (-u)) := by
          have h3 : (k : ℚ) * pow2 u < rne (y * pow2 (-u)) * pow2 u := by rw [← hi2, ← hK2]; linarith
          exact_mod_cast lt_of_mul_lt_mul_right h3 pu.le
        have h2 : (k : ℚ) + 1 ≤ rne (y * pow2 (-u)) := by exact_mod_cast h1
        have h3 := mul_le_mul_of_nonneg_right h2 pu.le
        rw [add_mul, ← hi2, ← hK2] at h3
        have : K ≤ ilog2 (2 * i - w) := le_ilog2_of hz0.ne' (by rw [abs_of_pos hz0]; linarith)
        refine le_trans ?_ (le_max_left _ _)
        omega
      rw [rnd_eq_mul, hue]
      have : rne ((2 * i - w) * pow2 (-u)) = rne (y * pow2 (-u)) := by
        refine rne_eq_of_abs_lt ?_
        have e : (rne (y * pow2 (-u)) : ℚ) = i * pow2 (-u) := by
          conv_rhs => rw [hi2]
          rw [mul_assoc, pow2_mul_neg, mul_one]
        rw [e, ← sub_mul, abs_mul, abs_of_pos (pow2_pos (-u)), abs_of_nonpos (by linarith), pow2_neg, ← div_eq_mul_inv, div_lt_iff₀ pu]
        linarith
      rw [this, ← hi2]
  have := f.rnd_refl_up hz0 hz (by linarith)
  rwa [show 2 * i - (2 * i - w) = w by ring] at this

end Fmt
/-- The units of a quotient and of its way back cannot conspire: a product of a number of 53 bits with an odd number of more
than 16 bits is no power of two times 24000. -/
private theorem no_tie {I F e : ℤ} (hI : 1 ≤ I) (hF : 48000 ≤ F) : (I * (2 * F - 1) : ℚ) * pow2 e ≠ 48000 := by
  intro h
  rcases le_or_gt 0 e with he | he
  · obtain ⟨k, hk, hk0⟩ := pow2_nonneg_int he
    rw [hk] at h
    have h' : I * (2 * F - 1) * k = 48000 := by exact_mod_cast h
    have : 2 * F - 1 ≤ I * (2 * F - 1) := by nlinarith
    nlinarith
  · obtain ⟨n, hn⟩ := Int.eq_ofNat_of_zero_le (show 0 ≤ -e by omega)
    have h2 : (I * (2 * F - 1) : ℚ) = 375 * 2 ^ (n + 7) := by
      have e1 : pow2 e * pow2 (-e) = 1 := pow2_mul_neg e
      have e2 : pow2 (-e) = 2 ^ n := by
        rw [hn]
        have := pow2_nat n
        push_cast at this
        exact this
      have : (I * (2 * F - 1) : ℚ) = I * (2 * F - 1) * pow2 e * pow2 (-e) := by rw [mul_assoc, e1, mul_one]
      rw [this, h, e2, pow_add]; norm_num; ring
    have h3 : I * (2 * F - 1) = 375 * 2 ^ (n + 7) := by exact_mod_cast h2
    have cop : IsCoprime (2 * F - 1) ((2 : ℤ) ^ (n + 7)) := by
      refine IsCoprime.pow_right ⟨-1, F, by ring⟩
    have dv : (2 * F - 1) ∣ 375 := by
      refine cop.dvd_of_dvd_mul_right ?_
      exact ⟨I, by rw [← h3]; ring⟩
    have := Int.le_of_dvd (by norm_num) dv
    omega

private theorem half : pow2 (-1) = 1 / 2 := by rw [pow2_eq]; norm_num

private theorem squeeze {I N : ℤ} {t : ℚ} (ht : 0 < t) (b1 : (I + 1 / 2 : ℚ) * N * t ≤ 24000) (b2 : (I - 1 / 2 : ℚ) * (N + 1) * t ≤ 24000)
    (b3 : 24000 ≤ (I : ℚ) * (N + 1 / 2) * t) : (I : ℚ) * (N + 1 / 2) * t = 24000 := by
  have c1 : (N : ℚ) ≤ I := by
    have := le_of_mul_le_mul_right (b1.trans b3) ht
    linarith
  have c2 : (I : ℚ) ≤ N + 1 := by
    have := le_of_mul_le_mul_right (b2.trans b3) ht
    linarith
  have c1' : N ≤ I := by exact_mod_cast c1
  have c2' : I ≤ N + 1 := by exact_mod_cast c2
  refine le_antisymm ?_ b3
  rcases (by omega : I = N ∨ I = N + 1) with h | h
  · subst h; linarith
  · subst h; push_cast at b2 ⊢; linarith

/-- Order of a quotient and of its inverse. -/
private theorem quot_le {a i r : ℚ} (hr : 0 < r) (hi : 0 < i) (h : a * i = 24000) :
    (24000 / r ≤ i ↔ a ≤ r) ∧ (i ≤ 24000 / r ↔ r ≤ a) ∧ (24000 / r < i ↔ a < r) := by
  refine ⟨?_, ?_, ?_⟩
  · rw [div_le_iff₀ hr, ← h, mul_comm a]; exact mul_le_mul_iff_right₀ hi
  · rw [le_div_iff₀ hr, ← h, mul_comm a]; exact mul_le_mul_iff_right₀ hi
  · rw [div_lt_iff₀ hr, ← h, mul_comm a]; exact mul_lt_mul_iff_right₀ hi

/-- `24000/x` rounded, inverted and inverted again is unchanged. -/
theorem rnd_recip_back {x : ℚ} (hr : b64.Repr x) (h0 : (2 ^ 200)⁻¹ ≤ x) (h1 : x ≤ 2 ^ 200) :
    b64.rnd (24000 / b64.rnd (24000 / b64.rnd (24000 / x))) = b64.rnd (24000 / x) := by
  have hx : 0 < x := lt_of_lt_of_le (by positivity) h0
  have hy : 0 < 24000 / x := by positivity
  have yl : pow2 (-200) ≤ 24000 / x := by
    rw [pow2_eq, le_div_iff₀ hx]
    calc (2 : ℚ) ^ (-200 : ℤ) * x ≤ 2 ^ (-200 : ℤ) * 2 ^ 200 := mul_le_mul_of_nonneg_left h1 (by positivity)
      _ ≤ 24000 := by norm_num
  have yu : 24000 / x ≤ pow2 220 := by
    rw [pow2_eq, div_le_iff₀ hx]
    calc (24000 : ℚ) ≤ 2 ^ (220 : ℤ) * (2 ^ 200)⁻¹ := by norm_num
      _ ≤ 2 ^ (220 : ℤ) * x := mul_le_mul_of_nonneg_left h0 (by positivity)
  have il := b64.pow2_le_rnd (by decide) yl
  have iu := b64.rnd_le_pow2 (by decide) yu
  generalize hi : b64.rnd (24000 / x) = i at il iu ⊢
  have hi0 : 0 < i := lt_of_lt_of_le (pow2_pos _) il
  have hiR : b64.Repr i := hi ▸ b64.repr_rnd _
  have ha : 0 < 24000 / i := by positivity
  have near := b64.rnd_nearest ha hr
  have al : pow2 (-220) ≤ 24000 / i := by
    rw [le_div_iff₀ hi0]
    calc pow2 (-220) * i ≤ pow2 (-220) * pow2 220 := mul_le_mul_of_nonneg_left iu (pow2_pos _).le
      _ = 1 := by rw [← pow2_add]; rfl
      _ ≤ 24000 := by norm_num
  have xl := b64.pow2_le_rnd (by decide) al
  generalize hx' : b64.rnd (24000 / i) = x' at near xl ⊢
  have hx0 : 0 < x' := lt_of_lt_of_le (pow2_pos _) xl
  set a := 24000 / i with had
  have hai : a * i = 24000 := by rw [had]; field_simp
  rcases le_total a x with hax | hxa
  · -- the first quotient was rounded up
    have hyi : 24000 / x ≤ i := (quot_le hx hi0 hai).1.mpr hax
    rcases le_total a x' with h' | h'
    · -- and the way back is between
      rw [abs_of_nonneg (by linarith), abs_of_nonneg (by linarith)] at near
      have a1 : b64.rnd (24000 / x) ≤ b64.rnd (24000 / x') :=
        b64.rnd_mono (div_le_div_of_nonneg_left (by norm_num) hx0 (by linarith))
      have a2 : b64.rnd (24000 / x') ≤ i := b64.rnd_le_repr hiR ((quot_le hx0 hi0 hai).1.mpr h')
      rw [hi] at a1
      exact le_antisymm a2 a1
    · rcases hax.eq_or_lt with he | hlt
      · rw [← he] at near
        simp only [sub_self, abs_zero] at near
        have : x' = a := by linarith [abs_nonpos_iff.mp near]
        rw [this, ← hai, mul_div_cancel_left₀ _ ha.ne']
        exact b64.rnd_of_repr hiR
      have hyi' : 24000 / x < i := (quot_le hx hi0 hai).2.2.mpr hlt
      have hiz : i ≤ 24000 / x' := (quot_le hx0 hi0 hai).2.1.mpr h'
      by_contra hne
      have hz : i + pow2 (b64.ue (24000 / x)) / 2 ≤ 24000 / x' := by
        by_contra hc
        exact hne (b64.rnd_half_up hy hi hyi' hiz (not_le.mp hc))
      have hy2 : i - pow2 (b64.ue (24000 / x)) / 2 ≤ 24000 / x := by
        have := b64.abs_rnd_sub_le (24000 / x)
        rw [hi, abs_of_nonneg (by linarith), show b64.ue (24000 / x) - 1 = b64.ue (24000 / x) + -1 by ring, pow2_add,
          half] at this
        linarith
      have iI : i = rne (24000 / x * pow2 (-(b64.ue (24000 / x)))) * pow2 (b64.ue (24000 / x)) := hi.symm
      generalize b64.ue (24000 / x) = u at hz hy2 iI
      generalize rne (24000 / x * pow2 (-u)) = I at iI
      have hx2 : a ≤ x' + pow2 (b64.ue a) / 2 := by
        have := b64.abs_rnd_sub_le a
        rw [hx', abs_of_nonpos (by linarith), show b64.ue a - 1 = b64.ue a + -1 by ring, pow2_add,
          half] at this
        linarith
      have xN : x' = rne (a * pow2 (-(b64.ue a))) * pow2 (b64.ue a) := hx'.symm
      -- the unit of a, and the next float above
      obtain ⟨A1, A2⟩ := ilog2_spec ha.ne'
      rw [abs_of_pos ha] at A1 A2
      have hK : -220 ≤ ilog2 a := le_ilog2_of ha.ne' (by rw [abs_of_pos ha]; exact al)
      have hv : b64.ue a = ilog2 a - 52 := by
        show max (ilog2 a - ((53 : ℕ) - 1 : ℤ)) (-1074) = ilog2 a - 52
        rw [max_eq_left (by norm_num; omega)]; norm_num
      have hKx : pow2 (ilog2 a) ≤ x' := by
        rw [← hx']; exact b64.pow2_le_rnd (by have : b64.emin = -1074 := rfl; omega) A1
      have p52 : pow2 (ilog2 a) = 2 ^ 52 * pow2 (b64.ue a) := by
        rw [hv, show (2 : ℚ) ^ 52 = pow2 52 by rw [pow2_eq]; norm_num, ← pow2_add]; congr 1; ring
      have xr : x' + pow2 (b64.ue a) ≤ x := by
        -- x is above a, hence above x', and on the same grid
        have hl : ilog2 a ≤ ilog2 x := ilog2_mono ha.ne' (by rw [abs_of_pos ha, abs_of_pos hx]; exact hlt.le)
        have hux : b64.ue a ≤ b64.ue x := by
          rw [hv]
          refine le_trans ?_ (le_max_left _ _)
          show ilog2 a - 52 ≤ ilog2 x - ((53 : ℕ) - 1 : ℤ)
          push_cast; omega
        obtain ⟨n, hn⟩ := b64.repr_mul hr hux
        have pv := pow2_pos (b64.ue a)
        have h3 : rne (a * pow2 (-(b64.ue a))) < n := by
          have : (rne (a * pow2 (-(b64.ue a))) : ℚ) * pow2 (b64.ue a) < n * pow2 (b64.ue a) := by rw [← xN, ← hn]; linarith
          exact_mod_cast lt_of_mul_lt_mul_right this pv.le
        have h4 : (rne (a * pow2 (-(b64.ue a))) : ℚ) + 1 ≤ n := by exact_mod_cast h3
        have h5 := mul_le_mul_of_nonneg_right h4 pv.le
        rw [add_mul, ← xN, ← hn, one_mul] at h5
        exact h5
      generalize b64.ue a = v at hx2 xN p52 xr
      generalize rne (a * pow2 (-v)) = N at xN
      have ps := pow2_pos u
      have pg := pow2_pos v
      have hN : (2 ^ 52 : ℤ) ≤ N := by
        have : (2 ^ 52 : ℚ) * pow2 v ≤ N * pow2 v := by rw [← p52, ← xN]; exact hKx
        exact_mod_cast le_of_mul_le_mul_right this pg
      have hI : (1 : ℤ) ≤ I := by
        by_contra hc
        have : (I : ℚ) ≤ 0 := by exact_mod_cast (by omega : I ≤ 0)
        have := mul_nonpos_of_nonpos_of_nonneg this ps.le
        linarith
      set t := pow2 u * pow2 v with ht
      have tpos : 0 < t := mul_pos ps pg
      have hIq : (1 : ℚ) ≤ I := by exact_mod_cast hI
      have hNq : (2 ^ 52 : ℚ) ≤ N := by exact_mod_cast hN
      -- three bounds on 24000
      have b1 : (I + 1 / 2 : ℚ) * N * t ≤ 24000 := by
        rw [le_div_iff₀ hx0, iI, xN] at hz
        calc (I + 1 / 2 : ℚ) * N * t = (I * pow2 u + pow2 u / 2) * (N * pow2 v) := by rw [ht]; ring
          _ ≤ 24000 := hz
      have b2 : (I - 1 / 2 : ℚ) * (N + 1) * t ≤ 24000 := by
        rw [le_div_iff₀ hx, iI] at hy2
        have h6 : (N + 1 : ℚ) * pow2 v ≤ x := by rw [add_mul, one_mul, ← xN]; exact xr
        calc (I - 1 / 2 : ℚ) * (N + 1) * t = (I * pow2 u - pow2 u / 2) * ((N + 1) * pow2 v) := by rw [ht]; ring
          _ ≤ (I * pow2 u - pow2 u / 2) * x := mul_le_mul_of_nonneg_left h6 (by nlinarith)
          _ ≤ 24000 := hy2
      have b3 : 24000 ≤ (I : ℚ) * (N + 1 / 2) * t := by
        rw [← hai]
        calc a * i ≤ (x' + pow2 v / 2) * i := mul_le_mul_of_nonneg_right hx2 hi0.le
          _ = (I : ℚ) * (N + 1 / 2) * t := by rw [iI, xN, ht]; ring
      have eqd := squeeze tpos b1 b2 b3
      refine no_tie (I := I) (F := N + 1) (e := u + v) hI (by omega) ?_
      rw [pow2_add, ← ht]
      push_cast
      linarith
  · -- the first quotient was rounded down
    have hyi : i ≤ 24000 / x := (quot_le hx hi0 hai).2.1.mpr hxa
    rcases le_total x' a with h' | h'
    · rw [abs_of_nonpos (by linarith), abs_of_nonpos (by linarith)] at near
      have a1 : b64.rnd (24000 / x') ≤ b64.rnd (24000 / x) :=
        b64.rnd_mono (div_le_div_of_nonneg_left (by norm_num) hx (by linarith))
      have a2 : i ≤ b64.rnd (24000 / x') := b64.repr_le_rnd hiR ((quot_le hx0 hi0 hai).2.1.mpr h')
      rw [hi] at a1
      exact le_antisymm a1 a2
    · by_cases hpow : ∃ e, i = pow2 e
      · obtain ⟨e, he⟩ := hpow
        have e1 : -200 ≤ e := by rw [he, pow2_le_iff] at il; exact il
        have e2 : e ≤ 220 := by rw [he, pow2_le_iff] at iu; exact iu
        have aR : b64.Repr a := by
          refine ⟨24000, -e, ?_, by decide, by have : b64.emin = -1074 := rfl; omega⟩
          rw [had, he, pow2_neg]; push_cast; ring
        have : x' = a := by rw [← hx', b64.rnd_of_repr aR]
        rw [this, ← hai, mul_div_cancel_left₀ _ ha.ne']
        exact b64.rnd_of_repr hiR
      · rw [abs_of_nonneg (by linarith), abs_of_nonpos (by linarith)] at near
        have dn := b64.rnd_refl_down hi0 hi hyi (fun e he => hpow ⟨e, he⟩)
        have le1 : 2 * i - 24000 / x ≤ 24000 / x' := by
          have k : 2 * i ≤ 24000 / x + 24000 / x' := by
            rw [div_add_div _ _ hx.ne' hx0.ne', le_div_iff₀ (mul_pos hx hx0), ← hai]
            have s1 : x + x' ≤ 2 * a := by linarith
            have s2 : 2 * (x * x') ≤ a * (x + x') := by nlinarith [sq_nonneg (x - x'), mul_pos hx hx0]
            nlinarith
          linarith
        have a1 := b64.rnd_mono le1
        rw [dn] at a1
        have a2 : b64.rnd (24000 / x') ≤ i := b64.rnd_le_repr hiR ((quot_le hx0 hi0 hai).1.mpr h')
        exact le_antisymm a2 a1

end Verif
