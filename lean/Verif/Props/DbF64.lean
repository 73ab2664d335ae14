import Verif.Props.Samples
import Verif.Props.InterpF64
import Verif.Proofs.Time
import Verif.Spec.LibmPow
import Mathlib.Analysis.Complex.ExponentialBounds

/-! # Decibels and panning in IEEE arithmetic: C116, C117 -/

namespace Verif
open Fl

/-! ## C116 dB conversions -/

private theorem log_ten : 2 ≤ Real.log 10 ∧ Real.log 10 ≤ 3 := by
  have h := Real.exp_one_gt_d9
  have h' := Real.exp_one_lt_d9
  constructor
  · rw [Real.le_log_iff_exp_le (by norm_num), show (2 : ℝ) = ((2 : ℕ) : ℝ) * 1 by norm_num, Real.exp_nat_mul]
    have : Real.exp 1 ^ 2 ≤ (2.8 : ℝ) ^ 2 := pow_le_pow_left₀ (Real.exp_pos _).le (by linarith) 2
    exact le_trans this (by norm_num)
  · rw [Real.log_le_iff_le_exp (by norm_num), show (3 : ℝ) = ((3 : ℕ) : ℝ) * 1 by norm_num, Real.exp_nat_mul]
    have : (2.7 : ℝ) ^ 3 ≤ Real.exp 1 ^ 3 := pow_le_pow_left₀ (by norm_num) (by linarith) 3
    exact le_trans (by norm_num) this

/-- Changing the exponent by `δ` changes the power by at most `6|δ|` of it. -/
private theorem pow_change {a b : ℝ} (h : |b - a| ≤ 1 / 3) : |(10 : ℝ) ^ b - (10 : ℝ) ^ a| ≤ 6 * |b - a| * (10 : ℝ) ^ a := by
  have hpos : (0 : ℝ) < 10 ^ a := Real.rpow_pos_of_pos (by norm_num) _
  have e : (10 : ℝ) ^ b = 10 ^ a * Real.exp (Real.log 10 * (b - a)) := by
    rw [← Real.rpow_def_of_pos (by norm_num), ← Real.rpow_add (by norm_num)]
    congr 1; ring
  obtain ⟨h1, h2⟩ := log_ten
  have h3 : |Real.log 10 * (b - a)| ≤ 3 * |b - a| := by
    rw [abs_mul, abs_of_nonneg (by linarith)]
    exact mul_le_mul_of_nonneg_right h2 (abs_nonneg _)
  have h4 := Real.abs_exp_sub_one_le (x := Real.log 10 * (b - a)) (by linarith)
  rw [e, show (10 : ℝ) ^ a * Real.exp (Real.log 10 * (b - a)) - 10 ^ a = (Real.exp (Real.log 10 * (b - a)) - 1) * 10 ^ a by ring, abs_mul,
    abs_of_pos hpos]
  exact mul_le_mul_of_nonneg_right (by linarith) hpos.le

private theorem cast_abs_le {a b : ℚ} (h : |a| ≤ b) : |(a : ℝ)| ≤ (b : ℝ) := by exact_mod_cast h

private theorem mixed64r (q : ℚ) : |((b64.rnd q : ℚ) : ℝ) - q| ≤ (2 ^ 53)⁻¹ * |(q : ℝ)| + (2 ^ 250)⁻¹ := by
  have h := b64.abs_rnd_sub_le_mixed q
  have h2 : |b64.rnd q - q| ≤ (2 ^ 53)⁻¹ * |q| + (2 ^ 250)⁻¹ :=
    h.trans (add_le_add (mul_le_mul_of_nonneg_right (by decide +kernel) (abs_nonneg _)) (by decide +kernel))
  have : ((|b64.rnd q - q| : ℚ) : ℝ) ≤ (((2 ^ 53)⁻¹ * |q| + (2 ^ 250)⁻¹ : ℚ) : ℝ) := Rat.cast_le.mpr h2
  push_cast at this
  exact this

/-- `db_to_linear` is accurate to `2^-44`, for levels between -600 and 600 dB. -/
theorem C116_db_to_linear [Libm F64] (hA : DbAccurate) (db : F64) (q : ℚ) (h : db.Is q) (hq : |q| ≤ 600) :
    ∃ p : ℚ, (dbToLinear db).Is p ∧ |(p : ℝ) - gainOf q| ≤ (2 ^ 44)⁻¹ * gainOf q := by
  have h20 : (lit 20 : F64).Is 20 := by decide +kernel
  have hq20 : |q / 20| ≤ 30 := by
    rw [abs_div, abs_of_pos (by norm_num : (0 : ℚ) < 20), div_le_iff₀ (by norm_num)]; linarith
  have hd := Is.div h h20 (by norm_num) (fits64' 5 (by norm_num) (hq20.trans (by norm_num)))
  have e1 := mixed64r (q / 20)
  have e2 := cast_abs_le hq20
  push_cast at e1 e2
  have e3 : |((b64.rnd (q / 20) : ℚ) : ℝ) - (q : ℝ) / 20| ≤ (2 ^ 48)⁻¹ := by
    refine e1.trans ?_
    have : ((2 : ℝ) ^ 53)⁻¹ * |(q : ℝ) / 20| ≤ (2 ^ 53)⁻¹ * 30 := mul_le_mul_of_nonneg_left e2 (by positivity)
    have : ((2 : ℝ) ^ 53)⁻¹ * 30 + (2 ^ 250)⁻¹ ≤ (2 ^ 48)⁻¹ := by norm_num
    linarith
  have hy : |b64.rnd (q / 20)| ≤ 32 := by
    have : |((b64.rnd (q / 20) : ℚ) : ℝ)| ≤ 32 := by
      have h1 := abs_sub_abs_le_abs_sub ((b64.rnd (q / 20) : ℚ) : ℝ) ((q : ℝ) / 20)
      have h2 : ((2 : ℝ) ^ 48)⁻¹ ≤ 1 := by norm_num
      linarith
    exact_mod_cast this
  obtain ⟨p, hp, ep⟩ := hA.pow10 _ _ hd hy
  refine ⟨p, hp, ?_⟩
  have e4 := pow_change (a := (q : ℝ) / 20) (b := ((b64.rnd (q / 20) : ℚ) : ℝ)) (e3.trans (by norm_num))
  change _ ≤ _ * gainOf q at e4
  change |_ - gainOf q| ≤ _ at e4
  have hG := gainOf_pos (q : ℝ)
  generalize ((10 : ℝ) ^ ((b64.rnd (q / 20) : ℚ) : ℝ)) = P at *
  generalize gainOf (q : ℝ) = G at *
  generalize |((b64.rnd (q / 20) : ℚ) : ℝ) - (q : ℝ) / 20| = δ at *
  have e5 : 6 * δ * G ≤ 6 * (2 ^ 48)⁻¹ * G := mul_le_mul_of_nonneg_right (by linarith) hG.le
  have e6 := abs_sub_le (p : ℝ) P G
  have e7 : P ≤ G + 6 * (2 ^ 48)⁻¹ * G := by linarith [(abs_le.mp e4).2]
  have e8 : ((2 : ℝ) ^ 45)⁻¹ * P ≤ (2 ^ 45)⁻¹ * (G + 6 * (2 ^ 48)⁻¹ * G) := mul_le_mul_of_nonneg_left e7 (by positivity)
  have e9 : ((2 : ℝ) ^ 45)⁻¹ * (G + 6 * (2 ^ 48)⁻¹ * G) + 6 * (2 ^ 48)⁻¹ * G ≤ (2 ^ 44)⁻¹ * G := by
    have : ((2 : ℝ) ^ 45)⁻¹ * (1 + 6 * (2 ^ 48)⁻¹) + 6 * (2 ^ 48)⁻¹ ≤ (2 ^ 44)⁻¹ := by norm_num
    nlinarith
  linarith

example [Libm F64] (hA : DbAccurate) : ∃ p : ℚ, (dbToLinear (lit (-6) : F64)).Is p ∧ |(p : ℝ) - gainOf (-6 : ℚ)| ≤ (2 ^ 44)⁻¹ * gainOf (-6 : ℚ) :=
  C116_db_to_linear hA _ (-6) (by decide +kernel) (by norm_num)

private theorem num_log {A B δ x : ℝ} (hA : 0 ≤ A) (hδ : δ ≤ (2 ^ 45)⁻¹ * A + (2 ^ 200)⁻¹) (hB : B ≤ A + δ)
    (hx : x ≤ (2 ^ 53)⁻¹ * (20 * B) + (2 ^ 250)⁻¹ + 20 * δ) : x ≤ (2 ^ 44)⁻¹ * (20 * A) + (2 ^ 190)⁻¹ := by
  norm_num at *
  linarith

/-- `linear_to_db` is accurate to `2^-44` of the level (plus `2^-190`), for every positive gain. -/
theorem C116_linear_to_db [Libm F64] (hA : DbAccurate) (g : F64) (q : ℚ) (h : g.Is q) (h0 : 0 < q) :
    ∃ d : ℚ, (linearToDb g).Is d ∧ |(d : ℝ) - 20 * Real.logb 10 q| ≤ (2 ^ 44)⁻¹ * |20 * Real.logb 10 q| + (2 ^ 190)⁻¹ := by
  obtain ⟨l, hl, el⟩ := hA.log10 g q h h0
  have hr := log10_range h h0
  have h20 : (lit 20 : F64).Is 20 := by decide +kernel
  have hl1 : |(l : ℝ)| ≤ 2 ^ 12 := by
    have h1 := abs_sub_abs_le_abs_sub (l : ℝ) (Real.logb 10 q)
    have h2 : ((2 : ℝ) ^ 45)⁻¹ * |Real.logb 10 (q : ℝ)| ≤ (2 ^ 45)⁻¹ * 2 ^ 11 := mul_le_mul_of_nonneg_left hr (by positivity)
    have h3 : ((2 : ℝ) ^ 45)⁻¹ * 2 ^ 11 + (2 ^ 200)⁻¹ + 2 ^ 11 ≤ 2 ^ 12 := by norm_num
    linarith
  have hl2 : |20 * l| ≤ 2 ^ 17 := by
    have h1 : |l| ≤ 2 ^ 12 := by exact_mod_cast hl1
    rw [abs_mul, abs_of_pos (by norm_num : (0 : ℚ) < 20)]
    norm_num at h1 ⊢; linarith
  refine ⟨_, Is.mul h20 hl (fits64' 17 (by norm_num) hl2), ?_⟩
  have e1 := mixed64r (20 * l)
  push_cast at e1
  have e2 := abs_sub_le ((b64.rnd (20 * l) : ℚ) : ℝ) (20 * l) (20 * Real.logb 10 q)
  rw [← mul_sub, abs_mul 20 ((l : ℝ) - _), abs_of_pos (by norm_num : (0 : ℝ) < 20)] at e2
  rw [abs_mul 20 (l : ℝ), abs_of_pos (by norm_num : (0 : ℝ) < 20)] at e1
  rw [abs_mul 20 (Real.logb 10 q), abs_of_pos (by norm_num : (0 : ℝ) < 20)]
  have e3 := abs_sub_abs_le_abs_sub (l : ℝ) (Real.logb 10 q)
  exact num_log (abs_nonneg _) el (by linarith) (e2.trans (add_le_add e1 (le_refl _)))

example [Libm F64] (hA : DbAccurate) : ∃ d : ℚ, (linearToDb (lit (1 / 4) : F64)).Is d ∧
    |(d : ℝ) - 20 * Real.logb 10 (1 / 4 : ℚ)| ≤ (2 ^ 44)⁻¹ * |20 * Real.logb 10 (1 / 4 : ℚ)| + (2 ^ 190)⁻¹ :=
  C116_linear_to_db hA _ (1 / 4) (by decide +kernel) (by norm_num)

/-- `1/2`-close ratios have close logarithms. -/
private theorem logb_change {p G : ℝ} (hG : 0 < G) (h : |p - G| ≤ (2 ^ 44)⁻¹ * G) : 0 < p ∧ |20 * Real.logb 10 p - 20 * Real.logb 10 G| ≤ (2 ^ 39)⁻¹ := by
  obtain ⟨h1, h2⟩ := abs_le.mp h
  have hε : ((2 : ℝ) ^ 44)⁻¹ ≤ 1 / 2 := by norm_num
  have hp : 0 < p := by nlinarith
  refine ⟨hp, ?_⟩
  obtain ⟨l1, -⟩ := log_ten
  have hx : 0 < p / G := div_pos hp hG
  have x1 : p / G ≤ 1 + (2 ^ 44)⁻¹ := by rw [div_le_iff₀ hG]; linarith
  have x0 : 1 - (2 ^ 44)⁻¹ ≤ p / G := by rw [le_div_iff₀ hG]; linarith
  rw [← mul_sub, ← Real.logb_div hp.ne' hG.ne', abs_mul, abs_of_pos (by norm_num : (0 : ℝ) < 20)]
  have h3 : |Real.log (p / G)| ≤ (2 ^ 43)⁻¹ := by
    rw [abs_le]
    constructor
    · have := Real.one_sub_inv_le_log_of_pos hx
      have h4 : (p / G)⁻¹ ≤ 1 + (2 ^ 43)⁻¹ := by
        rw [inv_le_comm₀ hx (by positivity)]
        refine le_trans ?_ x0
        norm_num
      linarith
    · have := Real.log_le_sub_one_of_pos hx
      have h4 : ((2 : ℝ) ^ 44)⁻¹ ≤ (2 ^ 43)⁻¹ := by norm_num
      linarith
  have h5 : |Real.logb 10 (p / G)| ≤ (2 ^ 44)⁻¹ := by
    unfold Real.logb
    rw [abs_div, abs_of_pos (by linarith : 0 < Real.log 10), div_le_iff₀ (by linarith)]
    refine h3.trans (le_trans (by norm_num) (mul_le_mul_of_nonneg_left l1 (by positivity)))
  norm_num at h5 ⊢
  linarith

private theorem logb_gainOf (x : ℝ) : 20 * Real.logb 10 (gainOf x) = x := by
  unfold gainOf
  rw [Real.logb_rpow (by norm_num) (by norm_num)]
  ring

private theorem gainOf_logb {x : ℝ} (h : 0 < x) : gainOf (20 * Real.logb 10 x) = x := by
  unfold gainOf
  rw [show 20 * Real.logb 10 x / 20 = Real.logb 10 x by ring, Real.rpow_logb (by norm_num) (by norm_num) h]

/-- The conversions invert each other: from dB and back to within `2^-38 + 2^-43*|dB|`, for levels between -600 and 600 dB; from a
gain between `10^-29` and `10^29` and back to relative accuracy `2^-35`. -/
theorem C116_round_trip [Libm F64] (hA : DbAccurate) :
    (∀ (db : F64) (q : ℚ), db.Is q → |q| ≤ 600 →
      ∃ d : ℚ, (linearToDb (dbToLinear db)).Is d ∧ |(d : ℝ) - q| ≤ (2 ^ 38)⁻¹ + (2 ^ 43)⁻¹ * |(q : ℝ)|) ∧
    (∀ (g : F64) (q : ℚ), g.Is q → (10 ^ 29)⁻¹ ≤ q → q ≤ 10 ^ 29 →
      ∃ r : ℚ, (dbToLinear (linearToDb g)).Is r ∧ |(r : ℝ) - q| ≤ (2 ^ 35)⁻¹ * q) := by
  constructor
  · intro db q h hq
    obtain ⟨p, hp, ep⟩ := C116_db_to_linear hA db q h hq
    obtain ⟨p0, e1⟩ := logb_change (gainOf_pos _) ep
    rw [logb_gainOf] at e1
    obtain ⟨d, hd, ed⟩ := C116_linear_to_db hA _ p hp (by exact_mod_cast p0)
    refine ⟨d, hd, ?_⟩
    have e2 := abs_sub_le (d : ℝ) (20 * Real.logb 10 p) q
    have e3 := abs_sub_abs_le_abs_sub (20 * Real.logb 10 (p : ℝ)) q
    generalize 20 * Real.logb 10 (p : ℝ) = L at *
    have hq0 := abs_nonneg (q : ℝ)
    have e4 : ((2 : ℝ) ^ 44)⁻¹ * |L| ≤ (2 ^ 44)⁻¹ * (|(q : ℝ)| + (2 ^ 39)⁻¹) := mul_le_mul_of_nonneg_left (by linarith) (by positivity)
    have e5 : ((2 : ℝ) ^ 44)⁻¹ * (2 ^ 39)⁻¹ + (2 ^ 190)⁻¹ + (2 ^ 39)⁻¹ ≤ (2 ^ 38)⁻¹ := by norm_num
    have e6 : ((2 : ℝ) ^ 44)⁻¹ * |(q : ℝ)| ≤ (2 ^ 43)⁻¹ * |(q : ℝ)| := mul_le_mul_of_nonneg_right (by norm_num) hq0
    linarith
  · intro g q h h1 h2
    have q0 : 0 < q := lt_of_lt_of_le (by positivity) h1
    have q0' : (0 : ℝ) < q := by exact_mod_cast q0
    obtain ⟨d, hd, ed⟩ := C116_linear_to_db hA g q h q0
    have hL : |20 * Real.logb 10 (q : ℝ)| ≤ 580 := by
      have u1 : Real.logb 10 (q : ℝ) ≤ 29 := by
        rw [Real.logb_le_iff_le_rpow (by norm_num) q0', show (29 : ℝ) = ((29 : ℕ) : ℝ) by norm_num, Real.rpow_natCast]
        exact_mod_cast h2
      have u2 : -29 ≤ Real.logb 10 (q : ℝ) := by
        rw [Real.le_logb_iff_rpow_le (by norm_num) q0', Real.rpow_neg (by norm_num), show (29 : ℝ) = ((29 : ℕ) : ℝ) by norm_num, Real.rpow_natCast]
        have : (((10 ^ 29)⁻¹ : ℚ) : ℝ) ≤ q := Rat.cast_le.mpr h1
        push_cast at this
        exact this
      rw [abs_le]; constructor <;> linarith
    have ed' : |(d : ℝ) - 20 * Real.logb 10 q| ≤ (2 ^ 34)⁻¹ := by
      refine ed.trans ?_
      have : ((2 : ℝ) ^ 44)⁻¹ * |20 * Real.logb 10 (q : ℝ)| ≤ (2 ^ 44)⁻¹ * 580 := mul_le_mul_of_nonneg_left hL (by positivity)
      have : ((2 : ℝ) ^ 44)⁻¹ * 580 + (2 ^ 190)⁻¹ ≤ (2 ^ 34)⁻¹ := by norm_num
      linarith
    have hd6 : |d| ≤ 600 := by
      have : |(d : ℝ)| ≤ 600 := by
        have := abs_sub_abs_le_abs_sub (d : ℝ) (20 * Real.logb 10 q)
        have : ((2 : ℝ) ^ 34)⁻¹ ≤ 1 := by norm_num
        linarith
      exact_mod_cast this
    obtain ⟨r, hr, er⟩ := C116_db_to_linear hA _ d hd hd6
    refine ⟨r, hr, ?_⟩
    have e1 : |(d : ℝ) / 20 - 20 * Real.logb 10 q / 20| ≤ (2 ^ 38)⁻¹ := by
      rw [← sub_div, abs_div, abs_of_pos (by norm_num : (0 : ℝ) < 20), div_le_iff₀ (by norm_num)]
      refine ed'.trans (by norm_num)
    have e2 := pow_change (e1.trans (by norm_num))
    change |gainOf d - gainOf _| ≤ _ * gainOf _ at e2
    rw [gainOf_logb q0'] at e2
    have e3 := abs_sub_le (r : ℝ) (gainOf d) q
    have e4 : 6 * |(d : ℝ) / 20 - 20 * Real.logb 10 q / 20| * q ≤ 6 * (2 ^ 38)⁻¹ * q := mul_le_mul_of_nonneg_right (by linarith) q0'.le
    have e5 : gainOf d ≤ q + 6 * (2 ^ 38)⁻¹ * q := by linarith [(abs_le.mp e2).2]
    have e6 : ((2 : ℝ) ^ 44)⁻¹ * gainOf d ≤ (2 ^ 44)⁻¹ * (q + 6 * (2 ^ 38)⁻¹ * q) := mul_le_mul_of_nonneg_left e5 (by positivity)
    have e7 : ((2 : ℝ) ^ 44)⁻¹ * (q + 6 * (2 ^ 38)⁻¹ * q) + 6 * (2 ^ 38)⁻¹ * q ≤ (2 ^ 35)⁻¹ * q := by
      have : ((2 : ℝ) ^ 44)⁻¹ * (1 + 6 * (2 ^ 38)⁻¹) + 6 * (2 ^ 38)⁻¹ ≤ (2 ^ 35)⁻¹ := by norm_num
      nlinarith
    linarith

/-- The hypotheses: -6 dB, a gain of a quarter, and some libm. -/
example : (∃ l : Libm F64, @DbAccurate l) ∧ (lit (-6) : F64).Is (-6) ∧ |(-6 : ℚ)| ≤ 600 ∧ (lit (1 / 4) : F64).Is (1 / 4) ∧
    ((10 : ℚ) ^ 29)⁻¹ ≤ 1 / 4 ∧ (1 / 4 : ℚ) ≤ 10 ^ 29 :=
  ⟨dbAccurate_exists, by decide +kernel, by norm_num, by decide +kernel, by norm_num, by norm_num⟩

/-! ## C117 panning -/

/-- Rounding a number just above a representable one gives that one. -/
private theorem rnd_near {p x : ℚ} (hp : b32.Repr p) (p0 : 0 < p) (hx : x ≤ p * (1 + (2 ^ 26)⁻¹)) : b32.rnd x ≤ p := by
  rcases le_or_gt x p with h | h
  · exact b32.rnd_le_repr hp h
  have x0 : 0 < x := p0.trans h
  obtain ⟨s1, s2⟩ := ilog2_spec p0.ne'
  obtain ⟨t1, t2⟩ := ilog2_spec x0.ne'
  rw [abs_of_pos p0] at s1 s2
  rw [abs_of_pos x0] at t1 t2
  -- `p` is a multiple of its unit
  have hr := b32.rnd_of_repr hp
  set u := b32.ue p with hu
  set N := rne (p * pow2 (-u)) with hN
  have hpN : p = N * pow2 u := hr.symm
  have hue : ilog2 p - 23 ≤ u := le_max_left _ _
  have hN2 : (N : ℚ) < 2 ^ 24 := by
    have h1 : p < pow2 (u + 24) := s2.trans_le (pow2_le (by omega))
    rw [hpN, pow2_add, mul_comm] at h1
    have h2 := lt_of_mul_lt_mul_left h1 (pow2_pos u).le
    exact h2.trans_eq (by decide +kernel)
  have hun : p * (2 ^ 24)⁻¹ < pow2 u := by
    rw [hpN]
    have := mul_lt_mul_of_pos_right hN2 (pow2_pos u)
    have h3 : (2 : ℚ) ^ 24 * pow2 u * (2 ^ 24)⁻¹ = pow2 u := by field_simp
    calc (N : ℚ) * pow2 u * (2 ^ 24)⁻¹ < 2 ^ 24 * pow2 u * (2 ^ 24)⁻¹ := mul_lt_mul_of_pos_right this (by positivity)
      _ = _ := h3
  -- same binade
  have hk : ilog2 x = ilog2 p := by
    have h1 : ilog2 p ≤ ilog2 x := ilog2_mono p0.ne' (by rw [abs_of_pos p0, abs_of_pos x0]; exact h.le)
    by_contra hne
    have h2 : ilog2 p + 1 ≤ ilog2 x := by omega
    have h3 : pow2 (ilog2 p + 1) ≤ x := (pow2_le h2).trans t1
    -- `p + unit ≤ pow2 (ilog2 p + 1)`
    have hmin : b32.emin ≤ ilog2 p := by
      obtain ⟨m, e, hm, -, he⟩ := hp
      apply le_ilog2_of p0.ne'
      rw [abs_of_pos p0, hm]
      have m0 : (0 : ℚ) < m := by
        by_contra hneg
        have := mul_nonpos_of_nonpos_of_nonneg (not_lt.mp hneg) (pow2_pos e).le
        linarith
      have m1 : (1 : ℚ) ≤ m := by exact_mod_cast Int.cast_pos.mp m0
      calc pow2 b32.emin ≤ pow2 e := pow2_le he
        _ ≤ m * pow2 e := le_mul_of_one_le_left (pow2_pos e).le m1
    have hu1 : u ≤ ilog2 p + 1 := by
      have : u = max (ilog2 p - 23) b32.emin := rfl
      omega
    obtain ⟨n, hn, -⟩ := Fmt.pow2_div_ulp hu1
    have h4 : (N : ℚ) < n := by
      rw [← hn]
      have := mul_lt_mul_of_pos_right s2 (pow2_pos (-u))
      have e : p * pow2 (-u) = N := by rw [hpN, mul_assoc, pow2_mul_neg, mul_one]
      rwa [e] at this
    have h5 : (N : ℚ) + 1 ≤ n := by exact_mod_cast Int.add_one_le_iff.mpr (Int.cast_lt.mp h4)
    have h6 : p + pow2 u ≤ pow2 (ilog2 p + 1) := by
      have := mul_le_mul_of_nonneg_right h5 (pow2_pos u).le
      rw [← hn, mul_assoc, pow2_neg_mul, mul_one, add_mul, ← hpN, one_mul] at this
      exact this
    have h7 : p * (2 ^ 26)⁻¹ ≤ p * (2 ^ 24)⁻¹ := mul_le_mul_of_nonneg_left (by norm_num) p0.le
    linarith
  have hux : b32.ue x = u := by unfold Fmt.ue; rw [hk, hu]; rfl
  have hr2 : rne (x * pow2 (-u)) = N := by
    apply rne_eq_of_abs_lt
    have h1 : x * pow2 (-u) - N = (x - p) * pow2 (-u) := by
      rw [sub_mul, hpN, mul_assoc, pow2_mul_neg, mul_one]
    rw [h1, abs_of_nonneg (mul_nonneg (by linarith) (pow2_pos _).le)]
    have h2 : x - p ≤ pow2 u * (1 / 4) := by
      have : p * (2 ^ 26)⁻¹ = p * (2 ^ 24)⁻¹ * (1 / 4) := by ring
      nlinarith
    calc (x - p) * pow2 (-u) ≤ pow2 u * (1 / 4) * pow2 (-u) := mul_le_mul_of_nonneg_right h2 (pow2_pos _).le
      _ = 1 / 4 := by rw [mul_right_comm, pow2_mul_neg, one_mul]
      _ < 1 / 2 := by norm_num
  unfold Fmt.rnd
  rw [hux, hr2, ← hpN]

private theorem mixed32r (q : ℚ) : |((b32.rnd q : ℚ) : ℝ) - q| ≤ (2 ^ 24)⁻¹ * |(q : ℝ)| + (2 ^ 150)⁻¹ := by
  have h := b32.abs_rnd_sub_le_mixed q
  have h2 : |b32.rnd q - q| ≤ (2 ^ 24)⁻¹ * |q| + (2 ^ 150)⁻¹ :=
    h.trans (add_le_add (mul_le_mul_of_nonneg_right (by decide +kernel) (abs_nonneg _)) (by decide +kernel))
  have : ((|b32.rnd q - q| : ℚ) : ℝ) ≤ (((2 ^ 24)⁻¹ * |q| + (2 ^ 150)⁻¹ : ℚ) : ℝ) := Rat.cast_le.mpr h2
  push_cast at this
  exact this

private theorem num_chan {G p σ x r : ℝ} (hG : 0 < G) (hp : |p - G| ≤ (2 ^ 42)⁻¹ * G) (hx : |x - p * σ| ≤ (2 ^ 53)⁻¹ * |p * σ| + (2 ^ 250)⁻¹)
    (hr : |r - x| ≤ (2 ^ 24)⁻¹ * |x| + (2 ^ 150)⁻¹) :
    |r - G * σ| ≤ (2 ^ 24)⁻¹ * (1 + (2 ^ 16)⁻¹) * (G * |σ|) + (2 ^ 149)⁻¹ := by
  have hW : 0 ≤ G * |σ| := mul_nonneg hG.le (abs_nonneg _)
  have h1 : |p * σ - G * σ| ≤ (2 ^ 42)⁻¹ * (G * |σ|) := by
    rw [← sub_mul, abs_mul, ← mul_assoc]
    exact mul_le_mul_of_nonneg_right hp (abs_nonneg _)
  have h2 : |p * σ| ≤ (1 + (2 ^ 42)⁻¹) * (G * |σ|) := by
    have := abs_sub_abs_le_abs_sub (p * σ) (G * σ)
    rw [abs_mul G, abs_of_pos hG] at this
    linarith
  have h3 := abs_sub_abs_le_abs_sub x (p * σ)
  have h4 := abs_sub_le r x (G * σ)
  have h5 := abs_sub_le x (p * σ) (G * σ)
  generalize G * |σ| = W at *
  generalize |p * σ| = P at *
  generalize |x| = X at *
  generalize |x - p * σ| = a at *
  generalize |p * σ - G * σ| = b at *
  generalize |r - x| = c at *
  generalize |x - G * σ| = d at *
  generalize |r - G * σ| = e at *
  norm_num at *
  linarith

private theorem num_amp {G p σ x : ℝ} (hG : 0 < G) (hG1 : G ≤ 1) (hp : |p - G| ≤ (2 ^ 42)⁻¹ * G) (hσ : (2 ^ 149)⁻¹ ≤ |σ|)
    (hx : |x - p * σ| ≤ (2 ^ 53)⁻¹ * |p * σ| + (2 ^ 250)⁻¹) : |x| ≤ |σ| * (1 + (2 ^ 26)⁻¹) := by
  have h1 : |p| ≤ 1 + (2 ^ 42)⁻¹ := by
    have := abs_sub_abs_le_abs_sub p G
    rw [abs_of_pos hG] at this
    nlinarith [show (0 : ℝ) < (2 ^ 42)⁻¹ by positivity]
  have h2 : |p * σ| ≤ (1 + (2 ^ 42)⁻¹) * |σ| := by
    rw [abs_mul]; exact mul_le_mul_of_nonneg_right h1 (abs_nonneg _)
  have h3 := abs_sub_abs_le_abs_sub x (p * σ)
  generalize |σ| = W at *
  generalize |p * σ| = P at *
  generalize |x| = X at *
  generalize |x - p * σ| = a at *
  norm_num at *
  linarith

/-- One channel. -/
private theorem chan [Libm F64] (hA : DbAccurate) {l : F64} {s : F32} {z L σ : ℚ} (hl : l.Is z) (hz : |z - L| ≤ (2 ^ 42)⁻¹) (hL0 : -120 ≤ L) (hL1 : L ≤ 0)
    (hs : s.Is σ) : ∃ r : ℚ, (SM.down (dbToLinear l * (SM.up s : F64)) : F32).Is r ∧
      |(r : ℝ) - gainOf L * σ| ≤ (2 ^ 24)⁻¹ * (1 + (2 ^ 16)⁻¹) * (gainOf L * |(σ : ℝ)|) + (2 ^ 149)⁻¹ ∧ |r| ≤ |σ| := by
  have hz6 : |z| ≤ 600 := by
    have h1 := abs_sub_abs_le_abs_sub z L
    have h2 : |L| ≤ 120 := abs_le.mpr ⟨hL0, by linarith⟩
    have h3 : ((2 : ℚ) ^ 42)⁻¹ ≤ 1 := by norm_num
    linarith
  obtain ⟨p, hp, ep⟩ := C116_db_to_linear hA l z hl hz6
  have hG := gainOf_pos (L : ℝ)
  have hG1 : gainOf (L : ℝ) ≤ 1 := by
    have : gainOf 0 = 1 := by simp [gainOf]
    rw [← this]
    exact Real.rpow_le_rpow_of_exponent_le (by norm_num) (div_le_div_of_nonneg_right (by exact_mod_cast hL1) (by norm_num))
  have epL : |(p : ℝ) - gainOf L| ≤ (2 ^ 42)⁻¹ * gainOf L := by
    have h1 : |(z : ℝ) / 20 - (L : ℝ) / 20| ≤ (2 ^ 46)⁻¹ := by
      have : ((|z - L| : ℚ) : ℝ) ≤ (((2 ^ 42)⁻¹ : ℚ) : ℝ) := Rat.cast_le.mpr hz
      push_cast at this
      rw [← sub_div, abs_div, abs_of_pos (by norm_num : (0 : ℝ) < 20), div_le_iff₀ (by norm_num)]
      exact this.trans (by norm_num)
    have h2 := pow_change (h1.trans (by norm_num))
    change |gainOf z - gainOf L| ≤ _ * gainOf L at h2
    have h3 := abs_sub_le (p : ℝ) (gainOf z) (gainOf L)
    have h4 : 6 * |(z : ℝ) / 20 - (L : ℝ) / 20| * gainOf L ≤ 6 * (2 ^ 46)⁻¹ * gainOf L := mul_le_mul_of_nonneg_right (by linarith) hG.le
    have h5 : gainOf z ≤ gainOf L + 6 * (2 ^ 46)⁻¹ * gainOf L := by linarith [(abs_le.mp h2).2]
    have h6 : ((2 : ℝ) ^ 44)⁻¹ * gainOf z ≤ (2 ^ 44)⁻¹ * (gainOf L + 6 * (2 ^ 46)⁻¹ * gainOf L) := mul_le_mul_of_nonneg_left h5 (by positivity)
    have h7 : ((2 : ℝ) ^ 44)⁻¹ * (gainOf L + 6 * (2 ^ 46)⁻¹ * gainOf L) + 6 * (2 ^ 46)⁻¹ * gainOf L ≤ (2 ^ 42)⁻¹ * gainOf L := by
      have : ((2 : ℝ) ^ 44)⁻¹ * (1 + 6 * (2 ^ 46)⁻¹) + 6 * (2 ^ 46)⁻¹ ≤ (2 ^ 42)⁻¹ := by norm_num
      nlinarith
    linarith
  have hp2 : |p| ≤ 2 := by
    have : |(p : ℝ)| ≤ 2 := by
      have := abs_sub_abs_le_abs_sub (p : ℝ) (gainOf L)
      rw [abs_of_pos hG] at this
      nlinarith [show ((2 : ℝ) ^ 42)⁻¹ ≤ 1 by norm_num]
    exact_mod_cast this
  have hσ : |σ| ≤ 2 ^ 128 := hs.abs_lt.le.trans_eq (by decide +kernel)
  have hm := Is.mul hp hs.up (fits64' 129 (by norm_num) (by
    rw [abs_mul, show (2 : ℚ) ^ 129 = 2 * 2 ^ 128 by norm_num]
    exact mul_le_mul hp2 hσ (abs_nonneg _) (by norm_num)))
  have ex := mixed64r (p * σ)
  push_cast at ex
  have hamp : |b32.rnd (b64.rnd (p * σ))| ≤ |σ| := by
    rcases eq_or_ne σ 0 with h0 | h0
    · rw [h0, mul_zero, b64.rnd_of_repr b64.repr_zero, b32.rnd_of_repr b32.repr_zero]
    · have hpos : 0 < |σ| := abs_pos.mpr h0
      have hlow : pow2 (-149) ≤ |σ| := by
        have := b32.repr_abs hs.repr
        obtain ⟨m, e, hm, -, he⟩ := this
        rw [hm] at hpos ⊢
        have m0 : (0 : ℚ) < m := by
          by_contra hneg
          have := mul_nonpos_of_nonpos_of_nonneg (not_lt.mp hneg) (pow2_pos e).le
          linarith
        have m1 : (1 : ℚ) ≤ m := by exact_mod_cast Int.cast_pos.mp m0
        calc pow2 (-149) ≤ pow2 e := pow2_le he
          _ ≤ m * pow2 e := le_mul_of_one_le_left (pow2_pos e).le m1
      have hlow' : ((2 : ℝ) ^ 149)⁻¹ ≤ |(σ : ℝ)| := by
        have h1 : (2 ^ 149)⁻¹ ≤ |σ| := le_trans (by decide +kernel) hlow
        have : (((2 ^ 149)⁻¹ : ℚ) : ℝ) ≤ ((|σ| : ℚ) : ℝ) := Rat.cast_le.mpr h1
        push_cast at this
        exact this
      rw [b32.abs_rnd]
      apply rnd_near (b32.repr_abs hs.repr) hpos
      have := num_amp hG hG1 epL hlow' ex
      have h2 : ((|b64.rnd (p * σ)| : ℚ) : ℝ) ≤ ((|σ| * (1 + (2 ^ 26)⁻¹) : ℚ) : ℝ) := by push_cast; exact this
      exact Rat.cast_le.mp h2
  refine ⟨_, hm.down ?_, num_chan hG epL ex (mixed32r _), hamp⟩
  exact lt_of_le_of_lt hamp hs.abs_lt

/-- Level of the left channel in dB at position `p`, as the code has it. -/
def levelL (p : ℚ) : ℚ := if p ≤ 0 then -3 - 117 * (max (-1) p + 1) else -3 * min p 1
/-- Level of the right channel. -/
def levelR (p : ℚ) : ℚ := if 0 ≤ p then -3 - 117 * min p 1 else -3 * (max (-1) p + 1)

/-- IEEE: at every finite position each channel is the sample at its level, to one part in `2^24` (and a bit), and never louder than
the sample itself. -/
theorem C117_pan [Libm F64] (hA : DbAccurate) (s : F32) (g : F64) (σ p : ℚ) (hs : s.Is σ) (hg : g.Is p) :
    (∃ r : ℚ, (Stereo.panM s g).left.Is r ∧
      |(r : ℝ) - gainOf (levelL p) * σ| ≤ (2 ^ 24)⁻¹ * (1 + (2 ^ 16)⁻¹) * (gainOf (levelL p) * |(σ : ℝ)|) + (2 ^ 149)⁻¹ ∧ |r| ≤ |σ|) ∧
    (∃ r : ℚ, (Stereo.panM s g).right.Is r ∧
      |(r : ℝ) - gainOf (levelR p) * σ| ≤ (2 ^ 24)⁻¹ * (1 + (2 ^ 16)⁻¹) * (gainOf (levelR p) * |(σ : ℝ)|) + (2 ^ 149)⁻¹ ∧ |r| ≤ |σ|) := by
  have z0 : (lit 0 : F64).Is 0 := by decide +kernel
  have z1 : (lit 1 : F64).Is 1 := by decide +kernel
  have zm : (-lit 1 : F64).Is (-1) := by decide +kernel
  have z3 : (-lit 3 : F64).Is (-3) := by decide +kernel
  have z120 : (-lit 120 : F64).Is (-120) := by decide +kernel
  have b120 : ((2 : ℚ) ^ 49)⁻¹ * max |(-3)| |(-120)| + (2 ^ 150)⁻¹ ≤ (2 ^ 42)⁻¹ := by
    rw [show max |(-3 : ℚ)| |(-120)| = 120 by norm_num]; norm_num
  have b3 : ((2 : ℚ) ^ 49)⁻¹ * max |0| |(-3)| + (2 ^ 150)⁻¹ ≤ (2 ^ 42)⁻¹ := by
    rw [show max |(0 : ℚ)| |(-3)| = 3 by norm_num]; norm_num
  unfold Stereo.panM
  simp only [hg.le z0, z0.le hg, decide_eq_true_eq]
  constructor
  · by_cases h : p ≤ 0
    · rw [if_pos h]
      obtain ⟨z, h1, h2⟩ := C104_clerp_f64 hg zm z0 z3 z120 (by norm_num) (by norm_num) (by norm_num) (by norm_num) (by norm_num)
      have e : levelL p = -3 + (-120 - -3) * ((max (min (-1) 0) (min (max (-1) 0) p) - -1) / (0 - -1)) := by
        unfold levelL
        rw [if_pos h, show min (-1 : ℚ) 0 = -1 by norm_num, show max (-1 : ℚ) 0 = 0 by norm_num, min_eq_right h]; ring
      rw [← e] at h2
      refine chan hA h1 (h2.trans b120) ?_ ?_ hs
      · unfold levelL; rw [if_pos h]; have : max (-1) p ≤ 0 := max_le (by norm_num) h; linarith
      · unfold levelL; rw [if_pos h]; have : -1 ≤ max (-1) p := le_max_left _ _; linarith
    · rw [if_neg h]
      push Not at h
      obtain ⟨z, h1, h2⟩ := C104_clerp_f64 hg z0 z1 z0 z3 (by norm_num) (by norm_num) (by norm_num) (by norm_num) (by norm_num)
      have e : levelL p = 0 + (-3 - 0) * ((max (min 0 1) (min (max 0 1) p) - 0) / (1 - 0)) := by
        unfold levelL
        rw [if_neg (not_le.mpr h), show min (0 : ℚ) 1 = 0 by norm_num, show max (0 : ℚ) 1 = 1 by norm_num,
          max_eq_right (le_min (by norm_num) h.le), min_comm]; ring
      rw [← e] at h2
      refine chan hA h1 (h2.trans b3) ?_ ?_ hs
      · unfold levelL; rw [if_neg (not_le.mpr h)]; have : min p 1 ≤ 1 := min_le_right _ _; linarith
      · unfold levelL; rw [if_neg (not_le.mpr h)]; have : 0 ≤ min p 1 := le_min h.le (by norm_num); linarith
  · by_cases h : 0 ≤ p
    · rw [if_pos h]
      obtain ⟨z, h1, h2⟩ := C104_clerp_f64 hg z0 z1 z3 z120 (by norm_num) (by norm_num) (by norm_num) (by norm_num) (by norm_num)
      have e : levelR p = -3 + (-120 - -3) * ((max (min 0 1) (min (max 0 1) p) - 0) / (1 - 0)) := by
        unfold levelR
        rw [if_pos h, show min (0 : ℚ) 1 = 0 by norm_num, show max (0 : ℚ) 1 = 1 by norm_num,
          max_eq_right (le_min (by norm_num) h), min_comm]; ring
      rw [← e] at h2
      refine chan hA h1 (h2.trans b120) ?_ ?_ hs
      · unfold levelR; rw [if_pos h]; have : min p 1 ≤ 1 := min_le_right _ _; linarith
      · unfold levelR; rw [if_pos h]; have : 0 ≤ min p 1 := le_min h (by norm_num); linarith
    · rw [if_neg h]
      push Not at h
      obtain ⟨z, h1, h2⟩ := C104_clerp_f64 hg zm z0 z0 z3 (by norm_num) (by norm_num) (by norm_num) (by norm_num) (by norm_num)
      have e : levelR p = 0 + (-3 - 0) * ((max (min (-1) 0) (min (max (-1) 0) p) - -1) / (0 - -1)) := by
        unfold levelR
        rw [if_neg (not_le.mpr h), show min (-1 : ℚ) 0 = -1 by norm_num, show max (-1 : ℚ) 0 = 0 by norm_num, min_eq_right h.le]; ring
      rw [← e] at h2
      refine chan hA h1 (h2.trans b3) ?_ ?_ hs
      · unfold levelR; rw [if_neg (not_le.mpr h)]; have : max (-1) p ≤ 0 := max_le (by norm_num) h.le; linarith
      · unfold levelR; rw [if_neg (not_le.mpr h)]; have : -1 ≤ max (-1) p := le_max_left _ _; linarith

/-- Full left, sample 1/2: the left channel is at -3 dB (see C16). -/
example [Libm F64] (hA : DbAccurate) : ∃ r : ℚ, (Stereo.panM (lit (1 / 2) : F32) (lit (-1) : F64)).left.Is r ∧
    |(r : ℝ) - gainOf (levelL (-1)) * (1 / 2 : ℚ)| ≤ (2 ^ 24)⁻¹ * (1 + (2 ^ 16)⁻¹) * (gainOf (levelL (-1)) * |((1 / 2 : ℚ) : ℝ)|) + (2 ^ 149)⁻¹ ∧ |r| ≤ |1 / 2| :=
  (C117_pan hA _ _ (1 / 2) (-1) (by decide +kernel) (by decide +kernel)).1

/-- The same for positions given in f32. -/
theorem C117_pan_f32 [Libm F64] (hA : DbAccurate) (s g : F32) (σ p : ℚ) (hs : s.Is σ) (hg : g.Is p) :
    (∃ r : ℚ, (Stereo.panS F64 s g).left.Is r ∧
      |(r : ℝ) - gainOf (levelL p) * σ| ≤ (2 ^ 24)⁻¹ * (1 + (2 ^ 16)⁻¹) * (gainOf (levelL p) * |(σ : ℝ)|) + (2 ^ 149)⁻¹ ∧ |r| ≤ |σ|) ∧
    (∃ r : ℚ, (Stereo.panS F64 s g).right.Is r ∧
      |(r : ℝ) - gainOf (levelR p) * σ| ≤ (2 ^ 24)⁻¹ * (1 + (2 ^ 16)⁻¹) * (gainOf (levelR p) * |(σ : ℝ)|) + (2 ^ 149)⁻¹ ∧ |r| ≤ |σ|) := by
  rw [C17_pan_widen]
  exact C117_pan hA s _ σ p hs hg.up

example [Libm F64] (hA : DbAccurate) : ∃ r : ℚ, (Stereo.panS F64 (lit (1 / 2) : F32) (lit 1)).right.Is r ∧
    |(r : ℝ) - gainOf (levelR 1) * (1 / 2 : ℚ)| ≤ (2 ^ 24)⁻¹ * (1 + (2 ^ 16)⁻¹) * (gainOf (levelR 1) * |((1 / 2 : ℚ) : ℝ)|) + (2 ^ 149)⁻¹ ∧ |r| ≤ |1 / 2| :=
  (C117_pan_f32 hA _ _ (1 / 2) 1 (by decide +kernel) (by decide +kernel)).2

private theorem gain3 : gainOf (-3) ≤ 3 / 4 ∧ 1 / 2 ≤ gainOf (-3) := by
  have e : gainOf (-3) ^ 20 = (1000 : ℝ)⁻¹ := by
    unfold gainOf
    rw [← Real.rpow_natCast, ← Real.rpow_mul (by norm_num), show (-3 : ℝ) / 20 * ((20 : ℕ) : ℝ) = ((-3 : ℤ) : ℝ) by norm_num, Real.rpow_intCast]
    norm_num
  have h0 := (gainOf_pos (-3)).le
  constructor
  · refine le_of_pow_le_pow_left₀ (n := 20) (by norm_num) (by norm_num) ?_
    rw [e]; norm_num
  · refine le_of_pow_le_pow_left₀ (n := 20) (by norm_num) h0 ?_
    rw [e]; norm_num

private theorem gain120 : gainOf (-120) = (10 ^ 6)⁻¹ := by
  unfold gainOf
  rw [show ((-120 : ℝ) / 20) = ((-6 : ℤ) : ℝ) by norm_num, Real.rpow_intCast]
  norm_num

/-- Two channels whose gains differ by a factor stay apart under rounding. -/
private theorem apart {A B σ a b : ℝ} (hA0 : 0 < A) (hB0 : 0 < B) (hA : A ≤ 3 / 4) (hB : B * 3 / 4 ≥ A) (hB1 : 1 / 2 ≤ B) (hσ : (2 ^ 100)⁻¹ ≤ |σ|)
    (ha : |a - A * σ| ≤ (2 ^ 24)⁻¹ * (1 + (2 ^ 16)⁻¹) * (A * |σ|) + (2 ^ 149)⁻¹)
    (hb : |b - B * σ| ≤ (2 ^ 24)⁻¹ * (1 + (2 ^ 16)⁻¹) * (B * |σ|) + (2 ^ 149)⁻¹) : |a| < |b| := by
  have h1 := abs_sub_abs_le_abs_sub a (A * σ)
  have h2 := abs_sub_abs_le_abs_sub (B * σ) b
  rw [abs_sub_comm (B * σ)] at h2
  rw [abs_mul A, abs_of_pos hA0] at h1
  rw [abs_mul B, abs_of_pos hB0] at h2
  have h3 : A * |σ| ≤ B * |σ| * (3 / 4) := by
    have := mul_le_mul_of_nonneg_right hB (abs_nonneg σ)
    linarith
  have h4 : 1 / 2 * |σ| ≤ B * |σ| := mul_le_mul_of_nonneg_right hB1 (abs_nonneg _)
  generalize A * |σ| = P at *
  generalize B * |σ| = Q at *
  generalize |a - A * σ| = x at *
  generalize |b - B * σ| = y at *
  norm_num at *
  linarith

/-- C16 in floating point: for samples of at least `2^-100` full left is louder on the right, full right is louder on the left, and in
the centre the left channel is at most `2` millionths of the sample and the right one at least 0.49 of it. -/
theorem C16_pan_f64_violated [Libm F64] (hA : DbAccurate) (s : F32) (σ : ℚ) (hs : s.Is σ) (hσ : (2 ^ 100)⁻¹ ≤ |σ|) :
    (∃ l r : ℚ, (Stereo.panM s (-lit 1 : F64)).left.Is l ∧ (Stereo.panM s (-lit 1 : F64)).right.Is r ∧ |l| < |r|) ∧
    (∃ l r : ℚ, (Stereo.panM s (lit 1 : F64)).left.Is l ∧ (Stereo.panM s (lit 1 : F64)).right.Is r ∧ |r| < |l|) ∧
    (∃ l r : ℚ, (Stereo.panM s (lit 0 : F64)).left.Is l ∧ (Stereo.panM s (lit 0 : F64)).right.Is r ∧ |l| ≤ 2 / 10 ^ 6 * |σ| ∧ 49 / 100 * |σ| ≤ |r|) := by
  have hσ' : ((2 : ℝ) ^ 100)⁻¹ ≤ |(σ : ℝ)| := by
    have : (((2 ^ 100)⁻¹ : ℚ) : ℝ) ≤ ((|σ| : ℚ) : ℝ) := Rat.cast_le.mpr hσ
    push_cast at this
    exact this
  obtain ⟨g1, g2⟩ := gain3
  have p3 := gainOf_pos (-3)
  have e0 : gainOf 0 = 1 := by simp [gainOf]
  refine ⟨?_, ?_, ?_⟩
  · obtain ⟨⟨l, h1, h2, -⟩, r, h3, h4, -⟩ := C117_pan hA s (-lit 1) σ (-1) hs (by decide +kernel)
    rw [show levelL (-1) = -3 by decide +kernel] at h2
    rw [show levelR (-1) = 0 by decide +kernel] at h4
    push_cast at h2 h4
    rw [e0] at h4
    refine ⟨l, r, h1, h3, ?_⟩
    have := apart p3 one_pos g1 (by linarith) (by norm_num) hσ' h2 h4
    exact_mod_cast this
  · obtain ⟨⟨l, h1, h2, -⟩, r, h3, h4, -⟩ := C117_pan hA s (lit 1) σ 1 hs (by decide +kernel)
    rw [show levelL 1 = -3 by decide +kernel] at h2
    rw [show levelR 1 = -120 by decide +kernel] at h4
    push_cast at h2 h4
    rw [gain120] at h4
    refine ⟨l, r, h1, h3, ?_⟩
    have := apart (by norm_num) p3 (by norm_num) (by norm_num; linarith) g2 hσ' h4 h2
    exact_mod_cast this
  · obtain ⟨⟨l, h1, h2, -⟩, r, h3, h4, -⟩ := C117_pan hA s (lit 0) σ 0 hs (by decide +kernel)
    rw [show levelL 0 = -120 by decide +kernel] at h2
    rw [show levelR 0 = -3 by decide +kernel] at h4
    push_cast at h2 h4
    rw [gain120] at h2
    refine ⟨l, r, h1, h3, ?_, ?_⟩
    · have h5 := abs_sub_abs_le_abs_sub (l : ℝ) ((10 ^ 6)⁻¹ * σ)
      rw [abs_mul, abs_of_pos (by norm_num : (0 : ℝ) < (10 ^ 6)⁻¹)] at h5
      have : |(l : ℝ)| ≤ 2 / 10 ^ 6 * |(σ : ℝ)| := by
        generalize |(l : ℝ) - (10 ^ 6)⁻¹ * σ| = x at *
        norm_num at *
        linarith
      have h6 : ((|l| : ℚ) : ℝ) ≤ ((2 / 10 ^ 6 * |σ| : ℚ) : ℝ) := by push_cast; exact this
      exact Rat.cast_le.mp h6
    · have h5 := abs_sub_abs_le_abs_sub (gainOf (-3) * (σ : ℝ)) r
      rw [abs_sub_comm (gainOf (-3) * (σ : ℝ)), abs_mul, abs_of_pos p3] at h5
      have h7 : 1 / 2 * |(σ : ℝ)| ≤ gainOf (-3) * |(σ : ℝ)| := mul_le_mul_of_nonneg_right g2 (abs_nonneg _)
      have : 49 / 100 * |(σ : ℝ)| ≤ |(r : ℝ)| := by
        generalize gainOf (-3) * |(σ : ℝ)| = x at *
        generalize |(r : ℝ) - gainOf (-3) * σ| = y at *
        norm_num at *
        linarith
      have h6 : ((49 / 100 * |σ| : ℚ) : ℝ) ≤ ((|r| : ℚ) : ℝ) := by push_cast; exact this
      exact Rat.cast_le.mp h6

/-- Half scale, and the levels at the three positions. -/
example : (lit (1 / 2) : F32).Is (1 / 2) ∧ ((2 : ℚ) ^ 100)⁻¹ ≤ |1 / 2| ∧ levelL (-1) = -3 ∧ levelR (-1) = 0 ∧ levelL 0 = -120 ∧ levelR 1 = -120 :=
  ⟨by decide +kernel, by rw [abs_of_pos (by norm_num)]; norm_num, by decide +kernel, by decide +kernel, by decide +kernel, by decide +kernel⟩

end Verif
