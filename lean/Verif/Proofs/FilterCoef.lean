import Verif.Proofs.Approx
import Verif.Proofs.Filters

/-! # The coefficients of LowPass and HighPass in `f32` -/

namespace Verif
open Fl

/-- Relative error of a stored coefficient: half a unit in the last place, and a little for the `f64` computation. -/
noncomputable def cu : ℝ := 33 / 2 ^ 29

theorem cu_le : cu ≤ (2 ^ 22)⁻¹ := by unfold cu; norm_num

theorem clampR (r : F64) : ∃ q : ℚ, (Flt.fmax (Flt.fmin r (lit 1)) (lit 0) : F64).Is q ∧ 0 ≤ q ∧ q ≤ 1 ∧
    ∀ ρ, r.Is ρ → q = max (min ρ 1) 0 := by
  have l0 : (lit 0 : F64).Is 0 := by decide +kernel
  have l1 : (lit 1 : F64).Is 1 := by decide +kernel
  have e1 : (Flt.fmax (lit 1) (lit 0) : F64) = lit 1 := by decide +kernel
  have h : (Flt.fmin r (lit 1) : F64) = lit 1 ∧ (r <? lit 1) = false ∨ (Flt.fmin r (lit 1) : F64) = r ∧ (r <? lit 1) = true := by
    show (if r.isNaN then _ else if _ then _ else if Fl.lt r (lit 1) then r else lit 1 : F64) = _ ∧ Fl.lt r (lit 1) = false ∨
      (if r.isNaN then _ else if _ then _ else if Fl.lt r (lit 1) then r else lit 1 : F64) = _ ∧ Fl.lt r (lit 1) = true
    rw [if_neg (show ¬ (lit 1 : F64).isNaN = true by decide +kernel)]
    by_cases h1 : r.isNaN = true
    · left; rw [if_pos h1]; refine ⟨rfl, ?_⟩; cases r <;> first | rfl | exact absurd h1 Bool.false_ne_true
    · by_cases h2 : Fl.lt r (lit 1) = true
      · right; rw [if_neg h1, if_pos h2]; exact ⟨rfl, h2⟩
      · left; rw [if_neg h1, if_neg h2]; exact ⟨rfl, by simpa using h2⟩
  rcases h with ⟨h, hge⟩ | ⟨h, hlt⟩
  · rw [h, e1]
    refine ⟨1, l1, by norm_num, le_refl _, fun ρ hρ => ?_⟩
    rw [hρ.lt l1, decide_eq_false_iff_not, not_lt] at hge
    rw [min_eq_right hge]; norm_num
  · rw [h]
    have hn : r ≠ .nan := by rintro rfl; exact absurd hlt (by decide)
    rcases cases_notNaN hn with rfl | rfl | ⟨q, hq⟩
    · rw [show (Flt.fmax (.inf true) (lit 0) : F64) = lit 0 by decide +kernel]; exact ⟨0, l0, le_refl _, by norm_num, fun ρ hρ => by cases hρ⟩
    · exact absurd hlt (by decide +kernel)
    · rw [hq.lt l1, decide_eq_true_eq] at hlt
      have e : (Flt.fmax r (lit 0) : F64) = if Fl.lt (lit 0) r then r else lit 0 := by
        show (if r.isNaN then _ else if _ then _ else if Fl.lt (lit 0) r then r else lit 0 : F64) = _
        rw [if_neg (show ¬ (lit 0 : F64).isNaN = true by decide +kernel), if_neg]
        obtain ⟨s, hs, rfl⟩ := is_iff.mp hq
        exact Bool.false_ne_true
      have hl : Fl.lt (lit 0) r = decide (0 < q) := l0.lt hq
      rw [e, hl]
      by_cases h0 : 0 < q
      · rw [if_pos (by simpa using h0)]; exact ⟨q, hq, h0.le, hlt.le, fun ρ hρ => by
          obtain rfl := hρ.unique hq; rw [min_eq_left hlt.le, max_eq_left h0.le]⟩
      · rw [if_neg (by simpa using h0)]; exact ⟨0, l0, le_refl _, by norm_num, fun ρ hρ => by
          obtain rfl := hρ.unique hq; rw [min_eq_left hlt.le, max_eq_right (not_lt.mp h0)]⟩

theorem clampF {fc l : F64} {lo : ℚ} (hl : l.Is lo) (hlo : lo ≤ 24000) (h : (fc <? l) = false) :
    ∃ q : ℚ, (Flt.fmin fc (srM / lit 2) : F64).Is q ∧ lo ≤ q ∧ q ≤ 24000 ∧ ∀ f, fc.Is f → q = min f 24000 := by
  have l1 : (srM / lit 2 : F64).Is 24000 := by decide +kernel
  have e : (Flt.fmin fc (srM / lit 2) : F64) = if fc.isNaN then srM / lit 2 else if Fl.lt fc (srM / lit 2) then fc else srM / lit 2 := by
    show (if fc.isNaN then _ else if _ then _ else _ : F64) = _
    rw [if_neg (show ¬ (srM / lit 2 : F64).isNaN = true by decide +kernel)]
  rw [e]
  by_cases h1 : fc.isNaN = true
  · rw [if_pos h1]; exact ⟨24000, l1, hlo, le_refl _, fun f hf => by cases fc <;> first | exact absurd h1 Bool.false_ne_true | cases hf⟩
  · rw [if_neg h1]
    by_cases h2 : Fl.lt fc (srM / lit 2) = true
    · rw [if_pos h2]
      have hn : fc ≠ .nan := by rintro rfl; exact h1 rfl
      rcases cases_notNaN hn with rfl | rfl | ⟨q, hq⟩
      · obtain ⟨s, hs, e⟩ := is_iff.mp hl
        rw [e] at h
        exact absurd h (by show ¬ (true = false); simp)
      · exact absurd h2 (by decide +kernel)
      · rw [hq.lt hl, decide_eq_false_iff_not] at h
        have h3 : Fl.lt fc (srM / lit 2) = decide (q < 24000) := hq.lt l1
        rw [h3, decide_eq_true_eq] at h2
        exact ⟨q, hq, not_lt.mp h, h2.le, fun f hf => by obtain rfl := hf.unique hq; rw [min_eq_left h2.le]⟩
    · rw [if_neg h2]
      refine ⟨24000, l1, hlo, le_refl _, fun f hf => ?_⟩
      have h3 : Fl.lt fc (srM / lit 2) = decide (f < 24000) := hf.lt l1
      rw [h3, decide_eq_true_eq, not_lt] at h2
      rw [min_eq_right h2]

theorem mid_of {b : ℝ} (h1 : (2 ^ 50)⁻¹ ≤ b) (h2 : b ≤ 2 ^ 50) : Mid b := by
  have h0 : 0 < b := lt_of_lt_of_le (by positivity) h1
  rw [Mid, abs_of_pos h0]
  exact ⟨le_trans (by norm_num) h1, h2.trans (by norm_num)⟩

theorem lpT_mem {f : ℝ} (h1 : 1 ≤ f) (h2 : f ≤ 24000) : (2 ^ 13)⁻¹ ≤ lpT f ∧ lpT f ≤ 315 / 100 := by
  have p1 := Real.pi_gt_d6
  have p2 := Real.pi_lt_d6
  unfold lpT
  constructor
  · rw [le_div_iff₀ (by norm_num)]; norm_num at p1 ⊢; nlinarith
  · rw [div_le_iff₀ (by norm_num)]; norm_num at p2 ⊢; nlinarith

/-- `w * INV_SAMPLE_RATE`. -/
theorem app_t {fc : F64} {q : ℚ} (h : fc.Is q) (h1 : 1 ≤ q) (h2 : q ≤ 24000) :
    App (lit 2 * SM.piM F32 * fc * invSR : F64) ((2 ^ 48)⁻¹) (lpT q) := by
  have p1 := Real.pi_gt_d6
  have p2 := Real.pi_lt_d6
  norm_num at p1 p2
  have h1' : (1 : ℝ) ≤ q := by exact_mod_cast h1
  have h2' : (q : ℝ) ≤ 24000 := by exact_mod_cast h2
  have a1 : App (lit 2 * SM.piM F32 : F64) ((2 ^ 51)⁻¹) (2 * Real.pi) :=
    App.mul (App.of_is (q := 2) (by decide +kernel) (by norm_num)) app_pi (mid_of (by norm_num; linarith) (by norm_num; linarith))
      (le_refl _) (by norm_num) (by norm_num)
  have a2 : App (lit 2 * SM.piM F32 * fc : F64) ((2 ^ 50)⁻¹) (2 * Real.pi * q) :=
    App.mul a1 (App.of_is h rfl) (mid_of (by norm_num; nlinarith) (by norm_num; nlinarith)) (by positivity) (by norm_num) (by norm_num)
  have a3 : App (invSR : F64) ((2 ^ 52)⁻¹) (1 / 48000) :=
    App.div (App.of_is (q := 1) (by decide +kernel) (by norm_num)) (App.of_is (q := 48000) (by decide +kernel) (by norm_num))
      (by norm_num) (mid_of (by norm_num) (by norm_num)) (by norm_num) (by norm_num) (by norm_num)
  have a4 := App.mul (δ := (2 ^ 48)⁻¹) a2 a3 (mid_of (by norm_num; nlinarith) (by norm_num; nlinarith)) (by positivity) (by norm_num) (by norm_num)
  rwa [show 2 * Real.pi * (q : ℝ) * (1 / 48000) = lpT q by unfold lpT; ring] at a4

/-- The damping, from an accurate angle. -/
theorem app_k [Libm F64] (ha : LibmAccurate) {th : F64} {r : ℝ} (h0 : 0 ≤ r) (h1 : r ≤ 1)
    (h : App th ((2 ^ 48)⁻¹) (Real.pi * (4 - r) / 6)) : App (lit 1 - lit 2 * Libm.cos th : F64) ((2 ^ 36)⁻¹) (lpK r) := by
  obtain ⟨q, hq, he⟩ := h
  have p1 := Real.pi_gt_d6
  have p2 := Real.pi_lt_d6
  norm_num at p1 p2
  have hT : 0 < Real.pi * (4 - r) / 6 := by have := Real.pi_pos; apply div_pos (mul_pos this (by linarith)); norm_num
  have hT2 : Real.pi * (4 - r) / 6 ≤ 22 / 10 := by nlinarith
  rw [abs_of_pos hT] at he
  have he' : |(q : ℝ) - Real.pi * (4 - r) / 6| ≤ (2 ^ 46)⁻¹ := he.trans (by norm_num; nlinarith)
  have hq4 : |q| ≤ 4 := by
    have := abs_sub_abs_le_abs_sub (q : ℝ) (Real.pi * (4 - r) / 6)
    rw [abs_of_pos hT] at this
    have h5 : ((2 : ℝ) ^ 46)⁻¹ ≤ 1 := by norm_num
    have : |(q : ℝ)| ≤ 4 := by linarith
    exact_mod_cast this
  obtain ⟨c, hc, h3⟩ := ha.cos th q hq hq4
  have h4 : |Real.cos q - Real.cos (Real.pi * (4 - r) / 6)| ≤ |(q : ℝ) - Real.pi * (4 - r) / 6| := Real.abs_cos_sub_cos_le _ _
  have h5 : |(c : ℝ) - Real.cos (Real.pi * (4 - r) / 6)| ≤ (2 ^ 40)⁻¹ + (2 ^ 46)⁻¹ :=
    (abs_sub_le _ (Real.cos q) _).trans (add_le_add h3 (h4.trans he'))
  have hc1 : |c| ≤ 2 := by
    have := abs_sub_abs_le_abs_sub (c : ℝ) (Real.cos (Real.pi * (4 - r) / 6))
    have h6 := Real.abs_cos_le_one (Real.pi * (4 - r) / 6)
    have h7 : ((2 : ℝ) ^ 40)⁻¹ + (2 ^ 46)⁻¹ ≤ 1 := by norm_num
    have : |(c : ℝ)| ≤ 2 := by linarith
    exact_mod_cast this
  have l1 : (lit 1 : F64).Is 1 := by decide +kernel
  have l2 : (lit 2 : F64).Is 2 := by decide +kernel
  have b1 : |2 * c| ≤ pow2 2 := by
    rw [abs_mul, abs_two, show pow2 2 = 4 by decide +kernel]; linarith
  have r1 := b64.abs_rnd_sub_le_of_abs_le (by decide) b1
  have m1 := l2.mul hc (Fmt.fits_of_le_pow2 (k := 2) (by decide) (by decide) b1)
  have r1' : |b64.rnd (2 * c) - 2 * c| ≤ (2 ^ 52)⁻¹ := r1.trans (by decide +kernel)
  have b2 : |1 - b64.rnd (2 * c)| ≤ pow2 3 := by
    have := abs_sub (1 : ℚ) (b64.rnd (2 * c))
    have := abs_sub_abs_le_abs_sub (b64.rnd (2 * c)) (2 * c)
    rw [abs_one] at *
    rw [show pow2 3 = 8 by decide +kernel]
    rw [show pow2 2 = 4 by decide +kernel] at b1
    have : ((2 : ℚ) ^ 52)⁻¹ ≤ 1 := by norm_num
    linarith
  have r2 := b64.abs_rnd_sub_le_of_abs_le (by decide) b2
  have r2' : |b64.rnd (1 - b64.rnd (2 * c)) - (1 - b64.rnd (2 * c))| ≤ (2 ^ 51)⁻¹ := r2.trans (by decide +kernel)
  refine ⟨_, l1.sub m1 (Fmt.fits_of_le_pow2 (k := 3) (by decide) (by decide) b2), ?_⟩
  have hK := lpK_mem h0 h1
  have s1 : |((b64.rnd (2 * c) : ℚ) : ℝ) - 2 * c| ≤ (2 ^ 52)⁻¹ := by
    have := Rat.cast_le (K := ℝ) |>.mpr r1'
    push_cast at this; exact this
  have s2 : |((b64.rnd (1 - b64.rnd (2 * c)) : ℚ) : ℝ) - (1 - (b64.rnd (2 * c) : ℚ))| ≤ (2 ^ 51)⁻¹ := by
    have := Rat.cast_le (K := ℝ) |>.mpr r2'
    push_cast at this; exact this
  rw [abs_of_pos (by linarith : 0 < lpK r)]
  have : ((2 : ℝ) ^ 36)⁻¹ ≤ (2 ^ 36)⁻¹ * lpK r := le_mul_of_one_le_right (by positivity) hK.1
  refine le_trans ?_ this
  unfold lpK
  rw [abs_le] at h5 s1 s2 ⊢
  norm_num at h5 s1 s2 ⊢
  constructor <;> linarith

theorem lpG_mem {T K : ℝ} (h1 : (2 ^ 13)⁻¹ ≤ T) (h2 : T ≤ 315 / 100) (k1 : 1 ≤ K) (k2 : K ≤ 2) : 1 ≤ lpG T K ∧ lpG T K ≤ 100 := by
  have hT : 0 < T := lt_of_lt_of_le (by positivity) h1
  unfold lpG
  constructor
  · have : 0 ≤ T ^ 3 + K * T ^ 2 + K * T := by positivity
    linarith
  · have a1 : T ^ 2 ≤ 10 := by nlinarith
    have a2 : T ^ 3 ≤ 32 := by
      calc T ^ 3 = T ^ 2 * T := by ring
        _ ≤ 10 * (315 / 100) := mul_le_mul a1 h2 hT.le (by norm_num)
        _ ≤ 32 := by norm_num
    have a3 : K * T ^ 2 ≤ 2 * 10 := mul_le_mul k2 a1 (by positivity) (by norm_num)
    have a4 : K * T ≤ 2 * (315 / 100) := mul_le_mul k2 h2 hT.le (by norm_num)
    linarith

section
variable [Libm F64] (ha : LibmAccurate) {t k : F64} {T K : ℝ} (ht : App t ((2 ^ 48)⁻¹) T)
  (h1 : (2 ^ 13)⁻¹ ≤ T) (h2 : T ≤ 315 / 100) (hk : App k ((2 ^ 36)⁻¹) K) (k1 : 1 ≤ K) (k2 : K ≤ 2)

include ha ht h1 h2 in
theorem app_pow : App (Libm.pow t (lit 2) : F64) ((2 ^ 39)⁻¹) (T ^ 2) ∧ App (Libm.pow t (lit 3) : F64) ((2 ^ 39)⁻¹) (T ^ 3) := by
  obtain ⟨q, hq, he⟩ := ht
  have hT : 0 < T := lt_of_lt_of_le (by positivity) h1
  rw [abs_of_pos hT] at he
  obtain ⟨e1, e2⟩ := abs_le.mp he
  have q1 : (1 - (2 ^ 48)⁻¹) * T ≤ q := by linarith
  have q2 : (q : ℝ) ≤ (1 + (2 ^ 48)⁻¹) * T := by linarith
  have q3 : pow2 (-20) ≤ q := by
    have : ((pow2 (-20) : ℚ) : ℝ) ≤ q := by
      rw [pow2_eq]; push_cast
      refine le_trans ?_ q1
      norm_num at h1 ⊢
      linarith
    exact_mod_cast this
  have q4 : q ≤ 4 := by
    have : (q : ℝ) ≤ 4 := by refine q2.trans ?_; norm_num at h2 ⊢; linarith
    exact_mod_cast this
  have hq0 : (0 : ℝ) < q := by
    have := lt_of_lt_of_le (pow2_pos (-20)) q3
    exact_mod_cast this
  have key : ∀ n : ℕ, n = 2 ∨ n = 3 → ∃ p : ℚ, (Libm.pow t (lit (n : ℚ))).Is p ∧ |(p : ℝ) - T ^ n| ≤ (2 ^ 39)⁻¹ * |T ^ n| := by
    intro n hn
    obtain ⟨p, hp, hb⟩ := ha.pow t q n hq q3 q4 hn
    refine ⟨p, hp, ?_⟩
    have hb' : |(p : ℝ) - (q : ℝ) ^ n| ≤ (2 ^ 40)⁻¹ * (q : ℝ) ^ n := by
      have := Rat.cast_le (K := ℝ) |>.mpr hb
      push_cast at this; exact this
    have u1 : (q : ℝ) ^ n ≤ (1 + (2 ^ 48)⁻¹) ^ n * T ^ n := by
      rw [← mul_pow]; exact pow_le_pow_left₀ hq0.le q2 n
    have u2 : (1 - (2 ^ 48)⁻¹) ^ n * T ^ n ≤ (q : ℝ) ^ n := by
      rw [← mul_pow]; exact pow_le_pow_left₀ (mul_nonneg (by norm_num) hT.le) q1 n
    have hTn : 0 < T ^ n := pow_pos hT n
    have c1 : ((1 : ℝ) + (2 ^ 48)⁻¹) ^ n ≤ 1 + (2 ^ 46)⁻¹ := by rcases hn with rfl | rfl <;> norm_num
    have c2 : (1 : ℝ) - (2 ^ 46)⁻¹ ≤ (1 - (2 ^ 48)⁻¹) ^ n := by rcases hn with rfl | rfl <;> norm_num
    have v1 : (q : ℝ) ^ n ≤ (1 + (2 ^ 46)⁻¹) * T ^ n := u1.trans (mul_le_mul_of_nonneg_right c1 hTn.le)
    have v2 : (1 - (2 ^ 46)⁻¹) * T ^ n ≤ (q : ℝ) ^ n := (mul_le_mul_of_nonneg_right c2 hTn.le).trans u2
    rw [abs_of_pos hTn]
    rw [abs_le] at hb' ⊢
    norm_num at hb' v1 v2 ⊢
    constructor <;> linarith
  exact ⟨key 2 (.inl rfl), key 3 (.inr rfl)⟩

include ha ht h1 h2 hk k1 k2

theorem app_g : App (Libm.pow t (lit 3) + k * Libm.pow t (lit 2) + k * t + lit 1 : F64) ((2 ^ 33)⁻¹) (lpG T K) := by
  obtain ⟨p2, p3⟩ := app_pow ha ht h1 h2
  have hT : 0 < T := lt_of_lt_of_le (by positivity) h1
  have hK : 0 < K := by linarith
  have t2 : ((2 : ℝ) ^ 26)⁻¹ ≤ T ^ 2 := by
    have := pow_le_pow_left₀ (by positivity) h1 2
    norm_num at this ⊢; exact this
  have t2' : T ^ 2 ≤ 10 := by nlinarith
  have t3 : ((2 : ℝ) ^ 39)⁻¹ ≤ T ^ 3 := by
    have := pow_le_pow_left₀ (by positivity) h1 3
    norm_num at this ⊢; exact this
  have t3' : T ^ 3 ≤ 32 := by
    calc T ^ 3 = T ^ 2 * T := by ring
      _ ≤ 10 * (315 / 100) := mul_le_mul t2' h2 hT.le (by norm_num)
      _ ≤ 32 := by norm_num
  have a1 : K * T ^ 2 ≤ 20 := by nlinarith
  have a2 : K * T ≤ 7 := by nlinarith
  have m1 : App (k * Libm.pow t (lit 2) : F64) ((2 ^ 35)⁻¹) (K * T ^ 2) :=
    App.mul hk p2 (mid_of (by norm_num at t2 ⊢; nlinarith) (by norm_num; linarith)) (by positivity) (by norm_num) (by norm_num)
  have m2 : App (k * t : F64) ((2 ^ 35)⁻¹) (K * T) :=
    App.mul hk ht (mid_of (by norm_num at h1 ⊢; nlinarith) (by norm_num; linarith)) (by positivity) (by norm_num) (by norm_num)
  have same : ∀ {a b : ℝ}, 0 < a → 0 < b → |a| + |b| = |a + b| := fun ha hb => by
    rw [abs_of_pos ha, abs_of_pos hb, abs_of_pos (add_pos ha hb)]
  have s1 := App.add (δ := (2 ^ 35)⁻¹ + (2 ^ 52)⁻¹) (p3.mono (by norm_num)) m1 (same (by positivity) (by positivity))
    (mid_of (by norm_num at t3 ⊢; nlinarith [mul_pos hK (pow_pos hT 2)]) (by norm_num; linarith)) (by norm_num) (le_refl _)
  have s2 := App.add (δ := (2 ^ 34)⁻¹) s1 (m2.mono (by norm_num)) (same (by positivity) (by positivity))
    (mid_of (by norm_num at t3 ⊢; nlinarith [mul_pos hK (pow_pos hT 2), mul_pos hK hT]) (by norm_num; linarith)) (by norm_num) (by norm_num)
  have s3 := App.add (δ := (2 ^ 33)⁻¹) s2 ((App.of_is (x := (lit 1 : F64)) (q := 1) (b := 1) (by decide +kernel) (by norm_num)).mono (by norm_num))
    (same (by positivity) (by positivity))
    (mid_of (by norm_num at t3 ⊢; nlinarith [mul_pos hK (pow_pos hT 2), mul_pos hK hT]) (by norm_num; linarith)) (by norm_num) (by norm_num)
  exact s3

theorem app_coefs :
    let g := Libm.pow t (lit 3) + k * Libm.pow t (lit 2) + k * t + lit 1
    App (SM.down (Libm.pow t (lit 3) / g) : F32) cu (T ^ 3 / lpG T K) ∧
    App (SM.down (lit 1 / g) : F32) cu (1 / lpG T K) ∧
    App (SM.down (-lit 3 / g) : F32) cu (-3 / lpG T K) ∧
    App (SM.down (lit 3 / g) : F32) cu (3 / lpG T K) ∧
    App (SM.down (-lit 1 / g) : F32) cu (-1 / lpG T K) ∧
    App (SM.down ((k * Libm.pow t (lit 2) + lit 2 * k * t + lit 3) / g) : F32) cu ((K * T ^ 2 + 2 * K * T + 3) / lpG T K) ∧
    App (SM.down ((-k * t - lit 3) / g) : F32) cu ((-K * T - 3) / lpG T K) := by
  intro g
  have hg : App g ((2 ^ 33)⁻¹) (lpG T K) := app_g ha ht h1 h2 hk k1 k2
  obtain ⟨p2, p3⟩ := app_pow ha ht h1 h2
  obtain ⟨g1, g2⟩ := lpG_mem h1 h2 k1 k2
  have hG : 0 < lpG T K := by linarith
  have hT : 0 < T := lt_of_lt_of_le (by positivity) h1
  have hK : 0 < K := by linarith
  have t2 : ((2 : ℝ) ^ 26)⁻¹ ≤ T ^ 2 := by
    have := pow_le_pow_left₀ (by positivity) h1 2
    norm_num at this ⊢; exact this
  have t2' : T ^ 2 ≤ 10 := by nlinarith
  have t3 : ((2 : ℝ) ^ 39)⁻¹ ≤ T ^ 3 := by
    have := pow_le_pow_left₀ (by positivity) h1 3
    norm_num at this ⊢; exact this
  have t3' : T ^ 3 ≤ 32 := by
    calc T ^ 3 = T ^ 2 * T := by ring
      _ ≤ 10 * (315 / 100) := mul_le_mul t2' h2 hT.le (by norm_num)
      _ ≤ 32 := by norm_num
  have a1 : K * T ^ 2 ≤ 20 := by nlinarith
  have a2 : K * T ≤ 7 := by nlinarith
  have a3 : ((2 : ℝ) ^ 26)⁻¹ ≤ K * T ^ 2 := by nlinarith
  have a4 : ((2 : ℝ) ^ 13)⁻¹ ≤ K * T := by nlinarith
  -- quotient and conversion
  have fin : ∀ {x : F64} {b : ℝ}, App x ((2 ^ 33)⁻¹) b → ((2 : ℝ) ^ 40)⁻¹ ≤ |b| → |b| ≤ 2 ^ 10 →
      App (SM.down (x / g) : F32) cu (b / lpG T K) := by
    intro x b hx l u
    have hm : Mid (b / lpG T K) := by
      rw [Mid, abs_div, abs_of_pos hG, le_div_iff₀ hG, div_le_iff₀ hG]
      norm_num at l u ⊢
      constructor <;> nlinarith
    exact App.down' (App.div (δ := (2 ^ 30)⁻¹) hx hg hG.ne' hm (by norm_num) (by norm_num) (by norm_num)) hm (by norm_num) (by unfold cu; norm_num)
  have l1 : App (lit 1 : F64) 0 1 := App.of_is (q := 1) (by decide +kernel) (by norm_num)
  have l2 : App (lit 2 : F64) 0 2 := App.of_is (q := 2) (by decide +kernel) (by norm_num)
  have l3 : App (lit 3 : F64) 0 3 := App.of_is (q := 3) (by decide +kernel) (by norm_num)
  have same : ∀ {a b : ℝ}, 0 < a → 0 < b → |a| + |b| = |a + b| := fun ha hb => by
    rw [abs_of_pos ha, abs_of_pos hb, abs_of_pos (add_pos ha hb)]
  refine ⟨?_, ?_, ?_, ?_, ?_, ?_, ?_⟩
  · refine fin (p3.mono (by norm_num)) ?_ ?_ <;> rw [abs_of_pos (by positivity)] <;> norm_num at t3 ⊢ <;> linarith
  · exact fin (l1.mono (by positivity)) (by norm_num) (by norm_num)
  · exact fin (l3.neg.mono (by positivity)) (by norm_num) (by norm_num)
  · exact fin (l3.mono (by positivity)) (by norm_num) (by norm_num)
  · exact fin (l1.neg.mono (by positivity)) (by norm_num) (by norm_num)
  · have m1 : App (k * Libm.pow t (lit 2) : F64) ((2 ^ 35)⁻¹) (K * T ^ 2) :=
      App.mul hk p2 (mid_of (by norm_num at a3 ⊢; linarith) (by norm_num; linarith)) (by positivity) (by norm_num) (by norm_num)
    have m2 : App (lit 2 * k : F64) ((2 ^ 36)⁻¹ + (2 ^ 52)⁻¹) (2 * K) :=
      App.mul l2 hk (mid_of (by norm_num; linarith) (by norm_num; linarith)) (le_refl _) (by norm_num) (by norm_num)
    have m3 : App (lit 2 * k * t : F64) ((2 ^ 35)⁻¹) (2 * K * T) :=
      App.mul m2 ht (mid_of (by norm_num at a4 ⊢; nlinarith) (by norm_num; nlinarith)) (by positivity) (by norm_num) (by norm_num)
    have s1 := App.add (δ := (2 ^ 34)⁻¹) m1 m3 (same (by positivity) (by positivity))
      (mid_of (by norm_num at a3 ⊢; nlinarith [mul_pos hK hT]) (by norm_num; linarith)) (by norm_num) (by norm_num)
    have s2 := App.add (δ := (2 ^ 33)⁻¹) s1 (l3.mono (by positivity)) (same (by positivity) (by positivity))
      (mid_of (by norm_num at a3 ⊢; nlinarith [mul_pos hK hT]) (by norm_num; linarith)) (by norm_num) (by norm_num)
    have hp : 0 < K * T ^ 2 + 2 * K * T + 3 := by positivity
    refine fin s2 ?_ ?_ <;> rw [abs_of_pos hp] <;> norm_num <;> nlinarith [mul_pos hK hT, mul_pos hK (pow_pos hT 2)]
  · have hneg : -K * T = -(K * T) := by ring
    have m1 : App (-k * t : F64) ((2 ^ 35)⁻¹) (-K * T) := by
      refine App.mul hk.neg ht ?_ (by positivity) (by norm_num) (by norm_num)
      rw [hneg, Mid, abs_neg, abs_of_pos (mul_pos hK hT)]
      norm_num at a4 ⊢
      constructor <;> linarith
    have e : |-K * T| + |3| = |-K * T - 3| := by
      rw [hneg, abs_neg, abs_of_pos (mul_pos hK hT), abs_of_neg (by linarith [mul_pos hK hT] : -(K * T) - 3 < 0)]
      norm_num; ring
    have e' : |-K * T - 3| = K * T + 3 := by
      rw [hneg, abs_of_neg (by linarith [mul_pos hK hT] : -(K * T) - 3 < 0)]; ring
    have s2 := App.sub (δ := (2 ^ 33)⁻¹) m1 (l3.mono (by positivity)) e
      (by rw [Mid, e']; norm_num; constructor <;> linarith [mul_pos hK hT]) (by norm_num) (by norm_num)
    exact fin s2 (by rw [e']; norm_num; linarith [mul_pos hK hT]) (by rw [e']; norm_num; linarith)
end

private theorem mid_4 {q : ℚ} (h0 : 0 ≤ q) (h1 : q ≤ 1) : Mid (((4 : ℚ) : ℝ) - q) := by
  have h0' : (0 : ℝ) ≤ q := by exact_mod_cast h0
  have h1' : (q : ℝ) ≤ 1 := by exact_mod_cast h1
  push_cast
  exact mid_of (by norm_num; linarith) (by norm_num; linarith)

/-- The angle as written in lowpass.rs. -/
theorem app_theta_lp {r : F64} {q : ℚ} (h : r.Is q) (h0 : 0 ≤ q) (h1 : q ≤ 1) :
    App ((SM.piM F32 / lit 6) * (lit 4 - r) : F64) ((2 ^ 48)⁻¹) (Real.pi * (4 - q) / 6) := by
  have h0' : (0 : ℝ) ≤ q := by exact_mod_cast h0
  have h1' : (q : ℝ) ≤ 1 := by exact_mod_cast h1
  have p1 := Real.pi_gt_d6
  have p2 := Real.pi_lt_d6
  norm_num at p1 p2
  have a1 : App (SM.piM F32 / lit 6 : F64) ((2 ^ 50)⁻¹) (Real.pi / 6) :=
    App.div app_pi (App.of_is (q := 6) (by decide +kernel) (by norm_num)) (by norm_num)
      (mid_of (by norm_num; linarith) (by norm_num; linarith)) (by norm_num) (by norm_num) (by norm_num)
  have a2 : App (lit 4 - r : F64) ((2 ^ 52)⁻¹) (((4 : ℚ) : ℝ) - q) := App.sub_exact (by decide +kernel) h (mid_4 h0 h1)
  have e : Real.pi / 6 * (((4 : ℚ) : ℝ) - q) = Real.pi * (4 - q) / 6 := by push_cast; ring
  have a3 := App.mul (δ := (2 ^ 48)⁻¹) a1 a2 (by
    rw [e]
    exact mid_of (by norm_num; nlinarith) (by norm_num; nlinarith)) (by positivity) (by norm_num) (by norm_num)
  rwa [e] at a3

/-- The angle as written in highpass.rs. -/
theorem app_theta_hp {r : F64} {q : ℚ} (h : r.Is q) (h0 : 0 ≤ q) (h1 : q ≤ 1) :
    App (SM.piM F32 * (lit 4 - r) / lit 6 : F64) ((2 ^ 48)⁻¹) (Real.pi * (4 - q) / 6) := by
  have h0' : (0 : ℝ) ≤ q := by exact_mod_cast h0
  have h1' : (q : ℝ) ≤ 1 := by exact_mod_cast h1
  have p1 := Real.pi_gt_d6
  have p2 := Real.pi_lt_d6
  norm_num at p1 p2
  have a2 : App (lit 4 - r : F64) ((2 ^ 52)⁻¹) (((4 : ℚ) : ℝ) - q) := App.sub_exact (by decide +kernel) h (mid_4 h0 h1)
  have a3 := App.mul (δ := (2 ^ 50)⁻¹) app_pi a2 (by
    push_cast
    exact mid_of (by norm_num; nlinarith) (by norm_num; nlinarith)) (by positivity) (by norm_num) (by norm_num)
  have a4 := App.div (δ := (2 ^ 48)⁻¹) a3 (App.of_is (x := (lit 6 : F64)) (q := 6) (b := 6) (by decide +kernel) (by norm_num)) (by norm_num)
    (by push_cast; exact mid_of (by norm_num; nlinarith) (by norm_num; nlinarith)) (by norm_num) (by norm_num) (by norm_num)
  push_cast at a4
  exact a4

section
variable [Libm F64] (ha : LibmAccurate) {fc r l : F64} {lo : ℚ} (hl : l.Is lo) (hlo1 : 1 ≤ lo) (hlo : lo ≤ 24000) (hfc : (fc <? l) = false)
include ha hl hlo1 hlo hfc

/-- The coefficients of a low pass filter are those of exact arithmetic, each rounded about once. -/
theorem lowpass_app : ∃ F R : ℚ, lo ≤ F ∧ F ≤ 24000 ∧ 0 ≤ R ∧ R ≤ 1 ∧
    (∀ f, fc.Is f → F = min f 24000) ∧ (∀ ρ, r.Is ρ → R = max (min ρ 1) 0) ∧
    ∃ c0 c1 c2 c3 f' r', (LowPass.new fc r : LowPass F32 F64) = ⟨f', r', c0, c1, c2, c3, lit 0, lit 0, lit 0⟩ ∧ f'.Is F ∧ r'.Is R ∧
    App c0 cu (lpT F ^ 3 / lpG (lpT F) (lpK R)) ∧
    App c1 cu ((lpK R * lpT F ^ 2 + 2 * lpK R * lpT F + 3) / lpG (lpT F) (lpK R)) ∧
    App c2 cu ((-lpK R * lpT F - 3) / lpG (lpT F) (lpK R)) ∧
    App c3 cu (1 / lpG (lpT F) (lpK R)) := by
  obtain ⟨F, hF, f1, f2, f3⟩ := clampF hl hlo hfc
  obtain ⟨R, hR, r1, r2, r3⟩ := clampR r
  have f1' : (1 : ℝ) ≤ F := by exact_mod_cast hlo1.trans f1
  have f2' : (F : ℝ) ≤ 24000 := by exact_mod_cast f2
  have r1' : (0 : ℝ) ≤ R := by exact_mod_cast r1
  have r2' : (R : ℝ) ≤ 1 := by exact_mod_cast r2
  have hT := lpT_mem f1' f2'
  have hK := lpK_mem r1' r2'
  obtain ⟨c0, c3, -, -, -, c1, c2⟩ := app_coefs ha (app_t hF (hlo1.trans f1) f2) hT.1 hT.2
    (app_k ha r1' r2' (app_theta_lp hR r1 r2)) hK.1 hK.2
  exact ⟨F, R, f1, f2, r1, r2, f3, r3, _, _, _, _, _, _, rfl, hF, hR, c0, c1, c2, c3⟩

/-- The coefficients of a high pass filter are those of exact arithmetic, each rounded about once. -/
theorem highpass_app : ∃ F R : ℚ, lo ≤ F ∧ F ≤ 24000 ∧ 0 ≤ R ∧ R ≤ 1 ∧
    (∀ f, fc.Is f → F = min f 24000) ∧ (∀ ρ, r.Is ρ → R = max (min ρ 1) 0) ∧
    ∃ a0 a1 a2 a3 b1 b2 b3 f' r', (HighPass.new fc r : HighPass F32 F64) =
      ⟨a0, a1, a2, a3, b1, b2, b3, lit 0, lit 0, lit 0, lit 0, lit 0, lit 0, f', r'⟩ ∧ f'.Is F ∧ r'.Is R ∧
    App a0 cu (1 / lpG (lpT F) (lpK R)) ∧
    App a1 cu (-3 / lpG (lpT F) (lpK R)) ∧
    App a2 cu (3 / lpG (lpT F) (lpK R)) ∧
    App a3 cu (-1 / lpG (lpT F) (lpK R)) ∧
    App b1 cu ((lpK R * lpT F ^ 2 + 2 * lpK R * lpT F + 3) / lpG (lpT F) (lpK R)) ∧
    App b2 cu ((-lpK R * lpT F - 3) / lpG (lpT F) (lpK R)) ∧
    App b3 cu (1 / lpG (lpT F) (lpK R)) := by
  obtain ⟨F, hF, f1, f2, f3⟩ := clampF hl hlo hfc
  obtain ⟨R, hR, r1, r2, r3⟩ := clampR r
  have f1' : (1 : ℝ) ≤ F := by exact_mod_cast hlo1.trans f1
  have f2' : (F : ℝ) ≤ 24000 := by exact_mod_cast f2
  have r1' : (0 : ℝ) ≤ R := by exact_mod_cast r1
  have r2' : (R : ℝ) ≤ 1 := by exact_mod_cast r2
  have hT := lpT_mem f1' f2'
  have hK := lpK_mem r1' r2'
  obtain ⟨-, a0, a1, a2, a3, b1, b2⟩ := app_coefs ha (app_t hF (hlo1.trans f1) f2) hT.1 hT.2
    (app_k ha r1' r2' (app_theta_hp hR r1 r2)) hK.1 hK.2
  exact ⟨F, R, f1, f2, r1, r2, f3, r3, _, _, _, _, _, _, _, _, _, rfl, hF, hR, a0, a1, a2, a3, b1, b2, a0⟩
end

end Verif
