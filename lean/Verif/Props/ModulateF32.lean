import Verif.Props.Modulate
import Verif.Props.FilterAcc

/-! # Cutoffs that never stop moving, within a ratio: C135 (`f32`)

In `f32` every sample adds a rounding error that grows with the output; the certificate of `Proofs/Lyapunov.lean` pays for it from 400 Hz on. -/

namespace Verif
open Fl

section
variable [Libm F64] (ha : LibmAccurate)

omit [Libm F64] in
private theorem app_range {τ t R u k : ℝ} (hτ : 0 < τ) (hR : 0 ≤ R) (hu : 1 ≤ u * τ) (h1 : τ ≤ t) (h2 : t ≤ R * τ) (hk : k ≤ 2) :
    lpG t k ≤ τ ^ 3 * (R ^ 3 + 2 * R ^ 2 * u + 2 * R * u ^ 2 + u ^ 3) := by
  have ht : 0 < t := by linarith
  have a1 : t ^ 2 ≤ (R * τ) ^ 2 := pow_le_pow_left₀ ht.le h2 2
  have a2 : t ^ 3 ≤ (R * τ) ^ 3 := pow_le_pow_left₀ ht.le h2 3
  have b2 : 1 ≤ (u * τ) ^ 2 := one_le_pow₀ hu
  have b3 : 1 ≤ (u * τ) ^ 3 := one_le_pow₀ hu
  have c1 : (R * τ) ^ 2 * 1 ≤ (R * τ) ^ 2 * (u * τ) := mul_le_mul_of_nonneg_left hu (by positivity)
  have c2 : R * τ * 1 ≤ R * τ * (u * τ) ^ 2 := mul_le_mul_of_nonneg_left b2 (by positivity)
  have := lpG_le ht hk
  nlinarith

omit [Libm F64] in
private theorem omega_inv {f : ℝ} (hf : 400 ≤ f) : 1 ≤ 191 / 10 * omega f := by
  have hp := Real.pi_gt_d6
  have : 400 ≤ min f 24000 := le_min hf (by norm_num)
  unfold omega
  nlinarith

include ha in
/-- The coefficients of a low pass filter tuned to a given cutoff. -/
private theorem lp_at {c ρ : F64} {g r : ℚ} (hc : c.Is g) (hρ : ρ.Is r) (hg : 400 ≤ g) :
    App (LowPass.new c ρ : LowPass F32 F64).c0 cu (omega g ^ 3 / lpG (omega g) (damping r)) ∧
    App (LowPass.new c ρ : LowPass F32 F64).c1 cu ((damping r * omega g ^ 2 + 2 * damping r * omega g + 3) / lpG (omega g) (damping r)) ∧
    App (LowPass.new c ρ : LowPass F32 F64).c2 cu ((-damping r * omega g - 3) / lpG (omega g) (damping r)) ∧
    App (LowPass.new c ρ : LowPass F32 F64).c3 cu (1 / lpG (omega g) (damping r)) := by
  have h4 : (lit 400 : F64).Is 400 := by decide +kernel
  obtain ⟨F, R, -, -, -, -, hF, hR, c0, c1, c2, c3, f', r', e, -, -, h⟩ := lowpass_app ha (r := ρ) h4 (by norm_num) (by norm_num) (fa_not_lt_of hc h4 hg)
  have e1 : lpT F = omega g := by
    rw [hF g hc]; unfold lpT omega; push_cast; rfl
  have e2 : lpK R = damping r := by
    rw [hR r hρ]; unfold lpK damping; push_cast; rfl
  rw [e]
  rwa [e1, e2] at h

include ha in
/-- The same for a high pass filter. -/
private theorem hp_at {c ρ : F64} {g r : ℚ} (hc : c.Is g) (hρ : ρ.Is r) (hg : 400 ≤ g) :
    App (HighPass.new c ρ : HighPass F32 F64).a0 cu (1 / lpG (omega g) (damping r)) ∧
    App (HighPass.new c ρ : HighPass F32 F64).a1 cu (-3 / lpG (omega g) (damping r)) ∧
    App (HighPass.new c ρ : HighPass F32 F64).a2 cu (3 / lpG (omega g) (damping r)) ∧
    App (HighPass.new c ρ : HighPass F32 F64).a3 cu (-1 / lpG (omega g) (damping r)) ∧
    App (HighPass.new c ρ : HighPass F32 F64).b1 cu ((damping r * omega g ^ 2 + 2 * damping r * omega g + 3) / lpG (omega g) (damping r)) ∧
    App (HighPass.new c ρ : HighPass F32 F64).b2 cu ((-damping r * omega g - 3) / lpG (omega g) (damping r)) ∧
    App (HighPass.new c ρ : HighPass F32 F64).b3 cu (1 / lpG (omega g) (damping r)) := by
  have h4 : (lit 400 : F64).Is 400 := by decide +kernel
  obtain ⟨F, R, -, -, -, -, hF, hR, a0, a1, a2, a3, c1, c2, c3, f', r', e, -, -, h⟩ :=
    highpass_app ha (r := ρ) h4 (by norm_num) (by norm_num) (fa_not_lt_of hc h4 hg)
  have e1 : lpT F = omega g := by
    rw [hF g hc]; unfold lpT omega; push_cast; rfl
  have e2 : lpK R = damping r := by
    rw [hR r hρ]; unfold lpK damping; push_cast; rfl
  rw [e]
  rwa [e1, e2] at h

variable {X : ℚ} (hX1 : (2 ^ 90)⁻¹ ≤ X) (hX2 : X ≤ 2 ^ 80) {x : ℕ → F32} (hx : ∀ n, (x n).In (-X) X)
  {f : ℝ} (hf : 400 ≤ f) {q : ℕ → F64 × F64} {g r : ℕ → ℚ} (hg : ∀ n, (q n).1.Is (g n)) (hr : ∀ n, (q n).2.Is (r n))
include ha hX1 hX2 hx hf hg hr

private theorem lp_mod {good : ℝ → Prop} {R α c : ℝ} (Z : Cert good R α c) (hα : 0 < α) (hc : 0 ≤ c) (hR : 0 ≤ R)
    (hI : c * ((R ^ 3 + (R ^ 3 + 2 * R ^ 2 * (191 / 10) + 2 * R * (191 / 10) ^ 2 + (191 / 10) ^ 3) * (2 ^ 24)⁻¹ * 3106) / α) ≤ 100)
    (hfg : ∀ n, f ≤ g n) (hw : ∀ n, omega f ≤ omega (g n) ∧ omega (g n) ≤ R * omega f) (hk : ∀ n, good (damping (r n)))
    {m : LowPass F32 F64} (m0 : m.o0 = lit 0) (m1 : m.o1 = lit 0) (m2 : m.o2 = lit 0) (n : ℕ) :
    ∃ y : F32, tunedOut LowPass.tune Modifier.process q x m n = .ok y ∧ y.In (-(100 * X)) (100 * X) := by
  obtain ⟨X0, X1, X2⟩ := input_real hX1 hX2
  have hτ := omega_pos (show 0 < f by linarith)
  obtain ⟨Y, y0, y1, y2, hY⟩ := lp_tuned m q x
  have z : (lit 0 : F32).Is 0 := by decide +kernel
  have rz : rv (lit 0 : F32) = 0 := by rw [rv_is z]; norm_num
  have key := Z.closed hα hc hτ (y := fun n => rv (Y n)) (W := 100 * X)
    (I := (R ^ 3 + (R ^ 3 + 2 * R ^ 2 * (191 / 10) + 2 * R * (191 / 10) ^ 2 + (191 / 10) ^ 3) * (2 ^ 24)⁻¹ * 3106) * X)
    hw hk (by linarith) (by
      have := mul_le_mul_of_nonneg_right hI X0.le
      calc _ = _ := by ring
        _ ≤ _ := this) (P := fun n => ∃ a, (Y n).Is a)
    ⟨0, by rw [y0, m2]; exact z⟩ ⟨0, by rw [y1, m1]; exact z⟩ ⟨0, by rw [y2, m0]; exact z⟩
    (by simp only [y0, m2, rz]) (by simp only [y1, m1, rz]) (by simp only [y2, m0, rz]) fun n ih => by
      have hT : 0 < omega (g n) := omega_pos (by linarith [hfg n])
      obtain ⟨k1, k2⟩ := damping_mem (r n)
      obtain ⟨h0, h1, h2, h3⟩ := lp_at ha (hg n) (hr n) (by exact_mod_cast hf.trans (hfg n))
      obtain ⟨⟨a1, i1⟩, b1⟩ := ih (n + 2) (by omega)
      obtain ⟨⟨a2, i2⟩, b2⟩ := ih (n + 1) (by omega)
      obtain ⟨⟨a3, i3⟩, b3⟩ := ih n (by omega)
      obtain ⟨⟨qx, ix⟩, bx⟩ := input_abs hx n
      rw [rv_is ix] at bx
      obtain ⟨a, ia, he⟩ := lp_step hT (by linarith) X1 (X2.trans (by norm_num)) (M := 100 * X) (by linarith) (by norm_num at X2 ⊢; linarith)
        h0 h1 h2 h3 ix i1 i2 i3 bx (by rwa [← rv_is i1]) (by rwa [← rv_is i2]) (by rwa [← rv_is i3])
      rw [← (hY n).2] at ia
      refine ⟨⟨a, ia⟩, ?_⟩
      simp only [rv_is ia, rv_is i1, rv_is i2, rv_is i3]
      have eq : (a - 3 * a1 + 3 * a2 - a3) + damping (r n) * omega (g n) * (a - 2 * a1 + a2) + damping (r n) * omega (g n) ^ 2 * (a - a1) + omega (g n) ^ 3 * a =
        (lpG (omega (g n)) (damping (r n)) * a - (omega (g n) ^ 3 * qx + ((damping (r n) * omega (g n) ^ 2 + 2 * damping (r n) * omega (g n) + 3) * a1 +
          (-damping (r n) * omega (g n) - 3) * a2 + a3))) + omega (g n) ^ 3 * qx := by unfold lpG; ring
      rw [eq]
      refine (abs_add_le _ _).trans ?_
      have c1 : |omega (g n) ^ 3 * (qx : ℝ)| ≤ (R * omega f) ^ 3 * X := by
        rw [abs_mul, abs_of_pos (by positivity)]
        exact mul_le_mul (pow_le_pow_left₀ hT.le (hw n).2 3) bx (abs_nonneg _) (by positivity)
      have c2 := mul_le_mul_of_nonneg_right (app_range hτ hR (omega_inv hf) (hw n).1 (hw n).2 k2) (show (0 : ℝ) ≤ (2 ^ 24)⁻¹ * (31 * (100 * X) + 6 * X) by positivity)
      refine (add_le_add (he.trans c2) c1).trans (le_of_eq ?_)
      ring
  obtain ⟨⟨a, ia⟩, hb⟩ := key (n + 3)
  refine ⟨Y (n + 3), (hY n).1, in_of_abs ia ?_⟩
  rw [← rv_is ia]
  push_cast
  exact hb

/-- **C135** (low pass, `f32`, parameters that never stop changing). A new `f32` low pass filter whose cutoff is set anew before every sample, from
400 Hz on and within a factor 9/5 without resonance (7/5 with resonance at most 1/2), stays finite and below 100 times the input level for ever. -/
theorem C135_lowpass_modulated_f32_partial (hN : Narrow f fun n => (g n, r n)) {m : LowPass F32 F64} (m0 : m.o0 = lit 0) (m1 : m.o1 = lit 0) (m2 : m.o2 = lit 0) (n : ℕ) :
    ∃ y : F32, tunedOut LowPass.tune Modifier.process q x m n = .ok y ∧ y.In (-(100 * X)) (100 * X) := by
  rcases hN with h | h
  · exact lp_mod ha hX1 hX2 hx hf hg hr certA (by norm_num) (by norm_num) (by norm_num) (by norm_num) (fun n => (h n).1)
      (fun n => omega_range (by norm_num) (h n).1 (h n).2.1) (fun n => damping_none (h n).2.2) m0 m1 m2 n
  · exact lp_mod ha hX1 hX2 hx hf hg hr certB (by norm_num) (by norm_num) (by norm_num) (by norm_num) (fun n => (h n).1)
      (fun n => omega_range (by norm_num) (h n).1 (h n).2.1) (fun n => damping_low (h n).2.2) m0 m1 m2 n

private theorem hp_mod {good : ℝ → Prop} {R α c v : ℝ} (Z : Cert good R α c) (hα : 0 < α) (hc : 0 ≤ c) (hR : 0 ≤ R) (v0 : 0 ≤ v) (v1 : v ≤ 2 ^ 18)
    (hI : c * ((8 * R / omega f ^ 2 + 4 * R ^ 2 / omega f + R ^ 3 +
      (R ^ 3 + 2 * R ^ 2 * (191 / 10) + 2 * R * (191 / 10) ^ 2 + (191 / 10) ^ 3) * (2 ^ 24)⁻¹ * (31 * v + 93)) / α) ≤ v)
    (hfg : ∀ n, f ≤ g n) (hw : ∀ n, omega f ≤ omega (g n) ∧ omega (g n) ≤ R * omega f) (hk : ∀ n, good (damping (r n)))
    {m : HighPass F32 F64} (m1 : m.x1 = lit 0) (m2 : m.x2 = lit 0) (m3 : m.x3 = lit 0) (m4 : m.y1 = lit 0) (m5 : m.y2 = lit 0) (m6 : m.y3 = lit 0) (n : ℕ) :
    ∃ y : F32, tunedOut HighPass.tune Modifier.process q x m n = .ok y ∧ ∃ a : ℚ, y.Is a ∧ |(a : ℝ)| ≤ (v + 1) * X := by
  obtain ⟨X0, X1, X2⟩ := input_real hX1 hX2
  have hτ := omega_pos (show 0 < f by linarith)
  obtain ⟨U, Y, ⟨u0, u1, u2, hU⟩, ⟨y0, y1, y2⟩, hY⟩ := hp_tuned m q x
  have z : (lit 0 : F32).Is 0 := by decide +kernel
  have rz : rv (lit 0 : F32) = 0 := by rw [rv_is z]; norm_num
  have hUB : ∀ n, ∃ b : ℚ, (U n).Is b ∧ |(b : ℝ)| ≤ X := by
    have h0 : ∃ b : ℚ, (lit 0 : F32).Is b ∧ |(b : ℝ)| ≤ X := ⟨0, z, by rw [Rat.cast_zero, abs_zero]; exact X0.le⟩
    rintro (- | - | - | n)
    · rw [u0, m3]; exact h0
    · rw [u1, m2]; exact h0
    · rw [u2, m1]; exact h0
    · rw [hU]
      obtain ⟨⟨qx, ix⟩, bx⟩ := input_abs hx n
      exact ⟨qx, ix, by rwa [rv_is ix] at bx⟩
  have past : ∀ {n}, ((∃ a, (Y n).Is a) ∧ |rv (Y n) - rv (U n)| ≤ v * X) → ∃ a : ℚ, (Y n).Is a ∧ |(a : ℝ)| ≤ (v + 1) * X := by
    rintro n ⟨⟨a, ia⟩, h⟩
    obtain ⟨b, ib, hb⟩ := hUB n
    rw [rv_is ia, rv_is ib] at h
    refine ⟨a, ia, ?_⟩
    have := abs_sub_abs_le_abs_sub (a : ℝ) b
    linarith
  have key := Z.closed hα hc hτ (y := fun n => rv (Y n) - rv (U n)) (W := v * X)
    (I := (8 * R / omega f ^ 2 + 4 * R ^ 2 / omega f + R ^ 3 +
      (R ^ 3 + 2 * R ^ 2 * (191 / 10) + 2 * R * (191 / 10) ^ 2 + (191 / 10) ^ 3) * (2 ^ 24)⁻¹ * (31 * v + 93)) * X)
    hw hk (by positivity) (by
      have := mul_le_mul_of_nonneg_right hI X0.le
      calc _ = _ := by ring
        _ ≤ _ := this) (P := fun n => ∃ a, (Y n).Is a)
    ⟨0, by rw [y0, m6]; exact z⟩ ⟨0, by rw [y1, m5]; exact z⟩ ⟨0, by rw [y2, m4]; exact z⟩
    (by simp only [y0, u0, m3, m6, rz, sub_zero]) (by simp only [y1, u1, m2, m5, rz, sub_zero]) (by simp only [y2, u2, m1, m4, rz, sub_zero]) fun n ih => by
      have hT : 0 < omega (g n) := omega_pos (by linarith [hfg n])
      obtain ⟨k1, k2⟩ := damping_mem (r n)
      obtain ⟨g0, g1, g2, g3, h1, h2, h3⟩ := hp_at ha (hg n) (hr n) (by exact_mod_cast hf.trans (hfg n))
      obtain ⟨a1, i1, b1⟩ := past (ih (n + 2) (by omega))
      obtain ⟨a2, i2, b2⟩ := past (ih (n + 1) (by omega))
      obtain ⟨a3, i3, b3⟩ := past (ih n (by omega))
      obtain ⟨p0, j0, d0⟩ := hUB (n + 3)
      obtain ⟨p1, j1, d1⟩ := hUB (n + 2)
      obtain ⟨p2, j2, d2⟩ := hUB (n + 1)
      obtain ⟨p3, j3, d3⟩ := hUB n
      obtain ⟨a, ia, he⟩ := hp_step hT (by linarith) X1 (X2.trans (by norm_num)) (M := (v + 1) * X) (by positivity)
        ((mul_le_mul (show v + 1 ≤ 2 ^ 19 by norm_num at v1 ⊢; linarith) X2 X0.le (by norm_num)).trans (by norm_num))
        g0 g1 g2 g3 h1 h2 h3 j0 j1 j2 j3 i1 i2 i3 d0 d1 d2 d3 b1 b2 b3
      rw [hU n, ← (hY n).2] at ia
      refine ⟨⟨a, ia⟩, ?_⟩
      simp only [rv_is ia, rv_is i1, rv_is i2, rv_is i3, rv_is j0, rv_is j1, rv_is j2, rv_is j3]
      have wR := (hw n).2
      have lG := app_range hτ hR (omega_inv hf) (hw n).1 (hw n).2 k2
      generalize omega (g n) = t at *
      generalize damping (r n) = k at *
      have eq : ((a - p0 : ℝ) - 3 * (a1 - p1) + 3 * (a2 - p2) - (a3 - p3)) + k * t * ((a - p0) - 2 * (a1 - p1) + (a2 - p2)) +
          k * t ^ 2 * ((a - p0) - (a1 - p1)) + t ^ 3 * (a - p0) =
        (lpG t k * a - ((p0 - 3 * p1 + 3 * p2 - p3) + ((k * t ^ 2 + 2 * k * t + 3) * a1 + (-k * t - 3) * a2 + a3))) -
          (k * t * (p0 - 2 * p1 + p2) + k * t ^ 2 * (p0 - p1) + t ^ 3 * p0) := by unfold lpG; ring
      rw [eq]
      refine (abs_sub _ _).trans ?_
      rw [abs_le] at d0 d1 d2
      have A : |k * t * (p0 - 2 * p1 + p2 : ℝ)| ≤ 2 * (R * omega f) * (4 * X) := by
        rw [abs_mul, abs_of_nonneg (by positivity)]
        exact mul_le_mul (mul_le_mul k2 wR hT.le (by norm_num)) (abs_le.mpr ⟨by linarith, by linarith⟩) (abs_nonneg _) (by positivity)
      have A' : |k * t ^ 2 * (p0 - p1 : ℝ)| ≤ 2 * (R * omega f) ^ 2 * (2 * X) := by
        rw [abs_mul, abs_of_nonneg (by positivity)]
        exact mul_le_mul (mul_le_mul k2 (pow_le_pow_left₀ hT.le wR 2) (by positivity) (by norm_num)) (abs_le.mpr ⟨by linarith, by linarith⟩) (abs_nonneg _) (by positivity)
      have A'' : |t ^ 3 * (p0 : ℝ)| ≤ (R * omega f) ^ 3 * X := by
        rw [abs_mul, abs_of_nonneg (by positivity)]
        exact mul_le_mul (pow_le_pow_left₀ hT.le wR 3) (abs_le.mpr d0) (abs_nonneg _) (by positivity)
      have c2 := mul_le_mul_of_nonneg_right lG (show (0 : ℝ) ≤ (2 ^ 24)⁻¹ * (31 * ((v + 1) * X) + 62 * X) by positivity)
      refine (add_le_add (he.trans c2) ((abs_add_three _ _ _).trans (add_le_add (add_le_add A A') A''))).trans (le_of_eq ?_)
      field_simp
      ring
  obtain ⟨a, ia, hb⟩ := past (key (n + 3))
  exact ⟨Y (n + 3), (hY n).1, a, ia, hb⟩

/-- The same for the high pass filter. The bound grows for low cutoffs, as in exact arithmetic. -/
theorem C135_highpass_modulated_f32_partial (hN : Narrow f fun n => (g n, r n)) {m : HighPass F32 F64}
    (m1 : m.x1 = lit 0) (m2 : m.x2 = lit 0) (m3 : m.x3 = lit 0) (m4 : m.y1 = lit 0) (m5 : m.y2 = lit 0) (m6 : m.y3 = lit 0) (n : ℕ) :
    ∃ y : F32, tunedOut HighPass.tune Modifier.process q x m n = .ok y ∧ ∃ a : ℚ, y.Is a ∧
      |(a : ℝ)| ≤ (91 + 249 / omega f + 711 / 2 / omega f ^ 2) * X := by
  have hτ := omega_pos (show 0 < f by linarith)
  have hu := omega_inv hf
  have u0 : 0 ≤ 1 / omega f := by positivity
  have u1 : 1 / omega f ≤ 191 / 10 := by rwa [div_le_iff₀ hτ]
  have e1 : ∀ a, a / omega f = a * (1 / omega f) := fun a => by ring
  have e2 : ∀ a, a / omega f ^ 2 = a * (1 / omega f) ^ 2 := fun a => by ring
  have v1 : 90 + 249 / omega f + 711 / 2 / omega f ^ 2 ≤ 2 ^ 18 := by
    rw [e1 249, e2 (711 / 2)]
    nlinarith
  rw [show 91 + 249 / omega f + 711 / 2 / omega f ^ 2 = (90 + 249 / omega f + 711 / 2 / omega f ^ 2) + 1 by ring]
  rcases hN with h | h
  · refine hp_mod ha hX1 hX2 hx hf hg hr certA (by norm_num) (by norm_num) (by norm_num) (by positivity) v1 ?_ (fun n => (h n).1)
      (fun n => omega_range (by norm_num) (h n).1 (h n).2.1) (fun n => damping_none (h n).2.2) m1 m2 m3 m4 m5 m6 n
    rw [e1 249, e2 (711 / 2), e1, e2]
    generalize 1 / omega f = u at u0
    have := sq_nonneg u
    norm_num
    linarith
  · refine hp_mod ha hX1 hX2 hx hf hg hr certB (by norm_num) (by norm_num) (by norm_num) (by positivity) v1 ?_ (fun n => (h n).1)
      (fun n => omega_range (by norm_num) (h n).1 (h n).2.1) (fun n => damping_low (h n).2.2) m1 m2 m3 m4 m5 m6 n
    rw [e1 249, e2 (711 / 2), e1, e2]
    generalize 1 / omega f = u at u0
    have := sq_nonneg u
    norm_num
    linarith
end

/-- A cutoff that jumps between 1 kHz and 1.8 kHz at every sample, from a new filter. -/
example : ∃ l : Libm F64, @LibmAccurate l ∧ ∃ (q : ℕ → F64 × F64) (g r : ℕ → ℚ), (∀ n, (q n).1.Is (g n)) ∧ (∀ n, (q n).2.Is (r n)) ∧
    Narrow 1000 (fun n => (g n, r n)) ∧ q 0 ≠ q 1 ∧ (@LowPass.new F32 F64 _ _ _ _ (lit 1000) (lit 0)).o0 = lit 0 := by
  obtain ⟨l, hl⟩ := libmAccurate_exists
  refine ⟨l, hl, fun n => if n % 2 = 0 then (lit 1000, lit 0) else (lit 1800, lit 0), fun n => if n % 2 = 0 then 1000 else 1800, fun _ => 0, ?_, ?_, .inl fun n => ?_,
    by decide +kernel, rfl⟩
  · intro n; by_cases h : n % 2 = 0 <;> simp only [h, if_true, if_false] <;> decide +kernel
  · intro n; by_cases h : n % 2 = 0 <;> simp only [h, if_true, if_false] <;> decide +kernel
  · by_cases h : n % 2 = 0 <;> simp only [h, if_true, if_false] <;> norm_num
end Verif
