import Verif.Proofs.FilterAcc

/-! # LowPass and HighPass in `f32` next to exact arithmetic: C118 (accurate from 1 or 2 kHz up) -/

namespace Verif
open Fl Filter Topology

theorem fa_not_lt_of {fc l : F64} {f lo : ℚ} (hfc : fc.Is f) (hl : l.Is lo) (hf : lo ≤ f) : (fc <? l) = false := by
  rw [hfc.lt hl, decide_eq_false_iff_not]
  exact not_lt.mpr hf

theorem fa_abs_input {x : ℕ → F32} {u : ℕ → ℚ} {X : ℚ} (hx : ∀ n, (x n).Is (u n)) (hu : ∀ n, |u n| ≤ X) (n : ℕ) :
    (∃ q, (x n).Is q) ∧ |rv (x n)| ≤ X := by
  refine ⟨⟨_, hx n⟩, ?_⟩
  rw [rv_is (hx n)]
  exact_mod_cast hu n

theorem fa_real_input {x : ℕ → F32} {u : ℕ → ℚ} (hx : ∀ n, (x n).Is (u n)) : (fun n => rv (x n)) = fun n => (u n : ℝ) :=
  funext fun n => rv_is (hx n)

section
variable [Libm F64] (ha : LibmAccurate) {fc r : F64} {f ρ : ℚ} (hfc : fc.Is f) (hr : r.Is ρ)
  {X : ℚ} (hX1 : (2 ^ 90)⁻¹ ≤ X) (hX2 : X ≤ 2 ^ 80) (x : ℕ → F32) (u : ℕ → ℚ) (hx : ∀ n, (x n).Is (u n)) (hu : ∀ n, |u n| ≤ X)
include ha hfc hr hX1 hX2 hx hu

private theorem lp_near (hf : 2000 ≤ f ∨ 1000 ≤ f ∧ ρ ≤ 1 / 2) : ∃ z : ℕ → ℝ,
    (∀ n, modOut Modifier.process (fun n => (u n : ℝ)) (LowPass.new (f : ℝ) (ρ : ℝ) : LowPass ℝ ℝ) n = .ok (z n)) ∧
    ∀ n, ∃ y, modOut Modifier.process x (LowPass.new fc r : LowPass F32 F64) n = .ok y ∧ ∃ q : ℚ, y.Is q ∧ |(q : ℝ) - z n| ≤ 29 / 1000 * X := by
  obtain ⟨X0, X1, X2⟩ := input_real hX1 hX2
  rcases hf with hf | ⟨hf, hρ⟩
  · obtain ⟨T, K, z, hz, hT, hu, hT2, hK1, hK2, -, hn⟩ := lowpass_setup ha r (show (lit 2000 : F64).Is 2000 by decide +kernel) (by norm_num) (by norm_num)
      (u0 := 382 / 100) (by norm_num) (fa_not_lt_of hfc (by decide +kernel) hf) X1 X2 (fa_abs_input hx hu)
    obtain ⟨b1, b2⟩ := gain_le hT hu hT2 hK1 hK2
    rw [fa_real_input hx] at hz
    refine ⟨z, hz f ρ hfc hr, fun n => ?_⟩
    obtain ⟨y, hy, q, hq, hb, -⟩ := hn (B := 948 / 100) (D := 29 / 1000 * X) (by positivity) (b1.trans (by norm_num))
      (by norm_num at X2 ⊢; linarith) (small_gain (L := 14 / 10000) b2 (by positivity) (by norm_num) (by linarith)) n
    exact ⟨y, hy, q, hq, hb⟩
  · obtain ⟨T, K, z, hz, hT, hu, hT2, hK1, hK2, hk, hn⟩ := lowpass_setup ha r (show (lit 1000 : F64).Is 1000 by decide +kernel) (by norm_num) (by norm_num)
      (u0 := 764 / 100) (by norm_num) (fa_not_lt_of hfc (by decide +kernel) hf) X1 X2 (fa_abs_input hx hu)
    obtain ⟨b1, b2⟩ := gain_le' hT hu (p0 := 16 / 10) (half_inv hT hu (by norm_num) (by norm_num)) hT2 (hk ρ hr hρ) hK2
    rw [fa_real_input hx] at hz
    refine ⟨z, hz f ρ hfc hr, fun n => ?_⟩
    obtain ⟨y, hy, q, hq, hb, -⟩ := hn (B := 558 / 100) (D := 29 / 1000 * X) (by positivity) (b1.trans (by norm_num))
      (by norm_num at X2 ⊢; linarith) (small_gain (L := 42 / 10000) b2 (by positivity) (by norm_num) (by linarith)) n
    exact ⟨y, hy, q, hq, hb⟩

private theorem hp_near (hf : 2500 ≤ f ∨ 1500 ≤ f ∧ ρ ≤ 1 / 2) : ∃ z : ℕ → ℝ,
    (∀ n, modOut Modifier.process (fun n => (u n : ℝ)) (HighPass.new (f : ℝ) (ρ : ℝ) : HighPass ℝ ℝ) n = .ok (z n)) ∧
    ∀ n, ∃ y, modOut Modifier.process x (HighPass.new fc r : HighPass F32 F64) n = .ok y ∧ ∃ q : ℚ, y.Is q ∧ |(q : ℝ) - z n| ≤ 29 / 1000 * X := by
  obtain ⟨X0, X1, X2⟩ := input_real hX1 hX2
  rcases hf with hf | ⟨hf, hρ⟩
  · obtain ⟨T, K, z, hz, hT, hu, hT2, hK1, hK2, -, hn⟩ := highpass_setup ha r (show (lit 2500 : F64).Is 2500 by decide +kernel) (by norm_num) (by norm_num)
      (u0 := 306 / 100) (by norm_num) (fa_not_lt_of hfc (by decide +kernel) hf) X1 X2 (fa_abs_input hx hu)
    obtain ⟨b1, b2⟩ := gain_le hT hu hT2 hK1 hK2
    rw [fa_real_input hx] at hz
    refine ⟨z, hz f ρ hfc hr, fun n => ?_⟩
    obtain ⟨y, hy, q, hq, hb, -⟩ := hn (B := 25) (D := 29 / 1000 * X) (by positivity) (hp_size hK1 hK2 b1 (by norm_num) (by norm_num))
      (by norm_num at X2 ⊢; linarith) (small_gain (L := 7 / 10000) b2 (by positivity) (by norm_num) (by linarith)) n
    exact ⟨y, hy, q, hq, hb⟩
  · obtain ⟨T, K, z, hz, hT, hu, hT2, hK1, hK2, hk, hn⟩ := highpass_setup ha r (show (lit 1500 : F64).Is 1500 by decide +kernel) (by norm_num) (by norm_num)
      (u0 := 51 / 10) (by norm_num) (fa_not_lt_of hfc (by decide +kernel) hf) X1 X2 (fa_abs_input hx hu)
    obtain ⟨b1, b2⟩ := gain_le' hT hu (p0 := 144 / 100) (half_inv hT hu (by norm_num) (by norm_num)) hT2 (hk ρ hr hρ) hK2
    rw [fa_real_input hx] at hz
    refine ⟨z, hz f ρ hfc hr, fun n => ?_⟩
    obtain ⟨y, hy, q, hq, hb, -⟩ := hn (B := 17) (D := 29 / 1000 * X) (by positivity) (hp_size hK1 hK2 b1 (by norm_num) (by norm_num))
      (by norm_num at X2 ⊢; linarith) (small_gain (L := 13 / 10000) b2 (by positivity) (by norm_num) (by linarith)) n
    exact ⟨y, hy, q, hq, hb⟩

/-- A low pass filter from 2 kHz up, or from 1 kHz up at a resonance up to 1/2, outputs what its equations give in exact
arithmetic on the same input, up to 3 % of the largest input, forever. -/
theorem C118_lowpass_partial (hf : 2000 ≤ f ∨ 1000 ≤ f ∧ ρ ≤ 1 / 2) (n : ℕ) : ∃ (y : F32) (q : ℚ) (z : ℝ),
    modOut Modifier.process x (LowPass.new fc r : LowPass F32 F64) n = .ok y ∧ y.Is q ∧
    modOut Modifier.process (fun n => (u n : ℝ)) (LowPass.new (f : ℝ) (ρ : ℝ) : LowPass ℝ ℝ) n = .ok z ∧ |(q : ℝ) - z| ≤ 3 / 100 * X := by
  obtain ⟨z, hz, h⟩ := lp_near ha hfc hr hX1 hX2 x u hx hu hf
  obtain ⟨y, hy, q, hq, hb⟩ := h n
  exact ⟨y, q, z n, hy, hq, hz n, by linarith [(input_real hX1 hX2).1]⟩

/-- A high pass filter from 2.5 kHz up, or from 1.5 kHz up at a resonance up to 1/2. -/
theorem C118_highpass_partial (hf : 2500 ≤ f ∨ 1500 ≤ f ∧ ρ ≤ 1 / 2) (n : ℕ) : ∃ (y : F32) (q : ℚ) (z : ℝ),
    modOut Modifier.process x (HighPass.new fc r : HighPass F32 F64) n = .ok y ∧ y.Is q ∧
    modOut Modifier.process (fun n => (u n : ℝ)) (HighPass.new (f : ℝ) (ρ : ℝ) : HighPass ℝ ℝ) n = .ok z ∧ |(q : ℝ) - z| ≤ 3 / 100 * X := by
  obtain ⟨z, hz, h⟩ := hp_near ha hfc hr hX1 hX2 x u hx hu hf
  obtain ⟨y, hy, q, hq, hb⟩ := h n
  exact ⟨y, q, z n, hy, hq, hz n, by linarith [(input_real hX1 hX2).1]⟩
end

section
variable [Libm F64] (ha : LibmAccurate) {fc r : F64} {f ρ : ℚ} (hfc : fc.Is f) (hr : r.Is ρ)
  {c : F32} {v : ℚ} (hc : c.Is v) (hv1 : (2 ^ 90)⁻¹ ≤ |v|) (hv2 : |v| ≤ 2 ^ 80)
include ha hfc hr hc hv1 hv2

omit [Libm F64] ha hfc hr hc in
private theorem settled {y : ℕ → Res F32} {z : ℕ → ℝ} {w : ℝ} (hz : Tendsto z atTop (𝓝 w))
    (hy : ∀ n, ∃ s, y n = .ok s ∧ ∃ q : ℚ, s.Is q ∧ |(q : ℝ) - z n| ≤ 29 / 1000 * (|v| : ℚ)) :
    ∃ N, ∀ n ≥ N, ∃ (s : F32) (q : ℚ), y n = .ok s ∧ s.Is q ∧ |(q : ℝ) - w| ≤ 3 / 100 * |(v : ℝ)| := by
  have X0 := (input_real hv1 hv2).1
  obtain ⟨N, hN⟩ := (Metric.tendsto_atTop.mp hz) (1 / 1000 * (|v| : ℚ)) (by positivity)
  refine ⟨N, fun n hn => ?_⟩
  obtain ⟨s, hs, q, hq, hb⟩ := hy n
  refine ⟨s, q, hs, hq, ?_⟩
  have h1 := hN n hn
  rw [Real.dist_eq] at h1
  have h2 := abs_sub_le (q : ℝ) (z n) w
  push_cast at h1 hb
  linarith

/-- Given a constant, such a low pass filter ends up within 3 % of it. -/
theorem C118_lowpass_settles_partial (hf : 2000 ≤ f ∨ 1000 ≤ f ∧ ρ ≤ 1 / 2) : ∃ N, ∀ n ≥ N, ∃ (y : F32) (q : ℚ),
    modOut Modifier.process (fun _ => c) (LowPass.new fc r : LowPass F32 F64) n = .ok y ∧ y.Is q ∧ |(q : ℝ) - v| ≤ 3 / 100 * |(v : ℝ)| := by
  obtain ⟨z, hz, h⟩ := lp_near ha hfc hr hv1 hv2 (fun _ => c) (fun _ => v) (fun _ => hc) (fun _ => le_rfl) hf
  have hf0 : (0 : ℝ) < f := by
    have : (0 : ℚ) < f := by rcases hf with hf | hf <;> linarith
    exact_mod_cast this
  obtain ⟨z', hz', ht⟩ := C59_settles (f : ℝ) (ρ : ℝ) hf0 (v : ℝ)
  have : z = z' := funext fun n => by
    have := (hz n).symm.trans (hz' n)
    exact Except.ok.inj this
  subst this
  exact settled hv1 hv2 ht h

/-- Given a constant, such a high pass filter ends up within 3 % of it around 0. -/
theorem C118_highpass_settles_partial (hf : 2500 ≤ f ∨ 1500 ≤ f ∧ ρ ≤ 1 / 2) : ∃ N, ∀ n ≥ N, ∃ (y : F32) (q : ℚ),
    modOut Modifier.process (fun _ => c) (HighPass.new fc r : HighPass F32 F64) n = .ok y ∧ y.Is q ∧ |(q : ℝ)| ≤ 3 / 100 * |(v : ℝ)| := by
  obtain ⟨z, hz, h⟩ := hp_near ha hfc hr hv1 hv2 (fun _ => c) (fun _ => v) (fun _ => hc) (fun _ => le_rfl) hf
  have hf0 : (0 : ℝ) < f := by
    have : (0 : ℚ) < f := by rcases hf with hf | hf <;> linarith
    exact_mod_cast this
  obtain ⟨z', hz', ht⟩ := C60_settles (f : ℝ) (ρ : ℝ) hf0 (v : ℝ)
  have : z = z' := funext fun n => by
    have := (hz n).symm.trans (hz' n)
    exact Except.ok.inj this
  subst this
  have := settled hv1 hv2 ht h
  simpa only [sub_zero] using this
end

/-- A 2 kHz filter at full resonance and a 1 kHz filter at resonance 1/2, on samples up to full scale. -/
example : ∃ l : Libm F64, @LibmAccurate l ∧ (lit 2000 : F64).Is 2000 ∧ (lit 1 : F64).Is 1 ∧ (lit 1000 : F64).Is 1000 ∧
    (lit (1 / 2) : F64).Is (1 / 2) ∧ ((2 : ℚ) ^ 90)⁻¹ ≤ |1| ∧ |(1 : ℚ)| ≤ 2 ^ 80 ∧ (lit 1 : F32).Is 1 := by
  obtain ⟨l, hl⟩ := libmAccurate_exists
  exact ⟨l, hl, by decide +kernel, by decide +kernel, by decide +kernel, by decide +kernel, by norm_num, by norm_num, by decide +kernel⟩

/-- 1 kHz at resonance 1/2, an input alternating between 1 and -1. -/
example [Libm F64] (ha : LibmAccurate) (n : ℕ) : ∃ (y : F32) (q : ℚ) (z : ℝ),
    modOut Modifier.process (fun n => if n % 2 = 0 then lit 1 else lit (-1)) (LowPass.new (lit 1000 : F64) (lit (1 / 2)) : LowPass F32 F64) n = .ok y ∧ y.Is q ∧
    modOut Modifier.process (fun n => ((if n % 2 = 0 then 1 else -1 : ℚ) : ℝ)) (LowPass.new ((1000 : ℚ) : ℝ) ((1 / 2 : ℚ) : ℝ) : LowPass ℝ ℝ) n = .ok z ∧
    |(q : ℝ) - z| ≤ 3 / 100 * (1 : ℚ) :=
  C118_lowpass_partial ha (by decide +kernel) (by decide +kernel) (by norm_num) (by norm_num) _ _ (fun n => by split_ifs <;> decide +kernel)
    (fun n => by split_ifs <;> norm_num) (.inr ⟨by norm_num, by norm_num⟩) n

end Verif
