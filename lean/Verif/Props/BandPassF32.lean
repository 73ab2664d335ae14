import Verif.Proofs.Time
import Verif.Proofs.Approx
import Verif.Proofs.Rel
import Verif.Proofs.Osc
import Verif.Spec.Filter
import Verif.Spec.LibmTan64
import Verif.Model.Modifiers

/-! # BandPass in floating point: C110 -/

namespace Verif
open Fl

/-! ## The coefficients -/

/-- `tan(π f / 48000)` for a corner frequency between 8 Hz and 23992 Hz. -/
private theorem warp [Libm F64] (ht : Tan64Accurate) {f : F64} {q : ℚ} (hf : f.Is q) (h0 : 8 ≤ q) (h1 : q ≤ 23992) :
    ∃ t : ℚ, (Libm.tan (SM.piM F32 * f * invSR) : F64).Is t ∧ (2 ^ 11)⁻¹ * (65 / 64) ≤ t ∧ t * (65 / 64) ≤ 2 ^ 11 := by
  have hpi0 := Real.pi_gt_d6
  have hpi1 := Real.pi_lt_d6
  have q0 : (8 : ℝ) ≤ q := by exact_mod_cast h0
  have q1 : (q : ℝ) ≤ 23992 := by exact_mod_cast h1
  have aF : App f 0 q := App.of_is hf rfl
  have aI : App (invSR : F64) ((2 ^ 53)⁻¹) (1 / 48000) := by
    refine ⟨_, invSR64, ?_⟩
    have := b64.abs_rnd_sub_le_rel (q := 1 / 48000) (by decide +kernel)
    rw [show pow2 (-b64.p) = (2 ^ 53)⁻¹ by decide +kernel] at this
    have := (Rat.cast_le (K := ℝ)).mpr this
    push_cast at this
    exact this
  have m1 : Mid (Real.pi * q) := by
    constructor <;> rw [abs_of_pos (by positivity)] <;> norm_num at * <;> nlinarith
  have m2 : Mid (Real.pi * q * (1 / 48000)) := by
    constructor <;> rw [abs_of_pos (by positivity)] <;> norm_num at * <;> nlinarith
  have a1 : App (SM.piM F32 * f : F64) ((2 ^ 50)⁻¹) (Real.pi * q) := app_pi.mul aF m1 (by positivity) (by norm_num) (by norm_num)
  have a2 : App (SM.piM F32 * f * invSR : F64) ((2 ^ 48)⁻¹) (Real.pi * q * (1 / 48000)) :=
    a1.mul aI m2 (by positivity) (by norm_num) (by norm_num)
  obtain ⟨x, hx, ex⟩ := a2
  rw [abs_of_pos (show 0 < Real.pi * q * (1 / 48000) by have := Real.pi_pos; nlinarith)] at ex
  obtain ⟨ex0, ex1⟩ := abs_le.mp ex
  have x0 : (52 / 100000 : ℝ) ≤ x := by norm_num at *; nlinarith
  have x1 : (x : ℝ) ≤ Real.pi / 2 - 52 / 100000 := by norm_num at *; nlinarith
  have x0' : (2 ^ 12)⁻¹ ≤ x := by
    have : ((52 / 100000 : ℚ) : ℝ) ≤ x := by push_cast; exact x0
    have : (52 / 100000 : ℚ) ≤ x := by exact_mod_cast this
    exact le_trans (by norm_num) this
  have x1' : x ≤ 15705 / 10000 := by
    have : (x : ℝ) ≤ ((15705 / 10000 : ℚ) : ℝ) := by push_cast; norm_num at hpi1; linarith
    exact_mod_cast this
  obtain ⟨t, htt, et⟩ := ht.tan _ x hx x0' x1'
  obtain ⟨b0, b1⟩ := tan_bounds' (q := x) (by linarith) (by linarith)
  have b2 : Real.tan x ≤ 1924 := b1.trans (by
    rw [div_le_iff₀ (by linarith)]; linarith)
  obtain ⟨e0, e1⟩ := abs_le.mp et
  refine ⟨t, htt, ?_, ?_⟩
  · have : ((((2 : ℚ) ^ 11)⁻¹ * (65 / 64) : ℚ) : ℝ) ≤ t := by push_cast; norm_num at *; linarith
    exact_mod_cast this
  · have : ((t * (65 / 64) : ℚ) : ℝ) ≤ ((2 ^ 11 : ℚ) : ℝ) := by push_cast; norm_num at *; linarith
    exact_mod_cast this

private theorem repr64_1 : b64.Repr 1 := by exact_mod_cast Fmt.repr64_int (n := 1) (by norm_num)

/-- One pole: `1/(1+t)` and `(1-t)/(1+t)` as computed. -/
private theorem pole {θ : F64} {t : ℚ} (h : θ.Is t) (t0 : (2 ^ 11)⁻¹ * (65 / 64) ≤ t) (t1 : t * (65 / 64) ≤ 2 ^ 11) :
    (∃ a : ℚ, (lit 1 / (lit 1 + θ) : F64).Is a ∧ 0 ≤ a ∧ a ≤ 1) ∧
    ∃ b : ℚ, ((lit 1 - θ) / (lit 1 + θ) : F64).Is b ∧ |b| ≤ 1 - (2 ^ 10)⁻¹ := by
  have tp : 0 < t := lt_of_lt_of_le (by positivity) t0
  norm_num at t0 t1
  have hp := Is.add lit64_1 h (fits64' 12 (by norm_num) (by rw [abs_of_pos (by linarith)]; norm_num; linarith))
  have p1 : 1 ≤ b64.rnd (1 + t) := b64.repr_le_rnd repr64_1 (by linarith)
  have rp : Rel (2 ^ 53)⁻¹ (b64.rnd (1 + t)) (1 + t) := Rel.rnd64 (.inr (le_trans (by norm_num) (by linarith : (1 : ℚ) ≤ 1 + t)))
  set p := b64.rnd (1 + t)
  have pp : 0 < p := by linarith
  constructor
  · have i1 : 1 / p ≤ 1 := by rw [div_le_iff₀ pp]; linarith
    have i0 : 0 ≤ 1 / p := by positivity
    exact ⟨_, Is.div lit64_1 hp pp.ne' (fits64' 0 (by norm_num) (by rw [abs_of_nonneg i0, pow_zero]; exact i1)), b64.rnd_nonneg i0, b64.rnd_le_repr repr64_1 i1⟩
  · have bm : |1 - t| ≤ 2 ^ 11 := by rw [abs_le]; constructor <;> norm_num <;> linarith
    have hm := Is.sub lit64_1 h (fits64' 11 (by norm_num) bm)
    have em := b64.abs_rnd_sub_le_mixed (1 - t)
    rw [show pow2 (-(b64.p : ℤ)) = (2 ^ 53)⁻¹ by decide +kernel] at em
    have tiny : pow2 (b64.emin - 1) ≤ (2 ^ 80)⁻¹ := by decide +kernel
    obtain ⟨l, u⟩ := abs_le.mp rp
    -- numerator against denominator
    have key : |b64.rnd (1 - t)| ≤ (1 - (2 ^ 10)⁻¹ * (129 / 128)) * p := by
      have hn : |b64.rnd (1 - t)| ≤ |1 - t| * (1 + (2 ^ 53)⁻¹) + (2 ^ 80)⁻¹ := by
        have := abs_sub_abs_le_abs_sub (b64.rnd (1 - t)) (1 - t)
        linarith
      have hd : (1 + t) * (1 - (2 ^ 53)⁻¹) ≤ p := by linarith
      refine hn.trans (le_trans ?_ (mul_le_mul_of_nonneg_left hd (by norm_num)))
      rcases le_or_gt t 1 with h | h
      · rw [abs_of_nonneg (by linarith)]; norm_num; linarith
      · rw [abs_of_neg (by linarith)]; norm_num; linarith
    have q1 : |b64.rnd (1 - t) / p| ≤ 1 - (2 ^ 10)⁻¹ * (129 / 128) := by
      rw [abs_div, abs_of_pos pp, div_le_iff₀ pp]; exact key
    refine ⟨_, Is.div hm hp pp.ne' (fits64' 0 (by norm_num) (q1.trans (by norm_num))), ?_⟩
    have e := err64 (q := b64.rnd (1 - t) / p) 0 (by norm_num) (q1.trans (by norm_num))
    rw [show (2 : ℚ) ^ ((0 : ℤ) - 54) = (2 ^ 54)⁻¹ by norm_num] at e
    have := abs_sub_abs_le_abs_sub (b64.rnd (b64.rnd (1 - t) / p)) (b64.rnd (1 - t) / p)
    norm_num at *
    linarith

/-- The coefficients of a filter with both poles away from the unit circle. -/
private structure Coefs (m : BandPass F32 F64) (b c : ℚ) : Prop where
  hb : |b| ≤ 1 - (2 ^ 10)⁻¹
  hc : |c| ≤ 1 - (2 ^ 10)⁻¹
  a0 : ∃ a : ℚ, m.a0.Is a ∧ |a| ≤ 1
  b1 : ∃ q : ℚ, m.b1.Is q ∧ |q - (b + c)| ≤ (2 ^ 50)⁻¹
  b2 : ∃ q : ℚ, m.b2.Is q ∧ |q - b * c| ≤ (2 ^ 50)⁻¹

private theorem coefs [Libm F64] (ht : Tan64Accurate) (m : BandPass F32 F64) {l h : F64} (hc : m.getCornerFrequencies = (l, h)) {p q : ℚ}
    (hl : l.Is p) (hh : h.Is q) (p0 : 8 ≤ p) (p1 : p ≤ 23992) (q0 : 8 ≤ q) (q1 : q ≤ 23992) : ∃ b c, Coefs m.reset b c := by
  obtain ⟨t, h1, h2, h3⟩ := warp ht hh q0 q1
  obtain ⟨s, g1, g2, g3⟩ := warp ht hl p0 p1
  obtain ⟨⟨a, ha, a0, a1⟩, b, hb, b1⟩ := pole h1 h2 h3
  obtain ⟨⟨a', ha', a0', a1'⟩, c, hc', c1⟩ := pole g1 g2 g3
  have d1 := Is.sub lit64_1 ha (fits64' 0 (by norm_num) (by rw [abs_le]; constructor <;> norm_num <;> linarith))
  have d1a : 0 ≤ b64.rnd (1 - a) := b64.rnd_nonneg (by linarith)
  have d1b : b64.rnd (1 - a) ≤ 1 := b64.rnd_le_repr repr64_1 (by linarith)
  have e0 : 0 ≤ b64.rnd (1 - a) * a' := mul_nonneg d1a a0'
  have e1 : b64.rnd (1 - a) * a' ≤ 1 := mul_le_one₀ d1b a0' a1'
  have d2 := Is.mul d1 ha' (fits64' 0 (by norm_num) (by rw [abs_of_nonneg e0]; norm_num; linarith))
  have bb : |b| ≤ 1 := b1.trans (by norm_num)
  have cc : |c| ≤ 1 := c1.trans (by norm_num)
  have s1 : |b + c| ≤ 2 ^ 1 := (abs_add_le b c).trans (by norm_num; linarith)
  have s2 : |b * c| ≤ 2 ^ 0 := by rw [abs_mul]; simpa using mul_le_one₀ bb (abs_nonneg c) cc
  have er1 := err64 (q := b + c) 1 (by norm_num) (by exact_mod_cast s1)
  have er2 := err64 (q := b * c) 0 (by norm_num) (by exact_mod_cast s2)
  have hr : m.reset = { m with
      a0 := (lit 1 - lit 1 / (lit 1 + Libm.tan (SM.piM F32 * h * invSR))) * (lit 1 / (lit 1 + Libm.tan (SM.piM F32 * l * invSR)))
      b1 := (lit 1 - Libm.tan (SM.piM F32 * h * invSR)) / (lit 1 + Libm.tan (SM.piM F32 * h * invSR)) +
        (lit 1 - Libm.tan (SM.piM F32 * l * invSR)) / (lit 1 + Libm.tan (SM.piM F32 * l * invSR))
      b2 := (lit 1 - Libm.tan (SM.piM F32 * h * invSR)) / (lit 1 + Libm.tan (SM.piM F32 * h * invSR)) *
        ((lit 1 - Libm.tan (SM.piM F32 * l * invSR)) / (lit 1 + Libm.tan (SM.piM F32 * l * invSR))) } := by
    unfold BandPass.reset; rw [hc]
  rw [hr]
  exact ⟨b, c, b1, c1, ⟨_, d2, by rw [abs_of_nonneg (b64.rnd_nonneg e0)]; exact b64.rnd_le_repr repr64_1 e1⟩,
    ⟨_, Is.add hb hc' (fits64' 1 (by norm_num) s1), er1.trans (by norm_num)⟩, ⟨_, Is.mul hb hc' (fits64' 0 (by norm_num) s2), er2.trans (by norm_num)⟩⟩

/-! ## One sample -/

theorem mixed64' (q : ℚ) : |b64.rnd q - q| ≤ (2 ^ 53)⁻¹ * |q| + (2 ^ 200)⁻¹ := by
  have h := b64.abs_rnd_sub_le_mixed q
  rw [show pow2 (-(b64.p : ℤ)) = (2 ^ 53)⁻¹ by decide +kernel] at h
  have : pow2 (b64.emin - 1) ≤ (2 ^ 200)⁻¹ := by decide +kernel
  linarith

/-- The state of the recursion: outputs bounded by `Y`, and the partial state `y1 - b·y2` by a little less than `(1-|b|)·Y`. -/
private structure Bnd (m : BandPass F32 F64) (b Y : ℚ) : Prop where
  out : ∃ y1 y2 : ℚ, m.y1.Is y1 ∧ m.y2.Is y2 ∧ |y1| ≤ Y ∧ |y2| ≤ 2 * Y ∧ |y1 - b * y2| ≤ (1 - (2 ^ 11)⁻¹) * (1 - |b|) * Y

/-- Rounding errors of one sample: `D` bounds the forced term. -/
private theorem step {m : BandPass F32 F64} {b c : ℚ} (hm : Coefs m b c) {Y D : ℚ} (hY : Y ≤ 2 ^ 98) (hD : D ≤ 2 ^ 75) (hbd : Bnd m b Y) {x : F32} {d : ℚ}
    (hd : (x - m.x2).Is d) (hdD : |d| ≤ D) :
    ∃ y y1 : ℚ, (m.process x).1.Is y ∧ m.y1.Is y1 ∧ |y1| ≤ Y ∧
      |y - b * y1| ≤ |c| * ((1 - (2 ^ 11)⁻¹) * (1 - |b|) * Y) + (2 ^ 22)⁻¹ * Y + D * (1 + (2 ^ 22)⁻¹) + (2 ^ 148)⁻¹ := by
  obtain ⟨y1, y2, h1, h2, k1, k2, k3⟩ := hbd.out
  obtain ⟨a, ha, a1⟩ := hm.a0
  obtain ⟨p, hp, ep⟩ := hm.b1
  obtain ⟨q, hq, eq⟩ := hm.b2
  have Y0 : 0 ≤ Y := (abs_nonneg _).trans k1
  have D0 : 0 ≤ D := (abs_nonneg _).trans hdD
  have hb1 : |b| ≤ 1 := hm.hb.trans (by norm_num)
  have hc1 : |c| ≤ 1 := hm.hc.trans (by norm_num)
  have p2 : |p| ≤ 2 + (2 ^ 50)⁻¹ := by
    have := abs_sub_abs_le_abs_sub p (b + c)
    have := abs_add_le b c
    linarith
  have q2 : |q| ≤ 1 + (2 ^ 50)⁻¹ := by
    have h3 := abs_sub_abs_le_abs_sub q (b * c)
    have : |b * c| ≤ 1 := by rw [abs_mul]; exact mul_le_one₀ hb1 (abs_nonneg c) hc1
    linarith
  -- the products
  have m0 : |a * d| ≤ D := by
    rw [abs_mul]; calc |a| * |d| ≤ 1 * D := mul_le_mul a1 hdD (abs_nonneg _) (by norm_num)
      _ = D := one_mul D
  have m1 : |p * y1| ≤ (2 + (2 ^ 50)⁻¹) * Y := by
    rw [abs_mul]; exact mul_le_mul p2 k1 (abs_nonneg _) (by positivity)
  have m2 : |q * y2| ≤ (1 + (2 ^ 50)⁻¹) * (2 * Y) := by
    rw [abs_mul]; exact mul_le_mul q2 k2 (abs_nonneg _) (by positivity)
  have r0 := mixed64' (a * d)
  have r1 := mixed64' (p * y1)
  have r2 := mixed64' (q * y2)
  have f0 := Is.mul ha hd.up (fits64' 200 (by norm_num) (by norm_num at *; linarith))
  have f1 := Is.mul hp h1.up (fits64' 200 (by norm_num) (by norm_num at *; linarith))
  have f2 := Is.mul hq h2.up (fits64' 200 (by norm_num) (by norm_num at *; linarith))
  have n0 := abs_sub_abs_le_abs_sub (b64.rnd (a * d)) (a * d)
  have n1 := abs_sub_abs_le_abs_sub (b64.rnd (p * y1)) (p * y1)
  have n2 := abs_sub_abs_le_abs_sub (b64.rnd (q * y2)) (q * y2)
  set P0 := b64.rnd (a * d)
  set P1 := b64.rnd (p * y1)
  set P2 := b64.rnd (q * y2)
  have r3 := mixed64' (P0 + P1)
  have n3 := abs_sub_abs_le_abs_sub (b64.rnd (P0 + P1)) (P0 + P1)
  have n3' := abs_add_le P0 P1
  have f3 := Is.add f0 f1 (fits64' 200 (by norm_num) (by norm_num at *; linarith))
  set S := b64.rnd (P0 + P1)
  have r4 := mixed64' (S - P2)
  have n4 := abs_sub_abs_le_abs_sub (b64.rnd (S - P2)) (S - P2)
  have n4' := abs_sub S P2
  have f4 := Is.sub f3 f2 (fits64' 200 (by norm_num) (by norm_num at *; linarith))
  set T := b64.rnd (S - P2)
  have r5 := mixed32 T
  -- the ideal value
  have c3 : |c * (y1 - b * y2)| ≤ |c| * ((1 - (2 ^ 11)⁻¹) * (1 - |b|) * Y) := by
    rw [abs_mul]; exact mul_le_mul_of_nonneg_left k3 (abs_nonneg _)
  have e1 : |(p - (b + c)) * y1| ≤ (2 ^ 50)⁻¹ * Y := by
    rw [abs_mul]; exact mul_le_mul ep k1 (abs_nonneg _) (by positivity)
  have e2 : |(q - b * c) * y2| ≤ (2 ^ 50)⁻¹ * (2 * Y) := by
    rw [abs_mul]; exact mul_le_mul eq k2 (abs_nonneg _) (by positivity)
  have hT : T - b * y1 = a * d + c * (y1 - b * y2) + (p - (b + c)) * y1 - (q - b * c) * y2
      + (P0 - a * d) + (P1 - p * y1) - (P2 - q * y2) + (S - (P0 + P1)) + (T - (S - P2)) := by ring
  have hTb : |T - b * y1| ≤ |c| * ((1 - (2 ^ 11)⁻¹) * (1 - |b|) * Y) + (2 ^ 47)⁻¹ * Y + D * (1 + (2 ^ 50)⁻¹) + (2 ^ 190)⁻¹ := by
    rw [hT]
    have t1 := abs_add_le (a * d) (c * (y1 - b * y2))
    have t2 := abs_add_le (a * d + c * (y1 - b * y2)) ((p - (b + c)) * y1)
    have t3 := abs_sub (a * d + c * (y1 - b * y2) + (p - (b + c)) * y1) ((q - b * c) * y2)
    have t4 := abs_add_le (a * d + c * (y1 - b * y2) + (p - (b + c)) * y1 - (q - b * c) * y2) (P0 - a * d)
    have t5 := abs_add_le (a * d + c * (y1 - b * y2) + (p - (b + c)) * y1 - (q - b * c) * y2 + (P0 - a * d)) (P1 - p * y1)
    have t6 := abs_sub (a * d + c * (y1 - b * y2) + (p - (b + c)) * y1 - (q - b * c) * y2 + (P0 - a * d) + (P1 - p * y1)) (P2 - q * y2)
    have t7 := abs_add_le (a * d + c * (y1 - b * y2) + (p - (b + c)) * y1 - (q - b * c) * y2 + (P0 - a * d) + (P1 - p * y1) - (P2 - q * y2)) (S - (P0 + P1))
    have t8 := abs_add_le (a * d + c * (y1 - b * y2) + (p - (b + c)) * y1 - (q - b * c) * y2 + (P0 - a * d) + (P1 - p * y1) - (P2 - q * y2) + (S - (P0 + P1))) (T - (S - P2))
    clear hT
    generalize |c| * ((1 - (2 ^ 11)⁻¹) * (1 - |b|) * Y) = W at *
    norm_num at *
    linarith
  have hw : |c| * ((1 - (2 ^ 11)⁻¹) * (1 - |b|) * Y) ≤ (1 - |b|) * Y := by
    have g : (1 - (2 ^ 11)⁻¹) * (1 - |b|) * Y ≤ (1 - |b|) * Y := by
      rw [mul_assoc]; exact mul_le_of_le_one_left (mul_nonneg (by linarith) Y0) (by norm_num)
    exact (mul_le_of_le_one_left (mul_nonneg (mul_nonneg (by norm_num) (by linarith)) Y0) hc1).trans g
  have hby : |b * y1| ≤ |b| * Y := by
    rw [abs_mul]; exact mul_le_mul_of_nonneg_left k1 (abs_nonneg _)
  have hTa : |T| ≤ Y + (2 ^ 47)⁻¹ * Y + D * (1 + (2 ^ 50)⁻¹) + (2 ^ 190)⁻¹ := by
    have := abs_add_le (T - b * y1) (b * y1)
    rw [sub_add_cancel] at this
    linarith
  have hf : b32.Fits T := fits32' 100 (by norm_num) (by norm_num at *; linarith)
  refine ⟨_, y1, f4.down hf, h1, k1, ?_⟩
  have t9 := abs_add_le (b32.rnd T - T) (T - b * y1)
  rw [sub_add_sub_cancel] at t9
  generalize |c| * ((1 - (2 ^ 11)⁻¹) * (1 - |b|) * Y) = W at *
  clear hT
  norm_num at *
  linarith

/-- The bound shrinks with every sample as long as the forced term is small against it. -/
private theorem step' {m : BandPass F32 F64} {b c : ℚ} (hm : Coefs m b c) {Y D : ℚ} (hY : Y ≤ 2 ^ 98) (hD : D ≤ 2 ^ 75) (hbd : Bnd m b Y) {x : F32} {d : ℚ}
    (hd : (x - m.x2).Is d) (hdD : |d| ≤ D) (hDY : D * (1 + (2 ^ 22)⁻¹) + (2 ^ 148)⁻¹ ≤ (2 ^ 21)⁻¹ * Y) :
    (∃ y : ℚ, (m.process x).1.Is y ∧ |y| ≤ Y) ∧ Bnd (m.process x).2 b ((1 - (2 ^ 21)⁻¹) * Y) ∧ Coefs (m.process x).2 b c := by
  obtain ⟨y, y1, hy, h1, k1, k2⟩ := step hm hY hD hbd hd hdD
  have Y0 : 0 ≤ Y := (abs_nonneg _).trans k1
  have B := hm.hb
  have C := hm.hc
  set β := 1 - |b| with hβ
  set γ := 1 - |c| with hγ
  have B' : (2 ^ 10)⁻¹ ≤ β := by linarith
  have C' : (2 ^ 10)⁻¹ ≤ γ := by linarith
  have hYY : (2 ^ 10)⁻¹ * Y ≤ β * Y := mul_le_mul_of_nonneg_right B' Y0
  have hβY0 : 0 ≤ β * Y := le_trans (by positivity) hYY
  have hγY : (2 ^ 10)⁻¹ * (β * Y) ≤ γ * (β * Y) := mul_le_mul_of_nonneg_right C' hβY0
  have ec : |c| = 1 - γ := by rw [hγ]; ring
  have eb : |b| = 1 - β := by rw [hβ]; ring
  have w : |y - b * y1| ≤ (1 - (2 ^ 11)⁻¹) * β * ((1 - (2 ^ 21)⁻¹) * Y) := by
    refine k2.trans ?_
    rw [ec]
    norm_num at *
    nlinarith
  have u : |y| ≤ (1 - (2 ^ 21)⁻¹) * Y := by
    have t := abs_add_le (y - b * y1) (b * y1)
    rw [sub_add_cancel] at t
    have hby : |b * y1| ≤ |b| * Y := by
      rw [abs_mul]; exact mul_le_mul_of_nonneg_left k1 (abs_nonneg _)
    rw [eb] at hby
    norm_num at *
    nlinarith
  refine ⟨⟨y, hy, u.trans (mul_le_of_le_one_left Y0 (by norm_num))⟩, ⟨y, y1, hy, h1, u, ?_, w⟩, hm.hb, hm.hc, hm.a0, hm.b1, hm.b2⟩
  norm_num at *; linarith

private theorem Bnd.mono {m : BandPass F32 F64} {b Y Y' : ℚ} (h : Bnd m b Y) (hb : |b| ≤ 1) (hY : Y ≤ Y') : Bnd m b Y' := by
  obtain ⟨y1, y2, h1, h2, k1, k2, k3⟩ := h.out
  exact ⟨y1, y2, h1, h2, k1.trans hY, k2.trans (by linarith),
    k3.trans (mul_le_mul_of_nonneg_left hY (mul_nonneg (by norm_num) (by linarith)))⟩

/-! ## Whole signals -/

/-- A filter with cleared memory made by one of the constructors, whose reported corner frequencies lie between 8 Hz and
23992 Hz. -/
structure BandPass.Usable [Libm F64] (m : BandPass F32 F64) : Prop where
  made : (∃ f q, m = BandPass.new f q) ∨ ∃ c, m = BandPass.fromCorners c
  corners : ∃ p q : ℚ, m.getCornerFrequencies.1.Is p ∧ m.getCornerFrequencies.2.Is q ∧
    8 ≤ p ∧ p ≤ 23992 ∧ 8 ≤ q ∧ q ≤ 23992

/-- Samples of absolute value at most `X`. -/
def Within (x : ℕ → F32) (X : ℚ) : Prop := ∀ n, ∃ q : ℚ, (x n).Is q ∧ |q| ≤ X

private theorem start [Libm F64] (ht : Tan64Accurate) {m : BandPass F32 F64} (hm : m.Usable) :
    ∃ b c, Coefs m b c ∧ Bnd m b 0 ∧ m.x1.Is 0 ∧ m.x2.Is 0 := by
  obtain ⟨p, q, h1, h2, p0, p1, q0, q1⟩ := hm.corners
  have z : (dflt : F32).Is 0 := lit32_0
  obtain ⟨f, k, rfl⟩ | ⟨k, rfl⟩ := hm.made
  · obtain ⟨b, c, h⟩ := coefs ht ⟨f, k, lit 0, lit 0, lit 0, dflt, dflt, dflt, dflt⟩ (l := _) (h := _) rfl h1 h2 p0 p1 q0 q1
    exact ⟨b, c, h, ⟨0, 0, z, z, by simp, by simp, by simp⟩, z, z⟩
  · obtain ⟨b, c, h⟩ := coefs ht ⟨sqrt (Flt.abs (k.1 * k.2)), sqrt (Flt.abs (k.1 * k.2)) / Flt.abs (k.2 - k.1),
        lit 0, lit 0, lit 0, dflt, dflt, dflt, dflt⟩ (l := _) (h := _) rfl h1 h2 p0 p1 q0 q1
    exact ⟨b, c, h, ⟨0, 0, z, z, by simp, by simp, by simp⟩, z, z⟩

private theorem diff {x y : F32} {p q X : ℚ} (hx : x.Is p) (hy : y.Is q) (hp : |p| ≤ X) (hq : |q| ≤ X) (h0 : (2 ^ 100)⁻¹ ≤ X)
    (h1 : X ≤ 2 ^ 70) : ∃ d, (x - y).Is d ∧ |d| ≤ 3 * X := by
  have t := abs_sub p q
  have r := mixed32 (p - q)
  have n := abs_sub_abs_le_abs_sub (b32.rnd (p - q)) (p - q)
  refine ⟨_, Is.sub hx hy (fits32' 100 le_rfl (by norm_num at *; linarith)), ?_⟩
  norm_num at *
  linarith

private structure Inv (x : ℕ → F32) (n : ℕ) (m : BandPass F32 F64) (b c Y : ℚ) : Prop where
  co : Coefs m b c
  bd : Bnd m b Y
  x1 : ∀ k, n = k + 1 → m.x1 = x k
  x2 : ∀ k, n = k + 2 → m.x2 = x k
  x1' : n = 0 → m.x1.Is 0
  x2' : n ≤ 1 → m.x2.Is 0

private theorem Inv.x2_is {x : ℕ → F32} {n : ℕ} {m : BandPass F32 F64} {b c Y X : ℚ} (h : Inv x n m b c Y) (hx : Within x X) (hX : 0 ≤ X) :
    ∃ q, m.x2.Is q ∧ |q| ≤ X := by
  rcases Nat.lt_or_ge n 2 with h2 | h2
  · exact ⟨0, h.x2' (by omega), by simpa using hX⟩
  · obtain ⟨k, rfl⟩ := Nat.exists_eq_add_of_le' h2
    rw [h.x2 k rfl]; exact hx k

private theorem Inv.next {x : ℕ → F32} {n : ℕ} {m : BandPass F32 F64} {b c Y Y' : ℚ} (h : Inv x n m b c Y) {v : F32} (hv : v = x n)
    (hc : Coefs (m.process v).2 b c) (hb : Bnd (m.process v).2 b Y') : Inv x (n + 1) (m.process v).2 b c Y' := by
  subst hv
  refine ⟨hc, hb, fun k hk => ?_, fun k hk => ?_, fun hk => by omega, fun hk => ?_⟩
  · obtain rfl : n = k := by omega
    rfl
  · exact h.x1 k (by omega)
  · exact h.x1' (by omega)

private theorem run_inv [Libm F64] (ht : Tan64Accurate) {m : BandPass F32 F64} (hm : m.Usable) {x : ℕ → F32} {X : ℚ} (hx : Within x X)
    (h0 : (2 ^ 100)⁻¹ ≤ X) (h1 : X ≤ 2 ^ 70) : ∃ b c, ∀ n, ∃ m', modAfter Modifier.process x m n = .ok m' ∧ Inv x n m' b c (2 ^ 23 * X) ∧
      ∃ y, (m'.process (x n)).1.Is y ∧ |y| ≤ 2 ^ 23 * X := by
  obtain ⟨b, c, hc, hb, z1, z2⟩ := start ht hm
  have X0 : 0 < X := lt_of_lt_of_le (by positivity) h0
  have key : ∀ {n m'}, Inv x n m' b c (2 ^ 23 * X) → (∃ y, (m'.process (x n)).1.Is y ∧ |y| ≤ 2 ^ 23 * X) ∧
      Inv x (n + 1) (m'.process (x n)).2 b c (2 ^ 23 * X) := by
    intro n m' h
    obtain ⟨p, hp, p1⟩ := hx n
    obtain ⟨q, hq, q1⟩ := h.x2_is hx X0.le
    obtain ⟨d, hd, d1⟩ := diff hp hq p1 q1 h0 h1
    obtain ⟨a1, a2, a3⟩ := step' h.co (by norm_num at *; linarith) (by norm_num at *; linarith) h.bd hd d1 (by norm_num at *; linarith)
    exact ⟨a1, h.next rfl a3 (a2.mono (hc.hb.trans (by norm_num)) (mul_le_of_le_one_left (by positivity) (by norm_num)))⟩
  refine ⟨b, c, fun n => ?_⟩
  have all : ∃ m', modAfter Modifier.process x m n = .ok m' ∧ Inv x n m' b c (2 ^ 23 * X) := by
    induction n with
    | zero => exact ⟨m, rfl, hc, hb.mono (hc.hb.trans (by norm_num)) (by positivity), fun k hk => by omega, fun k hk => by omega, fun _ => z1, fun _ => z2⟩
    | succ n ih =>
      obtain ⟨m', e, h⟩ := ih
      exact ⟨_, modAfter_succ e rfl, (key h).2⟩
  obtain ⟨m', e, h⟩ := all
  exact ⟨m', e, h, (key h).1⟩

/-- A filter at 1000 Hz with quality 1. -/
private theorem usable_1000 [Libm F64] : (BandPass.new (lit 1000) (lit 1) : BandPass F32 F64).Usable := by
  refine ⟨.inl ⟨_, _, rfl⟩, ?_⟩
  have h : ∃ p q : ℚ, (BandPass.getCornerFrequencies (⟨lit 1000, lit 1, lit 0, lit 0, lit 0, lit 0, lit 0, lit 0, lit 0⟩ : BandPass F32 F64)).1.toQ? = some p ∧
      (BandPass.getCornerFrequencies (⟨lit 1000, lit 1, lit 0, lit 0, lit 0, lit 0, lit 0, lit 0, lit 0⟩ : BandPass F32 F64)).2.toQ? = some q ∧
      8 ≤ p ∧ p ≤ 23992 ∧ 8 ≤ q ∧ q ≤ 23992 := by
    have h1 : ∀ o : Option ℚ, (∃ z, o = some z ∧ 8 ≤ z ∧ z ≤ 23992) ↔ o.any (fun z => decide (8 ≤ z ∧ z ≤ 23992)) = true := by
      intro o; cases o <;> simp
    obtain ⟨p, e, p0, p1⟩ := (h1 (BandPass.getCornerFrequencies (⟨lit 1000, lit 1, lit 0, lit 0, lit 0, lit 0, lit 0, lit 0, lit 0⟩ : BandPass F32 F64)).1.toQ?).mpr (by decide +kernel)
    obtain ⟨q, e', q0, q1⟩ := (h1 (BandPass.getCornerFrequencies (⟨lit 1000, lit 1, lit 0, lit 0, lit 0, lit 0, lit 0, lit 0, lit 0⟩ : BandPass F32 F64)).2.toQ?).mpr (by decide +kernel)
    exact ⟨p, q, e, e', p0, p1, q0, q1⟩
  exact h

/-- **C110** (bounded). In f32 the filter never overflows and its output stays within 2^23 times the input level, for every
input and for ever. -/
theorem C110_bounded [Libm F64] (ht : Tan64Accurate) {m : BandPass F32 F64} (hm : m.Usable) {x : ℕ → F32} {X : ℚ} (hx : Within x X)
    (h0 : (2 ^ 100)⁻¹ ≤ X) (h1 : X ≤ 2 ^ 70) (n : ℕ) :
    ∃ v y, modOut Modifier.process x m n = .ok v ∧ v.Is y ∧ |y| ≤ 2 ^ 23 * X := by
  obtain ⟨b, c, h⟩ := run_inv ht hm hx h0 h1
  obtain ⟨m', e, -, y, hy, hY⟩ := h n
  exact ⟨_, y, modOut_of e rfl, hy, hY⟩

example : ∃ l : Libm F64, @Tan64Accurate l ∧ (@BandPass.new F32 F64 _ _ _ l (lit 1000) (lit 1)).Usable ∧ Within (fun _ => (lit 1 : F32)) 1 := by
  obtain ⟨l, hl⟩ := tan64Accurate_exists
  exact ⟨l, hl, usable_1000, fun _ => ⟨1, lit32_1, by simp⟩⟩

/-- **C110** (blocking). Once the input repeats with period two (silence, a constant, or a constant with alternating sign), the
output falls below 2^-126, the smallest normal number, and stays there. -/
theorem C110_blocks [Libm F64] (ht : Tan64Accurate) {m : BandPass F32 F64} (hm : m.Usable) {x : ℕ → F32} {X : ℚ} (hx : Within x X)
    (h1 : X ≤ 2 ^ 70) (n0 : ℕ) (hp : ∀ n ≥ n0, x (n + 2) = x n) :
    ∃ N, ∀ n ≥ N, ∃ v y, modOut Modifier.process x m n = .ok v ∧ v.Is y ∧ |y| ≤ (2 ^ 126)⁻¹ := by
  wlog h0 : (2 ^ 100)⁻¹ ≤ X generalizing X
  · exact this (X := (2 ^ 100)⁻¹) (fun n => (hx n).imp fun q h => ⟨h.1, h.2.trans (not_le.mp h0).le⟩) (by norm_num) le_rfl
  obtain ⟨b, c, h⟩ := run_inv ht hm hx h0 h1
  have X0 : 0 < X := lt_of_lt_of_le (by positivity) h0
  have hb1 : |b| ≤ 1 := by obtain ⟨m', -, hi, -⟩ := h 0; exact hi.co.hb.trans (by norm_num)
  have key : ∀ {n m' Y}, n0 ≤ n → (2 ^ 126)⁻¹ ≤ Y → Y ≤ 2 ^ 98 → Inv x (n + 2) m' b c Y → (∃ y, (m'.process (x (n + 2))).1.Is y ∧ |y| ≤ Y) ∧
      Inv x (n + 3) (m'.process (x (n + 2))).2 b c ((1 - (2 ^ 21)⁻¹) * Y) := by
    intro n m' Y hn hY hY' h
    obtain ⟨p, hp', p1⟩ := hx n
    have e2 : m'.x2 = x (n + 2) := by rw [h.x2 n rfl, hp n hn]
    have hd : (x (n + 2) - m'.x2).Is 0 := by
      rw [e2, hp n hn]
      have := Is.sub hp' hp' (fits32' 0 (by norm_num) (by simp))
      simpa [Fmt.rnd_zero] using this
    obtain ⟨a1, a2, a3⟩ := step' h.co hY' (D := 0) (by norm_num) h.bd hd (by simp) (by norm_num at *; linarith)
    exact ⟨a1, h.next rfl a3 a2⟩
  -- after `k` further samples
  have dec : ∀ k : ℕ, ∃ m', modAfter Modifier.process x m (n0 + 2 + k) = .ok m' ∧
      Inv x (n0 + k + 2) m' b c (max ((2 ^ 126)⁻¹) ((1 - (2 ^ 21)⁻¹) ^ k * (2 ^ 23 * X))) := by
    intro k
    induction k with
    | zero =>
      obtain ⟨m', e, hi, -⟩ := h (n0 + 2)
      exact ⟨m', e, hi.co, hi.bd.mono hb1 (by simp), hi.x1, hi.x2, hi.x1', hi.x2'⟩
    | succ k ih =>
      obtain ⟨m', e, hi⟩ := ih
      have l1 : (1 - (2 ^ 21)⁻¹ : ℚ) ^ k ≤ 1 := pow_le_one₀ (by norm_num) (by norm_num)
      have l2 : (1 - (2 ^ 21)⁻¹ : ℚ) ^ k * (2 ^ 23 * X) ≤ 2 ^ 23 * X := mul_le_of_le_one_left (by positivity) l1
      obtain ⟨-, g⟩ := key (n := n0 + k) (by omega) (le_max_left _ _) (max_le (by norm_num) (by norm_num at *; linarith)) hi
      rw [show n0 + 2 + (k + 1) = (n0 + 2 + k) + 1 by omega]
      rw [show n0 + k + 2 = n0 + 2 + k by omega] at g
      refine ⟨_, modAfter_succ e rfl, g.co, g.bd.mono hb1 ?_, ?_, ?_, ?_, ?_⟩
      · rw [mul_max_of_nonneg _ _ (by norm_num), pow_succ' _ k, ← mul_assoc]
        exact max_le_max (mul_le_of_le_one_left (by positivity) (by norm_num)) le_rfl
      · intro j hj; exact g.x1 j (by omega)
      · intro j hj; exact g.x2 j (by omega)
      · intro hj; omega
      · intro hj; omega
  obtain ⟨K, hK⟩ := exists_pow_lt_of_lt_one (show (0 : ℚ) < (2 ^ 126)⁻¹ / (2 ^ 23 * X) by positivity) (show (1 - (2 ^ 21)⁻¹ : ℚ) < 1 by norm_num)
  rw [lt_div_iff₀ (by positivity)] at hK
  refine ⟨n0 + 2 + K, fun n hn => ?_⟩
  obtain ⟨k, rfl⟩ : ∃ k, n = n0 + 2 + k := ⟨n - (n0 + 2), by omega⟩
  obtain ⟨m', e, hi⟩ := dec k
  have hk : (1 - (2 ^ 21)⁻¹ : ℚ) ^ k * (2 ^ 23 * X) ≤ (2 ^ 126)⁻¹ :=
    (mul_le_mul_of_nonneg_right (pow_le_pow_of_le_one (by norm_num) (by norm_num) (show K ≤ k by omega)) (by positivity)).trans hK.le
  rw [max_eq_left hk] at hi
  obtain ⟨⟨y, hy, hY⟩, -⟩ := key (n := n0 + k) (by omega) le_rfl (by norm_num) hi
  rw [show n0 + k + 2 = n0 + 2 + k by omega] at hy
  exact ⟨_, y, modOut_of e rfl, hy, hY⟩

/-- A constant, and a constant of alternating sign. -/
example : (∀ n ≥ 0, (fun _ : ℕ => (lit 1 : F32)) (n + 2) = lit 1) ∧
    ∀ n ≥ 0, (fun n : ℕ => if n % 2 = 0 then (lit 1 : F32) else -lit 1) (n + 2) = (fun n : ℕ => if n % 2 = 0 then (lit 1 : F32) else -lit 1) n :=
  ⟨fun _ _ => rfl, fun n _ => by simp⟩

end Verif
