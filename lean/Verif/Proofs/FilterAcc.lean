import Verif.Proofs.FilterF32
import Verif.Proofs.FilterGain
import Verif.Props.Filters
import Mathlib.Analysis.SpecialFunctions.Trigonometric.Bounds

/-! # LowPass and HighPass in `f32` next to the same filters in exact arithmetic -/

namespace Verif
open Fl

/-! ## size of the exact output -/

section
variable {T K X : ℝ} (hT : 0 < T) (hK1 : 1 ≤ K) (hK2 : K ≤ 2)
include hT hK1 hK2

theorem lp_exact_le {x z : ℕ → ℝ} (hz : ThirdOrder T (K - 1) (delayed 0 z 3) (fun n => T ^ 3 * x n)) (hx : ∀ n, |x n| ≤ X) (n : ℕ) :
    |z n| ≤ T ^ 3 * filtK T (K - 1) * X := by
  have := (thirdOrder_sharp hT (by linarith) (by linarith) hz (F := T ^ 3 * X) (delayed_start z 2) (by rw [delayed_succ, delayed_start])
    (by rw [delayed_succ, delayed_succ, delayed_start])
    (fun n => by rw [abs_mul, abs_of_pos (by positivity)]; exact mul_le_mul_of_nonneg_left (hx n) (by positivity)) (n + 3)).1
  rw [show delayed 0 z 3 (n + 3) = z n by rw [delayed_succ, delayed_succ, delayed_succ, delayed_zero']] at this
  linarith

theorem hp_exact_le {x z : ℕ → ℝ} (hz : ThirdOrder T (K - 1) (delayed 0 z 3) (bdiff (bdiff (bdiff x)))) (hx : ∀ n, |x n| ≤ X) (n : ℕ) :
    |z n| ≤ (1 + (K + 1) * (T ^ 3 * filtK T (K - 1))) * X := by
  have hg : 0 < T ^ 3 + (K - 1 + 1) * T ^ 2 + (K - 1 + 1) * T + 1 := by
    have : 0 < K := by linarith
    rw [sub_add_cancel]; positivity
  obtain ⟨e, he, e0, e1, e2⟩ := thirdOrder_exists hg x
  have h2 := (thirdOrder_sharp hT (by linarith) (by linarith) he e0 e1 e2 hx n).2
  -- the third difference of `e` solves the recursion of `z`
  let E : ℕ → ℝ := fun n => e n - 3 * delayed 0 e 1 n + 3 * delayed 0 e 2 n - delayed 0 e 3 n
  have hE : ThirdOrder T (K - 1) E (bdiff (bdiff (bdiff x))) := by
    intro n
    rw [bdiff3_eq]
    simp only [E]
    rcases n with - | - | - | n
    · have := he 0
      simp [delayed, e0, e1, e2] at this ⊢
      linarith
    · have a := he 0
      have b := he 1
      simp [delayed, e0, e1, e2] at a b ⊢
      linarith
    · have a := he 0
      have b := he 1
      have c := he 2
      simp [delayed, e0, e1, e2] at a b c ⊢
      linarith
    · have a := he n
      have b := he (n + 1)
      have c := he (n + 2)
      have d := he (n + 3)
      simp only [delayed_succ, delayed_zero', show n + 1 + 1 + 1 + 3 = n + 3 + 3 from rfl] at *
      linear_combination d - 3 * c + 3 * b - a
  have hu := thirdOrder_unique hg hz hE (by simp [E, delayed, e0]) (by simp [E, delayed, e0, e1]) (by simp [E, delayed, e0, e1, e2]) (n + 3)
  rw [show delayed 0 z 3 (n + 3) = z n by rw [delayed_succ, delayed_succ, delayed_succ, delayed_zero']] at hu
  rw [hu]
  have e3 : E (n + 3) = e (n + 3) - 3 * e (n + 2) + 3 * e (n + 1) - e n := by
    simp only [E, delayed_succ, delayed_zero']
  rw [e3]
  refine h2.trans (le_of_eq ?_)
  ring
end

/-! ## the difference to the exact output -/

section
variable {T K X D : ℝ} (hT : 0 < T) (hK1 : 1 ≤ K) (hK2 : K ≤ 2) (hX1 : (2 ^ 90)⁻¹ ≤ X) (hX2 : X ≤ 2 ^ 80) (hD0 : 0 ≤ D)
  {x : ℕ → F32} (hx : ∀ n, (∃ q, (x n).Is q) ∧ |rv (x n)| ≤ X) {z : ℕ → ℝ}
include hT hK1 hK2 hX1 hX2 hD0 hx

theorem lp_follows {f r : F64} {c0 c1 c2 c3 : F32} (h0 : App c0 cu (T ^ 3 / lpG T K))
    (h1 : App c1 cu ((K * T ^ 2 + 2 * K * T + 3) / lpG T K)) (h2 : App c2 cu ((-K * T - 3) / lpG T K))
    (h3 : App c3 cu (1 / lpG T K)) {B : ℝ} (hB : T ^ 3 * filtK T (K - 1) ≤ B) (hM : B * X + D ≤ 2 ^ 100)
    (hD : filtK T (K - 1) * lpG T K * ((2 ^ 24)⁻¹ * (31 * (B * X + D) + 6 * X)) ≤ D)
    (hz : ThirdOrder T (K - 1) (delayed 0 z 3) (fun n => T ^ 3 * rv (x n))) (n : ℕ) :
    ∃ y : F32, modOut Modifier.process x (⟨f, r, c0, c1, c2, c3, lit 0, lit 0, lit 0⟩ : LowPass F32 F64) n = .ok y ∧
      ∃ q : ℚ, y.Is q ∧ |(q : ℝ) - z n| ≤ D ∧ |(q : ℝ)| ≤ B * X + D := by
  have hK : 0 < K := by linarith
  have hG : 0 < lpG T K := lpG_pos hT hK.le
  have hX0 : (0 : ℝ) < X := lt_of_lt_of_le (by positivity) hX1
  have hB0 : 0 ≤ B := le_trans (mul_nonneg (by positivity) (filtK_nonneg hT (by linarith))) hB
  have hzB : ∀ n, |z n| ≤ B * X := fun n =>
    (lp_exact_le hT hK1 hK2 hz (fun n => (hx n).2) n).trans (mul_le_mul_of_nonneg_right hB hX0.le)
  obtain ⟨y, hy, hrec⟩ := lp_recurrence f r c0 c1 c2 c3 (lit 0) x
  have eG : T ^ 3 + (K - 1 + 1) * T ^ 2 + (K - 1 + 1) * T + 1 = lpG T K := by unfold lpG; ring
  have key := thirdOrder_gain (κ := K - 1) (t := T) (K := filtK T (K - 1)) (M := D)
    (F := lpG T K * ((2 ^ 24)⁻¹ * (31 * (B * X + D) + 6 * X)))
    (v := fun i => rv (y i) - z i) (ok := fun i => ∃ q, (y i).Is q) (by rw [eG]; exact hG)
    (fun e f F h e0 e1 e2 hf n => (thirdOrder_sharp hT (by linarith) (by linarith) h e0 e1 e2 hf n).1) (by positivity)
    (by rw [← mul_assoc]; exact hD) ?_ n
  · obtain ⟨⟨q, hq⟩, hb⟩ := key
    rw [rv_is hq] at hb
    refine ⟨y n, hy n, q, hq, hb, ?_⟩
    have := abs_add_le ((q : ℝ) - z n) (z n)
    rw [sub_add_cancel] at this
    linarith [hzB n]
  · intro n hn
    have hn' : ∀ i < n, (∃ q, (y i).Is q) ∧ |rv (y i)| ≤ B * X + D := fun i hi => by
      refine ⟨(hn i hi).1, ?_⟩
      have := abs_add_le (rv (y i) - z i) (z i)
      rw [sub_add_cancel] at this
      linarith [hzB i, (hn i hi).2]
    obtain ⟨⟨qx, hqx⟩, hqX⟩ := hx n
    rw [rv_is hqx] at hqX
    have hM0 : 0 ≤ B * X + D := by positivity
    obtain ⟨q1, i1, v1, b1⟩ := delayed_val hn' hM0 0
    obtain ⟨q2, i2, v2, b2⟩ := delayed_val hn' hM0 1
    obtain ⟨q3, i3, v3, b3⟩ := delayed_val hn' hM0 2
    obtain ⟨q, hq, he⟩ := lp_step hT hK hX1 (hX2.trans (by norm_num)) hM0 hM h0 h1 h2 h3 hqx i1 i2 i3 hqX b1 b2 b3
    rw [← hrec n] at hq
    refine ⟨⟨q, hq⟩, ?_⟩
    have hd : ∀ k, delayed 0 (fun i => rv (y i) - z i) k n = delayed 0 (fun i => rv (y i)) k n - delayed 0 z k n := fun k => by
      unfold delayed; split_ifs <;> simp
    have hzn := hz n
    simp only [delayed_succ, delayed_zero', rv_is hqx] at hzn
    rw [eG] at hzn
    rw [eG, rv_is hq, hd, hd, hd, ← v1, ← v2, ← v3]
    refine le_trans (le_of_eq ?_) he
    congr 1
    linear_combination -hzn

theorem hp_follows {f r : F64} {a0 a1 a2 a3 c1 c2 c3 : F32} (g0 : App a0 cu (1 / lpG T K)) (g1 : App a1 cu (-3 / lpG T K))
    (g2 : App a2 cu (3 / lpG T K)) (g3 : App a3 cu (-1 / lpG T K))
    (h1 : App c1 cu ((K * T ^ 2 + 2 * K * T + 3) / lpG T K)) (h2 : App c2 cu ((-K * T - 3) / lpG T K))
    (h3 : App c3 cu (1 / lpG T K)) {B : ℝ} (hB : 1 + (K + 1) * (T ^ 3 * filtK T (K - 1)) ≤ B) (hM : B * X + D ≤ 2 ^ 100)
    (hD : filtK T (K - 1) * lpG T K * ((2 ^ 24)⁻¹ * (31 * (B * X + D) + 62 * X)) ≤ D)
    (hz : ThirdOrder T (K - 1) (delayed 0 z 3) (bdiff (bdiff (bdiff fun n => rv (x n))))) (n : ℕ) :
    ∃ y : F32, modOut Modifier.process x
        (⟨a0, a1, a2, a3, c1, c2, c3, lit 0, lit 0, lit 0, lit 0, lit 0, lit 0, f, r⟩ : HighPass F32 F64) n = .ok y ∧
      ∃ q : ℚ, y.Is q ∧ |(q : ℝ) - z n| ≤ D ∧ |(q : ℝ)| ≤ B * X + D := by
  have hK : 0 < K := by linarith
  have hG : 0 < lpG T K := lpG_pos hT hK.le
  have hX0 : (0 : ℝ) < X := lt_of_lt_of_le (by positivity) hX1
  have hfk := filtK_nonneg hT (show 0 ≤ K - 1 by linarith)
  have hB0 : 0 ≤ B := le_trans (by positivity) hB
  have hzB : ∀ n, |z n| ≤ B * X := fun n =>
    (hp_exact_le hT hK1 hK2 hz (fun n => (hx n).2) n).trans (mul_le_mul_of_nonneg_right hB hX0.le)
  obtain ⟨y, hy, hrec⟩ := hp_recurrence f r a0 a1 a2 a3 c1 c2 c3 (lit 0) x
  have eG : T ^ 3 + (K - 1 + 1) * T ^ 2 + (K - 1 + 1) * T + 1 = lpG T K := by unfold lpG; ring
  have key := thirdOrder_gain (κ := K - 1) (t := T) (K := filtK T (K - 1)) (M := D)
    (F := lpG T K * ((2 ^ 24)⁻¹ * (31 * (B * X + D) + 62 * X)))
    (v := fun i => rv (y i) - z i) (ok := fun i => ∃ q, (y i).Is q) (by rw [eG]; exact hG)
    (fun e f F h e0 e1 e2 hf n => (thirdOrder_sharp hT (by linarith) (by linarith) h e0 e1 e2 hf n).1) (by positivity)
    (by rw [← mul_assoc]; exact hD) ?_ n
  · obtain ⟨⟨q, hq⟩, hb⟩ := key
    rw [rv_is hq] at hb
    refine ⟨y n, hy n, q, hq, hb, ?_⟩
    have := abs_add_le ((q : ℝ) - z n) (z n)
    rw [sub_add_cancel] at this
    linarith [hzB n]
  · intro n hn
    have hn' : ∀ i < n, (∃ q, (y i).Is q) ∧ |rv (y i)| ≤ B * X + D := fun i hi => by
      refine ⟨(hn i hi).1, ?_⟩
      have := abs_add_le (rv (y i) - z i) (z i)
      rw [sub_add_cancel] at this
      linarith [hzB i, (hn i hi).2]
    obtain ⟨⟨p0, j0⟩, d0⟩ := hx n
    rw [rv_is j0] at d0
    obtain ⟨p1, j1, w1, d1⟩ := delayed_val (n := n) (fun i _ => hx i) hX0.le 0
    obtain ⟨p2, j2, w2, d2⟩ := delayed_val (n := n) (fun i _ => hx i) hX0.le 1
    obtain ⟨p3, j3, w3, d3⟩ := delayed_val (n := n) (fun i _ => hx i) hX0.le 2
    have hM0 : 0 ≤ B * X + D := by positivity
    obtain ⟨q1, i1, v1, b1⟩ := delayed_val hn' hM0 0
    obtain ⟨q2, i2, v2, b2⟩ := delayed_val hn' hM0 1
    obtain ⟨q3, i3, v3, b3⟩ := delayed_val hn' hM0 2
    obtain ⟨q, hq, he⟩ := hp_step hT hK hX1 (hX2.trans (by norm_num)) hM0 hM g0 g1 g2 g3 h1 h2 h3 j0 j1 j2 j3 i1 i2 i3 d0 d1 d2 d3 b1 b2 b3
    rw [← hrec n] at hq
    refine ⟨⟨q, hq⟩, ?_⟩
    have hd : ∀ k, delayed 0 (fun i => rv (y i) - z i) k n = delayed 0 (fun i => rv (y i)) k n - delayed 0 z k n := fun k => by
      unfold delayed; split_ifs <;> simp
    have hzn := hz n
    rw [bdiff3_eq, ← w1, ← w2, ← w3] at hzn
    simp only [delayed_succ, delayed_zero', rv_is j0] at hzn
    rw [eG] at hzn
    rw [eG, rv_is hq, hd, hd, hd, ← v1, ← v2, ← v3]
    refine le_trans (le_of_eq ?_) he
    congr 1
    linear_combination -hzn
end

/-! ## numbers -/

/-- At any resonance. -/
theorem filtK_le {t κ : ℝ} (ht : 0 < t) (ht2 : t ≤ 6) (h0 : 0 ≤ κ) (h1 : κ ≤ 1) : filtK t κ ≤ (2 / t ^ 2 + 7 / 12) / t ^ 2 := by
  unfold filtK
  refine div_le_div_of_nonneg_right ?_ (by positivity)
  have hd : 0 < κ * t + t ^ 2 := by positivity
  have a : (1 + κ ^ 2 / 6) * (2 / (κ * t + t ^ 2)) ≤ 2 / t ^ 2 := by
    rw [← mul_div_assoc, div_le_div_iff₀ hd (by positivity)]
    have : κ ^ 2 * t ^ 2 ≤ 6 * (κ * t) := by nlinarith [mul_nonneg h0 ht.le, mul_le_mul h1 ht2 ht.le zero_le_one]
    nlinarith
  have : (1 + κ ^ 2 / 6) * (1 / 2) ≤ 7 / 12 := by nlinarith
  linarith

/-- At a resonance up to 1/2. -/
theorem filtK_le' {t κ : ℝ} (ht : 0 < t) (h0 : 1 / 2 ≤ κ) (h1 : κ ≤ 1) : filtK t κ ≤ (7 / (3 * (t / 2 + t ^ 2)) + 7 / 12) / t ^ 2 := by
  unfold filtK
  refine div_le_div_of_nonneg_right ?_ (by positivity)
  have hc : 1 + κ ^ 2 / 6 ≤ 7 / 6 := by nlinarith
  have hd : 0 < κ * t + t ^ 2 := by positivity
  have hd' : 0 < t / 2 + t ^ 2 := by positivity
  have a : 2 / (κ * t + t ^ 2) ≤ 2 / (t / 2 + t ^ 2) := div_le_div_of_nonneg_left (by norm_num) hd' (by nlinarith)
  have b : (1 + κ ^ 2 / 6) * (2 / (κ * t + t ^ 2) + 1 / 2) ≤ 7 / 6 * (2 / (t / 2 + t ^ 2) + 1 / 2) :=
    mul_le_mul hc (by linarith) (by positivity) (by norm_num)
  refine b.trans (le_of_eq ?_)
  field_simp
  ring

theorem lpG_le {t k : ℝ} (ht : 0 < t) (hk : k ≤ 2) : lpG t k ≤ t ^ 3 + 2 * t ^ 2 + 2 * t + 1 := by
  unfold lpG
  nlinarith [sq_nonneg t]

/-- `1 / t` at most `u0`. -/
theorem gain_le {t k u0 : ℝ} (ht : 0 < t) (hu : 1 / t ≤ u0) (ht2 : t ≤ 315 / 100) (k1 : 1 ≤ k) (k2 : k ≤ 2) :
    t ^ 3 * filtK t (k - 1) ≤ 2 * u0 + 46 / 25 ∧
    filtK t (k - 1) * lpG t k ≤ 2 * u0 ^ 4 + 4 * u0 ^ 3 + 55 / 12 * u0 ^ 2 + 19 / 6 * u0 + 301 / 100 := by
  have hK := filtK_le ht (by linarith) (show 0 ≤ k - 1 by linarith) (by linarith)
  set u := 1 / t with hudef
  have hu0 : 0 < u := by positivity
  have htu : t * u = 1 := by rw [hudef]; field_simp
  have e1 : (2 / t ^ 2 + 7 / 12) / t ^ 2 = 2 * u ^ 4 + 7 / 12 * u ^ 2 := by rw [hudef]; field_simp
  rw [e1] at hK
  have u2 : u ^ 2 ≤ u0 ^ 2 := pow_le_pow_left₀ hu0.le hu 2
  have u3 : u ^ 3 ≤ u0 ^ 3 := pow_le_pow_left₀ hu0.le hu 3
  have u4 : u ^ 4 ≤ u0 ^ 4 := pow_le_pow_left₀ hu0.le hu 4
  constructor
  · have : t ^ 3 * filtK t (k - 1) ≤ t ^ 3 * (2 * u ^ 4 + 7 / 12 * u ^ 2) := mul_le_mul_of_nonneg_left hK (by positivity)
    rw [show t ^ 3 * (2 * u ^ 4 + 7 / 12 * u ^ 2) = 2 * u * (t * u) ^ 3 + 7 / 12 * t * (t * u) ^ 2 by ring, htu] at this
    linarith
  · have : filtK t (k - 1) * lpG t k ≤ (2 * u ^ 4 + 7 / 12 * u ^ 2) * (t ^ 3 + 2 * t ^ 2 + 2 * t + 1) :=
      mul_le_mul hK (lpG_le ht k2) (lpG_pos ht (by linarith)).le (by positivity)
    rw [show (2 * u ^ 4 + 7 / 12 * u ^ 2) * (t ^ 3 + 2 * t ^ 2 + 2 * t + 1) = 2 * u * (t * u) ^ 3 + 4 * u ^ 2 * (t * u) ^ 2 + 4 * u ^ 3 * (t * u) + 2 * u ^ 4 +
      7 / 12 * (t * (t * u) ^ 2 + 2 * (t * u) ^ 2 + 2 * u * (t * u) + u ^ 2) by ring, htu] at this
    linarith

/-- `1 / t` at most `u0` and `1 / (1/2 + t)` at most `p0`, at a resonance up to 1/2. -/
theorem gain_le' {t k u0 p0 : ℝ} (ht : 0 < t) (hu : 1 / t ≤ u0) (hp : 1 / (1 / 2 + t) ≤ p0) (ht2 : t ≤ 315 / 100) (k1 : 3 / 2 ≤ k)
    (k2 : k ≤ 2) :
    t ^ 3 * filtK t (k - 1) ≤ 7 / 3 * p0 + 46 / 25 ∧
    filtK t (k - 1) * lpG t k ≤ 7 / 3 * (p0 * (u0 ^ 3 + 2 * u0 ^ 2 + 2 * u0 + 1)) + 7 / 12 * (u0 ^ 2 + 2 * u0) + 301 / 100 := by
  have hK := filtK_le' ht (show 1 / 2 ≤ k - 1 by linarith) (by linarith)
  set u := 1 / t with hudef
  set w := 1 / (1 / 2 + t) with hwdef
  have hu0 : 0 < u := by positivity
  have hw0 : 0 < w := by positivity
  have htu : t * u = 1 := by rw [hudef]; field_simp
  have e1 : (7 / (3 * (t / 2 + t ^ 2)) + 7 / 12) / t ^ 2 = 7 / 3 * w * u ^ 3 + 7 / 12 * u ^ 2 := by
    have : t / 2 + t ^ 2 = t * (1 / 2 + t) := by ring
    have h2 : 0 < 1 / 2 + t := by positivity
    rw [hudef, hwdef, this]
    field_simp
  rw [e1] at hK
  have u2 : u ^ 2 ≤ u0 ^ 2 := pow_le_pow_left₀ hu0.le hu 2
  have u3 : u ^ 3 ≤ u0 ^ 3 := pow_le_pow_left₀ hu0.le hu 3
  constructor
  · have : t ^ 3 * filtK t (k - 1) ≤ t ^ 3 * (7 / 3 * w * u ^ 3 + 7 / 12 * u ^ 2) := mul_le_mul_of_nonneg_left hK (by positivity)
    rw [show t ^ 3 * (7 / 3 * w * u ^ 3 + 7 / 12 * u ^ 2) = 7 / 3 * w * (t * u) ^ 3 + 7 / 12 * t * (t * u) ^ 2 by ring, htu] at this
    linarith
  · have : filtK t (k - 1) * lpG t k ≤ (7 / 3 * w * u ^ 3 + 7 / 12 * u ^ 2) * (t ^ 3 + 2 * t ^ 2 + 2 * t + 1) :=
      mul_le_mul hK (lpG_le ht k2) (lpG_pos ht (by linarith)).le (by positivity)
    rw [show (7 / 3 * w * u ^ 3 + 7 / 12 * u ^ 2) * (t ^ 3 + 2 * t ^ 2 + 2 * t + 1) =
      7 / 3 * (w * ((t * u) ^ 3 + 2 * u * (t * u) ^ 2 + 2 * u ^ 2 * (t * u) + u ^ 3)) +
      7 / 12 * (t * (t * u) ^ 2 + 2 * (t * u) ^ 2 + 2 * u * (t * u) + u ^ 2) by ring, htu] at this
    have : w * (1 ^ 3 + 2 * u * 1 ^ 2 + 2 * u ^ 2 * 1 + u ^ 3) ≤ p0 * (u0 ^ 3 + 2 * u0 ^ 2 + 2 * u0 + 1) :=
      mul_le_mul hp (by linarith) (by positivity) (hw0.le.trans hp)
    linarith

/-- The damping at a resonance up to 1/2. -/
theorem lpK_half {r : ℝ} (h0 : 0 ≤ r) (h1 : r ≤ 1 / 2) : 3 / 2 ≤ lpK r := by
  have hp := Real.pi_pos
  have c1 : Real.cos (Real.pi * (4 - r) / 6) ≤ Real.cos (Real.pi / 2 + Real.pi / 12) :=
    Real.cos_le_cos_of_nonneg_of_le_pi (by positivity) (by nlinarith) (by nlinarith)
  rw [Real.cos_add, Real.cos_pi_div_two, Real.sin_pi_div_two] at c1
  have h2 := Real.sin_gt_sub_cube (x := Real.pi / 12) (by positivity)
  have p1 := Real.pi_gt_d2
  have p2 := Real.pi_lt_d2
  have h3 : (Real.pi / 12) ^ 3 ≤ (3.15 / 12) ^ 3 := pow_le_pow_left₀ (by positivity) (by linarith) 3
  unfold lpK
  norm_num at p1 p2 h3 ⊢
  linarith

/-! ## filters as built -/

theorem inv_lpT {F lo u0 : ℝ} (h0 : 0 < lo) (h : lo ≤ F) (hu : 24000 ≤ u0 * lo * (314159 / 100000)) : 1 / lpT F ≤ u0 := by
  have hp := Real.pi_gt_d6
  have hF : 0 < F := by linarith
  have hu0 : 0 < u0 := by
    by_contra hn
    have : u0 * lo ≤ 0 := mul_nonpos_of_nonpos_of_nonneg (not_lt.mp hn) h0.le
    linarith
  rw [div_le_iff₀ (lpT_pos hF)]
  unfold lpT
  have h1 : u0 * lo * (314159 / 100000) ≤ u0 * F * Real.pi :=
    mul_le_mul (mul_le_mul_of_nonneg_left h hu0.le) (by norm_num at hp ⊢; linarith) (by norm_num) (by positivity)
  have e : u0 * (2 * Real.pi * F / 48000) = u0 * F * Real.pi / 24000 := by ring
  rw [e, le_div_iff₀ (by norm_num)]
  linarith

theorem half_inv {t u0 p0 : ℝ} (ht : 0 < t) (hu : 1 / t ≤ u0) (hu0 : 0 < u0) (hp : u0 ≤ p0 * (u0 / 2 + 1)) : 1 / (1 / 2 + t) ≤ p0 := by
  have h1 : 1 / u0 ≤ t := by rwa [one_div_le hu0 ht]
  have h2 : 1 / (1 / 2 + t) ≤ 1 / (1 / 2 + 1 / u0) := one_div_le_one_div_of_le (by positivity) (by linarith)
  refine h2.trans ?_
  rw [div_le_iff₀ (by positivity)]
  have e : p0 * (1 / 2 + 1 / u0) = p0 * (u0 / 2 + 1) / u0 := by field_simp
  rw [e, le_div_iff₀ hu0]
  linarith

theorem input_real {X : ℚ} (hX1 : (2 ^ 90)⁻¹ ≤ X) (hX2 : X ≤ 2 ^ 80) : (0 : ℝ) < X ∧ ((2 : ℝ) ^ 90)⁻¹ ≤ X ∧ (X : ℝ) ≤ 2 ^ 80 := by
  have hX1' : ((2 : ℝ) ^ 90)⁻¹ ≤ X := by
    have := Rat.cast_le (K := ℝ) |>.mpr hX1
    push_cast at this; exact this
  exact ⟨lt_of_lt_of_le (by positivity) hX1', hX1', by exact_mod_cast hX2⟩

theorem input_abs {X : ℚ} {x : ℕ → F32} (hx : ∀ n, (x n).In (-X) X) (n : ℕ) : (∃ q, (x n).Is q) ∧ |rv (x n)| ≤ X := by
  obtain ⟨q, hq, x1, x2⟩ := hx n
  refine ⟨⟨q, hq⟩, ?_⟩
  rw [rv_is hq, abs_le]
  exact ⟨by exact_mod_cast x1, by exact_mod_cast x2⟩

theorem in_of_abs {y : F32} {q M : ℚ} (hq : y.Is q) (h : |(q : ℝ)| ≤ (M : ℚ)) : y.In (-M) M := by
  rw [abs_le] at h
  exact ⟨q, hq, by exact_mod_cast h.1, by exact_mod_cast h.2⟩

/-- The loop gain `L` bounds the rounding errors fed back, `a X` those of the input. -/
theorem small_gain {g G L S D : ℝ} (hg : g ≤ G) (hS : 0 ≤ S) (hL : G * 31 ≤ L * 2 ^ 24) (hD : L * (S / 31) ≤ D) :
    g * ((2 ^ 24)⁻¹ * S) ≤ D := by
  refine le_trans ?_ hD
  have : g * ((2 ^ 24)⁻¹ * S) ≤ G * ((2 ^ 24)⁻¹ * S) := mul_le_mul_of_nonneg_right hg (by positivity)
  refine this.trans ?_
  have e : G * ((2 ^ 24)⁻¹ * S) = (G * 31) * (S / 31 / 2 ^ 24) := by ring
  have e' : L * (S / 31) = (L * 2 ^ 24) * (S / 31 / 2 ^ 24) := by ring
  rw [e, e']
  exact mul_le_mul_of_nonneg_right hL (by positivity)

theorem hp_size {k a b B : ℝ} (k1 : 1 ≤ k) (k2 : k ≤ 2) (hb : a ≤ b) (hb0 : 0 ≤ b) (h : 1 + 3 * b ≤ B) : 1 + (k + 1) * a ≤ B := by
  have : (k + 1) * a ≤ (k + 1) * b := mul_le_mul_of_nonneg_left hb (by linarith)
  have : (k + 1) * b ≤ 3 * b := mul_le_mul_of_nonneg_right (by linarith) hb0
  linarith

section
variable [Libm F64] (ha : LibmAccurate) {fc : F64} (r : F64) {l : F64} {lo : ℚ} (hl : l.Is lo) (hlo1 : 1 ≤ lo) (hlo : lo ≤ 24000)
  {u0 : ℝ} (hu0 : 24000 ≤ u0 * lo * (314159 / 100000)) (hfc : (fc <? l) = false)
  {X : ℝ} (hX1 : (2 ^ 90)⁻¹ ≤ X) (hX2 : X ≤ 2 ^ 80) {x : ℕ → F32} (hx : ∀ n, (∃ q, (x n).Is q) ∧ |rv (x n)| ≤ X)
include ha hl hlo1 hlo hu0 hfc hX1 hX2 hx

/-- A low pass filter next to the one in exact arithmetic. -/
theorem lowpass_setup : ∃ (T K : ℝ) (z : ℕ → ℝ),
    (∀ f ρ, fc.Is f → r.Is ρ → ∀ n, modOut Modifier.process (fun n => rv (x n)) (LowPass.new (f : ℝ) (ρ : ℝ) : LowPass ℝ ℝ) n = .ok (z n)) ∧
    0 < T ∧ 1 / T ≤ u0 ∧ T ≤ 315 / 100 ∧ 1 ≤ K ∧ K ≤ 2 ∧ (∀ ρ, r.Is ρ → ρ ≤ 1 / 2 → 3 / 2 ≤ K) ∧
    ∀ {B D : ℝ}, 0 ≤ D → T ^ 3 * filtK T (K - 1) ≤ B → B * X + D ≤ 2 ^ 100 →
      filtK T (K - 1) * lpG T K * ((2 ^ 24)⁻¹ * (31 * (B * X + D) + 6 * X)) ≤ D → ∀ n,
      ∃ y : F32, modOut Modifier.process x (LowPass.new fc r : LowPass F32 F64) n = .ok y ∧
        ∃ q : ℚ, y.Is q ∧ |(q : ℝ) - z n| ≤ D ∧ |(q : ℝ)| ≤ B * X + D := by
  obtain ⟨F, R, f1, f2, r1, r2, hF, hR, c0, c1, c2, c3, f', r', e, -, -, h0, h1, h2, h3⟩ := lowpass_app ha (r := r) hl hlo1 hlo hfc
  have hlo' : (lo : ℝ) ≤ F := by exact_mod_cast f1
  have hlo1' : (1 : ℝ) ≤ lo := by exact_mod_cast hlo1
  have hT2 := (lpT_mem (f := F) (hlo1'.trans hlo') (by exact_mod_cast f2)).2
  have hT : 0 < lpT F := lpT_pos (by linarith)
  obtain ⟨hK1, hK2⟩ := lpK_mem (r := R) (by exact_mod_cast r1) (by exact_mod_cast r2)
  obtain ⟨z, hz1, hz2⟩ := lp_third (F : ℝ) (R : ℝ) (by linarith) (fun n => rv (x n))
  have eo : omega F = lpT F := by
    unfold omega lpT; rw [min_eq_left (by exact_mod_cast f2)]
  have ed : damping R = lpK R := by
    unfold damping lpK; rw [min_eq_left (by exact_mod_cast r2), max_eq_left (by exact_mod_cast r1)]
  rw [eo, ed] at hz2
  refine ⟨lpT F, lpK R, z, fun f ρ hf hρ n => ?_, hT, inv_lpT (by linarith) hlo' hu0, hT2, hK1, hK2, fun ρ hρ hle => ?_, ?_⟩
  · rw [← hz1 n, lowpass_new, lowpass_new, hF f hf, hR ρ hρ]
    push_cast
    rw [min_assoc, min_self, show min (max (min (ρ : ℝ) 1) 0) 1 = max (min (ρ : ℝ) 1) 0 by
      rw [min_eq_left]; exact max_le (min_le_right _ _) zero_le_one, show max (max (min (ρ : ℝ) 1) 0) 0 = max (min (ρ : ℝ) 1) 0 by simp]
  · rw [hR ρ hρ]
    refine lpK_half (by exact_mod_cast le_max_right _ _) ?_
    have : max (min ρ 1) 0 ≤ 1 / 2 := max_le ((min_le_left _ _).trans hle) (by norm_num)
    have := Rat.cast_le (K := ℝ) |>.mpr this
    push_cast at this ⊢
    exact this
  · intro B D hD0 hB hM hD n
    rw [e]
    exact lp_follows hT hK1 hK2 hX1 hX2 hD0 hx h0 h1 h2 h3 hB hM hD hz2 n

/-- A high pass filter next to the one in exact arithmetic. -/
theorem highpass_setup : ∃ (T K : ℝ) (z : ℕ → ℝ),
    (∀ f ρ, fc.Is f → r.Is ρ → ∀ n, modOut Modifier.process (fun n => rv (x n)) (HighPass.new (f : ℝ) (ρ : ℝ) : HighPass ℝ ℝ) n = .ok (z n)) ∧
    0 < T ∧ 1 / T ≤ u0 ∧ T ≤ 315 / 100 ∧ 1 ≤ K ∧ K ≤ 2 ∧ (∀ ρ, r.Is ρ → ρ ≤ 1 / 2 → 3 / 2 ≤ K) ∧
    ∀ {B D : ℝ}, 0 ≤ D → 1 + (K + 1) * (T ^ 3 * filtK T (K - 1)) ≤ B → B * X + D ≤ 2 ^ 100 →
      filtK T (K - 1) * lpG T K * ((2 ^ 24)⁻¹ * (31 * (B * X + D) + 62 * X)) ≤ D → ∀ n,
      ∃ y : F32, modOut Modifier.process x (HighPass.new fc r : HighPass F32 F64) n = .ok y ∧
        ∃ q : ℚ, y.Is q ∧ |(q : ℝ) - z n| ≤ D ∧ |(q : ℝ)| ≤ B * X + D := by
  obtain ⟨F, R, f1, f2, r1, r2, hF, hR, a0, a1, a2, a3, c1, c2, c3, f', r', e, -, -, g0, g1, g2, g3, h1, h2, h3⟩ :=
    highpass_app ha (r := r) hl hlo1 hlo hfc
  have hlo' : (lo : ℝ) ≤ F := by exact_mod_cast f1
  have hlo1' : (1 : ℝ) ≤ lo := by exact_mod_cast hlo1
  have hT2 := (lpT_mem (f := F) (hlo1'.trans hlo') (by exact_mod_cast f2)).2
  have hT : 0 < lpT F := lpT_pos (by linarith)
  obtain ⟨hK1, hK2⟩ := lpK_mem (r := R) (by exact_mod_cast r1) (by exact_mod_cast r2)
  obtain ⟨z, hz1, hz2⟩ := hp_third (F : ℝ) (R : ℝ) (by linarith) (fun n => rv (x n))
  have eo : omega F = lpT F := by
    unfold omega lpT; rw [min_eq_left (by exact_mod_cast f2)]
  have ed : damping R = lpK R := by
    unfold damping lpK; rw [min_eq_left (by exact_mod_cast r2), max_eq_left (by exact_mod_cast r1)]
  rw [eo, ed] at hz2
  refine ⟨lpT F, lpK R, z, fun f ρ hf hρ n => ?_, hT, inv_lpT (by linarith) hlo' hu0, hT2, hK1, hK2, fun ρ hρ hle => ?_, ?_⟩
  · rw [← hz1 n, highpass_new, highpass_new, hF f hf, hR ρ hρ]
    push_cast
    rw [min_assoc, min_self, show min (max (min (ρ : ℝ) 1) 0) 1 = max (min (ρ : ℝ) 1) 0 by
      rw [min_eq_left]; exact max_le (min_le_right _ _) zero_le_one, show max (max (min (ρ : ℝ) 1) 0) 0 = max (min (ρ : ℝ) 1) 0 by simp]
  · rw [hR ρ hρ]
    refine lpK_half (by exact_mod_cast le_max_right _ _) ?_
    have : max (min ρ 1) 0 ≤ 1 / 2 := max_le ((min_le_left _ _).trans hle) (by norm_num)
    have := Rat.cast_le (K := ℝ) |>.mpr this
    push_cast at this ⊢
    exact this
  · intro B D hD0 hB hM hD n
    rw [e]
    exact hp_follows hT hK1 hK2 hX1 hX2 hD0 hx g0 g1 g2 g3 h1 h2 h3 hB hM hD hz2 n
end

end Verif
