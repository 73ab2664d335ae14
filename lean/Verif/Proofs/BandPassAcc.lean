import Verif.Props.BandPassF32
import Verif.Props.Filters

/-! # BandPass: bound of the exact filter and accuracy of the coefficients -/

namespace Verif
open Fl

/-! ## The exact filter -/

/-- Bound on the output of the exact recursion: the low pass half and the high pass half each at most double the peak. -/
theorem bpExact_bound {b c X : ℝ} (hb : |b| < 1) (hc : |c| < 1) {x y : ℕ → ℝ} (hx : ∀ n, |x n| ≤ X)
    (hy : ∀ n, y n = (1 - b) / 2 * ((1 + c) / 2) * (x n - delayed 0 x 2 n) + (b + c) * delayed 0 y 1 n - b * c * delayed 0 y 2 n) (n : ℕ) :
    |y n| ≤ 4 * X := by
  have X0 : 0 ≤ X := (abs_nonneg _).trans (hx 0)
  obtain ⟨hb0, hb1⟩ := abs_lt.mp hb
  obtain ⟨hc0, hc1⟩ := abs_lt.mp hc
  -- geometric sums
  let s : ℕ → ℝ := fun n => Nat.rec 0 (fun n s => b * s + x n) n
  have s0 : s 0 = 0 := rfl
  have s1 : ∀ n, s (n + 1) = b * s n + x n := fun n => rfl
  let l : ℕ → ℝ := fun n => (1 - b) / 2 * (x n + (1 + b) * s n)
  have hl : ∀ n, l n = (1 - b) / 2 * (x n + (1 + b) * s n) := fun n => rfl
  let t : ℕ → ℝ := fun n => Nat.rec 0 (fun n s => c * s + l n) n
  have t0 : t 0 = 0 := rfl
  have t1 : ∀ n, t (n + 1) = c * t n + l n := fun n => rfl
  have geo : ∀ {r M : ℝ} {f g : ℕ → ℝ}, |r| < 1 → f 0 = 0 → (∀ n, f (n + 1) = r * f n + g n) → (∀ n, |g n| ≤ M) → ∀ n, |f n| * (1 - |r|) ≤ M := by
    intro r M f g hr f0 f1 hg n
    induction n with
    | zero => rw [f0, abs_zero, zero_mul]; exact (abs_nonneg _).trans (hg 0)
    | succ n ih =>
      rw [f1]
      have h1 : |r * f n + g n| ≤ |r| * |f n| + M := by
        have := abs_add_le (r * f n) (g n)
        rw [abs_mul] at this
        linarith [hg n]
      have h2 : 0 ≤ |r| := abs_nonneg r
      have h3 : 0 < 1 - |r| := by linarith
      calc |r * f n + g n| * (1 - |r|) ≤ (|r| * |f n| + M) * (1 - |r|) := mul_le_mul_of_nonneg_right h1 h3.le
        _ = |r| * (|f n| * (1 - |r|)) + M * (1 - |r|) := by ring
        _ ≤ |r| * M + M * (1 - |r|) := by gcongr
        _ = M := by ring
  have lb : ∀ n, |l n| ≤ 2 * X := by
    intro n
    have h1 : (1 + b) * |s n| ≤ X * ((1 + b) / (1 - |b|)) := by
      have := geo hb s0 s1 hx n
      rw [mul_div_assoc', le_div_iff₀ (by linarith)]
      nlinarith
    have h2 : |x n + (1 + b) * s n| ≤ X + X * ((1 + b) / (1 - |b|)) := by
      have := abs_add_le (x n) ((1 + b) * s n)
      rw [abs_mul, abs_of_pos (by linarith : 0 < 1 + b)] at this
      linarith [hx n]
    rw [hl, abs_mul, abs_of_pos (by linarith : 0 < (1 - b) / 2)]
    refine (mul_le_mul_of_nonneg_left h2 (by linarith)).trans ?_
    rcases le_total 0 b with h | h
    · rw [abs_of_nonneg h]
      have : (1 - b) / 2 * (X + X * ((1 + b) / (1 - b))) = X := by field_simp; ring
      rw [this]; linarith
    · rw [abs_of_nonpos h, sub_neg_eq_add, div_self (by linarith)]
      nlinarith
  have tb : ∀ n, |t n| * (1 - |c|) ≤ 2 * X := geo hc t0 t1 lb
  have key : ∀ n, y n = (1 + c) / 2 * (l n + (c - 1) * t n) := by
    have two : ∀ n, y n = (1 + c) / 2 * (l n + (c - 1) * t n) ∧ y (n + 1) = (1 + c) / 2 * (l (n + 1) + (c - 1) * t (n + 1)) := by
      intro n
      induction n with
      | zero =>
        have e0 : y 0 = (1 + c) / 2 * (l 0 + (c - 1) * t 0) := by
          rw [hy, t0, hl, s0, delayed_start, delayed_start, delayed_start]; ring
        refine ⟨e0, ?_⟩
        rw [hy, delayed_succ, delayed_start, delayed_succ, delayed_zero', delayed_succ, delayed_start, e0]
        simp only [t1, hl, s1, s0, t0]
        ring
      | succ n ih =>
        refine ⟨ih.2, ?_⟩
        rw [hy, delayed_succ, delayed_succ, delayed_zero', delayed_succ, delayed_zero', delayed_succ, delayed_succ, delayed_zero', ih.1, ih.2]
        simp only [t1, hl, s1]
        ring
    exact fun n => (two n).1
  rw [key, abs_mul, abs_of_pos (by linarith : 0 < (1 + c) / 2)]
  have h1 : (1 - c) * |t n| ≤ 2 * X * ((1 - c) / (1 - |c|)) := by
    have := tb n
    rw [mul_div_assoc', le_div_iff₀ (by linarith)]
    nlinarith
  have h2 : |l n + (c - 1) * t n| ≤ 2 * X + 2 * X * ((1 - c) / (1 - |c|)) := by
    have := abs_add_le (l n) ((c - 1) * t n)
    rw [abs_mul (c - 1), abs_of_neg (by linarith : c - 1 < 0)] at this
    linarith [lb n]
  refine (mul_le_mul_of_nonneg_left h2 (by linarith)).trans ?_
  rcases le_total 0 c with h | h
  · rw [abs_of_nonneg h, div_self (by linarith)]
    nlinarith
  · rw [abs_of_nonpos h, sub_neg_eq_add]
    have : (1 + c) / 2 * (2 * X + 2 * X * ((1 - c) / (1 + c))) = 2 * X := by
      have : 1 + c ≠ 0 := by linarith
      field_simp; ring
    rw [this]; linarith

/-! ## The coefficients -/

/-- The pole depends on the angle with a slope of at most 2. -/
private theorem pole_lip {x x' : ℝ} (h0 : 0 < x) (h1 : x < Real.pi / 2) (h0' : 0 < x') (h1' : x' < Real.pi / 2) :
    |(1 - Real.tan x') / (1 + Real.tan x') - (1 - Real.tan x) / (1 + Real.tan x)| ≤ 2 * |x' - x| ∧
    |1 / (1 + Real.tan x') - 1 / (1 + Real.tan x)| ≤ |x' - x| := by
  have big : ∀ {x : ℝ}, 0 < x → x < Real.pi / 2 → 0 < Real.cos x ∧ 1 ≤ Real.cos x + Real.sin x := by
    intro x h0 h1
    have c0 : 0 < Real.cos x := Real.cos_pos_of_mem_Ioo ⟨by linarith, h1⟩
    have s0 : 0 < Real.sin x := Real.sin_pos_of_pos_of_lt_pi h0 (by linarith [Real.pi_pos])
    refine ⟨c0, ?_⟩
    nlinarith [Real.sin_sq_add_cos_sq x, mul_pos c0 s0]
  obtain ⟨c0, b0⟩ := big h0 h1
  obtain ⟨c0', b0'⟩ := big h0' h1'
  have e2 : 1 / (1 + Real.tan x') - 1 / (1 + Real.tan x) = -Real.sin (x' - x) / ((Real.cos x + Real.sin x) * (Real.cos x' + Real.sin x')) := by
    rw [Real.tan_eq_sin_div_cos, Real.tan_eq_sin_div_cos, Real.sin_sub]
    have : Real.cos x + Real.sin x ≠ 0 := by linarith
    have : Real.cos x' + Real.sin x' ≠ 0 := by linarith
    have h3 : 1 + Real.sin x / Real.cos x = (Real.cos x + Real.sin x) / Real.cos x := by field_simp
    have h4 : 1 + Real.sin x' / Real.cos x' = (Real.cos x' + Real.sin x') / Real.cos x' := by field_simp
    rw [h3, h4]
    field_simp
    ring
  have g : |1 / (1 + Real.tan x') - 1 / (1 + Real.tan x)| ≤ |x' - x| := by
    rw [e2, abs_div, abs_neg, abs_of_pos (by positivity : 0 < (Real.cos x + Real.sin x) * (Real.cos x' + Real.sin x'))]
    rw [div_le_iff₀ (by positivity)]
    have h1 : |Real.sin (x' - x)| ≤ |x' - x| := Real.abs_sin_le_abs
    have h2 : 1 ≤ (Real.cos x + Real.sin x) * (Real.cos x' + Real.sin x') := one_le_mul_of_one_le_of_one_le b0 b0'
    nlinarith [abs_nonneg (x' - x)]
  refine ⟨?_, g⟩
  have t0 := Real.tan_pos_of_pos_of_lt_pi_div_two h0 h1
  have t0' := Real.tan_pos_of_pos_of_lt_pi_div_two h0' h1'
  have e : (1 - Real.tan x') / (1 + Real.tan x') - (1 - Real.tan x) / (1 + Real.tan x) = 2 * (1 / (1 + Real.tan x') - 1 / (1 + Real.tan x)) := by
    field_simp; ring
  rw [e, abs_mul, abs_of_pos (by norm_num : (0 : ℝ) < 2)]
  linarith

/-- The tangent of the warped frequency: from it, the pole is within 2^-38 of the exact one. -/
private theorem warp [Libm F64] (ht : Tan64Accurate) {f : F64} {q : ℚ} (hf : f.Is q) (h0 : 8 ≤ q) (h1 : q ≤ 23992) :
    ∃ t : ℚ, (Libm.tan (SM.piM F32 * f * invSR) : F64).Is t ∧ 0 < t ∧ t ≤ 2 ^ 11 ∧
      |1 / (1 + (t : ℝ)) - (1 + bpPole q) / 2| ≤ (2 ^ 39)⁻¹ := by
  have hpi0 := Real.pi_gt_d6
  have hpi1 := Real.pi_lt_d6
  have q0 : (8 : ℝ) ≤ q := by exact_mod_cast h0
  have q1 : (q : ℝ) ≤ 23992 := by exact_mod_cast h1
  have aF : App f 0 q := App.of_is hf rfl
  have aI : App (invSR : F64) ((2 ^ 53)⁻¹) (1 / 48000) := by
    refine ⟨_, invSR64, ?_⟩
    have := b64.abs_rnd_sub_le_rel (q := 1 / 48000) (by decide +kernel)
    rw [show pow2 (-b64.p) = (2 ^ 53)⁻¹ by decide +kernel] at this
    have := (Rat.cast_le (K := ℝ)).mpr this
    push_cast at this
    exact this
  have m1 : Mid (Real.pi * q) := by
    constructor <;> rw [abs_of_pos (by positivity)] <;> norm_num at * <;> nlinarith
  have m2 : Mid (Real.pi * q * (1 / 48000)) := by
    constructor <;> rw [abs_of_pos (by positivity)] <;> norm_num at * <;> nlinarith
  have a1 : App (SM.piM F32 * f : F64) ((2 ^ 50)⁻¹) (Real.pi * q) := app_pi.mul aF m1 (by positivity) (by norm_num) (by norm_num)
  have a2 : App (SM.piM F32 * f * invSR : F64) ((2 ^ 48)⁻¹) (Real.pi * q * (1 / 48000)) :=
    a1.mul aI m2 (by positivity) (by norm_num) (by norm_num)
  obtain ⟨x, hx, ex⟩ := a2
  have ep : 0 < Real.pi * q * (1 / 48000) := by have := Real.pi_pos; nlinarith
  rw [abs_of_pos ep] at ex
  have ex2 : |(x : ℝ) - Real.pi * q / 48000| ≤ (2 ^ 47)⁻¹ := by
    rw [mul_one_div] at ex
    refine ex.trans ?_
    have : Real.pi * q / 48000 ≤ 2 := by rw [div_le_iff₀ (by norm_num)]; nlinarith
    norm_num
    linarith
  obtain ⟨ex0, ex1⟩ := abs_le.mp ex
  have x0 : (52 / 100000 : ℝ) ≤ x := by norm_num at *; nlinarith
  have x1 : (x : ℝ) ≤ Real.pi / 2 - 52 / 100000 := by norm_num at *; nlinarith
  have x0' : (2 ^ 12)⁻¹ ≤ x := by
    have : ((52 / 100000 : ℚ) : ℝ) ≤ x := by push_cast; exact x0
    have : (52 / 100000 : ℚ) ≤ x := by exact_mod_cast this
    exact le_trans (by norm_num) this
  have x1' : x ≤ 15705 / 10000 := by
    have : (x : ℝ) ≤ ((15705 / 10000 : ℚ) : ℝ) := by push_cast; norm_num at hpi1; linarith
    exact_mod_cast this
  obtain ⟨t, htt, et⟩ := ht.tan _ x hx x0' x1'
  obtain ⟨b0, b1⟩ := tan_bounds' (q := x) (by linarith) (by linarith)
  have b2 : Real.tan x ≤ 1924 := b1.trans (by
    rw [div_le_iff₀ (by linarith)]; linarith)
  obtain ⟨e0, e1⟩ := abs_le.mp et
  have T0 : 0 < Real.tan x := by linarith
  have t0 : (0 : ℝ) < t := by
    have : (2 ^ 40)⁻¹ * Real.tan x ≤ 1 / 2 * Real.tan x := mul_le_mul_of_nonneg_right (by norm_num) T0.le
    linarith
  refine ⟨t, htt, by exact_mod_cast t0, ?_, ?_⟩
  · have : (t : ℝ) ≤ ((2 ^ 11 : ℚ) : ℝ) := by push_cast; norm_num at *; linarith
    exact_mod_cast this
  · have l := (pole_lip (x := Real.pi * q / 48000) (x' := x) (by linarith) (by rw [div_lt_iff₀ (by norm_num)]; nlinarith) (by linarith) (by linarith)).2
    have tp := tan_pos' (f := (q : ℝ)) (by linarith) (by linarith)
    have e3 : (1 + bpPole q) / 2 = 1 / (1 + Real.tan (Real.pi * q / 48000)) := by
      unfold bpPole; field_simp; ring
    have e4 : |1 / (1 + (t : ℝ)) - 1 / (1 + Real.tan x)| ≤ (2 ^ 40)⁻¹ := by
      have : 1 / (1 + (t : ℝ)) - 1 / (1 + Real.tan x) = -(t - Real.tan x) / ((1 + t) * (1 + Real.tan x)) := by field_simp; ring
      rw [this, abs_div, abs_neg, abs_of_pos (by positivity : 0 < (1 + (t : ℝ)) * (1 + Real.tan x)), div_le_iff₀ (by positivity)]
      refine et.trans (mul_le_mul_of_nonneg_left ?_ (by positivity))
      nlinarith
    rw [e3]
    have := abs_sub_le (1 / (1 + (t : ℝ))) (1 / (1 + Real.tan x)) (1 / (1 + Real.tan (Real.pi * q / 48000)))
    norm_num at *
    linarith

/-- Rounding in the two quotients. -/
private theorem quot {θ : F64} {t : ℚ} (h : θ.Is t) (t0 : 0 < t) (t1 : t ≤ 2 ^ 11) :
    (∃ a : ℚ, (lit 1 / (lit 1 + θ) : F64).Is a ∧ |a - 1 / (1 + t)| ≤ (2 ^ 52)⁻¹) ∧
    ∃ b : ℚ, ((lit 1 - θ) / (lit 1 + θ) : F64).Is b ∧ |b - (1 - t) / (1 + t)| ≤ (2 ^ 50)⁻¹ := by
  norm_num at t1
  have hp := Is.add lit64_1 h (fits64' 12 (by norm_num) (by rw [abs_of_pos (by linarith)]; norm_num; linarith))
  have p1 : 1 ≤ b64.rnd (1 + t) := b64.repr_le_rnd (by exact_mod_cast Fmt.repr64_int (n := 1) (by norm_num)) (by linarith)
  have rp : Rel (2 ^ 53)⁻¹ (b64.rnd (1 + t)) (1 + t) := Rel.rnd64 (.inr (le_trans (by norm_num) (by linarith : (1 : ℚ) ≤ 1 + t)))
  set p := b64.rnd (1 + t)
  have pp : 0 < p := by linarith
  have rp' : |p - (1 + t)| ≤ (2 ^ 53)⁻¹ * (1 + t) := rp
  have d1 : |1 / p - 1 / (1 + t)| ≤ (2 ^ 53)⁻¹ / p := by
    have : 1 / p - 1 / (1 + t) = -(p - (1 + t)) / (p * (1 + t)) := by field_simp; ring
    rw [this, abs_div, abs_neg, abs_of_pos (by positivity : 0 < p * (1 + t)), div_le_div_iff₀ (by positivity) pp]
    calc |p - (1 + t)| * p ≤ (2 ^ 53)⁻¹ * (1 + t) * p := mul_le_mul_of_nonneg_right rp' pp.le
      _ = (2 ^ 53)⁻¹ * (p * (1 + t)) := by ring
  have i1 : 1 / p ≤ 1 := by rw [div_le_iff₀ pp]; linarith
  have i0 : 0 ≤ 1 / p := by positivity
  constructor
  · refine ⟨_, Is.div lit64_1 hp pp.ne' (fits64' 0 (by norm_num) (by rw [abs_of_nonneg i0, pow_zero]; exact i1)), ?_⟩
    have e := err64 (q := 1 / p) 0 (by norm_num) (by rw [abs_of_nonneg i0, zpow_zero]; exact i1)
    rw [show (2 : ℚ) ^ ((0 : ℤ) - 54) = (2 ^ 54)⁻¹ by norm_num] at e
    have h3 : (2 ^ 53 : ℚ)⁻¹ / p ≤ (2 ^ 53)⁻¹ := div_le_self (by positivity) p1
    have := abs_sub_le (b64.rnd (1 / p)) (1 / p) (1 / (1 + t))
    norm_num at *
    linarith
  · have bm : |1 - t| ≤ 2 ^ 11 := by rw [abs_le]; constructor <;> norm_num <;> linarith
    have hm := Is.sub lit64_1 h (fits64' 11 (by norm_num) bm)
    have em := mixed64' (1 - t)
    have lt : |1 - t| ≤ 1 + t := by rw [abs_le]; constructor <;> linarith
    obtain ⟨l, u⟩ := abs_le.mp rp'
    have lp : |1 - t| ≤ 2 * p := by norm_num at *; linarith
    set n := b64.rnd (1 - t)
    have en : |n - (1 - t)| ≤ (2 ^ 51)⁻¹ * p := by norm_num at *; linarith
    have q0 : |n / p - (1 - t) / (1 + t)| ≤ (2 ^ 51)⁻¹ + (2 ^ 52)⁻¹ := by
      have : n / p - (1 - t) / (1 + t) = (n - (1 - t)) / p + (1 - t) * (1 / p - 1 / (1 + t)) := by ring
      rw [this]
      refine (abs_add_le _ _).trans (add_le_add ?_ ?_)
      · rw [abs_div, abs_of_pos pp, div_le_iff₀ pp]; exact en
      · rw [abs_mul]
        calc |1 - t| * |1 / p - 1 / (1 + t)| ≤ 2 * p * ((2 ^ 53)⁻¹ / p) := mul_le_mul lp d1 (abs_nonneg _) (by positivity)
          _ = (2 ^ 52)⁻¹ := by field_simp
    have q2 : |(1 - t) / (1 + t)| ≤ 1 := by rw [abs_div, abs_of_pos (by linarith : 0 < 1 + t), div_le_one (by linarith)]; exact lt
    have q1 : |n / p| ≤ 2 ^ 1 := by
      have := abs_sub_abs_le_abs_sub (n / p) ((1 - t) / (1 + t))
      norm_num at *
      linarith
    refine ⟨_, Is.div hm hp pp.ne' (fits64' 1 (by norm_num) q1), ?_⟩
    have e := err64 (q := n / p) 1 (by norm_num) (by exact_mod_cast q1)
    rw [show (2 : ℚ) ^ ((1 : ℤ) - 54) = (2 ^ 53)⁻¹ by norm_num] at e
    have := abs_sub_le (b64.rnd (n / p)) (n / p) ((1 - t) / (1 + t))
    norm_num at *
    linarith

/-- One corner. -/
private theorem corner [Libm F64] (ht : Tan64Accurate) {f : F64} {q : ℚ} (hf : f.Is q) (h0 : 8 ≤ q) (h1 : q ≤ 23992) :
    (∃ a : ℚ, (lit 1 / (lit 1 + Libm.tan (SM.piM F32 * f * invSR)) : F64).Is a ∧ |(a : ℝ) - (1 + bpPole q) / 2| ≤ (2 ^ 38)⁻¹) ∧
    ∃ b : ℚ, ((lit 1 - Libm.tan (SM.piM F32 * f * invSR)) / (lit 1 + Libm.tan (SM.piM F32 * f * invSR)) : F64).Is b ∧
      |(b : ℝ) - bpPole q| ≤ (2 ^ 37)⁻¹ := by
  obtain ⟨t, h2, t0, t1, et⟩ := warp ht hf h0 h1
  obtain ⟨⟨a, ha, ea⟩, b, hb, eb⟩ := quot h2 t0 t1
  have ea := (Rat.cast_le (K := ℝ)).mpr ea
  have eb := (Rat.cast_le (K := ℝ)).mpr eb
  push_cast at ea eb
  have t0r : (0 : ℝ) < t := by exact_mod_cast t0
  refine ⟨⟨a, ha, ?_⟩, b, hb, ?_⟩
  · have := abs_sub_le (a : ℝ) (1 / (1 + t)) ((1 + bpPole q) / 2)
    norm_num at *
    linarith
  · have e : (1 - (t : ℝ)) / (1 + t) = 2 * (1 / (1 + t)) - 1 := by field_simp; ring
    have e2 : |(1 - (t : ℝ)) / (1 + t) - bpPole q| ≤ (2 ^ 38)⁻¹ := by
      rw [e, show 2 * (1 / (1 + (t : ℝ))) - 1 - bpPole q = 2 * (1 / (1 + t) - (1 + bpPole q) / 2) by ring, abs_mul, abs_two]
      norm_num at *
      linarith
    have := abs_sub_le (b : ℝ) ((1 - t) / (1 + t)) (bpPole q)
    norm_num at *
    linarith

/-- The coefficients are within `ε` of the exact ones, for poles `b` and `c`. -/
structure BandPass.Near (m : BandPass F32 F64) (b c ε : ℝ) : Prop where
  a0 : ∃ a : ℚ, m.a0.Is a ∧ |(a : ℝ) - (1 - b) / 2 * ((1 + c) / 2)| ≤ ε
  b1 : ∃ q : ℚ, m.b1.Is q ∧ |(q : ℝ) - (b + c)| ≤ ε
  b2 : ∃ q : ℚ, m.b2.Is q ∧ |(q : ℝ) - b * c| ≤ ε

private theorem rnd64_err {q : ℚ} (h : |(q : ℝ)| ≤ 4) : b64.Fits q ∧ |((b64.rnd q : ℚ) : ℝ) - q| ≤ (2 ^ 52)⁻¹ := by
  have h : |q| ≤ 4 := by
    have : ((|q| : ℚ) : ℝ) ≤ ((4 : ℚ) : ℝ) := by push_cast; exact h
    exact Rat.cast_le.mp this
  refine ⟨fits64' 2 (by norm_num) (h.trans (by norm_num)), ?_⟩
  have e := err64 (q := q) 2 (by norm_num) (h.trans (by norm_num))
  rw [show (2 : ℚ) ^ ((2 : ℤ) - 54) = (2 ^ 52)⁻¹ by norm_num] at e
  have e := (Rat.cast_le (K := ℝ)).mpr e
  push_cast at e
  exact e

private theorem prod_near {a b a' b' ε : ℝ} (ha : |a - a'| ≤ ε) (hb : |b - b'| ≤ ε) (ha' : |a'| ≤ 1) (hb' : |b'| ≤ 1) (hε : ε ≤ 1) :
    |a * b - a' * b'| ≤ 3 * ε ∧ |a * b| ≤ 4 := by
  have h1 : a * b - a' * b' = (a - a') * b' + a' * (b - b') + (a - a') * (b - b') := by ring
  have e0 : 0 ≤ ε := (abs_nonneg _).trans ha
  have k : |a * b - a' * b'| ≤ 3 * ε := by
    rw [h1]
    have := abs_add_le ((a - a') * b' + a' * (b - b')) ((a - a') * (b - b'))
    have := abs_add_le ((a - a') * b') (a' * (b - b'))
    simp only [abs_mul] at *
    have c1 : |a - a'| * |b'| ≤ ε * 1 := mul_le_mul ha hb' (abs_nonneg _) e0
    have c2 : |a'| * |b - b'| ≤ 1 * ε := mul_le_mul ha' hb (abs_nonneg _) (by norm_num)
    have c3 : |a - a'| * |b - b'| ≤ ε * 1 := mul_le_mul ha (hb.trans hε) (abs_nonneg _) e0
    linarith
  refine ⟨k, ?_⟩
  have h2 : |a' * b'| ≤ 1 := by rw [abs_mul]; exact mul_le_one₀ ha' (abs_nonneg _) hb'
  have := abs_sub_abs_le_abs_sub (a * b) (a' * b')
  linarith

theorem BandPass.near_reset [Libm F64] (ht : Tan64Accurate) (m : BandPass F32 F64) {l h : F64} (hc : m.getCornerFrequencies = (l, h)) {p q : ℚ}
    (hl : l.Is p) (hh : h.Is q) (p0 : 8 ≤ p) (p1 : p ≤ 23992) (q0 : 8 ≤ q) (q1 : q ≤ 23992) : m.reset.Near (bpPole q) (bpPole p) (2 ^ 35)⁻¹ := by
  obtain ⟨⟨a, ha, ea⟩, b, hb, eb⟩ := corner ht hh q0 q1
  obtain ⟨⟨a', ha', ea'⟩, b', hb', eb'⟩ := corner ht hl p0 p1
  have p0r : (8 : ℝ) ≤ p := by exact_mod_cast p0
  have p1r : (p : ℝ) ≤ 23992 := by exact_mod_cast p1
  have q0r : (8 : ℝ) ≤ q := by exact_mod_cast q0
  have q1r : (q : ℝ) ≤ 23992 := by exact_mod_cast q1
  have B := bpPole_abs (f := (q : ℝ)) (by linarith) (by linarith)
  have C := bpPole_abs (f := (p : ℝ)) (by linarith) (by linarith)
  set β := bpPole q
  set γ := bpPole p
  obtain ⟨B0, B1⟩ := abs_lt.mp B
  obtain ⟨C0, C1⟩ := abs_lt.mp C
  have hr : m.reset = { m with
      a0 := (lit 1 - lit 1 / (lit 1 + Libm.tan (SM.piM F32 * h * invSR))) * (lit 1 / (lit 1 + Libm.tan (SM.piM F32 * l * invSR)))
      b1 := (lit 1 - Libm.tan (SM.piM F32 * h * invSR)) / (lit 1 + Libm.tan (SM.piM F32 * h * invSR)) +
        (lit 1 - Libm.tan (SM.piM F32 * l * invSR)) / (lit 1 + Libm.tan (SM.piM F32 * l * invSR))
      b2 := (lit 1 - Libm.tan (SM.piM F32 * h * invSR)) / (lit 1 + Libm.tan (SM.piM F32 * h * invSR)) *
        ((lit 1 - Libm.tan (SM.piM F32 * l * invSR)) / (lit 1 + Libm.tan (SM.piM F32 * l * invSR))) } := by
    unfold BandPass.reset; rw [hc]
  rw [hr]
  have tiny : ((2 : ℝ) ^ 37)⁻¹ ≤ 1 := by norm_num
  -- first coefficient
  obtain ⟨f1, r1⟩ := rnd64_err (q := 1 - a) (by
    push_cast
    obtain ⟨u, v⟩ := abs_le.mp ea
    rw [abs_le]
    norm_num at *
    constructor <;> linarith)
  have d1 : |((b64.rnd (1 - a) : ℚ) : ℝ) - (1 - β) / 2| ≤ (2 ^ 37)⁻¹ := by
    push_cast at r1
    have h1 := abs_sub_le ((b64.rnd (1 - a) : ℚ) : ℝ) (1 - a) ((1 - β) / 2)
    have h2 : |1 - (a : ℝ) - (1 - β) / 2| = |(a : ℝ) - (1 + β) / 2| := by rw [abs_sub_comm]; congr 1; ring
    norm_num at *
    linarith
  obtain ⟨k1, k2⟩ := prod_near d1 (ea'.trans (by norm_num : ((2 : ℝ) ^ 38)⁻¹ ≤ (2 ^ 37)⁻¹)) (by rw [abs_le]; constructor <;> linarith)
    (by rw [abs_le]; constructor <;> linarith) tiny
  obtain ⟨f2, r2⟩ := rnd64_err (q := b64.rnd (1 - a) * a') (by push_cast; exact k2)
  -- the others
  have s1 : |(b : ℝ) + b' - (β + γ)| ≤ (2 ^ 36)⁻¹ := by
    have := abs_add_le ((b : ℝ) - β) (b' - γ)
    rw [show (b : ℝ) - β + (b' - γ) = b + b' - (β + γ) by ring] at this
    norm_num at *
    linarith
  obtain ⟨f3, r3⟩ := rnd64_err (q := b + b') (by
    push_cast
    obtain ⟨u, v⟩ := abs_le.mp s1
    rw [abs_le]
    norm_num at *
    constructor <;> linarith)
  obtain ⟨k3, k4⟩ := prod_near eb eb' B.le C.le tiny
  obtain ⟨f4, r4⟩ := rnd64_err (q := b * b') (by push_cast; exact k4)
  push_cast at r2 r3 r4
  refine ⟨⟨_, Is.mul (Is.sub lit64_1 ha f1) ha' f2, ?_⟩, ⟨_, Is.add hb hb' f3, ?_⟩, ⟨_, Is.mul hb hb' f4, ?_⟩⟩
  · have := abs_sub_le ((b64.rnd (b64.rnd (1 - a) * a') : ℚ) : ℝ) ((b64.rnd (1 - a) : ℚ) * a') ((1 - β) / 2 * ((1 + γ) / 2))
    norm_num at *
    linarith
  · have := abs_sub_le ((b64.rnd (b + b') : ℚ) : ℝ) ((b : ℝ) + b') (β + γ)
    norm_num at *
    linarith
  · have := abs_sub_le ((b64.rnd (b * b') : ℚ) : ℝ) ((b : ℝ) * b') (β * γ)
    norm_num at *
    linarith

/-- Nearby poles. -/
theorem BandPass.Near.move {m : BandPass F32 F64} {b c b' c' ε η : ℝ} (h : m.Near b c ε) (hb : |b| ≤ 1) (hc : |c| ≤ 1) (hb' : |b - b'| ≤ η) (hc' : |c - c'| ≤ η)
    (hη : η ≤ 1) : m.Near b' c' (ε + 3 * η) := by
  have n0 : 0 ≤ η := (abs_nonneg _).trans hb'
  obtain ⟨b0, b1⟩ := abs_le.mp hb'
  obtain ⟨c0, c1⟩ := abs_le.mp hc'
  rw [abs_le] at hb hc
  refine ⟨?_, ?_, ?_⟩
  · obtain ⟨a, h1, h2⟩ := h.a0
    refine ⟨a, h1, ?_⟩
    have k := (prod_near (a := (1 - b') / 2) (a' := (1 - b) / 2) (b := (1 + c') / 2) (b' := (1 + c) / 2) (ε := η) (by rw [abs_le]; constructor <;> linarith)
      (by rw [abs_le]; constructor <;> linarith) (by rw [abs_le]; constructor <;> linarith) (by rw [abs_le]; constructor <;> linarith) hη).1
    rw [abs_sub_comm] at k
    have := abs_sub_le (a : ℝ) ((1 - b) / 2 * ((1 + c) / 2)) ((1 - b') / 2 * ((1 + c') / 2))
    linarith
  · obtain ⟨a, h1, h2⟩ := h.b1
    refine ⟨a, h1, ?_⟩
    have := abs_sub_le (a : ℝ) (b + c) (b' + c')
    have k : |b + c - (b' + c')| ≤ 3 * η := by rw [abs_le]; constructor <;> linarith
    linarith
  · obtain ⟨a, h1, h2⟩ := h.b2
    refine ⟨a, h1, ?_⟩
    have k := (prod_near (a := b') (a' := b) (b := c') (b' := c) (ε := η) (by rwa [abs_sub_comm]) (by rwa [abs_sub_comm]) (by rwa [abs_le]) (by rwa [abs_le]) hη).1
    rw [abs_sub_comm] at k
    have := abs_sub_le (a : ℝ) (b * c) (b' * c')
    linarith

/-- The distance of the pole from the unit circle, in terms of the distance of the corner from both ends of the spectrum. -/
theorem bpPole_gap {f : ℝ} (h0 : 0 < f) (h1 : f < 24000) : Real.pi * min f (24000 - f) / 48000 ≤ 1 - |bpPole f| := by
  have low : ∀ {f : ℝ}, 0 < f → f ≤ 12000 → Real.pi * f / 48000 ≤ 1 - |bpPole f| := by
    intro f h0 h1
    have hp := Real.pi_pos
    have t0 := tan_pos' h0 (by linarith)
    have t1 : Real.tan (Real.pi * f / 48000) ≤ 1 := by
      rw [← Real.tan_pi_div_four]
      have : 0 < Real.pi * f / 48000 := by positivity
      exact Real.strictMonoOn_tan.monotoneOn ⟨by linarith, by rw [div_lt_iff₀ (by norm_num)]; nlinarith⟩ ⟨by linarith, by linarith⟩
        (by rw [div_le_iff₀ (by norm_num)]; nlinarith)
    have lx : Real.pi * f / 48000 ≤ Real.tan (Real.pi * f / 48000) :=
      Real.le_tan (by positivity) (by rw [div_lt_iff₀ (by norm_num)]; nlinarith)
    refine lx.trans ?_
    unfold bpPole
    generalize Real.tan (Real.pi * f / 48000) = t at *
    rw [abs_of_nonneg (div_nonneg (by linarith) (by linarith)), one_sub_div (by linarith), le_div_iff₀ (by linarith)]
    nlinarith
  have sym : bpPole (24000 - f) = -bpPole f := by
    have t0 := tan_pos' h0 h1
    unfold bpPole
    rw [show Real.pi * (24000 - f) / 48000 = Real.pi / 2 - Real.pi * f / 48000 by ring, Real.tan_pi_div_two_sub]
    generalize Real.tan (Real.pi * f / 48000) = t at *
    field_simp
    ring
  rcases le_total f 12000 with h | h
  · rw [min_eq_left (by linarith)]; exact low h0 h
  · rw [min_eq_right (by linarith)]
    have := low (f := 24000 - f) (by linarith) (by linarith)
    rwa [sym, abs_neg] at this

/-- The pole moves by at most `|f' - f| / 7000`. -/
theorem bpPole_lip {f f' : ℝ} (h0 : 0 < f) (h1 : f < 24000) (h0' : 0 < f') (h1' : f' < 24000) : |bpPole f' - bpPole f| ≤ |f' - f| / 7000 := by
  have hp := Real.pi_pos
  have hp1 := Real.pi_lt_d6
  have := (pole_lip (x := Real.pi * f / 48000) (x' := Real.pi * f' / 48000) (by positivity) (by rw [div_lt_iff₀ (by norm_num)]; nlinarith)
    (by positivity) (by rw [div_lt_iff₀ (by norm_num)]; nlinarith)).1
  refine this.trans ?_
  rw [show Real.pi * f' / 48000 - Real.pi * f / 48000 = Real.pi / 48000 * (f' - f) by ring, abs_mul, abs_of_pos (by positivity : 0 < Real.pi / 48000)]
  norm_num at hp1
  have := abs_nonneg (f' - f)
  nlinarith

end Verif
