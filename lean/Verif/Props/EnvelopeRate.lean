import Verif.Props.Envelope
import Verif.Props.EnvelopeF32
import Mathlib.Analysis.SpecialFunctions.Exp
import Mathlib.Analysis.SpecialFunctions.Log.Deriv

/-! # How fast the envelope follower moves: C138 -/

namespace Verif

/-- Exact: the output moves towards the mean of the last two magnitudes, at the rate of `upper` if the last magnitude is above
the previous output and of `lower` otherwise. -/
theorem C138_step (lower upper : ℝ) (hl : 0 ≤ lower) (hl' : lower < 24000) (hu : 0 ≤ upper) (hu' : upper < 24000) (x : ℕ → ℝ) :
    ∃ y : ℕ → ℝ, (∀ n, modOut Modifier.process x (Envelope.new ℝ lower upper) n = .ok (y n)) ∧
      ∀ n, (|x (n + 1)| + |x n|) / 2 - y (n + 1) =
        bpPole (if y n < |x (n + 1)| then upper else lower) * ((|x (n + 1)| + |x n|) / 2 - y n) := by
  obtain ⟨y, hy⟩ := envelope_out lower upper x
  refine ⟨y, fun n => (hy n).1, fun n => ?_⟩
  have e := (hy (n + 1)).2
  simp only [delayed_succ, delayed_zero'] at e
  have h1 := envT_nonneg hl hl'
  have h2 := envT_nonneg hu hu'
  have key : ∀ t : ℝ, 0 ≤ t → (|x (n + 1)| + |x n|) / 2 - (t / (1 + t) * (|x (n + 1)| + |x n|) + (1 - t) / (1 + t) * y n) =
      (1 - t) / (1 + t) * ((|x (n + 1)| + |x n|) / 2 - y n) := by
    intro t ht
    have : 0 < 1 + t := by positivity
    field_simp; ring
  rw [e]
  by_cases hc : y n < |x (n + 1)|
  · simp only [if_pos hc]
    exact key _ h2
  · simp only [if_neg hc]
    exact key _ h1

example := C138_step 20 1000 (by norm_num) (by norm_num) (by norm_num) (by norm_num) (fun n => if n = 3 then -1 else 1 / 2)

/-- Violated: a sample louder than the envelope does not always raise it. For every pair of frequencies there is an input for
which the third sample is louder than the envelope and the envelope falls. -/
theorem C138_rises_violated (lower upper : ℝ) (hl : 0 < lower) (hl' : lower < 24000) (hu : 0 < upper) (hu' : upper < 24000) :
    ∃ x : ℕ → ℝ, ∃ y y' : ℝ, modOut Modifier.process x (Envelope.new ℝ lower upper) 1 = .ok y ∧
      modOut Modifier.process x (Envelope.new ℝ lower upper) 2 = .ok y' ∧ y < |x 2| ∧ y' < y := by
  have t1 := tan_pos' hl hl'
  have t2 := tan_pos' hu hu'
  have out : ∀ x : ℕ → ℝ, ∃ y : ℕ → ℝ, (∀ n, modOut Modifier.process x (Envelope.new ℝ lower upper) n = .ok (y n)) ∧
      y 0 = (let t := if 0 < |x 0| then envT upper else envT lower
        t / (1 + t) * |x 0|) ∧
      ∀ n, y (n + 1) = (let t := if y n < |x (n + 1)| then envT upper else envT lower
        t / (1 + t) * (|x (n + 1)| + |x n|) + (1 - t) / (1 + t) * y n) := by
    intro x
    obtain ⟨y, hy⟩ := envelope_out lower upper x
    refine ⟨y, fun n => (hy n).1, ?_, fun n => ?_⟩
    · have := (hy 0).2
      simp only [delayed_start, abs_zero, add_zero, mul_zero] at this
      exact this
    · have := (hy (n + 1)).2
      simp only [delayed_succ, delayed_zero'] at this
      exact this
  -- the output at 1 for 1, 0
  obtain ⟨y, -, y0, yn⟩ := out (fun n => if n = 0 then 1 else 0)
  have y1 := yn 0
  simp at y0 y1
  unfold envT at y0 y1
  have hy0 : 0 < y 1 := by
    generalize Real.tan (Real.pi * lower / 48000) = a at *
    generalize Real.tan (Real.pi * upper / 48000) = b at *
    have hb : ¬ y 0 < 0 := by
      rw [y0, not_lt]; positivity
    rw [if_neg hb, y0] at y1
    rw [y1, show a / (1 + a) + (1 - a) / (1 + a) * (b / (1 + b)) = (a + b) / ((1 + a) * (1 + b)) by field_simp; ring]
    positivity
  obtain ⟨z, hz, z0, zn⟩ := out (fun n => if n = 0 then 1 else if n = 1 then 0 else 3 / 2 * y 1)
  have z1 := zn 0
  have z2 := zn 1
  have hlt : y 1 < 3 / 2 * y 1 := by linarith
  simp at z0 z1
  unfold envT at z0 z1
  have c1 : z 1 = y 1 := by rw [z1, z0, y1, y0]
  have n2 : ¬ (1 + 1 : ℕ) = 0 := by norm_num
  have n3 : ¬ (1 + 1 : ℕ) = 1 := by norm_num
  simp only [c1, n2, n3, if_false, abs_of_pos (show 0 < 3 / 2 * y 1 by positivity), if_pos hlt] at z2
  simp at z2
  refine ⟨_, _, _, hz 1, hz 2, ?_, ?_⟩
  · rw [c1]
    simp only [show ¬ (2 : ℕ) = 0 by norm_num, show ¬ (2 : ℕ) = 1 by norm_num, if_false]
    rw [abs_of_pos (by positivity)]
    exact hlt
  · rw [z2, c1]
    unfold envT
    generalize Real.tan (Real.pi * upper / 48000) = b at *
    generalize y 1 = Y at *
    rw [show b / (1 + b) * (3 / 2 * Y) + (1 - b) / (1 + b) * Y = Y - b / 2 * Y / (1 + b) by field_simp; ring]
    have : 0 < b / 2 * Y / (1 + b) := by positivity
    linarith

example := C138_rises_violated 20 1000 (by norm_num) (by norm_num) (by norm_num) (by norm_num)

/-- When the last two samples are both at least as loud as the envelope it does not fall, and when both are at most as loud it
does not rise. -/
theorem C138_rises_partial (lower upper : ℝ) (hl : 0 ≤ lower) (hl' : lower < 24000) (hu : 0 ≤ upper) (hu' : upper < 24000) (x : ℕ → ℝ) (n : ℕ) :
    ∃ y y' : ℝ, modOut Modifier.process x (Envelope.new ℝ lower upper) n = .ok y ∧
      modOut Modifier.process x (Envelope.new ℝ lower upper) (n + 1) = .ok y' ∧
      (y ≤ |x n| → y ≤ |x (n + 1)| → y ≤ y') ∧ (|x n| ≤ y → |x (n + 1)| ≤ y → y' ≤ y) := by
  obtain ⟨y, hy, h⟩ := C138_step lower upper hl hl' hu hu' x
  refine ⟨_, _, hy n, hy (n + 1), ?_⟩
  have hn := h n
  obtain ⟨t, ht, e⟩ : ∃ t : ℝ, 0 ≤ t ∧ bpPole (if y n < |x (n + 1)| then upper else lower) = (1 - t) / (1 + t) := by
    split_ifs
    · exact ⟨_, envT_nonneg hu hu', rfl⟩
    · exact ⟨_, envT_nonneg hl hl', rfl⟩
  rw [e] at hn
  have hp : 0 < 1 + t := by positivity
  have e2 : y (n + 1) - y n = 2 * t / (1 + t) * ((|x (n + 1)| + |x n|) / 2 - y n) := by
    have : (1 - t) / (1 + t) = 1 - 2 * t / (1 + t) := by field_simp; ring
    rw [this] at hn
    linarith
  have hc : 0 ≤ 2 * t / (1 + t) := by positivity
  constructor
  · intro h1 h2
    have := mul_nonneg hc (show 0 ≤ (|x (n + 1)| + |x n|) / 2 - y n by linarith)
    linarith
  · intro h1 h2
    have := mul_nonneg hc (show 0 ≤ y n - (|x (n + 1)| + |x n|) / 2 by linarith)
    linarith

example := C138_rises_partial 20 1000 (by norm_num) (by norm_num) (by norm_num) (by norm_num) (fun n => if n = 3 then -1 else 1 / 2) 3

/-- The pole is not negative up to 12 kHz and below `e^(-2πf/48000)`: the speed of a one-pole filter with cutoff `f`. -/
private theorem bpPole_exp {f : ℝ} (h0 : 0 ≤ f) (h1 : f ≤ 12000) :
    0 ≤ bpPole f ∧ bpPole f ≤ Real.exp (-(2 * Real.pi * f / 48000)) := by
  have hp := Real.pi_pos
  have t0 := envT_nonneg h0 (by linarith)
  have t1 := envT_le_one h0 h1
  have hle : Real.pi * f / 48000 ≤ envT f := Real.le_tan (by positivity) (by
    have : Real.pi * f ≤ Real.pi * 12000 := mul_le_mul_of_nonneg_left h1 hp.le
    linarith)
  change 0 ≤ (1 - envT f) / (1 + envT f) ∧ (1 - envT f) / (1 + envT f) ≤ _
  generalize envT f = t at *
  have hpt : 0 < 1 + t := by linarith
  refine ⟨div_nonneg (by linarith) hpt.le, ?_⟩
  have h2 : (1 - t) / (1 + t) ≤ Real.exp (-(2 * t)) := by
    rcases t1.eq_or_lt with rfl | h
    · simp; positivity
    · have hs := Real.hasSum_log_sub_log_of_abs_lt_one (x := t) (abs_lt.mpr ⟨by linarith, h⟩)
      have hge := le_hasSum hs 0 (fun k _ => by positivity)
      simp at hge
      have : Real.log ((1 - t) / (1 + t)) ≤ -(2 * t) := by
        rw [Real.log_div (by linarith) (by linarith)]
        linarith
      exact (Real.log_le_iff_le_exp (div_pos (by linarith) hpt)).mp this
  refine h2.trans (Real.exp_le_exp.mpr ?_)
  linarith

/-- Exact: once the input stays at magnitude `X` from sample `m` on, an envelope below `X` closes the gap at the rate of `upper`
(shrinking it by `e^(-2π·upper·n/48000)` or more in `n` samples) and an envelope above `X` at the rate of `lower`; neither passes `X`. -/
theorem C138_settles (lower upper : ℝ) (hl : 0 ≤ lower) (hl' : lower ≤ 12000) (hu : 0 ≤ upper) (hu' : upper ≤ 12000) (x : ℕ → ℝ)
    (X : ℝ) (m : ℕ) (hx : ∀ i, m ≤ i → |x i| = X) :
    ∃ y : ℕ → ℝ, (∀ n, modOut Modifier.process x (Envelope.new ℝ lower upper) n = .ok (y n)) ∧
      (y m ≤ X → ∀ n, y (m + n) = X - bpPole upper ^ n * (X - y m) ∧ y (m + n) ≤ X ∧
        X - y (m + n) ≤ Real.exp (-(2 * Real.pi * upper * n / 48000)) * (X - y m)) ∧
      (X ≤ y m → ∀ n, y (m + n) = X + bpPole lower ^ n * (y m - X) ∧ X ≤ y (m + n) ∧
        y (m + n) - X ≤ Real.exp (-(2 * Real.pi * lower * n / 48000)) * (y m - X)) := by
  obtain ⟨y, hy, h⟩ := C138_step lower upper hl (by linarith) hu (by linarith) x
  have st : ∀ n, X - y (m + n + 1) = bpPole (if y (m + n) < X then upper else lower) * (X - y (m + n)) := by
    intro n
    have := h (m + n)
    rw [hx (m + n + 1) (by omega), hx (m + n) (by omega)] at this
    rw [show (X + X) / 2 = X by ring] at this
    exact this
  have powexp : ∀ {f : ℝ} (n : ℕ), 0 ≤ f → f ≤ 12000 →
      0 ≤ bpPole f ^ n ∧ bpPole f ^ n ≤ Real.exp (-(2 * Real.pi * f * n / 48000)) := by
    intro f n h0 h1
    obtain ⟨a, b⟩ := bpPole_exp h0 h1
    refine ⟨pow_nonneg a n, (pow_le_pow_left₀ a b n).trans_eq ?_⟩
    rw [← Real.exp_nat_mul]
    congr 1
    ring
  refine ⟨y, hy, fun h0 n => ?_, fun h0 n => ?_⟩
  · obtain ⟨a, b⟩ := powexp n hu hu'
    have e : X - y (m + n) = bpPole upper ^ n * (X - y m) := by
      clear a b
      induction n with
      | zero => simp
      | succ n ih =>
        have hs := st n
        have a := (powexp n hu hu').1
        by_cases hc : y (m + n) < X
        · rw [if_pos hc, ih] at hs
          rw [← add_assoc, hs, pow_succ]; ring
        · have z : X - y (m + n) = 0 := by
            have := mul_nonneg a (sub_nonneg.mpr h0)
            linarith
          rw [z, mul_zero] at hs
          rw [← add_assoc, hs, pow_succ]
          rw [z] at ih
          linear_combination (-bpPole upper) * ih.symm
    have h1 := mul_nonneg a (sub_nonneg.mpr h0)
    have h2 := mul_le_mul_of_nonneg_right b (sub_nonneg.mpr h0)
    exact ⟨by linarith, by linarith, by linarith⟩
  · obtain ⟨a, b⟩ := powexp n hl hl'
    have e : X - y (m + n) = bpPole lower ^ n * (X - y m) := by
      clear a b
      induction n with
      | zero => simp
      | succ n ih =>
        have hs := st n
        have a := (powexp n hl hl').1
        have hc : ¬ y (m + n) < X := by
          have := mul_nonneg a (sub_nonneg.mpr h0)
          rw [not_lt]
          linarith
        rw [if_neg hc, ih] at hs
        rw [← add_assoc, hs, pow_succ]; ring
    have h1 := mul_nonneg a (sub_nonneg.mpr h0)
    have h2 := mul_le_mul_of_nonneg_right b (sub_nonneg.mpr h0)
    exact ⟨by linarith, by linarith, by linarith⟩

/-- Silence followed by a square wave of magnitude 1/2. -/
example := C138_settles 20 1000 (by norm_num) (by norm_num) (by norm_num) (by norm_num)
  (fun n => if n < 100 then 0 else if n % 2 = 0 then 1 / 2 else -(1 / 2)) (1 / 2) 100 (fun i hi => by
    simp only [show ¬ i < 100 by omega, if_false]
    split_ifs
    · exact abs_of_pos (by norm_num)
    · rw [abs_neg]; exact abs_of_pos (by norm_num))

/-! ## IEEE -/

section IEEE
open Fl

private theorem pow2s : pow2 (-(b32.p : ℤ)) = (2 ^ 24)⁻¹ ∧ pow2 (b32.emin - 1) = (2 ^ 150)⁻¹ := by decide +kernel

private theorem mixed {q : ℚ} (h : 0 ≤ q) : |b32.rnd q - q| ≤ q * (2 ^ 24)⁻¹ + (2 ^ 150)⁻¹ := by
  have h1 := b32.abs_rnd_sub_le_mixed q
  rw [pow2s.1, pow2s.2, abs_of_nonneg h] at h1
  linarith

/-- The coefficients computed from a rounded tangent. -/
private theorem coefs {θ : F32} {t : ℚ} (h : θ.Is t) (t0 : 0 ≤ t) (t1 : t ≤ 1) :
    ∃ p q : ℚ, (θ / (lit 1 + θ)).Is p ∧ ((lit 1 - θ) / (lit 1 + θ)).Is q ∧ 0 ≤ p ∧ p ≤ 1 ∧ 0 ≤ q ∧ q ≤ 1 - t + (2 ^ 24)⁻¹ ∧ q ≤ 1 ∧
      |2 * p + q - 1| ≤ (2 ^ 22)⁻¹ + (2 ^ 140)⁻¹ := by
  have b1 : |1 + t| ≤ 2 ^ 1 := abs_le.mpr ⟨by norm_num; linarith, by norm_num; linarith⟩
  have hp := Is.add lit32_1 h (fits32' 1 (by norm_num) b1)
  have ep := err32 (q := 1 + t) 1 (by norm_num) (by exact_mod_cast b1)
  have p1 : 1 ≤ b32.rnd (1 + t) := b32.repr_le_rnd (by exact_mod_cast Fmt.repr32_int (n := 1) (by norm_num)) (by linarith)
  set P := b32.rnd (1 + t)
  have b2 : |1 - t| ≤ 2 ^ 0 := abs_le.mpr ⟨by norm_num; linarith, by norm_num; linarith⟩
  have hm := Is.sub lit32_1 h (fits32' 0 (by norm_num) b2)
  have em := err32 (q := 1 - t) 0 (by norm_num) (by exact_mod_cast b2)
  have m0 : 0 ≤ b32.rnd (1 - t) := b32.rnd_nonneg (by linarith)
  have m1 : b32.rnd (1 - t) ≤ 1 := b32.rnd_le_repr (by exact_mod_cast Fmt.repr32_int (n := 1) (by norm_num)) (by linarith)
  set m := b32.rnd (1 - t)
  have pp : 0 < P := by linarith
  rw [abs_le] at ep em
  norm_num at ep em
  have b3 : |t / P| ≤ 2 ^ 0 := by
    rw [abs_of_nonneg (by positivity), div_le_iff₀ pp]; norm_num; linarith
  have ha := Is.div h hp (by linarith) (fits32' 0 (by norm_num) b3)
  have b4 : |m / P| ≤ 2 ^ 0 := by
    rw [abs_of_nonneg (by positivity), div_le_iff₀ pp]; norm_num; linarith
  have hb := Is.div hm hp (by linarith) (fits32' 0 (by norm_num) b4)
  have ea := mixed (q := t / P) (by positivity)
  have eb := err32 (q := m / P) 0 (by norm_num) (by exact_mod_cast b4)
  have h1 : b32.rnd (m / P) ≤ 1 := b32.rnd_le_repr (by exact_mod_cast Fmt.repr32_int (n := 1) (by norm_num)) (by rw [div_le_iff₀ pp]; linarith)
  have h1a : b32.rnd (t / P) ≤ 1 := b32.rnd_le_repr (by exact_mod_cast Fmt.repr32_int (n := 1) (by norm_num)) (by rw [div_le_iff₀ pp]; linarith)
  have half : t / P ≤ 1 / 2 + 1 / 2 ^ 20 := by
    rw [div_le_iff₀ pp]; norm_num; linarith
  have sum : |2 * (t / P) + m / P - 1| ≤ 3 / 2 ^ 25 := by
    rw [show 2 * (t / P) + m / P - 1 = (2 * t + m - P) / P by field_simp, abs_div, abs_of_pos pp, div_le_iff₀ pp, abs_le]
    norm_num
    constructor <;> linarith
  have mq : m / P ≤ 1 - t + 1 / 2 ^ 25 := by
    rw [div_le_iff₀ pp]
    norm_num
    nlinarith
  refine ⟨_, _, ha, hb, b32.rnd_nonneg (by positivity), h1a, b32.rnd_nonneg (by positivity), ?_, h1, ?_⟩
  · rw [abs_le] at eb
    norm_num at eb mq ⊢
    linarith
  · rw [abs_le] at ea eb sum ⊢
    norm_num at ea eb sum half ⊢
    constructor <;> linarith

/-- One step with the input at magnitude `c` twice: the gap shrinks. -/
private theorem gap_step {a b x x1 y : F32} {p q c w : ℚ} (ha : a.Is p) (hb : b.Is q) (hx : x.Is c) (hx1 : x1.Is c) (hy : y.Is w)
    (p0 : 0 ≤ p) (p1 : p ≤ 1) (q0 : 0 ≤ q) (q1 : q ≤ 1) (hs : |2 * p + q - 1| ≤ (2 ^ 22)⁻¹ + (2 ^ 140)⁻¹)
    (c0 : 0 ≤ c) (c1 : c ≤ 2 ^ 91) (w0 : 0 ≤ w) (w1 : w ≤ 2 ^ 91) :
    ∃ z, (a * (x + x1) + b * y).Is z ∧ |z - c| ≤ (q + 3 / 2 ^ 24) * |w - c| + 8 / 2 ^ 24 * c + 1 / 2 ^ 147 := by
  have h1 := Is.add hx hx1 (fits32' 92 (by norm_num) (by
    rw [abs_of_nonneg (by positivity)]; norm_num at c1 ⊢; linarith))
  have e1 := mixed (q := c + c) (by positivity)
  have n1 : 0 ≤ b32.rnd (c + c) := b32.rnd_nonneg (by positivity)
  set s := b32.rnd (c + c)
  rw [abs_le] at e1
  have s93 : s ≤ 2 ^ 93 := by norm_num at e1 c1 ⊢; linarith
  have m2 : p * s ≤ s := mul_le_of_le_one_left n1 p1
  have h2 := Is.mul ha h1 (fits32' 93 (by norm_num) (by rw [abs_of_nonneg (by positivity)]; linarith))
  have e2 := mixed (q := p * s) (by positivity)
  have n2 : 0 ≤ b32.rnd (p * s) := b32.rnd_nonneg (by positivity)
  set A := b32.rnd (p * s)
  have m3 : q * w ≤ w := mul_le_of_le_one_left w0 q1
  have h3 := Is.mul hb hy (fits32' 91 (by norm_num) (by rw [abs_of_nonneg (by positivity)]; linarith))
  have e3 := mixed (q := q * w) (by positivity)
  have n3 : 0 ≤ b32.rnd (q * w) := b32.rnd_nonneg (by positivity)
  set B := b32.rnd (q * w)
  rw [abs_le] at e2 e3
  have h4 := Is.add h2 h3 (fits32' 95 (by norm_num) (by
    rw [abs_of_nonneg (by positivity)]
    norm_num at e2 e3 s93 w1 ⊢
    linarith))
  have e4 := mixed (q := A + B) (by positivity)
  refine ⟨_, h4, ?_⟩
  set Z := b32.rnd (A + B)
  rw [abs_le] at e4 hs
  -- products
  have ps1 : p * s ≤ p * (c + c) + p * ((c + c) * (2 ^ 24)⁻¹ + (2 ^ 150)⁻¹) := by
    rw [← mul_add]; exact mul_le_mul_of_nonneg_left (by linarith) p0
  have ps2 : p * (c + c) - p * ((c + c) * (2 ^ 24)⁻¹ + (2 ^ 150)⁻¹) ≤ p * s := by
    rw [← mul_sub]; exact mul_le_mul_of_nonneg_left (by linarith) p0
  have sc1 : (2 * p + q - 1) * c ≤ ((2 ^ 22)⁻¹ + (2 ^ 140)⁻¹) * c := mul_le_mul_of_nonneg_right hs.2 c0
  have sc2 : -((2 ^ 22)⁻¹ + (2 ^ 140)⁻¹) * c ≤ (2 * p + q - 1) * c := mul_le_mul_of_nonneg_right hs.1 c0
  have g0 := abs_nonneg (w - c)
  have gl := (abs_le.mp (le_refl |w - c|)).1
  have gu := (abs_le.mp (le_refl |w - c|)).2
  have qg1 : q * (w - c) ≤ q * |w - c| := mul_le_mul_of_nonneg_left gu q0
  have qg2 : q * (-|w - c|) ≤ q * (w - c) := mul_le_mul_of_nonneg_left gl q0
  have qg3 : q * |w - c| ≤ |w - c| := mul_le_of_le_one_left g0 q1
  have pc : p * c ≤ c := mul_le_of_le_one_left c0 p1
  have qc : q * c ≤ c := mul_le_of_le_one_left c0 q1
  have pc0 : 0 ≤ p * c := by positivity
  have qc0 : 0 ≤ q * c := by positivity
  have qg0 : 0 ≤ q * |w - c| := by positivity
  have x1 : p * (c + c) = 2 * (p * c) := by ring
  have x2 : p * ((c + c) * (2 ^ 24)⁻¹ + (2 ^ 150)⁻¹) = 2 * (p * c) * (2 ^ 24)⁻¹ + p * (2 ^ 150)⁻¹ := by ring
  have x3 : (2 * p + q - 1) * c = 2 * (p * c) + q * c - c := by ring
  have x4 : q * w = q * c + q * (w - c) := by ring
  have x5 : q * (-|w - c|) = -(q * |w - c|) := by ring
  have x6 : (q + 3 / 2 ^ 24) * |w - c| = q * |w - c| + 3 / 2 ^ 24 * |w - c| := by ring
  rw [x1, x2] at ps1 ps2
  rw [x3] at sc1 sc2
  rw [x5] at qg2
  rw [x4] at e3
  rw [x6]
  have p150 : p * (2 ^ 150)⁻¹ ≤ 1 * (2 ^ 150 : ℚ)⁻¹ := mul_le_mul_of_nonneg_right p1 (by positivity)
  have p150' : 0 ≤ p * (2 ^ 150 : ℚ)⁻¹ := by positivity
  have hw : q * c + q * (w - c) ≤ q * c + |w - c| := by linarith
  generalize p * (2 ^ 150)⁻¹ = pi at *
  generalize p * s = PS at *
  generalize p * c = PC at *
  generalize q * c = QC at *
  generalize q * (w - c) = QD at *
  generalize q * |w - c| = QG at *
  generalize |w - c| = G at *
  clear_value s A B Z
  rw [abs_le]
  norm_num at *
  constructor <;> linarith

/-- The recursion of the outputs, in the arithmetic of the code. -/
private theorem out_succ [Libm F32] (lower upper : F32) (x : ℕ → F32) : ∃ y : ℕ → F32,
    (∀ n, modOut Modifier.process x (Envelope.new F64 lower upper) n = .ok (y n)) ∧
    ∀ n, let m := Envelope.new F64 lower upper
      y (n + 1) = if y n <? Flt.abs (x (n + 1)) then m.au * (Flt.abs (x (n + 1)) + Flt.abs (x n)) + m.bu * y n
        else m.ad * (Flt.abs (x (n + 1)) + Flt.abs (x n)) + m.bd * y n := by
  set m := Envelope.new F64 lower upper with hm
  have h : ∀ n, ∃ u v : F32, modAfter (E := Panic) Modifier.process x m n = .ok { m with x1 := u, y1 := v } := by
    intro n
    induction n with
    | zero => exact ⟨m.x1, m.y1, rfl⟩
    | succ n ih =>
      obtain ⟨u, v, h⟩ := ih
      exact ⟨x n, (({ m with x1 := u, y1 := v } : Envelope F32).process (x n)).1, modAfter_succ h (y := (({ m with x1 := u, y1 := v } : Envelope F32).process (x n)).1) rfl⟩
  choose u v h using h
  refine ⟨fun n => (({ m with x1 := u n, y1 := v n } : Envelope F32).process (x n)).1, fun n => modOut_of (h n) rfl, fun n => ?_⟩
  have e := (modAfter_succ (h n) (y := (({ m with x1 := u n, y1 := v n } : Envelope F32).process (x n)).1) rfl).symm.trans (h (n + 1))
  have e := Except.ok.inj e
  have e1 := congrArg Envelope.x1 e
  have e2 := congrArg Envelope.y1 e
  simp only at e1 e2 ⊢
  rw [← e1, ← e2]
  rfl

/-- IEEE: with both frequencies between `f` and 11990 Hz (`f ≥ 4`), once the input stays at magnitude `c` from sample `m` on, the
distance of the output from `c` shrinks by the factor `1 - f/15500` per sample or more, down to `c/(130 f)`. -/
theorem C138_settles_f32 [Libm F32] (hl : TanAccurate) {f : ℚ} (hf : 4 ≤ f) {lower upper : F32} (h0 : lower.In f 11990) (h1 : upper.In f 11990)
    (x : ℕ → F32) {X c : ℚ} (hX : X ≤ 2 ^ 90) (m : ℕ) (hx : ∀ i ≤ m, (x i).In (-X) X) (hc : ∀ i, m ≤ i → (Flt.abs (x i)).Is c) (n : ℕ) :
    ∃ y z : F32, ∃ u v : ℚ, modOut Modifier.process x (Envelope.new F64 lower upper) m = .ok y ∧
      modOut Modifier.process x (Envelope.new F64 lower upper) (m + n) = .ok z ∧ y.Is u ∧ z.Is v ∧
      |v - c| ≤ (1 - f / 15500) ^ n * |u - c| + c / (130 * f) + 1 / 2 ^ 130 := by
  have cX : 0 ≤ c ∧ c ≤ X := by
    obtain ⟨q, hq, a, b⟩ := hx m le_rfl
    have := (hc m le_rfl).unique hq.abs
    rw [this]
    exact ⟨abs_nonneg _, abs_le.mpr ⟨a, b⟩⟩
  have absIn : ∀ v : F32, (Flt.abs v).Is c → v.In (-X) X := by
    intro v hv
    cases v with
    | nan => cases hv
    | inf s => cases hv
    | fin s q h =>
      have hq : (Fl.fin s q h : F32).Is q := is_fin s q h
      have := hv.unique hq.abs
      have hq2 : |q| ≤ X := by rw [← this]; exact cX.2
      exact ⟨_, hq, (abs_le.mp hq2).1, (abs_le.mp hq2).2⟩
  have all : ∀ i, (x i).In (-X) X := fun i => by
    rcases le_total i m with h | h
    · exact hx i h
    · exact absIn _ (hc i h)
  have hlo : lower.In 4 11990 := by
    obtain ⟨q, a, b, d⟩ := h0
    exact ⟨q, a, hf.trans b, d⟩
  have hup : upper.In 4 11990 := by
    obtain ⟨q, a, b, d⟩ := h1
    exact ⟨q, a, hf.trans b, d⟩
  obtain ⟨ql, il, ql0, ql1⟩ := h0
  obtain ⟨qu, iu, qu0, qu1⟩ := h1
  obtain ⟨tu, hu, u0, u1, u2⟩ := env_theta hl iu (hf.trans qu0) qu1
  obtain ⟨td, hd, d0, d1, d2⟩ := env_theta hl il (hf.trans ql0) ql1
  obtain ⟨pu, qu', hpu, hqu, pu0, pu1, qu0', qub, qu1', su⟩ := coefs hu (le_trans (by positivity) u0) u1
  obtain ⟨pd, qd', hpd, hqd, pd0, pd1, qd0', qdb, qd1', sd⟩ := coefs hd (le_trans (by positivity) d0) d1
  obtain ⟨y, hy, ys⟩ := out_succ lower upper x
  have fin : ∀ n, ∃ w, (y n).Is w ∧ 0 ≤ w ∧ w ≤ 2 ^ 91 := by
    intro n
    obtain ⟨y', e, w, hw, w0, w1⟩ := C103_envelope_f32 hl hlo hup x hX n (fun i _ => all i)
    have e := Except.ok.inj (e.symm.trans (hy n))
    rw [e] at hw
    refine ⟨w, hw, w0, w1.trans ?_⟩
    norm_num at hX ⊢
    linarith
  choose w hw w0 w1 using fin
  have f1 : f ≤ 11990 := ql0.trans ql1
  have fp : 0 < f := by linarith
  have r0 : 0 ≤ 1 - f / 15500 := by
    rw [sub_nonneg, div_le_one (by norm_num)]; linarith
  have step : ∀ n, |w (m + n + 1) - c| ≤ (1 - f / 15500) * |w (m + n) - c| + 8 / 2 ^ 24 * c + 1 / 2 ^ 147 := by
    intro n
    have e := ys (m + n)
    simp only at e
    have i1 := hc (m + n + 1) (by omega)
    have i0 := hc (m + n) (by omega)
    have c91 : c ≤ 2 ^ 91 := by norm_num at hX ⊢; linarith
    have g0 := abs_nonneg (w (m + n) - c)
    split_ifs at e
    · obtain ⟨z, hz, ez⟩ := gap_step hpu hqu i1 i0 (hw (m + n)) pu0 pu1 qu0' qu1' su cX.1 c91 (w0 _) (w1 _)
      rw [show w (m + n + 1) = z from (hw _).unique (by rw [e]; exact hz)]
      refine ez.trans (add_le_add (add_le_add (mul_le_mul_of_nonneg_right ?_ g0) le_rfl) le_rfl)
      norm_num at qub ⊢
      linarith
    · obtain ⟨z, hz, ez⟩ := gap_step hpd hqd i1 i0 (hw (m + n)) pd0 pd1 qd0' qd1' sd cX.1 c91 (w0 _) (w1 _)
      rw [show w (m + n + 1) = z from (hw _).unique (by rw [e]; exact hz)]
      refine ez.trans (add_le_add (add_le_add (mul_le_mul_of_nonneg_right ?_ g0) le_rfl) le_rfl)
      norm_num at qdb ⊢
      linarith
  refine ⟨_, _, _, _, hy m, hy (m + n), hw m, hw (m + n), ?_⟩
  have E0 : 0 ≤ c / (130 * f) + 1 / 2 ^ 130 := by have := cX.1; positivity
  induction n with
  | zero => simp only [pow_zero, one_mul, add_zero]; linarith
  | succ n ih =>
    have h := step n
    rw [← add_assoc]
    have h2 := mul_le_mul_of_nonneg_left ih r0
    have e1 : (1 - f / 15500) * ((1 - f / 15500) ^ n * |w m - c| + c / (130 * f) + 1 / 2 ^ 130) =
        (1 - f / 15500) ^ (n + 1) * |w m - c| + c / (130 * f) + 1 / 2 ^ 130 - c / (130 * 15500) - f / 15500 * (1 / 2 ^ 130) := by
      field_simp
      ring
    rw [e1] at h2
    have c0 := cX.1
    have f130 : 4 / 15500 * (1 / 2 ^ 130) ≤ f / 15500 * (1 / 2 ^ 130) := by gcongr
    refine h.trans ?_
    norm_num at h2 f130 ⊢
    linarith

/-- 20 Hz and 1 kHz: a tone burst at magnitude 1/2 after silence is met by some math library. -/
example : (∃ l : Libm F32, @TanAccurate l) ∧ (lit 20 : F32).In 20 11990 ∧ (lit 1000 : F32).In 20 11990 ∧
    (∀ i ≤ 100, (if i < 100 then lit 0 else lit (1 / 2) : F32).In (-1) 1) ∧
    ∀ i : ℕ, 100 ≤ i → (Flt.abs (if i < 100 then lit 0 else lit (1 / 2) : F32)).Is (1 / 2) := by
  refine ⟨tanAccurate_exists, ⟨20, by decide +kernel, by norm_num, by norm_num⟩, ⟨1000, by decide +kernel, by norm_num, by norm_num⟩,
    fun i _ => ?_, fun i hi => ?_⟩
  · split_ifs
    · exact ⟨0, by decide +kernel, by norm_num, by norm_num⟩
    · exact ⟨1 / 2, by decide +kernel, by norm_num, by norm_num⟩
  · rw [if_neg (by omega)]
    decide +kernel

end IEEE

end Verif
