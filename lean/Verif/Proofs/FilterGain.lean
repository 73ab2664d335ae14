import Verif.Proofs.Stability

/-! # Sharp gain of the third order recursion

The resonant pair contracts by exactly `1 + κ t + t²` in the energy `p² + κ p v + v²`. -/

namespace Verif

/-- The energy of the resonant pair. -/
private noncomputable def en (κ p v : ℝ) : ℝ := p ^ 2 + κ * p * v + v ^ 2

private theorem en_step {t κ p v p' v' f : ℝ} (h1 : p' = p + t * v') (h2 : v' * (1 + κ * t) + t * p' = v + f) :
    (1 + κ * t + t ^ 2) * en κ p' v' = en κ p (v + f) := by
  have hp : p = p' - t * v' := by linarith
  unfold en
  rw [← h2, hp]
  ring

section
variable {κ : ℝ} (hk0 : 0 ≤ κ) (hk1 : κ ≤ 1)
include hk0 hk1

private theorem en_nonneg (p v : ℝ) : 0 ≤ en κ p v := by
  have e : en κ p v = (v + κ / 2 * p) ^ 2 + (1 - κ ^ 2 / 4) * p ^ 2 := by unfold en; ring
  rw [e]
  have : 0 ≤ 1 - κ ^ 2 / 4 := by nlinarith
  positivity

private theorem en_ge (p v : ℝ) : p ^ 2 ≤ (1 + κ ^ 2 / 6) ^ 2 * en κ p v ∧ v ^ 2 ≤ (1 + κ ^ 2 / 6) ^ 2 * en κ p v := by
  have e1 : en κ p v = (v + κ / 2 * p) ^ 2 + (1 - κ ^ 2 / 4) * p ^ 2 := by unfold en; ring
  have e2 : en κ p v = (p + κ / 2 * v) ^ 2 + (1 - κ ^ 2 / 4) * v ^ 2 := by unfold en; ring
  have ha : κ ^ 2 ≤ 1 := by nlinarith
  have c : 1 ≤ (1 + κ ^ 2 / 6) ^ 2 * (1 - κ ^ 2 / 4) := by
    set a := κ ^ 2
    have ha0 : 0 ≤ a := by positivity
    have e : (1 + a / 6) ^ 2 * (1 - a / 4) = 1 + a * (1 / 12 - a / 18 - a ^ 2 / 144) := by ring
    rw [e]
    have : 0 ≤ a * (1 / 12 - a / 18 - a ^ 2 / 144) := mul_nonneg ha0 (by nlinarith)
    linarith
  have hc : 0 ≤ (1 + κ ^ 2 / 6) ^ 2 := by positivity
  constructor
  · rw [e1, mul_add, ← mul_assoc]
    have := mul_le_mul_of_nonneg_right c (sq_nonneg p)
    have : 0 ≤ (1 + κ ^ 2 / 6) ^ 2 * (v + κ / 2 * p) ^ 2 := by positivity
    linarith
  · rw [e2, mul_add, ← mul_assoc]
    have := mul_le_mul_of_nonneg_right c (sq_nonneg v)
    have : 0 ≤ (1 + κ ^ 2 / 6) ^ 2 * (p + κ / 2 * v) ^ 2 := by positivity
    linarith

private theorem en_abs (p v : ℝ) : |p| ≤ (1 + κ ^ 2 / 6) * Real.sqrt (en κ p v) ∧ |v| ≤ (1 + κ ^ 2 / 6) * Real.sqrt (en κ p v) := by
  obtain ⟨h1, h2⟩ := en_ge hk0 hk1 p v
  have e : (1 + κ ^ 2 / 6) * Real.sqrt (en κ p v) = Real.sqrt ((1 + κ ^ 2 / 6) ^ 2 * en κ p v) := by
    rw [Real.sqrt_mul (by positivity), Real.sqrt_sq (by positivity)]
  rw [e]
  exact ⟨Real.abs_le_sqrt h1, Real.abs_le_sqrt h2⟩

private theorem en_add (p v f : ℝ) : Real.sqrt (en κ p (v + f)) ≤ Real.sqrt (en κ p v) + |f| := by
  have h0 := en_nonneg hk0 hk1 p v
  have hs := Real.sqrt_nonneg (en κ p v)
  rw [Real.sqrt_le_left (by positivity)]
  have h2 : |κ * p + 2 * v| ≤ 2 * Real.sqrt (en κ p v) := by
    have e : 2 * Real.sqrt (en κ p v) = Real.sqrt (4 * en κ p v) := by
      rw [show (4 : ℝ) = 2 ^ 2 by norm_num, Real.sqrt_mul (by positivity), Real.sqrt_sq (by norm_num)]
    rw [e]
    refine Real.abs_le_sqrt ?_
    have e : 4 * en κ p v - (κ * p + 2 * v) ^ 2 = (4 - κ ^ 2) * p ^ 2 := by unfold en; ring
    have : 0 ≤ (4 - κ ^ 2) * p ^ 2 := mul_nonneg (by nlinarith) (sq_nonneg p)
    linarith
  have e : en κ p (v + f) = en κ p v + f * (κ * p + 2 * v) + f ^ 2 := by unfold en; ring
  have h3 : f * (κ * p + 2 * v) ≤ |f| * (2 * Real.sqrt (en κ p v)) := by
    refine (le_abs_self _).trans ?_
    rw [abs_mul]
    exact mul_le_mul_of_nonneg_left h2 (abs_nonneg f)
  rw [e]
  have : (Real.sqrt (en κ p v) + |f|) ^ 2 = en κ p v + |f| * (2 * Real.sqrt (en κ p v)) + f ^ 2 := by
    rw [add_sq, Real.sq_sqrt h0, sq_abs]; ring
  linarith
end

/-- Bound of the response of the prototype to an input of size 1. -/
noncomputable def filtK (t κ : ℝ) : ℝ := (1 + κ ^ 2 / 6) * (2 / (κ * t + t ^ 2) + 1 / 2) / t ^ 2

theorem filtK_nonneg {t κ : ℝ} (ht : 0 < t) (hk0 : 0 ≤ κ) : 0 ≤ filtK t κ := by unfold filtK; positivity

section
variable {t κ : ℝ} (ht : 0 < t) (hk0 : 0 ≤ κ) (hk1 : κ ≤ 1)
include ht hk0

private theorem sqrt_gap : 1 / (Real.sqrt (1 + κ * t + t ^ 2) - 1) ≤ 2 / (κ * t + t ^ 2) + 1 / 2 ∧ 1 < Real.sqrt (1 + κ * t + t ^ 2) := by
  set h := κ * t + t ^ 2 with hh
  have h0 : 0 < h := by positivity
  have e : 1 + κ * t + t ^ 2 = 1 + h := by rw [hh]; ring
  rw [e]
  set s := Real.sqrt (1 + h) with hs
  have hsq : s ^ 2 = 1 + h := Real.sq_sqrt (by positivity)
  have hs0 : 0 ≤ s := Real.sqrt_nonneg _
  have hs1 : 1 < s := by nlinarith
  refine ⟨?_, hs1⟩
  have hs2 : s ≤ 1 + h / 2 := by nlinarith [sq_nonneg h]
  rw [div_le_iff₀ (by linarith)]
  have : (2 / h + 1 / 2) * (s - 1) = (2 + h / 2) * (s - 1) / h := by field_simp
  rw [this, le_div_iff₀ h0]
  nlinarith

include hk1

/-- The pair, the pole behind it and the third difference, for a recursion that starts from rest. -/
theorem thirdOrder_sharp {e f : ℕ → ℝ} {F : ℝ} (h : ThirdOrder t κ e f) (e0 : e 0 = 0) (e1 : e 1 = 0) (e2 : e 2 = 0)
    (hf : ∀ n, |f n| ≤ F) (n : ℕ) : |e n| ≤ filtK t κ * F ∧
      |e (n + 3) - 3 * e (n + 2) + 3 * e (n + 1) - e n| ≤ (1 + (κ + 2) * (t ^ 3 * filtK t κ)) * F := by
  have hF : 0 ≤ F := (abs_nonneg _).trans (hf 0)
  obtain ⟨hgap, hs1⟩ := sqrt_gap ht hk0
  set s := Real.sqrt (1 + κ * t + t ^ 2) with hs
  set Q := 2 / (κ * t + t ^ 2) + 1 / 2 with hQ
  have hQ0 : 0 < Q := by rw [hQ]; positivity
  let w : ℕ → ℝ := fun n => (1 + t) * e (n + 1) - e n
  let N : ℕ → ℝ := fun n => Real.sqrt (en κ (t * w (n + 1)) (w (n + 1) - w n))
  have hN0 : N 0 = 0 := by
    simp only [N, w, zero_add, e0, e1, e2, en]
    norm_num
  have hstep : ∀ n, N (n + 1) ≤ 1 / s * N n + 1 / s * F := by
    intro n
    have h3 := en_step (κ := κ) (t := t) (p := t * w (n + 1)) (v := w (n + 1) - w n)
      (p' := t * w (n + 2)) (v' := w (n + 2) - w (n + 1)) (f := f n) (by ring) (by
        have := h n
        simp only [w]
        linarith)
    have h4 : s * N (n + 1) = Real.sqrt (en κ (t * w (n + 1)) (w (n + 1) - w n + f n)) := by
      simp only [N, hs]
      rw [← Real.sqrt_mul (by positivity), h3]
    have h5 := en_add hk0 hk1 (t * w (n + 1)) (w (n + 1) - w n) (f n)
    rw [← h4] at h5
    have h6 : s * N (n + 1) ≤ N n + F := h5.trans (add_le_add le_rfl (hf n))
    rw [← le_div_iff₀' (by linarith)] at h6
    refine h6.trans (le_of_eq ?_)
    ring
  have hNb : ∀ n, N n ≤ Q * F := by
    intro n
    have h1s : 1 / s < 1 := by rw [div_lt_one (by linarith)]; exact hs1
    have := contract_bounded (a := N) (ρ := 1 / s) (A := 0) (B := 1 / s * F) (by positivity) h1s le_rfl (by positivity) hN0.le hstep n
    rw [zero_add] at this
    refine this.trans ?_
    have e : 1 / s * F / (1 - 1 / s) = 1 / (s - 1) * F := by
      have : s ≠ 0 := by linarith
      have : s - 1 ≠ 0 := by linarith
      field_simp
    rw [e]
    exact mul_le_mul_of_nonneg_right hgap hF
  set c := 1 + κ ^ 2 / 6 with hc
  have hc0 : 0 < c := by rw [hc]; positivity
  have hv : ∀ n, |w (n + 1) - w n| ≤ c * (Q * F) := fun n =>
    ((en_abs hk0 hk1 (t * w (n + 1)) (w (n + 1) - w n)).2).trans (mul_le_mul_of_nonneg_left (hNb n) hc0.le)
  have hw : ∀ n, |w n| ≤ c * (Q * F) / t := by
    intro n
    cases n with
    | zero =>
      have : w 0 = 0 := by simp only [w, zero_add, e0, e1]; ring
      rw [this, abs_zero]; positivity
    | succ n =>
      have := ((en_abs hk0 hk1 (t * w (n + 1)) (w (n + 1) - w n)).1).trans (mul_le_mul_of_nonneg_left (hNb n) hc0.le)
      rw [abs_mul, abs_of_pos ht] at this
      rw [← hc] at this
      rw [le_div_iff₀ ht, mul_comm]
      exact this
  have he : ∀ n, |e n| ≤ filtK t κ * F := by
    intro n
    have hb : |1 / (1 + t)| < 1 := by rw [abs_of_pos (by positivity), div_lt_one (by positivity)]; linarith
    have := pole_bounded (b := 1 / (1 + t)) (u := e) (f := fun n => 1 / (1 + t) * w n)
      (F := 1 / (1 + t) * (c * (Q * F) / t)) hb e0 (fun n => by
        have : 0 < 1 + t := by positivity
        simp only [w]
        field_simp
        ring) (fun n => by
        rw [abs_mul, abs_of_pos (by positivity : 0 < 1 / (1 + t))]
        exact mul_le_mul_of_nonneg_left (hw n) (by positivity)) n
    refine this.trans (le_of_eq ?_)
    rw [abs_of_pos (by positivity : 0 < 1 / (1 + t)), show 1 - 1 / (1 + t) = t / (1 + t) by field_simp; ring]
    unfold filtK
    rw [← hc, ← hQ]
    field_simp
  refine ⟨he n, ?_⟩
  have e3 : e (n + 3) - 3 * e (n + 2) + 3 * e (n + 1) - e n =
      f n - ((κ + 1) * t * (w (n + 2) - w (n + 1)) + t ^ 3 * e (n + 3)) := by
    have := h n
    simp only [w]
    linarith
  rw [e3]
  have h1 : |(κ + 1) * t * (w (n + 2) - w (n + 1))| ≤ (κ + 1) * t * (c * (Q * F)) := by
    rw [abs_mul, abs_of_nonneg (by positivity : 0 ≤ (κ + 1) * t)]
    exact mul_le_mul_of_nonneg_left (hv (n + 1)) (by positivity)
  have h2 : |t ^ 3 * e (n + 3)| ≤ t ^ 3 * (filtK t κ * F) := by
    rw [abs_mul, abs_of_nonneg (by positivity : 0 ≤ t ^ 3)]
    exact mul_le_mul_of_nonneg_left (he (n + 3)) (by positivity)
  have eQ : t * (c * (Q * F)) = t ^ 3 * (filtK t κ * F) := by
    unfold filtK
    rw [← hc, ← hQ]
    field_simp
  have h3 : (κ + 1) * t * (c * (Q * F)) = (κ + 1) * (t ^ 3 * (filtK t κ * F)) := by rw [← eQ]; ring
  rw [h3] at h1
  refine (abs_sub _ _).trans ((add_le_add (hf n) ((abs_add_le _ _).trans (add_le_add h1 h2))).trans (le_of_eq ?_))
  ring
end

/-- A recursion from rest exists for every input. -/
theorem thirdOrder_exists {t κ : ℝ} (hg : 0 < t ^ 3 + (κ + 1) * t ^ 2 + (κ + 1) * t + 1) (f : ℕ → ℝ) :
    ∃ e : ℕ → ℝ, ThirdOrder t κ e f ∧ e 0 = 0 ∧ e 1 = 0 ∧ e 2 = 0 := by
  let st : ℕ → ℝ × ℝ × ℝ := fun n => Nat.rec (0, 0, 0) (fun n s =>
    ((((κ + 1) * t ^ 2 + 2 * (κ + 1) * t + 3) * s.1 + (-(κ + 1) * t - 3) * s.2.1 + s.2.2 + f n) /
      (t ^ 3 + (κ + 1) * t ^ 2 + (κ + 1) * t + 1), s.1, s.2.1)) n
  let e : ℕ → ℝ := fun n => (st n).2.2
  refine ⟨e, fun n => ?_, rfl, rfl, rfl⟩
  have : e (n + 3) = (((κ + 1) * t ^ 2 + 2 * (κ + 1) * t + 3) * e (n + 2) + (-(κ + 1) * t - 3) * e (n + 1) + e n + f n) /
      (t ^ 3 + (κ + 1) * t ^ 2 + (κ + 1) * t + 1) := rfl
  rw [this, mul_div_cancel₀ _ hg.ne']

/-- A recursion is determined by its input and its first three values. -/
theorem thirdOrder_unique {t κ : ℝ} (hg : 0 < t ^ 3 + (κ + 1) * t ^ 2 + (κ + 1) * t + 1) {e e' f : ℕ → ℝ}
    (h : ThirdOrder t κ e f) (h' : ThirdOrder t κ e' f) (h0 : e 0 = e' 0) (h1 : e 1 = e' 1) (h2 : e 2 = e' 2) (n : ℕ) : e n = e' n := by
  have key : ∀ n, e n = e' n ∧ e (n + 1) = e' (n + 1) ∧ e (n + 2) = e' (n + 2) := by
    intro n
    induction n with
    | zero => exact ⟨h0, h1, h2⟩
    | succ n ih =>
      obtain ⟨a, b, c⟩ := ih
      refine ⟨b, c, ?_⟩
      have x := h n
      rw [a, b, c, ← h' n] at x
      exact mul_left_cancel₀ hg.ne' x
  exact (key n).1

end Verif
