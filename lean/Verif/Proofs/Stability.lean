import Verif.Model.Modifiers
import Verif.Model.ArithReal
import Verif.Spec.Filter
import Mathlib.Topology.Algebra.Order.LiminfLimsup
import Mathlib.Analysis.SpecificLimits.Basic
import Mathlib.Tactic.Linarith
import Mathlib.Tactic.FieldSimp

/-! # Stability of linear recursions over ℝ -/

namespace Verif
open Filter Topology

theorem contract_bounded {ρ A B : ℝ} (h0 : 0 ≤ ρ) (h1 : ρ < 1) (hA : 0 ≤ A) (hB : 0 ≤ B) {a : ℕ → ℝ} (ha : a 0 ≤ A)
    (hs : ∀ n, a (n + 1) ≤ ρ * a n + B) (n : ℕ) : a n ≤ A + B / (1 - ρ) := by
  have h2 : 0 < 1 - ρ := by linarith
  have h3 : 0 ≤ B / (1 - ρ) := by positivity
  induction n with
  | zero => linarith
  | succ n ih =>
    have e : ρ * (B / (1 - ρ)) + B = B / (1 - ρ) := by field_simp; ring
    have := mul_le_mul_of_nonneg_left ih h0
    have : ρ * A ≤ A := by nlinarith
    linarith [hs n]

theorem contract_tendsto {ρ : ℝ} (h0 : 0 ≤ ρ) (h1 : ρ < 1) {a b : ℕ → ℝ} (ha : ∀ n, 0 ≤ a n)
    (hs : ∀ n, a (n + 1) ≤ ρ * a n + b n) (hb : Tendsto b atTop (𝓝 0)) : Tendsto a atTop (𝓝 0) := by
  have h2 : 0 < 1 - ρ := by linarith
  rw [Metric.tendsto_atTop]
  intro ε hε
  have hε2 : 0 < (1 - ρ) * (ε / 2) := by positivity
  obtain ⟨N, hN⟩ := (Metric.tendsto_atTop.mp hb) _ hε2
  have hb' : ∀ n, N ≤ n → b n ≤ (1 - ρ) * (ε / 2) := fun n hn => by
    have := hN n hn
    rw [Real.dist_eq, sub_zero] at this
    exact (le_abs_self _).trans this.le
  have key : ∀ k, a (N + k) ≤ ρ ^ k * a N + ε / 2 := by
    intro k
    induction k with
    | zero => simp; linarith
    | succ k ih =>
      have h3 := hs (N + k)
      have h4 := hb' (N + k) (by omega)
      have h5 := mul_le_mul_of_nonneg_left ih h0
      calc a (N + (k + 1)) = a (N + k + 1) := rfl
        _ ≤ ρ * a (N + k) + b (N + k) := h3
        _ ≤ ρ * (ρ ^ k * a N + ε / 2) + (1 - ρ) * (ε / 2) := by linarith
        _ = ρ ^ (k + 1) * a N + ε / 2 := by ring
  have hpow : Tendsto (fun k => ρ ^ k * a N) atTop (𝓝 0) := by
    simpa using (tendsto_pow_atTop_nhds_zero_of_lt_one h0 h1).mul_const (a N)
  obtain ⟨K, hK⟩ := (Metric.tendsto_atTop.mp hpow) (ε / 2) (by positivity)
  refine ⟨N + K, fun n hn => ?_⟩
  obtain ⟨k, rfl⟩ : ∃ k, n = N + k := ⟨n - N, by omega⟩
  have h6 := hK k (by omega)
  rw [Real.dist_eq, sub_zero] at h6 ⊢
  rw [abs_of_nonneg (ha _)]
  have := le_abs_self (ρ ^ k * a N)
  linarith [key k]

/-- One pole of modulus below 1. -/
theorem pole_bounded {b F : ℝ} (hb : |b| < 1) {u f : ℕ → ℝ} (h0 : u 0 = 0) (hs : ∀ n, u (n + 1) = b * u n + f n)
    (hf : ∀ n, |f n| ≤ F) (n : ℕ) : |u n| ≤ F / (1 - |b|) := by
  have := contract_bounded (a := fun n => |u n|) (abs_nonneg b) hb (le_refl 0) ((abs_nonneg _).trans (hf 0)) (by simp [h0])
    (fun n => by
      rw [hs n]
      calc |b * u n + f n| ≤ |b * u n| + |f n| := abs_add_le _ _
        _ ≤ |b| * |u n| + F := by rw [abs_mul]; linarith [hf n]) n
  simpa using this

theorem pole_tendsto {b : ℝ} (hb : |b| < 1) {u f : ℕ → ℝ} (hs : ∀ n, u (n + 1) = b * u n + f n)
    (hf : Tendsto f atTop (𝓝 0)) : Tendsto u atTop (𝓝 0) := by
  have := contract_tendsto (a := fun n => |u n|) (b := fun n => |f n|) (abs_nonneg b) hb (fun n => abs_nonneg _) (fun n => by
      rw [hs n]
      calc |b * u n + f n| ≤ |b * u n| + |f n| := abs_add_le _ _
        _ = |b| * |u n| + |f n| := by rw [abs_mul]) (by simpa using hf.abs)
  exact (tendsto_zero_iff_abs_tendsto_zero _).mpr this

/-- The energy of the resonant pair contracts. -/
theorem energy_step {t κ p v p' v' f : ℝ} (ht : 0 < t) (hk0 : 0 ≤ κ) (hk1 : κ ≤ 1) (h1 : p' = p + t * v')
    (h2 : v' * (1 + κ * t) + t * p' = v + f) :
    (1 + min t (t ^ 2 / 4)) * (p' ^ 2 + v' ^ 2) ≤ p ^ 2 + (v + f) ^ 2 := by
  have hm1 := min_le_left t (t ^ 2 / 4)
  have hm2 := min_le_right t (t ^ 2 / 4)
  have hp : p = p' - t * v' := by linarith
  rw [← h2, hp]
  have e : (p' - t * v') ^ 2 + (v' * (1 + κ * t) + t * p') ^ 2 =
      (1 + t ^ 2 * (1 - κ / 2)) * p' ^ 2 + (1 + 2 * κ * t + (1 - κ) ^ 2 * t ^ 2) * v' ^ 2 + κ / 2 * (t * p' + 2 * t * v') ^ 2 := by
    ring
  rw [e]
  have c1 : min t (t ^ 2 / 4) ≤ t ^ 2 * (1 - κ / 2) := by nlinarith [sq_nonneg t]
  have c2 : min t (t ^ 2 / 4) ≤ 2 * κ * t + (1 - κ) ^ 2 * t ^ 2 := by
    rcases le_total κ (1 / 2) with h | h
    · have : (1 / 4 : ℝ) ≤ (1 - κ) ^ 2 := by nlinarith
      nlinarith [sq_nonneg t, mul_nonneg hk0 ht.le]
    · nlinarith [sq_nonneg ((1 - κ) * t)]
  have := mul_le_mul_of_nonneg_right c1 (sq_nonneg p')
  have := mul_le_mul_of_nonneg_right c2 (sq_nonneg v')
  have : 0 ≤ κ / 2 * (t * p' + 2 * t * v') ^ 2 := by positivity
  linarith

theorem sq_add_le {δ v f : ℝ} (hδ : 0 < δ) : (v + f) ^ 2 ≤ (1 + δ / 2) * v ^ 2 + (1 + 2 / δ) * f ^ 2 := by
  have h : 0 ≤ δ / 2 * (v - 2 / δ * f) ^ 2 := by positivity
  have e : δ / 2 * (v - 2 / δ * f) ^ 2 = δ / 2 * v ^ 2 - 2 * v * f + 2 / δ * f ^ 2 := by field_simp; ring
  rw [e] at h
  nlinarith

section
variable {t κ : ℝ}

/-- The recursion of the third order prototype under backward Euler, `k = κ + 1`. -/
def ThirdOrder (t κ : ℝ) (e f : ℕ → ℝ) : Prop := ∀ n,
  (t ^ 3 + (κ + 1) * t ^ 2 + (κ + 1) * t + 1) * e (n + 3) =
    ((κ + 1) * t ^ 2 + 2 * (κ + 1) * t + 3) * e (n + 2) + (-(κ + 1) * t - 3) * e (n + 1) + e n + f n

private def wOf (t : ℝ) (e : ℕ → ℝ) (n : ℕ) : ℝ := (1 + t) * e (n + 1) - e n
private def eOf (t : ℝ) (e : ℕ → ℝ) (n : ℕ) : ℝ :=
  (t * wOf t e (n + 1)) ^ 2 + (wOf t e (n + 1) - wOf t e n) ^ 2

private theorem e_step (ht : 0 < t) (hk0 : 0 ≤ κ) (hk1 : κ ≤ 1) {e f : ℕ → ℝ} (h : ThirdOrder t κ e f) (n : ℕ) :
    (1 + min t (t ^ 2 / 4)) * eOf t e (n + 1) ≤
      (1 + min t (t ^ 2 / 4) / 2) * eOf t e n + (1 + 2 / min t (t ^ 2 / 4)) * f n ^ 2 := by
  have hδ : 0 < min t (t ^ 2 / 4) := lt_min ht (by positivity)
  have h3 := energy_step (p := t * wOf t e (n + 1)) (v := wOf t e (n + 1) - wOf t e n)
    (p' := t * wOf t e (n + 2)) (v' := wOf t e (n + 2) - wOf t e (n + 1)) (f := f n) ht hk0 hk1 (by ring) (by
      have := h n
      unfold wOf
      show ((1 + t) * e (n + 3) - e (n + 2) - ((1 + t) * e (n + 2) - e (n + 1))) * (1 + κ * t) +
        t * (t * ((1 + t) * e (n + 3) - e (n + 2))) = (1 + t) * e (n + 2) - e (n + 1) - ((1 + t) * e (n + 1) - e n) + f n
      linarith)
  have h4 := sq_add_le (v := wOf t e (n + 1) - wOf t e n) (f := f n) hδ
  unfold eOf
  have : 0 ≤ min t (t ^ 2 / 4) / 2 * (t * wOf t e (n + 1)) ^ 2 := by positivity
  show (1 + min t (t ^ 2 / 4)) * ((t * wOf t e (n + 2)) ^ 2 + (wOf t e (n + 2) - wOf t e (n + 1)) ^ 2) ≤ _
  linarith

private theorem e_step' (ht : 0 < t) (hk0 : 0 ≤ κ) (hk1 : κ ≤ 1) {e f : ℕ → ℝ} (h : ThirdOrder t κ e f) (n : ℕ) :
    eOf t e (n + 1) ≤ (1 + min t (t ^ 2 / 4) / 2) / (1 + min t (t ^ 2 / 4)) * eOf t e n +
      (1 + 2 / min t (t ^ 2 / 4)) / (1 + min t (t ^ 2 / 4)) * f n ^ 2 := by
  have hδ : 0 < min t (t ^ 2 / 4) := lt_min ht (by positivity)
  have h1 := e_step ht hk0 hk1 h n
  rw [← le_div_iff₀' (by positivity)] at h1
  refine h1.trans (le_of_eq ?_)
  ring

private theorem rho_lt (ht : 0 < t) : (1 + min t (t ^ 2 / 4) / 2) / (1 + min t (t ^ 2 / 4)) < 1 := by
  have hδ : 0 < min t (t ^ 2 / 4) := lt_min ht (by positivity)
  rw [div_lt_one (by positivity)]
  linarith

private theorem rho_nonneg (ht : 0 < t) : 0 ≤ (1 + min t (t ^ 2 / 4) / 2) / (1 + min t (t ^ 2 / 4)) := by
  have hδ : 0 < min t (t ^ 2 / 4) := lt_min ht (by positivity)
  positivity

private theorem pole_abs (ht : 0 < t) : |1 / (1 + t)| < 1 := by
  rw [abs_of_pos (by positivity), div_lt_one (by positivity)]; linarith

private theorem e_pole (ht : 0 < t) (e : ℕ → ℝ) (n : ℕ) : e (n + 1) = 1 / (1 + t) * e n + 1 / (1 + t) * wOf t e n := by
  have : 0 < 1 + t := by positivity
  unfold wOf
  field_simp
  ring

/-- Bounded input, bounded output, from rest. -/
theorem thirdOrder_bounded (ht : 0 < t) (hk0 : 0 ≤ κ) (hk1 : κ ≤ 1) :
    ∃ K, (0 ≤ K ∧ (t ≤ 4 → K ≤ (8 / t ^ 2 + 1) / t ^ 2)) ∧ ∀ (e f : ℕ → ℝ) (F : ℝ), ThirdOrder t κ e f → e 0 = 0 → e 1 = 0 → e 2 = 0 → (∀ n, |f n| ≤ F) →
      ∀ n, |e n| ≤ K * F := by
  have hδ : 0 < min t (t ^ 2 / 4) := lt_min ht (by positivity)
  set ρ := (1 + min t (t ^ 2 / 4) / 2) / (1 + min t (t ^ 2 / 4)) with hρ
  set C := (1 + 2 / min t (t ^ 2 / 4)) / (1 + min t (t ^ 2 / 4)) with hC
  have hr1 : ρ < 1 := rho_lt ht
  have hr0 : 0 ≤ ρ := rho_nonneg ht
  have hC0 : 0 ≤ C := by positivity
  have h1r : 0 < 1 - ρ := by linarith
  have hQ : 0 ≤ C / (1 - ρ) := by positivity
  have hden : 0 < 1 - |1 / (1 + t)| := by linarith [pole_abs ht]
  refine ⟨1 / (1 + t) * (Real.sqrt (C / (1 - ρ)) / t) / (1 - |1 / (1 + t)|), ⟨by positivity, ?_⟩, ?_⟩
  · intro h4
    have hmin : min t (t ^ 2 / 4) = t ^ 2 / 4 := min_eq_right (by nlinarith)
    have hQ2 : C / (1 - ρ) ≤ (8 / t ^ 2 + 1) ^ 2 := by
      rw [hρ, hC, hmin]
      have e : (1 + 2 / (t ^ 2 / 4)) / (1 + t ^ 2 / 4) / (1 - (1 + t ^ 2 / 4 / 2) / (1 + t ^ 2 / 4)) = (8 / t ^ 2 + 1) * (8 / t ^ 2) := by
        have : 1 - (1 + t ^ 2 / 4 / 2) / (1 + t ^ 2 / 4) = (t ^ 2 / 8) / (1 + t ^ 2 / 4) := by
          have : (1 + t ^ 2 / 4) ≠ 0 := by positivity
          field_simp; ring
        rw [this]
        field_simp; ring
      rw [e]
      have : 0 ≤ 8 / t ^ 2 := by positivity
      nlinarith
    have hs : Real.sqrt (C / (1 - ρ)) ≤ 8 / t ^ 2 + 1 := by
      rw [Real.sqrt_le_left (by positivity)]; exact hQ2
    have e : 1 / (1 + t) * (Real.sqrt (C / (1 - ρ)) / t) / (1 - |1 / (1 + t)|) = Real.sqrt (C / (1 - ρ)) / t ^ 2 := by
      rw [abs_of_pos (by positivity : 0 < 1 / (1 + t)), show 1 - 1 / (1 + t) = t / (1 + t) by field_simp; ring]
      field_simp
    rw [e]
    exact div_le_div_of_nonneg_right hs (by positivity)
  intro e f F h e0 e1 e2 hf n
  have hF : 0 ≤ F := (abs_nonneg _).trans (hf 0)
  have hE : ∀ n, eOf t e n ≤ C / (1 - ρ) * F ^ 2 := by
    intro n
    have := contract_bounded (a := eOf t e) (A := 0) (B := C * F ^ 2) hr0 hr1 (le_refl _) (by positivity)
      (by simp [eOf, wOf, e0, e1, e2]) (fun n => by
        refine (e_step' ht hk0 hk1 h n).trans ?_
        have : f n ^ 2 ≤ F ^ 2 := sq_le_sq' (abs_le.mp (hf n)).1 (abs_le.mp (hf n)).2
        have := mul_le_mul_of_nonneg_left this hC0
        linarith) n
    rw [zero_add] at this
    refine this.trans (le_of_eq ?_)
    ring
  have hw : ∀ n, |wOf t e n| ≤ Real.sqrt (C / (1 - ρ)) / t * F := by
    intro n
    cases n with
    | zero =>
      have : wOf t e 0 = 0 := by simp [wOf, e0, e1]
      rw [this, abs_zero]; positivity
    | succ n =>
      have h3 : (t * wOf t e (n + 1)) ^ 2 ≤ C / (1 - ρ) * F ^ 2 :=
        le_trans (by unfold eOf; nlinarith [sq_nonneg (wOf t e (n + 1) - wOf t e n)]) (hE n)
      have h4 := Real.abs_le_sqrt h3
      rw [Real.sqrt_mul hQ, Real.sqrt_sq hF, abs_mul, abs_of_pos ht] at h4
      rw [div_mul_eq_mul_div, le_div_iff₀ ht]
      linarith
  have := pole_bounded (b := 1 / (1 + t)) (u := e) (f := fun n => 1 / (1 + t) * wOf t e n)
    (F := 1 / (1 + t) * (Real.sqrt (C / (1 - ρ)) / t * F)) (pole_abs ht) e0 (e_pole ht e) (fun n => by
      rw [abs_mul, abs_of_pos (by positivity : 0 < 1 / (1 + t))]
      exact mul_le_mul_of_nonneg_left (hw n) (by positivity)) n
  refine this.trans (le_of_eq ?_)
  ring

/-- A recursion that follows the prototype up to errors that are small as long as its past is bounded: by the small
gain it stays bounded. `ok` is a side condition kept along the way. -/
theorem thirdOrder_gain (hg : 0 < t ^ 3 + (κ + 1) * t ^ 2 + (κ + 1) * t + 1) {K M F : ℝ}
    (hK : ∀ (e f : ℕ → ℝ) (F : ℝ), ThirdOrder t κ e f → e 0 = 0 → e 1 = 0 → e 2 = 0 → (∀ n, |f n| ≤ F) → ∀ n, |e n| ≤ K * F)
    (hF : 0 ≤ F) (hM : K * F ≤ M) {v : ℕ → ℝ} {ok : ℕ → Prop}
    (hs : ∀ n, (∀ i < n, ok i ∧ |v i| ≤ M) → ok n ∧
      |(t ^ 3 + (κ + 1) * t ^ 2 + (κ + 1) * t + 1) * v n - (((κ + 1) * t ^ 2 + 2 * (κ + 1) * t + 3) * delayed 0 v 1 n +
        (-(κ + 1) * t - 3) * delayed 0 v 2 n + delayed 0 v 3 n)| ≤ F) (n : ℕ) : ok n ∧ |v n| ≤ M := by
  induction n using Nat.strong_induction_on with
  | _ N ih =>
  set g := t ^ 3 + (κ + 1) * t ^ 2 + (κ + 1) * t + 1 with hgdef
  refine ⟨(hs N ih).1, ?_⟩
  -- the recursion driven by the errors up to N and then left alone
  let err : ℕ → ℝ := fun n => g * v n - (((κ + 1) * t ^ 2 + 2 * (κ + 1) * t + 3) * delayed 0 v 1 n +
        (-(κ + 1) * t - 3) * delayed 0 v 2 n + delayed 0 v 3 n)
  let f : ℕ → ℝ := fun n => if n ≤ N then err n else 0
  let st : ℕ → ℝ × ℝ × ℝ := fun n => Nat.rec (0, 0, 0) (fun n s =>
    ((((κ + 1) * t ^ 2 + 2 * (κ + 1) * t + 3) * s.1 + (-(κ + 1) * t - 3) * s.2.1 + s.2.2 + f n) / g, s.1, s.2.1)) n
  let e : ℕ → ℝ := fun n => (st n).2.2
  have e0 : e 0 = 0 := rfl
  have e1 : e 1 = 0 := rfl
  have e2 : e 2 = 0 := rfl
  have h2 : ∀ n, (st n).2.1 = e (n + 1) := fun n => rfl
  have h1 : ∀ n, (st n).1 = e (n + 2) := fun n => rfl
  have hrec : ThirdOrder t κ e f := by
    intro n
    have : e (n + 3) = (((κ + 1) * t ^ 2 + 2 * (κ + 1) * t + 3) * e (n + 2) + (-(κ + 1) * t - 3) * e (n + 1) + e n + f n) / g := rfl
    rw [this, ← hgdef]
    field_simp
  have hf : ∀ n, |f n| ≤ F := by
    intro n
    simp only [f]
    split_ifs with h
    · exact (hs n (fun i hi => ih i (by omega))).2
    · simpa using hF
  have hev : ∀ n, n ≤ N → e (n + 3) = v n := by
    intro n
    induction n using Nat.strong_induction_on with
    | _ n ihn =>
    intro hn
    have d : ∀ k, 1 ≤ k → k ≤ 3 → delayed 0 v k n = e (n + 3 - k) := by
      intro k hk1 hk3
      unfold delayed
      split_ifs with h
      · obtain h' | h' | h' : n + 3 - k = 0 ∨ n + 3 - k = 1 ∨ n + 3 - k = 2 := by omega
        · rw [h', e0]
        · rw [h', e1]
        · rw [h', e2]
      · have := ihn (n - k) (by omega) (by omega)
        rw [show n + 3 - k = n - k + 3 by omega]; exact this.symm
    have h4 := hrec n
    rw [← hgdef] at h4
    have h5 : f n = err n := if_pos hn
    rw [h5] at h4
    simp only [err] at h4
    rw [d 1 (by norm_num) (by norm_num), d 2 (by norm_num) (by norm_num), d 3 (by norm_num) (by norm_num)] at h4
    have h6 : g * e (n + 3) = g * v n := by
      rw [h4]
      show _ * e (n + 2) + _ * e (n + 1) + e n + (_ - (_ * e (n + 2) + _ * e (n + 1) + e n)) = _
      ring
    exact mul_left_cancel₀ hg.ne' h6
  rw [← hev N (le_refl _)]
  exact (hK e f F hrec e0 e1 e2 hf (N + 3)).trans hM

/-- A vanishing input gives a vanishing output, from any state. -/
theorem thirdOrder_tendsto (ht : 0 < t) (hk0 : 0 ≤ κ) (hk1 : κ ≤ 1) {e f : ℕ → ℝ} (h : ThirdOrder t κ e f)
    (hf : Tendsto f atTop (𝓝 0)) : Tendsto e atTop (𝓝 0) := by
  have hδ : 0 < min t (t ^ 2 / 4) := lt_min ht (by positivity)
  have hE : Tendsto (eOf t e) atTop (𝓝 0) := by
    refine contract_tendsto (rho_nonneg ht) (rho_lt ht) (fun n => by unfold eOf; positivity) (e_step' ht hk0 hk1 h) ?_
    simpa using (hf.pow 2).const_mul ((1 + 2 / min t (t ^ 2 / 4)) / (1 + min t (t ^ 2 / 4)))
  have hsq : Tendsto (fun n => Real.sqrt (eOf t e n) / t) atTop (𝓝 0) := by
    simpa using ((Real.continuous_sqrt.tendsto 0).comp (by simpa using hE)).div_const t
  have hw1 : Tendsto (fun n => wOf t e (n + 1)) atTop (𝓝 0) := by
    refine squeeze_zero_norm (fun n => ?_) hsq
    rw [Real.norm_eq_abs, le_div_iff₀ ht]
    have h3 : (t * wOf t e (n + 1)) ^ 2 ≤ eOf t e n := by unfold eOf; nlinarith [sq_nonneg (wOf t e (n + 1) - wOf t e n)]
    have h4 := Real.abs_le_sqrt h3
    rw [abs_mul, abs_of_pos ht] at h4
    linarith
  have hw : Tendsto (wOf t e) atTop (𝓝 0) := (tendsto_add_atTop_iff_nat 1).mp hw1
  refine pole_tendsto (b := 1 / (1 + t)) (f := fun n => 1 / (1 + t) * wOf t e n) (pole_abs ht) (e_pole ht e) ?_
  simpa using hw.const_mul (1 / (1 + t))
end

/-- Two poles of modulus below 1. -/
theorem twoPole_bounded {b c : ℝ} (hb : |b| < 1) (hc : |c| < 1) {e f : ℕ → ℝ} {F : ℝ} (h0 : e 0 = 0) (h1 : e 1 = 0)
    (hs : ∀ n, e (n + 2) = (b + c) * e (n + 1) - b * c * e n + f n) (hf : ∀ n, |f n| ≤ F) (n : ℕ) :
    |e n| ≤ F / (1 - |b|) / (1 - |c|) := by
  have hu := pole_bounded (u := fun n => e (n + 1) - c * e n) (f := f) hb (by simp [h0, h1])
    (fun n => by rw [hs n]; ring) hf
  exact pole_bounded (u := e) (f := fun n => e (n + 1) - c * e n) hc h0 (fun n => by ring) hu n

theorem twoPole_tendsto {b c : ℝ} (hb : |b| < 1) (hc : |c| < 1) {e f : ℕ → ℝ}
    (hs : ∀ n, e (n + 2) = (b + c) * e (n + 1) - b * c * e n + f n) (hf : Tendsto f atTop (𝓝 0)) :
    Tendsto e atTop (𝓝 0) := by
  have hu := pole_tendsto (u := fun n => e (n + 1) - c * e n) (f := f) hb
    (fun n => by rw [hs n]; ring) hf
  exact pole_tendsto (u := e) (f := fun n => e (n + 1) - c * e n) hc (fun n => by ring) hu

end Verif
