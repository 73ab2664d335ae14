import Mathlib.Algebra.BigOperators.Ring.Finset
import Mathlib.Algebra.BigOperators.Field
import Mathlib.Algebra.Order.Chebyshev
import Mathlib.Analysis.Real.Sqrt
import Mathlib.Data.Fintype.BigOperators

/-! # Averages over all outcomes of `N` independent draws from `K` equally likely values, independent of the model -/

namespace Verif
variable {N K : ℕ}

/-- The average of `v` over all sequences of `N` draws. -/
noncomputable def avg (v : (Fin N → Fin K) → ℝ) : ℝ := (∑ d, v d) / (K : ℝ) ^ N

/-- Size of a quantity in the quadratic mean. -/
noncomputable def rmsOver (v : (Fin N → Fin K) → ℝ) : ℝ := Real.sqrt (avg fun d => v d ^ 2)

theorem avg_add (v w : (Fin N → Fin K) → ℝ) : avg (fun d => v d + w d) = avg v + avg w := by
  unfold avg; rw [Finset.sum_add_distrib, add_div]

theorem avg_mul (c : ℝ) (v : (Fin N → Fin K) → ℝ) : avg (fun d => c * v d) = c * avg v := by
  unfold avg; rw [← Finset.mul_sum, mul_div_assoc]

theorem avg_sum {ι : Type} (s : Finset ι) (v : ι → (Fin N → Fin K) → ℝ) : avg (fun d => ∑ i ∈ s, v i d) = ∑ i ∈ s, avg (v i) := by
  unfold avg; rw [Finset.sum_comm, Finset.sum_div]

theorem avg_const (hK : 0 < K) (c : ℝ) : avg (fun _ : Fin N → Fin K => c) = c := by
  unfold avg
  have : (K : ℝ) ^ N ≠ 0 := pow_ne_zero _ (by exact_mod_cast hK.ne')
  rw [Finset.sum_const, Finset.card_univ, Fintype.card_fun, Fintype.card_fin, Fintype.card_fin, nsmul_eq_mul, Nat.cast_pow]
  field_simp

theorem avg_mono {v w : (Fin N → Fin K) → ℝ} (h : ∀ d, v d ≤ w d) : avg v ≤ avg w := by
  unfold avg
  exact div_le_div_of_nonneg_right (Finset.sum_le_sum fun d _ => h d) (by positivity)

/-- Draws are independent. -/
theorem avg_prod (φ : Fin N → Fin K → ℝ) : avg (fun d => ∏ t, φ t (d t)) = ∏ t, (∑ k, φ t k) / K := by
  unfold avg
  rw [Finset.prod_div_distrib, Finset.prod_const, Finset.card_univ, Fintype.card_fin, Finset.prod_univ_sum]
  rw [Fintype.piFinset_univ]

theorem avg_one (hK : 0 < K) (t : Fin N) (φ : Fin K → ℝ) : avg (fun d => φ (d t)) = (∑ k, φ k) / K := by
  have h := avg_prod (N := N) fun s k => if s = t then φ k else 1
  have h1 : ∀ d : Fin N → Fin K, (∏ s, if s = t then φ (d s) else 1) = φ (d t) := fun d => by
    rw [Finset.prod_ite_eq' Finset.univ t fun s => φ (d s), if_pos (Finset.mem_univ _)]
  simp only [h1] at h
  rw [h, Finset.prod_eq_single t]
  · simp
  · intro s _ hs
    have : (K : ℝ) ≠ 0 := by exact_mod_cast hK.ne'
    simp [hs, this]
  · simp

theorem avg_two (hK : 0 < K) {s t : Fin N} (hst : s ≠ t) (φ ψ : Fin K → ℝ) : avg (fun d => φ (d s) * ψ (d t)) = (∑ k, φ k) / K * ((∑ k, ψ k) / K) := by
  have h := avg_prod (N := N) fun u k => if u = s then φ k else if u = t then ψ k else 1
  have h1 : ∀ d : Fin N → Fin K, (∏ u, if u = s then φ (d u) else if u = t then ψ (d u) else 1) = φ (d s) * ψ (d t) := fun d => by
    rw [Finset.prod_eq_mul s t hst]
    · simp [hst.symm]
    · intro u _ hu; simp [hu.1, hu.2]
    · simp
    · simp
  simp only [h1] at h
  rw [h, Finset.prod_eq_mul s t hst]
  · simp [hst.symm]
  · intro u _ hu
    have : (K : ℝ) ≠ 0 := by exact_mod_cast hK.ne'
    simp [hu.1, hu.2, this]
  · simp
  · simp

theorem rmsOver_nonneg (v : (Fin N → Fin K) → ℝ) : 0 ≤ rmsOver v := Real.sqrt_nonneg _

theorem avg_nonneg {v : (Fin N → Fin K) → ℝ} (h : ∀ d, 0 ≤ v d) : 0 ≤ avg v := div_nonneg (Finset.sum_nonneg fun d _ => h d) (by positivity)

theorem rmsOver_sq (v : (Fin N → Fin K) → ℝ) : rmsOver v ^ 2 = avg fun d => v d ^ 2 := Real.sq_sqrt (avg_nonneg fun _ => sq_nonneg _)

theorem avg_abs_le (hK : 0 < K) (v : (Fin N → Fin K) → ℝ) : avg (fun d => |v d|) ≤ rmsOver v := by
  refine Real.le_sqrt_of_sq_le ?_
  have h := sq_sum_le_card_mul_sum_sq (s := (Finset.univ : Finset (Fin N → Fin K))) (f := fun d => |v d|)
  rw [Finset.card_univ, Fintype.card_fun, Fintype.card_fin, Fintype.card_fin, Nat.cast_pow] at h
  simp only [sq_abs] at h
  have hp : (0 : ℝ) < (K : ℝ) ^ N := pow_pos (by exact_mod_cast hK) _
  unfold avg
  rw [div_pow, div_le_div_iff₀ (by positivity) hp]
  nlinarith

/-- Errors of at most `e` change the size by at most `e`. -/
theorem rmsOver_near (hK : 0 < K) {v w : (Fin N → Fin K) → ℝ} {e : ℝ} (he : 0 ≤ e) (h : ∀ d, |w d - v d| ≤ e) : |rmsOver w - rmsOver v| ≤ e := by
  have key : ∀ {v w : (Fin N → Fin K) → ℝ}, (∀ d, |w d - v d| ≤ e) → rmsOver w ≤ rmsOver v + e := by
    intro v w h
    refine Real.sqrt_le_iff.mpr ⟨add_nonneg (rmsOver_nonneg v) he, ?_⟩
    have h1 : avg (fun d => w d ^ 2) ≤ avg (fun d => (v d ^ 2 + 2 * e * |v d|) + e ^ 2) := avg_mono fun d => by
      have := abs_sub_abs_le_abs_sub (w d) (v d)
      have h2 : |w d| ≤ |v d| + e := by linarith [h d]
      have := pow_le_pow_left₀ (abs_nonneg _) h2 2
      rw [sq_abs] at this
      calc w d ^ 2 ≤ _ := this
        _ = |v d| ^ 2 + 2 * e * |v d| + e ^ 2 := by ring
        _ = _ := by rw [sq_abs]
    rw [avg_add, avg_add, avg_mul, avg_const hK] at h1
    have := mul_le_mul_of_nonneg_left (avg_abs_le hK v) (by positivity : 0 ≤ 2 * e)
    rw [add_sq, rmsOver_sq]
    linarith
  rw [abs_le]
  have := key h
  have := key (v := w) (w := v) fun d => by rw [abs_sub_comm]; exact h d
  constructor <;> linarith
end Verif
