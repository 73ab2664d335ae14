import Verif.Props.SmallGain
import Verif.Props.Budget

/-! # Effects and energy in floating point: C151 -/

namespace Verif

private theorem rms_le {f : ℕ → ℝ} {e : ℝ} (he : 0 ≤ e) (h : ∀ n, |f n| ≤ e) (T : ℕ) : rms f T ≤ e * Real.sqrt T := by
  unfold rms
  have : energy f T ≤ e ^ 2 * T := by
    unfold energy
    calc ∑ n ∈ Finset.range T, f n ^ 2 ≤ ∑ n ∈ Finset.range T, e ^ 2 := Finset.sum_le_sum fun n _ => by
          rw [← sq_abs]; exact pow_le_pow_left₀ (abs_nonneg _) (h n) 2
      _ = e ^ 2 * T := by rw [Finset.sum_const, Finset.card_range, nsmul_eq_mul, mul_comm]
  calc Real.sqrt (energy f T) ≤ Real.sqrt (e ^ 2 * T) := Real.sqrt_le_sqrt this
    _ = e * Real.sqrt T := by rw [Real.sqrt_mul (sq_nonneg e), Real.sqrt_sq he]

/-- IEEE: for samples of at most `M`, the size (square root of the energy) of what an `f32` effect puts out is at most `G` times the
size of what was put in, up to the rounding errors, which count as if the error bound of one sample were made at every sample. -/
theorem C151_f32 {X Y E : Type} {P : Y → F32 → Except E (F32 × Y)} {k : Y} {p : X → ℝ → Except E (ℝ × X)} {m : X} {B C G : ℝ}
    (ht : Tracks P k p m B C) (hG : EnergyGain p m G) (x : ℕ → F32) (q : ℕ → ℚ) (hx : ∀ n, (x n).Is (q n))
    {M : ℝ} (hM : (2 ^ 80)⁻¹ ≤ M) (hM' : C * M ≤ 2 ^ 80) (hq : ∀ n, |(q n : ℝ)| ≤ M) :
    ∃ (y : ℕ → F32) (u : ℕ → ℚ), (∀ n, modOut P x k n = .ok (y n) ∧ (y n).Is (u n)) ∧
      ∀ T, rms (fun n => (u n : ℝ)) T ≤ G * rms (fun n => (q n : ℝ)) T + (C - B) * M * Real.sqrt T := by
  obtain ⟨-, hBC, h⟩ := ht
  obtain ⟨g0, hG⟩ := hG
  obtain ⟨y, z, h1, h2, -, h4⟩ := h x (fun n => (q n : ℝ)) M 0 hM le_rfl (by simpa using hM') (fun n => ⟨q n, hx n, by simp⟩) hq
  obtain ⟨z', h5, h6⟩ := hG (fun n => (q n : ℝ))
  have ez : z' = z := funext fun n => Except.ok.inj ((h5 n).symm.trans (h2 n))
  subst ez
  choose u hu1 hu2 using h4
  have M0 : 0 ≤ M := le_trans (by positivity) hM
  refine ⟨y, u, fun n => ⟨h1 n, hu1 n⟩, fun T => ?_⟩
  have tri := rms_size.triangle z' (fun n => (u n : ℝ) - z' n) T
  have e : (fun n => z' n + ((u n : ℝ) - z' n)) = fun n => (u n : ℝ) := funext fun n => by ring
  rw [e] at tri
  have a : rms z' T ≤ G * rms (fun n => (q n : ℝ)) T := by
    unfold rms
    calc Real.sqrt (energy z' T) ≤ Real.sqrt (G ^ 2 * energy (fun n => (q n : ℝ)) T) := Real.sqrt_le_sqrt (h6 T)
      _ = _ := by rw [Real.sqrt_mul (sq_nonneg G), Real.sqrt_sq g0]
  have b := rms_le (f := fun n => (u n : ℝ) - z' n) (e := (C - B) * M) (mul_nonneg (by linarith) M0) (fun n => by
    have := hu2 n
    rw [add_zero] at this
    linarith) T
  linarith

/-- An echo of gain 1/2 at most doubles the size of full-scale samples: the rounding errors add less than a millionth of full scale
per sample. -/
example (x : ℕ → F32) (q : ℕ → ℚ) (hx : ∀ n, (x n).Is (q n)) (hq : ∀ n, |(q n : ℝ)| ≤ 1) :
    ∃ (y : ℕ → F32) (u : ℕ → ℚ), (∀ n, modOut Echo.process x ⟨[lit 0, lit 0, lit 0], lit (1 / 2)⟩ n = .ok (y n) ∧ (y n).Is (u n)) ∧
      ∀ T, rms (fun n => (u n : ℝ)) T ≤ 2 * rms (fun n => (q n : ℝ)) T + (10 ^ 6)⁻¹ * Real.sqrt T := by
  have g : |((1 / 2 : ℚ) : ℝ)| = 1 / 2 := by norm_num [abs_of_pos]
  have ht := C129_echo ⟨[lit 0, lit 0, lit 0], lit (1 / 2)⟩ ⟨[0, 0, 0], ((1 / 2 : ℚ) : ℝ)⟩ 3 (by norm_num) rfl rfl (γ := 1 / 2) (by decide +kernel) rfl
    (by rw [g]; norm_num)
  rw [g] at ht
  have hG : EnergyGain Echo.process (⟨[0, 0, 0], ((1 / 2 : ℚ) : ℝ)⟩ : Echo ℝ) 2 :=
    (C151_echo _ 3 (by norm_num) rfl (by rw [g]; norm_num) 2).mpr (by rw [g]; norm_num)
  obtain ⟨y, u, h1, h2⟩ := C151_f32 ht hG x q hx (M := 1) (by norm_num) (by norm_num) hq
  refine ⟨y, u, h1, fun T => (h2 T).trans ?_⟩
  have : (0 : ℝ) ≤ Real.sqrt T := Real.sqrt_nonneg _
  gcongr
  norm_num

end Verif
