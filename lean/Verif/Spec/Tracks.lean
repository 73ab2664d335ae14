import Verif.Spec.Steady
import Verif.Float.Lemmas

/-! # A modifier in `f32` next to the one in exact arithmetic, independent of the model -/

namespace Verif

/-- The samples `x` are numbers within `d` of the signal `v`. -/
def Follows (x : ℕ → F32) (v : ℕ → ℝ) (d : ℝ) : Prop := ∀ n, ∃ q : ℚ, (x n).Is q ∧ |(q : ℝ) - v n| ≤ d

/-- The `f32` modifier `k` tracks the exact modifier `m` with gain bounds `B` (exact) and `C` (including rounding): if the exact input is
at most `M` and the `f32` input within `d` of it, then the exact output is at most `B M` and the `f32` output within `C (M + d) - B M`
of it, for ever. The sizes are limited to `[2^-80, 2^80]`, so that nothing underflows or overflows. -/
def Tracks {X Y E : Type} (P : Y → F32 → Except E (F32 × Y)) (k : Y) (p : X → ℝ → Except E (ℝ × X)) (m : X) (B C : ℝ) : Prop :=
  1 ≤ B ∧ B ≤ C ∧ ∀ (x : ℕ → F32) (v : ℕ → ℝ) (M d : ℝ), (2 ^ 80)⁻¹ ≤ M → 0 ≤ d → C * (M + d) ≤ 2 ^ 80 → Follows x v d → (∀ n, |v n| ≤ M) →
    ∃ (y : ℕ → F32) (z : ℕ → ℝ), (∀ n, modOut P x k n = .ok (y n)) ∧ (∀ n, modOut p v m n = .ok (z n)) ∧ (∀ n, |z n| ≤ B * M) ∧
      Follows y z (C * (M + d) - B * M)

theorem Tracks.mono {X Y E : Type} {P : Y → F32 → Except E (F32 × Y)} {k : Y} {p : X → ℝ → Except E (ℝ × X)} {m : X} {B C C' : ℝ}
    (h : Tracks P k p m B C) (hC : C ≤ C') : Tracks P k p m B C' := by
  obtain ⟨h1, h2, h⟩ := h
  refine ⟨h1, h2.trans hC, fun x v M d a1 a2 a3 a4 a5 => ?_⟩
  have a0 : 0 ≤ M + d := by
    have : (0 : ℝ) < (2 ^ 80)⁻¹ := by positivity
    linarith
  have a6 : C * (M + d) ≤ C' * (M + d) := mul_le_mul_of_nonneg_right hC a0
  obtain ⟨y, z, b1, b2, b3, b4⟩ := h x v M d a1 a2 (a6.trans a3) a4 a5
  refine ⟨y, z, b1, b2, b3, fun n => ?_⟩
  obtain ⟨q, c1, c2⟩ := b4 n
  exact ⟨q, c1, by linarith⟩

/-- Gain bounds of modifiers one after the other multiply. -/
theorem Tracks.andThen {X Y X' Y' E : Type} {P : Y → F32 → Except E (F32 × Y)} {k : Y} {p : X → ℝ → Except E (ℝ × X)} {m : X}
    {Q : Y' → F32 → Except E (F32 × Y')} {k' : Y'} {q : X' → ℝ → Except E (ℝ × X')} {m' : X'} {B C B' C' : ℝ}
    (h : Tracks P k p m B C) (h' : Tracks Q k' q m' B' C') : Tracks (andThen P Q) (k, k') (andThen p q) (m, m') (B * B') (C * C') := by
  obtain ⟨h1, h2, h⟩ := h
  obtain ⟨h1', h2', h'⟩ := h'
  refine ⟨one_le_mul_of_one_le_of_one_le h1 h1', mul_le_mul h2 h2' (by linarith) (by linarith), fun x v M d a1 a2 a3 a4 a5 => ?_⟩
  have pos : (0 : ℝ) < (2 ^ 80)⁻¹ := by positivity
  have hM : 0 < M := by linarith
  have hC : 0 ≤ C * (M + d) := mul_nonneg (by linarith) (by linarith)
  have a6 : C * (M + d) ≤ 2 ^ 80 := by
    have : C * (M + d) * 1 ≤ C * (M + d) * C' := mul_le_mul_of_nonneg_left (by linarith) hC
    linarith
  obtain ⟨y, z, b1, b2, b3, b4⟩ := h x v M d a1 a2 a6 a4 a5
  have e : C' * (B * M + (C * (M + d) - B * M)) = C * C' * (M + d) := by ring
  obtain ⟨y', z', c1, c2, c3, c4⟩ := h' y z (B * M) (C * (M + d) - B * M) (a1.trans (le_mul_of_one_le_left hM.le h1))
    (by nlinarith) (by rw [e]; exact a3) b4 b3
  refine ⟨y', z', modOut_andThen b1 c1, modOut_andThen b2 c2, fun n => ?_, fun n => ?_⟩
  · rw [mul_comm B B', mul_assoc]; exact c3 n
  · obtain ⟨r, d1, d2⟩ := c4 n
    refine ⟨r, d1, ?_⟩
    rw [e] at d2
    rw [mul_comm B B', mul_assoc B']
    exact d2

/-- Only the outputs matter. -/
theorem Tracks.congr {X Y X' Y' E : Type} {P : Y → F32 → Except E (F32 × Y)} {k : Y} {p : X → ℝ → Except E (ℝ × X)} {m : X}
    {Q : Y' → F32 → Except E (F32 × Y')} {k' : Y'} {q : X' → ℝ → Except E (ℝ × X')} {m' : X'} {B C : ℝ}
    (h : Tracks P k p m B C) (e : ∀ x n, modOut Q x k' n = modOut P x k n) (e' : ∀ v n, modOut q v m' n = modOut p v m n) : Tracks Q k' q m' B C := by
  obtain ⟨h1, h2, h⟩ := h
  refine ⟨h1, h2, fun x v M d a1 a2 a3 a4 a5 => ?_⟩
  simp only [e, e']
  exact h x v M d a1 a2 a3 a4 a5

end Verif
