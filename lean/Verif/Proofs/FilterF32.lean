import Verif.Proofs.FilterCoef

/-! # Runs of LowPass and HighPass in `f32` -/

namespace Verif
open Fl

/-! ## the run as a recurrence -/

section
variable {S : Type}
theorem delayed_zeroS (z : S) (x : ℕ → S) (n : ℕ) : delayed z x 0 n = x n := by simp [delayed]
theorem delayed_succS (z : S) (x : ℕ → S) (k n : ℕ) : delayed z x (k + 1) (n + 1) = delayed z x k n := by
  unfold delayed
  by_cases h : n < k
  · rw [if_pos h, if_pos (by omega)]
  · rw [if_neg h, if_neg (by omega)]; congr 1; omega
theorem delayed_startS (z : S) (x : ℕ → S) (k : ℕ) : delayed z x (k + 1) 0 = z := by simp [delayed]

/-- States and outputs of a modifier that never panics. -/
theorem run_exists {X : Type} (p : X → S → S × X) (x : ℕ → S) (m : X) :
    ∃ (s : ℕ → X) (y : ℕ → S), s 0 = m ∧ (∀ n, y n = (p (s n) (x n)).1) ∧ (∀ n, s (n + 1) = (p (s n) (x n)).2) ∧
      ∀ n, modOut (fun m v => (Except.ok (p m v) : Res (S × X))) x m n = .ok (y n) := by
  let s : ℕ → X := fun n => Nat.rec m (fun n s => (p s (x n)).2) n
  refine ⟨s, fun n => (p (s n) (x n)).1, rfl, fun n => rfl, fun n => rfl, fun n => ?_⟩
  have h : ∀ n, modAfter (fun m v => (Except.ok (p m v) : Res (S × X))) x m n = .ok (s n) := by
    intro n
    induction n with
    | zero => rfl
    | succ n ih => exact modAfter_succ ih rfl
  exact modOut_of (h n) rfl

variable {M : Type} [Flt S]

theorem lp_recurrence (f r : M) (c0 c1 c2 c3 z : S) (x : ℕ → S) : ∃ y : ℕ → S,
    (∀ n, modOut Modifier.process x (⟨f, r, c0, c1, c2, c3, z, z, z⟩ : LowPass S M) n = .ok (y n)) ∧
    ∀ n, y n = c0 * x n + c1 * delayed z y 1 n + c2 * delayed z y 2 n + c3 * delayed z y 3 n := by
  obtain ⟨s, y, h0, h1, h2, h3⟩ := run_exists LowPass.process x (⟨f, r, c0, c1, c2, c3, z, z, z⟩ : LowPass S M)
  refine ⟨y, h3, fun n => ?_⟩
  have key : ∀ n, s n = ⟨f, r, c0, c1, c2, c3, delayed z y 1 n, delayed z y 2 n, delayed z y 3 n⟩ := by
    intro n
    induction n with
    | zero => rw [h0, delayed_startS, delayed_startS, delayed_startS]
    | succ n ih =>
      rw [h2, delayed_succS, delayed_succS, delayed_succS, delayed_zeroS, h1, ih]
      rfl
  rw [h1, key]
  rfl

theorem hp_recurrence (f r : M) (a0 a1 a2 a3 b1 b2 b3 z : S) (x : ℕ → S) : ∃ y : ℕ → S,
    (∀ n, modOut Modifier.process x (⟨a0, a1, a2, a3, b1, b2, b3, z, z, z, z, z, z, f, r⟩ : HighPass S M) n = .ok (y n)) ∧
    ∀ n, y n = a0 * x n + a1 * delayed z x 1 n + a2 * delayed z x 2 n + a3 * delayed z x 3 n +
      b1 * delayed z y 1 n + b2 * delayed z y 2 n + b3 * delayed z y 3 n := by
  obtain ⟨s, y, h0, h1, h2, h3⟩ := run_exists HighPass.process x (⟨a0, a1, a2, a3, b1, b2, b3, z, z, z, z, z, z, f, r⟩ : HighPass S M)
  refine ⟨y, h3, fun n => ?_⟩
  have key : ∀ n, s n = ⟨a0, a1, a2, a3, b1, b2, b3, delayed z x 1 n, delayed z x 2 n, delayed z x 3 n,
      delayed z y 1 n, delayed z y 2 n, delayed z y 3 n, f, r⟩ := by
    intro n
    induction n with
    | zero => rw [h0]; simp only [delayed_startS]
    | succ n ih =>
      rw [h2, delayed_succS, delayed_succS, delayed_succS, delayed_zeroS, delayed_succS, delayed_succS, delayed_succS, delayed_zeroS, h1, ih]
      rfl
  rw [h1, key]
  rfl
end

/-! ## absolute error of a sum of products -/

/-- The value of a float as a real, 0 if not finite. -/
noncomputable def rv {f : Fmt} (x : Fl f) : ℝ := ((x.toQ?).getD 0 : ℚ)

theorem rv_is {f : Fmt} {x : Fl f} {q : ℚ} (h : x.Is q) : rv x = q := by
  have : x.toQ? = some q := h
  rw [rv, this]; rfl

/-- `x` is within `α` of `A`, which is at most `S`. -/
def Err (x : F32) (A α S : ℝ) : Prop := ∃ a : ℚ, x.Is a ∧ |(a : ℝ) - A| ≤ α ∧ |A| ≤ S

private theorem rnd32 (a : ℚ) : |((b32.rnd a : ℚ) : ℝ) - a| ≤ (2 ^ 24)⁻¹ * |(a : ℝ)| + (2 ^ 150)⁻¹ := by
  have := Rat.cast_le (K := ℝ) |>.mpr (b32.abs_rnd_sub_le_mixed a)
  push_cast at this
  have e1 : ((pow2 (-(b32.p : ℤ)) : ℚ) : ℝ) = (2 ^ 24)⁻¹ := by
    show ((pow2 (-24) : ℚ) : ℝ) = _
    rw [pow2_eq]; push_cast; norm_num
  have e2 : ((pow2 (b32.emin - 1) : ℚ) : ℝ) = (2 ^ 150)⁻¹ := by
    show ((pow2 (-149 - 1) : ℚ) : ℝ) = _
    rw [pow2_eq]; push_cast; norm_num
  rwa [e1, e2] at this

private theorem fits120 {a : ℚ} (h : |(a : ℝ)| ≤ 2 ^ 120) : b32.Fits a := by
  refine Fmt.fits_of_le_pow2 (k := 120) (by decide) (by decide) ?_
  have : ((|a| : ℚ) : ℝ) ≤ ((pow2 120 : ℚ) : ℝ) := by
    rw [pow2_eq]; push_cast; exact_mod_cast h
  exact_mod_cast this

/-- A product with a stored coefficient. -/
theorem Err.prod {c y : F32} {C M : ℝ} {q : ℚ} (hc : App c cu C) (hy : y.Is q) (hq : |(q : ℝ)| ≤ M) {D : ℝ} (hD : |C| ≤ D)
    (hM : D * M ≤ 2 ^ 110) : Err (c * y) (C * q) (66 / 2 ^ 29 * (D * M) + (2 ^ 150)⁻¹) (D * M) := by
  obtain ⟨a, ha, he⟩ := hc
  have hM0 : 0 ≤ M := (abs_nonneg _).trans hq
  have hD0 : 0 ≤ D := (abs_nonneg _).trans hD
  have hcu : (0 : ℝ) ≤ cu := by unfold cu; positivity
  have hCM : |C| * |(q : ℝ)| ≤ D * M := mul_le_mul hD hq (abs_nonneg _) hD0
  have h1 : |((a * q : ℚ) : ℝ) - C * q| ≤ cu * (|C| * |(q : ℝ)|) := by
    push_cast
    rw [← sub_mul, abs_mul]
    calc |(a : ℝ) - C| * |(q : ℝ)| ≤ (cu * |C|) * |(q : ℝ)| := mul_le_mul_of_nonneg_right he (abs_nonneg _)
      _ = _ := by ring
  have h2 : |((a * q : ℚ) : ℝ)| ≤ (1 + cu) * (|C| * |(q : ℝ)|) := by
    have := abs_sub_abs_le_abs_sub ((a * q : ℚ) : ℝ) (C * q)
    rw [abs_mul C] at this
    linarith
  have hZ0 : 0 ≤ |C| * |(q : ℝ)| := by positivity
  generalize |C| * |(q : ℝ)| = Z at h1 h2 hCM hZ0
  have h3 : (1 + cu) * Z ≤ 2 * (D * M) := by
    have : cu ≤ 1 := by unfold cu; norm_num
    have : 0 ≤ D * M := mul_nonneg hD0 hM0
    nlinarith
  refine ⟨_, ha.mul hy (fits120 ((h2.trans h3).trans (by norm_num at hM ⊢; linarith))), ?_, by
    rw [abs_mul]; exact mul_le_mul hD hq (abs_nonneg _) hD0⟩
  have h4 := rnd32 (a * q)
  have h5 := abs_sub_le ((b32.rnd (a * q) : ℚ) : ℝ) ((a * q : ℚ) : ℝ) (C * q)
  have h6 : ((2 : ℝ) ^ 24)⁻¹ * |((a * q : ℚ) : ℝ)| ≤ (2 ^ 24)⁻¹ * ((1 + cu) * Z) := mul_le_mul_of_nonneg_left h2 (by positivity)
  have h7 : ((2 : ℝ) ^ 24)⁻¹ * ((1 + cu) * Z) + cu * Z ≤ 66 / 2 ^ 29 * (D * M) := by
    have e : ((2 : ℝ) ^ 24)⁻¹ * ((1 + cu) * Z) + cu * Z = ((2 ^ 24)⁻¹ * (1 + cu) + cu) * Z := by ring
    rw [e]
    have hZ : ((2 : ℝ) ^ 24)⁻¹ * (1 + cu) + cu ≤ 66 / 2 ^ 29 := by unfold cu; norm_num
    exact (mul_le_mul_of_nonneg_right hZ hZ0).trans (mul_le_mul_of_nonneg_left hCM (by norm_num))
  linarith

theorem Err.add {x y : F32} {A B α β S T : ℝ} (hx : Err x A α S) (hy : Err y B β T) (hM : S + T + (α + β) ≤ 2 ^ 120) :
    Err (x + y) (A + B) (α + β + (2 ^ 24)⁻¹ * (S + T + (α + β)) + (2 ^ 150)⁻¹) (S + T) := by
  obtain ⟨a, ha, ea, sa⟩ := hx
  obtain ⟨b, hb, eb, sb⟩ := hy
  have h3 : |((a + b : ℚ) : ℝ) - (A + B)| ≤ α + β := by
    push_cast
    rw [show (a : ℝ) + b - (A + B) = (a - A) + (b - B) by ring]
    exact (abs_add_le _ _).trans (add_le_add ea eb)
  have h4 : |A + B| ≤ S + T := (abs_add_le _ _).trans (add_le_add sa sb)
  have h5 : |((a + b : ℚ) : ℝ)| ≤ S + T + (α + β) := by
    have := abs_sub_abs_le_abs_sub ((a + b : ℚ) : ℝ) (A + B)
    linarith
  refine ⟨_, ha.add hb (fits120 (h5.trans hM)), ?_, h4⟩
  have h6 := rnd32 (a + b)
  have h7 := abs_sub_le ((b32.rnd (a + b) : ℚ) : ℝ) ((a + b : ℚ) : ℝ) (A + B)
  have : ((2 : ℝ) ^ 24)⁻¹ * |((a + b : ℚ) : ℝ)| ≤ (2 ^ 24)⁻¹ * (S + T + (α + β)) := mul_le_mul_of_nonneg_left h5 (by positivity)
  linarith

/-! ## the small gain -/

/-- A past value as a float and as a real. -/
theorem delayed_val {y : ℕ → F32} {M : ℝ} {n : ℕ} (h : ∀ i < n, (∃ q, (y i).Is q) ∧ |rv (y i)| ≤ M) (hM : 0 ≤ M) (k : ℕ) :
    ∃ q : ℚ, (delayed (lit 0) y (k + 1) n).Is q ∧ (q : ℝ) = delayed 0 (fun i => rv (y i)) (k + 1) n ∧ |(q : ℝ)| ≤ M := by
  unfold delayed
  by_cases hn : n < k + 1
  · rw [if_pos hn, if_pos hn]
    exact ⟨0, by decide +kernel, by norm_num, by simpa using hM⟩
  · rw [if_neg hn, if_neg hn]
    obtain ⟨⟨q, hq⟩, hb⟩ := h (n - (k + 1)) (by omega)
    exact ⟨q, hq, (rv_is hq).symm, by rwa [← rv_is hq]⟩

theorem coef_bounds {T K : ℝ} (hT : 0 < T) (hK : 0 < K) :
    |T ^ 3 / lpG T K| ≤ 1 ∧ |(K * T ^ 2 + 2 * K * T + 3) / lpG T K| ≤ 3 ∧ |(-K * T - 3) / lpG T K| ≤ 3 ∧ |1 / lpG T K| ≤ 1 ∧
    |-3 / lpG T K| ≤ 3 ∧ |3 / lpG T K| ≤ 3 ∧ |-1 / lpG T K| ≤ 1 := by
  have hG := lpG_pos hT hK.le
  have a1 : 0 < T ^ 3 := by positivity
  have a2 : 0 < K * T ^ 2 := by positivity
  have a3 : 0 < K * T := by positivity
  have e : lpG T K = T ^ 3 + K * T ^ 2 + K * T + 1 := rfl
  refine ⟨?_, ?_, ?_, ?_, ?_, ?_, ?_⟩ <;> rw [abs_div, abs_of_pos hG, div_le_iff₀ hG, abs_le, e] <;> constructor <;> linarith

section
variable {T K X M : ℝ} (hT : 0 < T) (hK : 0 < K) (hX1 : (2 ^ 90)⁻¹ ≤ X) (hX2 : X ≤ 2 ^ 100) (hM0 : 0 ≤ M) (hM2 : M ≤ 2 ^ 100)
include hT hK hX1 hX2 hM0 hM2

/-- One step of a low pass filter follows the prototype up to a few units in the last place of the input (up to `X`) and
of the past output (up to `M`). -/
theorem lp_step {c0 c1 c2 c3 : F32} (h0 : App c0 cu (T ^ 3 / lpG T K))
    (h1 : App c1 cu ((K * T ^ 2 + 2 * K * T + 3) / lpG T K)) (h2 : App c2 cu ((-K * T - 3) / lpG T K))
    (h3 : App c3 cu (1 / lpG T K)) {x y1 y2 y3 : F32} {qx q1 q2 q3 : ℚ} (hx : x.Is qx) (hy1 : y1.Is q1) (hy2 : y2.Is q2)
    (hy3 : y3.Is q3) (bx : |(qx : ℝ)| ≤ X) (b1 : |(q1 : ℝ)| ≤ M) (b2 : |(q2 : ℝ)| ≤ M) (b3 : |(q3 : ℝ)| ≤ M) :
    ∃ q : ℚ, (c0 * x + c1 * y1 + c2 * y2 + c3 * y3).Is q ∧
      |lpG T K * q - (T ^ 3 * qx + ((K * T ^ 2 + 2 * K * T + 3) * q1 + (-K * T - 3) * q2 + q3))| ≤
        lpG T K * ((2 ^ 24)⁻¹ * (31 * M + 6 * X)) := by
  obtain ⟨d0, d1, d2, d3, -⟩ := coef_bounds hT hK
  have hG := lpG_pos hT hK.le
  have hX0 : 0 < X := lt_of_lt_of_le (by positivity) hX1
  have hX1' : ((2 : ℝ) ^ 150)⁻¹ ≤ (2 ^ 60)⁻¹ * X := by
    calc ((2 : ℝ) ^ 150)⁻¹ = (2 ^ 60)⁻¹ * (2 ^ 90)⁻¹ := by norm_num
      _ ≤ _ := mul_le_mul_of_nonneg_left hX1 (by positivity)
  have e0 := Err.prod h0 hx bx d0 (by norm_num at hX2 ⊢; linarith)
  have e1 := Err.prod h1 hy1 b1 d1 (by norm_num at hM2 ⊢; linarith)
  have e2 := Err.prod h2 hy2 b2 d2 (by norm_num at hM2 ⊢; linarith)
  have e3 := Err.prod h3 hy3 b3 d3 (by norm_num at hM2 ⊢; linarith)
  clear bx b1 b2 b3 h0 h1 h2 h3 hx hy1 hy2 hy3 d0 d1 d2 d3
  have hτ0 : (0 : ℝ) < (2 ^ 150)⁻¹ := by positivity
  generalize ((2 : ℝ) ^ 150)⁻¹ = τ at *
  have s1 := e0.add e1 (by norm_num at hX1' hX2 hM2 ⊢; linarith)
  have s2 := s1.add e2 (by norm_num at hX1' hX2 hM2 ⊢; linarith)
  have s3 := s2.add e3 (by norm_num at hX1' hX2 hM2 ⊢; linarith)
  obtain ⟨q, hq, he, -⟩ := s3
  refine ⟨q, hq, ?_⟩
  have e : lpG T K * q - (T ^ 3 * qx + ((K * T ^ 2 + 2 * K * T + 3) * q1 + (-K * T - 3) * q2 + q3)) =
      lpG T K * (q - (T ^ 3 / lpG T K * qx + (K * T ^ 2 + 2 * K * T + 3) / lpG T K * q1 + (-K * T - 3) / lpG T K * q2 + 1 / lpG T K * q3)) := by
    field_simp
    ring
  rw [e, abs_mul, abs_of_pos hG]
  refine mul_le_mul_of_nonneg_left (he.trans ?_) hG.le
  norm_num at hX1' ⊢
  linarith

/-- One step of a high pass filter. -/
theorem hp_step {a0 a1 a2 a3 c1 c2 c3 : F32} (g0 : App a0 cu (1 / lpG T K)) (g1 : App a1 cu (-3 / lpG T K))
    (g2 : App a2 cu (3 / lpG T K)) (g3 : App a3 cu (-1 / lpG T K))
    (h1 : App c1 cu ((K * T ^ 2 + 2 * K * T + 3) / lpG T K)) (h2 : App c2 cu ((-K * T - 3) / lpG T K))
    (h3 : App c3 cu (1 / lpG T K)) {x0 x1 x2 x3 y1 y2 y3 : F32} {p0 p1 p2 p3 q1 q2 q3 : ℚ}
    (hx0 : x0.Is p0) (hx1 : x1.Is p1) (hx2 : x2.Is p2) (hx3 : x3.Is p3) (hy1 : y1.Is q1) (hy2 : y2.Is q2) (hy3 : y3.Is q3)
    (a0' : |(p0 : ℝ)| ≤ X) (a1' : |(p1 : ℝ)| ≤ X) (a2' : |(p2 : ℝ)| ≤ X) (a3' : |(p3 : ℝ)| ≤ X)
    (b1 : |(q1 : ℝ)| ≤ M) (b2 : |(q2 : ℝ)| ≤ M) (b3 : |(q3 : ℝ)| ≤ M) :
    ∃ q : ℚ, (a0 * x0 + a1 * x1 + a2 * x2 + a3 * x3 + c1 * y1 + c2 * y2 + c3 * y3).Is q ∧
      |lpG T K * q - ((p0 - 3 * p1 + 3 * p2 - p3) + ((K * T ^ 2 + 2 * K * T + 3) * q1 + (-K * T - 3) * q2 + q3))| ≤
        lpG T K * ((2 ^ 24)⁻¹ * (31 * M + 62 * X)) := by
  obtain ⟨-, d1, d2, d3, f1, f2, f3⟩ := coef_bounds hT hK
  have hG := lpG_pos hT hK.le
  have hX0 : 0 < X := lt_of_lt_of_le (by positivity) hX1
  have hX1' : ((2 : ℝ) ^ 150)⁻¹ ≤ (2 ^ 60)⁻¹ * X := by
    calc ((2 : ℝ) ^ 150)⁻¹ = (2 ^ 60)⁻¹ * (2 ^ 90)⁻¹ := by norm_num
      _ ≤ _ := mul_le_mul_of_nonneg_left hX1 (by positivity)
  have r0 := Err.prod g0 hx0 a0' d3 (by norm_num at hX2 ⊢; linarith)
  have r1 := Err.prod g1 hx1 a1' f1 (by norm_num at hX2 ⊢; linarith)
  have r2 := Err.prod g2 hx2 a2' f2 (by norm_num at hX2 ⊢; linarith)
  have r3 := Err.prod g3 hx3 a3' f3 (by norm_num at hX2 ⊢; linarith)
  have e1 := Err.prod h1 hy1 b1 d1 (by norm_num at hM2 ⊢; linarith)
  have e2 := Err.prod h2 hy2 b2 d2 (by norm_num at hM2 ⊢; linarith)
  have e3 := Err.prod h3 hy3 b3 d3 (by norm_num at hM2 ⊢; linarith)
  clear a0' a1' a2' a3' b1 b2 b3 g0 g1 g2 g3 h1 h2 h3 hx0 hx1 hx2 hx3 hy1 hy2 hy3 d1 d2 d3 f1 f2 f3
  have hτ0 : (0 : ℝ) < (2 ^ 150)⁻¹ := by positivity
  generalize ((2 : ℝ) ^ 150)⁻¹ = τ at *
  have s1 := r0.add r1 (by norm_num at hX1' hX2 hM2 ⊢; linarith)
  have s2 := s1.add r2 (by norm_num at hX1' hX2 hM2 ⊢; linarith)
  have s3 := s2.add r3 (by norm_num at hX1' hX2 hM2 ⊢; linarith)
  have s4 := s3.add e1 (by norm_num at hX1' hX2 hM2 ⊢; linarith)
  have s5 := s4.add e2 (by norm_num at hX1' hX2 hM2 ⊢; linarith)
  have s6 := s5.add e3 (by norm_num at hX1' hX2 hM2 ⊢; linarith)
  obtain ⟨q, hq, he, -⟩ := s6
  refine ⟨q, hq, ?_⟩
  have e : lpG T K * q - ((p0 - 3 * p1 + 3 * p2 - p3) + ((K * T ^ 2 + 2 * K * T + 3) * q1 + (-K * T - 3) * q2 + q3)) =
      lpG T K * (q - (1 / lpG T K * p0 + -3 / lpG T K * p1 + 3 / lpG T K * p2 + -1 / lpG T K * p3 +
        (K * T ^ 2 + 2 * K * T + 3) / lpG T K * q1 + (-K * T - 3) / lpG T K * q2 + 1 / lpG T K * q3)) := by
    field_simp
    ring
  rw [e, abs_mul, abs_of_pos hG]
  refine mul_le_mul_of_nonneg_left (he.trans ?_) hG.le
  norm_num at hX1' ⊢
  linarith
end

end Verif
