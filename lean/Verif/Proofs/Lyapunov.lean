import Mathlib.Analysis.Real.Sqrt
import Mathlib.Algebra.QuadraticDiscriminant
import Mathlib.Tactic.Linarith
import Mathlib.Tactic.FieldSimp

/-! # Quadratic forms that decrease along `y''' + k ω y'' + k ω² y' + ω³ y = i` for all `ω` and `k` of a range

They decrease along the backward differences too, whatever the step and however `ω` and `k` move within the range. -/

namespace Verif

/-! ## Quadratic forms in three variables -/

/-- `a x² + 2 b x y + 2 c x z + d y² + 2 e y z + f z²`. -/
structure Quad where
  (a b c d e f : ℝ)

def Quad.q (P : Quad) (x y z : ℝ) : ℝ := P.a * x ^ 2 + 2 * P.b * x * y + 2 * P.c * x * z + P.d * y ^ 2 + 2 * P.e * y * z + P.f * z ^ 2

def Quad.bl (P : Quad) (x y z x' y' z' : ℝ) : ℝ :=
  P.a * x * x' + P.b * (x * y' + y * x') + P.c * (x * z' + z * x') + P.d * y * y' + P.e * (y * z' + z * y') + P.f * z * z'

theorem psd3 {P : Quad} (h1 : 0 < P.a) (h2 : 0 < P.a * P.d - P.b ^ 2)
    (h3 : 0 ≤ P.a * (P.d * P.f - P.e ^ 2) - P.b * (P.b * P.f - P.c * P.e) + P.c * (P.b * P.e - P.d * P.c)) (x y z : ℝ) : 0 ≤ P.q x y z := by
  have e : P.q x y z = ((P.a * x + P.b * y + P.c * z) ^ 2 + (((P.a * P.d - P.b ^ 2) * y + (P.a * P.e - P.b * P.c) * z) ^ 2 +
      P.a * (P.a * (P.d * P.f - P.e ^ 2) - P.b * (P.b * P.f - P.c * P.e) + P.c * (P.b * P.e - P.d * P.c)) * z ^ 2) / (P.a * P.d - P.b ^ 2)) / P.a := by
    have := h1.ne'
    have := h2.ne'
    rw [eq_div_iff ‹P.a ≠ 0›, ← sub_eq_iff_eq_add', eq_div_iff ‹_›]
    unfold Quad.q
    ring
  rw [e]
  have := mul_nonneg (mul_nonneg h1.le h3) (sq_nonneg z)
  positivity

theorem cs {P : Quad} (hP : ∀ x y z, 0 ≤ P.q x y z) (x y z x' y' z' : ℝ) : P.bl x y z x' y' z' ^ 2 ≤ P.q x y z * P.q x' y' z' := by
  have h := discrim_le_zero (a := P.q x' y' z') (b := 2 * P.bl x y z x' y' z') (c := P.q x y z) fun l => by
    have := hP (x + l * x') (y + l * y') (z + l * z')
    have e : P.q (x + l * x') (y + l * y') (z + l * z') = P.q x' y' z' * (l * l) + 2 * P.bl x y z x' y' z' * l + P.q x y z := by
      unfold Quad.q Quad.bl; ring
    rwa [e] at this
  unfold discrim at h
  nlinarith

/-! ## One step -/

theorem be_step {P : Quad} (hP : ∀ x y z, 0 ≤ P.q x y z) {α τ : ℝ} (hα : 0 < α) (hτ : 0 < τ) {F x y z x0 y0 z0 i : ℝ}
    (hD : α * P.q x y z ≤ -P.bl x y z y z (-F)) (h1 : x0 = x - τ * y) (h2 : y0 = y - τ * z) (h3 : z0 + τ * i = z + τ * F) :
    Real.sqrt (P.q x y z) * (1 + τ * α) ≤ Real.sqrt (P.q x0 y0 z0) + τ * (Real.sqrt P.f * |i|) := by
  have q0 := hP x y z
  have qw := hP y z (-F)
  have q00 := hP x0 y0 z0
  have hf : 0 ≤ P.f := by have := hP 0 0 1; simpa [Quad.q] using this
  have c1 := cs hP x y z y z (-F)
  have e1 : P.q x0 y0 (z0 + τ * i) = P.q x y z - 2 * τ * P.bl x y z y z (-F) + τ ^ 2 * P.q y z (-F) := by
    rw [h3, h1, h2]; unfold Quad.q Quad.bl; ring
  have hw : α ^ 2 * P.q x y z ≤ P.q y z (-F) := by
    rcases q0.eq_or_lt with h | h
    · rw [← h, mul_zero]; exact qw
    · have : (α * P.q x y z) ^ 2 ≤ P.bl x y z y z (-F) ^ 2 := by
        rw [← neg_sq (P.bl x y z y z (-F))]
        exact pow_le_pow_left₀ (mul_nonneg hα.le q0) hD 2
      have h' : P.q x y z * (α ^ 2 * P.q x y z) ≤ P.q x y z * P.q y z (-F) := by nlinarith
      exact le_of_mul_le_mul_left h' h
  have low : (1 + τ * α) ^ 2 * P.q x y z ≤ P.q x0 y0 (z0 + τ * i) := by
    rw [e1]
    nlinarith [mul_le_mul_of_nonneg_left hD hτ.le, mul_le_mul_of_nonneg_left hw (sq_nonneg τ)]
  have c2 := cs hP x0 y0 z0 0 0 1
  have e2 : P.q 0 0 1 = P.f := by simp [Quad.q]
  have e3 : P.q x0 y0 (z0 + τ * i) = P.q x0 y0 z0 + 2 * (τ * i) * P.bl x0 y0 z0 0 0 1 + τ ^ 2 * (P.f * i ^ 2) := by
    unfold Quad.q Quad.bl; ring
  rw [e2] at c2
  have hb : i * P.bl x0 y0 z0 0 0 1 ≤ Real.sqrt (P.q x0 y0 z0) * (Real.sqrt P.f * |i|) := by
    calc i * P.bl x0 y0 z0 0 0 1 ≤ |i * P.bl x0 y0 z0 0 0 1| := le_abs_self _
      _ = |i| * |P.bl x0 y0 z0 0 0 1| := abs_mul _ _
      _ ≤ |i| * Real.sqrt (P.q x0 y0 z0 * P.f) := mul_le_mul_of_nonneg_left (Real.abs_le_sqrt c2) (abs_nonneg _)
      _ = _ := by rw [Real.sqrt_mul q00]; ring
  have up : P.q x0 y0 (z0 + τ * i) ≤ (Real.sqrt (P.q x0 y0 z0) + τ * (Real.sqrt P.f * |i|)) ^ 2 := by
    rw [e3, add_sq, Real.sq_sqrt q00, mul_pow, mul_pow, Real.sq_sqrt hf, sq_abs]
    nlinarith [mul_le_mul_of_nonneg_left hb hτ.le]
  refine abs_le_of_sq_le_sq' ?_ (by positivity) |>.2
  rw [mul_pow, Real.sq_sqrt q0]
  linarith

/-- Many steps. -/
theorem be_run {α τ κ : ℝ} (hα : 0 < α) (hτ : 0 < τ) {s : ℕ → ℝ} (n : ℕ) (hs : ∀ j < n, s (j + 1) * (1 + τ * α) ≤ s j + τ * (α * κ)) :
    s n ≤ κ + (s 0 - κ) / (1 + τ * α) ^ n := by
  have hp : 0 < 1 + τ * α := by positivity
  induction n with
  | zero => simp
  | succ n ih =>
    have h := hs n n.lt_succ_self
    have ih := ih fun j hj => hs j (hj.trans n.lt_succ_self)
    have : s (n + 1) ≤ (s n + τ * (α * κ)) / (1 + τ * α) := by rwa [le_div_iff₀ hp]
    refine this.trans ?_
    rw [div_le_iff₀ hp]
    have e : (s 0 - κ) / (1 + τ * α) ^ (n + 1) * (1 + τ * α) = (s 0 - κ) / (1 + τ * α) ^ n := by
      rw [pow_succ]; field_simp
    rw [add_mul, e]
    linarith

/-! ## Decay for a whole range -/

/-- The form `-x·P A x - α x·P x` as a function of the coefficients `W1 z + W2 y + W3 x`. -/
noncomputable def Quad.dec (P : Quad) (α W1 W2 W3 : ℝ) : Quad where
  a := P.c * W3 - α * P.a
  b := (P.c * W2 + P.e * W3 - P.a) / 2 - α * P.b
  c := (P.c * W1 + P.f * W3 - P.b) / 2 - α * P.c
  d := P.e * W2 - P.b - α * P.d
  e := (P.e * W1 + P.f * W2 - P.c - P.d) / 2 - α * P.e
  f := P.f * W1 - P.e - α * P.f

theorem dec_eq (P : Quad) (α W1 W2 W3 x y z : ℝ) :
    (P.dec α W1 W2 W3).q x y z = -P.bl x y z y z (-(W3 * x + W2 * y + W1 * z)) - α * P.q x y z := by
  unfold Quad.dec Quad.q Quad.bl; ring

/-- It is enough to look at four points around the curve `(ω, ω², ω³)`. -/
theorem dec_range {P : Quad} {α R k x y z : ℝ} (hR : 1 < R)
    (h0 : 0 ≤ (P.dec α k k 1).q x y z) (h1 : 0 ≤ (P.dec α (k * ((2 + R) / 3)) (k * ((1 + 2 * R) / 3)) R).q x y z)
    (h2 : 0 ≤ (P.dec α (k * ((1 + 2 * R) / 3)) (k * ((R ^ 2 + 2 * R) / 3)) (R ^ 2)).q x y z)
    (h3 : 0 ≤ (P.dec α (k * R) (k * R ^ 2) (R ^ 3)).q x y z) {ω : ℝ} (w1 : 1 ≤ ω) (w2 : ω ≤ R) :
    0 ≤ (P.dec α (k * ω) (k * ω ^ 2) (ω ^ 3)).q x y z := by
  have e : (R - 1) ^ 3 * (P.dec α (k * ω) (k * ω ^ 2) (ω ^ 3)).q x y z =
      (R - ω) ^ 3 * (P.dec α k k 1).q x y z + 3 * ((R - ω) ^ 2 * (ω - 1)) * (P.dec α (k * ((2 + R) / 3)) (k * ((1 + 2 * R) / 3)) R).q x y z +
      3 * ((R - ω) * (ω - 1) ^ 2) * (P.dec α (k * ((1 + 2 * R) / 3)) (k * ((R ^ 2 + 2 * R) / 3)) (R ^ 2)).q x y z +
      (ω - 1) ^ 3 * (P.dec α (k * R) (k * R ^ 2) (R ^ 3)).q x y z := by
    simp only [dec_eq]
    unfold Quad.q Quad.bl
    ring
  have a1 : 0 ≤ R - ω := by linarith
  have a2 : 0 ≤ ω - 1 := by linarith
  have a3 : 0 < (R - 1) ^ 3 := by have : 0 < R - 1 := by linarith
                                  positivity
  refine nonneg_of_mul_nonneg_right (a := (R - 1) ^ 3) ?_ a3
  rw [e]
  positivity

theorem dec_mix {P : Quad} {α k1 k2 k u v W x y z : ℝ} (hk : k1 < k2) (h1 : 0 ≤ (P.dec α (k1 * u) (k1 * v) W).q x y z)
    (h2 : 0 ≤ (P.dec α (k2 * u) (k2 * v) W).q x y z) (a : k1 ≤ k) (b : k ≤ k2) : 0 ≤ (P.dec α (k * u) (k * v) W).q x y z := by
  have e : (k2 - k1) * (P.dec α (k * u) (k * v) W).q x y z =
      (k2 - k) * (P.dec α (k1 * u) (k1 * v) W).q x y z + (k - k1) * (P.dec α (k2 * u) (k2 * v) W).q x y z := by
    simp only [dec_eq]
    unfold Quad.q Quad.bl
    ring
  have a1 : 0 ≤ k2 - k := by linarith
  have a2 : 0 ≤ k - k1 := by linarith
  refine nonneg_of_mul_nonneg_right (a := k2 - k1) ?_ (by linarith)
  rw [e]
  positivity

/-- No resonance, ratio 9/5. -/
noncomputable def PA : Quad := ⟨337 / 100, 224 / 100, 123 / 100, 304 / 100, 129 / 100, 1⟩

theorem PA_dec {ω : ℝ} (h1 : 1 ≤ ω) (h2 : ω ≤ 9 / 5) (x y z : ℝ) : 0 ≤ (PA.dec (9 / 100) (2 * ω) (2 * ω ^ 2) (ω ^ 3)).q x y z := by
  refine dec_range (by norm_num) ?_ ?_ ?_ ?_ h1 h2 <;> refine psd3 ?_ ?_ ?_ x y z <;> norm_num [Quad.dec, PA]

/-- Resonance up to 1/2, ratio 7/5. -/
noncomputable def PB : Quad := ⟨207 / 100, 142 / 100, 77 / 100, 217 / 100, 103 / 100, 1⟩

theorem PB_dec {ω k : ℝ} (h1 : 1 ≤ ω) (h2 : ω ≤ 7 / 5) (k1 : 3 / 2 ≤ k) (k2 : k ≤ 2) (x y z : ℝ) :
    0 ≤ (PB.dec (9 / 200) (k * ω) (k * ω ^ 2) (ω ^ 3)).q x y z := by
  refine dec_mix (k1 := 3 / 2) (k2 := 2) (by norm_num) ?_ ?_ k1 k2 <;> refine dec_range (by norm_num) ?_ ?_ ?_ ?_ h1 h2 <;>
    refine psd3 ?_ ?_ ?_ x y z <;> norm_num [Quad.dec, PB]

/-! ## Backward differences -/

/-- What is needed of a quadratic form for cutoffs within a factor `R` and dampings `k` with `good k`. -/
structure Cert (good : ℝ → Prop) (R α c : ℝ) where
  P : Quad
  f : P.f = 1
  pos : ∀ x y z, 0 ≤ P.q x y z
  dec : ∀ {ω k}, 1 ≤ ω → ω ≤ R → good k → ∀ x y z, 0 ≤ (P.dec α (k * ω) (k * ω ^ 2) (ω ^ 3)).q x y z
  le : ∀ x y z, x ^ 2 ≤ c ^ 2 * P.q x y z

theorem le_of {P : Quad} {c : ℝ} (h : ∀ x y z, 0 ≤ (⟨c ^ 2 * P.a - 1, c ^ 2 * P.b, c ^ 2 * P.c, c ^ 2 * P.d, c ^ 2 * P.e, c ^ 2 * P.f⟩ : Quad).q x y z)
    (x y z : ℝ) : x ^ 2 ≤ c ^ 2 * P.q x y z := by
  have := h x y z
  unfold Quad.q at this ⊢
  linarith

noncomputable def certA : Cert (fun k => k = 2) (9 / 5) (9 / 100) (89 / 100) where
  P := PA
  f := rfl
  pos x y z := by refine psd3 ?_ ?_ ?_ x y z <;> norm_num [PA]
  dec h1 h2 hk x y z := by rw [hk]; exact PA_dec h1 h2 x y z
  le := le_of fun x y z => by refine psd3 ?_ ?_ ?_ x y z <;> norm_num [PA]

noncomputable def certB : Cert (fun k => 3 / 2 ≤ k ∧ k ≤ 2) (7 / 5) (9 / 200) (95 / 100) where
  P := PB
  f := rfl
  pos x y z := by refine psd3 ?_ ?_ ?_ x y z <;> norm_num [PB]
  dec h1 h2 hk x y z := PB_dec h1 h2 hk.1 hk.2 x y z
  le := le_of fun x y z => by refine psd3 ?_ ?_ ?_ x y z <;> norm_num [PB]

/-- The size of the state made of three successive values. -/
noncomputable def Cert.size {good : ℝ → Prop} {R α c : ℝ} (Z : Cert good R α c) (τ u v w : ℝ) : ℝ :=
  Real.sqrt (Z.P.q u ((u - v) / τ) ((u - 2 * v + w) / τ ^ 2))

theorem Cert.size_zero {good : ℝ → Prop} {R α c : ℝ} (Z : Cert good R α c) (τ : ℝ) : Z.size τ 0 0 0 = 0 := by
  simp [Cert.size, Quad.q]

theorem Cert.run {good : ℝ → Prop} {R α c : ℝ} (Z : Cert good R α c) (hα : 0 < α) (hc : 0 ≤ c) {τ : ℝ} (hτ : 0 < τ) {t k y i : ℕ → ℝ} {I : ℝ}
    (ht : ∀ n, τ ≤ t n ∧ t n ≤ R * τ) (hk : ∀ n, good (k n)) (n : ℕ) (hi : ∀ j ≤ n, |i j| ≤ I)
    (hy : ∀ j ≤ n, (y (j + 3) - 3 * y (j + 2) + 3 * y (j + 1) - y j) + k j * t j * (y (j + 3) - 2 * y (j + 2) + y (j + 1)) +
      k j * t j ^ 2 * (y (j + 3) - y (j + 2)) + t j ^ 3 * y (j + 3) = τ ^ 3 * i j) :
    |y (n + 3)| ≤ c * (I / α) + c * Z.size τ (y 2) (y 1) (y 0) / (1 + τ * α) ^ n := by
  have I0 : 0 ≤ I := (abs_nonneg _).trans (hi n le_rfl)
  have hp : 0 < 1 + τ * α := by positivity
  have step : ∀ j < n + 1, Z.size τ (y (j + 3)) (y (j + 2)) (y (j + 1)) * (1 + τ * α) ≤ Z.size τ (y (j + 2)) (y (j + 1)) (y j) + τ * (α * (I / α)) := by
    intro n hn
    have hn : n ≤ _ := Nat.lt_succ_iff.mp hn
    have e0 := hτ.ne'
    have w1 : 1 ≤ t n / τ := by rw [le_div_iff₀ hτ]; linarith [(ht n).1]
    have w2 : t n / τ ≤ R := by rw [div_le_iff₀ hτ]; exact (ht n).2
    have hD := Z.dec w1 w2 (hk n) (y (n + 3)) ((y (n + 3) - y (n + 2)) / τ) ((y (n + 3) - 2 * y (n + 2) + y (n + 1)) / τ ^ 2)
    rw [dec_eq] at hD
    have := be_step Z.pos hα hτ (x0 := y (n + 2)) (y0 := (y (n + 2) - y (n + 1)) / τ) (z0 := (y (n + 2) - 2 * y (n + 1) + y n) / τ ^ 2) (i := i n)
      (sub_nonneg.mp hD) (by field_simp; ring) (by field_simp; ring) (by
        have h := hy n hn
        field_simp
        linear_combination -h)
    rw [Z.f, Real.sqrt_one, one_mul] at this
    refine this.trans ?_
    rw [mul_div_cancel₀ _ hα.ne']
    exact add_le_add le_rfl (mul_le_mul_of_nonneg_left (hi n hn) hτ.le)
  have h := be_run hα hτ (s := fun n => Z.size τ (y (n + 2)) (y (n + 1)) (y n)) (κ := I / α) (n + 1) step
  have hs : 0 ≤ Z.size τ (y 2) (y 1) (y 0) := Real.sqrt_nonneg _
  have hx : |y (n + 3)| ≤ c * Z.size τ (y (n + 3)) (y (n + 2)) (y (n + 1)) := by
    unfold Cert.size
    have := Real.abs_le_sqrt (Z.le (y (n + 3)) ((y (n + 3) - y (n + 2)) / τ) ((y (n + 3) - 2 * y (n + 2) + y (n + 1)) / τ ^ 2))
    rwa [Real.sqrt_mul (sq_nonneg c), Real.sqrt_sq hc] at this
  refine hx.trans ?_
  rw [mul_div_assoc, ← mul_add]
  refine mul_le_mul_of_nonneg_left (h.trans ?_) hc
  refine add_le_add le_rfl ?_
  have h1 : (1 : ℝ) ≤ 1 + τ * α := by have := mul_pos hτ hα; linarith
  rw [div_le_div_iff₀ (by positivity) (by positivity)]
  have hK : 0 ≤ I / α := by positivity
  have hP : 0 < (1 + τ * α) ^ n := by positivity
  calc (Z.size τ (y (0 + 2)) (y (0 + 1)) (y 0) - I / α) * (1 + τ * α) ^ n ≤ Z.size τ (y 2) (y 1) (y 0) * (1 + τ * α) ^ n :=
        mul_le_mul_of_nonneg_right (by simpa using hK) hP.le
    _ ≤ _ := mul_le_mul_of_nonneg_left (by rw [pow_succ]; nlinarith) hs

/-- A recurrence from rest whose error may depend on the bound being proved: the bound `W` is kept if it pays for it. -/
theorem Cert.closed {good : ℝ → Prop} {R α c : ℝ} (Z : Cert good R α c) (hα : 0 < α) (hc : 0 ≤ c) {τ : ℝ} (hτ : 0 < τ) {t k y : ℕ → ℝ} {I W : ℝ}
    (ht : ∀ n, τ ≤ t n ∧ t n ≤ R * τ) (hk : ∀ n, good (k n)) (hW : 0 ≤ W) (hI : c * (I / α) ≤ W) {P : ℕ → Prop}
    (p0 : P 0) (p1 : P 1) (p2 : P 2) (y0 : y 0 = 0) (y1 : y 1 = 0) (y2 : y 2 = 0)
    (hy : ∀ n, (∀ j < n + 3, P j ∧ |y j| ≤ W) → P (n + 3) ∧ |(y (n + 3) - 3 * y (n + 2) + 3 * y (n + 1) - y n) +
      k n * t n * (y (n + 3) - 2 * y (n + 2) + y (n + 1)) + k n * t n ^ 2 * (y (n + 3) - y (n + 2)) + t n ^ 3 * y (n + 3)| ≤ τ ^ 3 * I) (n : ℕ) :
    P n ∧ |y n| ≤ W := by
  induction n using Nat.strong_induction_on with
  | _ n ih =>
    match n, ih with
    | 0, _ => exact ⟨p0, by rwa [y0, abs_zero]⟩
    | 1, _ => exact ⟨p1, by rwa [y1, abs_zero]⟩
    | 2, _ => exact ⟨p2, by rwa [y2, abs_zero]⟩
    | n + 3, ih =>
      refine ⟨(hy n ih).1, ?_⟩
      have h := Z.run hα hc hτ ht hk (y := y) (I := I) (i := fun n => ((y (n + 3) - 3 * y (n + 2) + 3 * y (n + 1) - y n) +
        k n * t n * (y (n + 3) - 2 * y (n + 2) + y (n + 1)) + k n * t n ^ 2 * (y (n + 3) - y (n + 2)) + t n ^ 3 * y (n + 3)) / τ ^ 3) n
        (fun j hj => by
          have := (hy j fun a ha => ih a (by omega)).2
          rw [abs_div, abs_of_pos (pow_pos hτ 3), div_le_iff₀ (pow_pos hτ 3), mul_comm I]
          exact this)
        (fun j _ => by field_simp)
      rw [y0, y1, y2, Z.size_zero, mul_zero, zero_div, add_zero] at h
      exact h.trans hI

end Verif
