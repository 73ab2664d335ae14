import Verif.Props.White

/-! # The level of noise as a meter shows it, with a tone and in several voices: C176 -/

namespace Verif
open Fl

/-! ## Specification -/

/-- The fraction of all sequences of draws for which `P`. -/
noncomputable def chance {N K : ℕ} (P : (Fin N → Fin K) → Prop) : ℝ :=
  open Classical in avg fun d => if P d then 1 else 0

/-! ## Chebyshev's inequality for independent values -/

section
variable {N K : ℕ}

private theorem chance_mono (P Q : (Fin N → Fin K) → Prop) (h : ∀ d, P d → Q d) : chance P ≤ chance Q := by
  classical
  unfold chance
  refine avg_mono fun d => ?_
  by_cases hp : P d
  · rw [if_pos hp, if_pos (h d hp)]
  · rw [if_neg hp]
    split_ifs <;> norm_num

/-- Markov's inequality for squares. -/
private theorem chance_sq (w : (Fin N → Fin K) → ℝ) {ε : ℝ} (hε : 0 < ε) : chance (fun d => ε ≤ |w d|) ≤ avg (fun d => w d ^ 2) / ε ^ 2 := by
  classical
  unfold chance
  rw [div_eq_inv_mul, ← avg_mul]
  refine avg_mono fun d => ?_
  split_ifs with h
  · have := pow_le_pow_left₀ hε.le h 2
    rw [sq_abs] at this
    rw [← div_eq_inv_mul, le_div_iff₀ (by positivity)]
    linarith
  · positivity

/-- Values that depend on one draw each. -/
private theorem mean_sq (hK : 0 < K) (u : Fin N → (Fin N → Fin K) → ℝ) (m : Fin N → ℝ) (v : ℝ) (hm : ∀ t, avg (u t) = m t)
    (hv : ∀ t, avg (fun d => u t d ^ 2) ≤ v + m t ^ 2) (hi : ∀ s t, s ≠ t → avg (fun d => u s d * u t d) = m s * m t) :
    avg (fun d => (∑ t, u t d - ∑ t, m t) ^ 2) ≤ N * v := by
  have e : ∀ d, (∑ t, u t d - ∑ t, m t) ^ 2 = ∑ s, ∑ t, (u s d - m s) * (u t d - m t) := by
    intro d
    rw [← Finset.sum_sub_distrib, sq, Finset.sum_mul_sum]
  simp only [e]
  rw [avg_sum]
  have e2 : ∀ s, avg (fun d => ∑ t, (u s d - m s) * (u t d - m t)) ≤ v := by
    intro s
    rw [avg_sum]
    have e3 : ∀ t, avg (fun d => (u s d - m s) * (u t d - m t)) = avg (fun d => u s d * u t d) - m s * m t := by
      intro t
      have : (fun d => (u s d - m s) * (u t d - m t)) = fun d => (u s d * u t d + (- m t) * u s d) + ((-m s) * u t d + m s * m t) := by funext d; ring
      rw [this, avg_add, avg_add, avg_add, avg_mul, avg_mul, avg_const hK, hm, hm]
      ring
    rw [Finset.sum_eq_single s]
    · rw [e3]
      have := hv s
      simp only [sq] at this
      linarith
    · intro t _ ht
      rw [e3, hi s t (Ne.symm ht), sub_self]
    · intro h; exact absurd (Finset.mem_univ _) h
  calc _ ≤ ∑ _s : Fin N, v := Finset.sum_le_sum fun s _ => e2 s
    _ = N * v := by rw [Finset.sum_const, Finset.card_univ, Fintype.card_fin, nsmul_eq_mul]

private theorem chebyshev (hK : 0 < K) (hN : 0 < N) (u : Fin N → (Fin N → Fin K) → ℝ) (m : Fin N → ℝ) (v : ℝ) (hm : ∀ t, avg (u t) = m t)
    (hv : ∀ t, avg (fun d => u t d ^ 2) ≤ v + m t ^ 2) (hi : ∀ s t, s ≠ t → avg (fun d => u s d * u t d) = m s * m t) {ε : ℝ} (hε : 0 < ε) :
    chance (fun d => ε ≤ |(∑ t, u t d) / N - (∑ t, m t) / N|) ≤ v / (N * ε ^ 2) := by
  have hN' : (0 : ℝ) < N := by exact_mod_cast hN
  refine (chance_sq _ hε).trans ?_
  have e : (fun d => ((∑ t, u t d) / N - (∑ t, m t) / N) ^ 2) = fun d => ((N : ℝ) ^ 2)⁻¹ * (∑ t, u t d - ∑ t, m t) ^ 2 := by
    funext d
    field_simp
  rw [e, avg_mul, div_le_div_iff₀ (by positivity) (by positivity)]
  have h := mul_le_mul_of_nonneg_left (mean_sq hK u m v hm hv hi) (show (0 : ℝ) ≤ ((N : ℝ) ^ 2)⁻¹ * (N * ε ^ 2) by positivity)
  calc _ = ((N : ℝ) ^ 2)⁻¹ * (N * ε ^ 2) * avg (fun d => (∑ t, u t d - ∑ t, m t) ^ 2) := by ring
    _ ≤ _ := h
    _ = _ := by field_simp

/-- Two draws, from the independence of all. -/
private theorem pair (hK : 0 < K) (y : (Fin N → Fin K) → Fin N → ℚ) (hi : ∀ φ : Fin N → ℚ → ℝ, avg (fun d => ∏ t, φ t (y d t)) = ∏ t, avg fun d => φ t (y d t))
    {s t : Fin N} (hst : s ≠ t) (f g : ℚ → ℝ) : avg (fun d => f (y d s) * g (y d t)) = avg (fun d => f (y d s)) * avg fun d => g (y d t) := by
  have h := hi fun u q => if u = s then f q else if u = t then g q else 1
  have h1 : ∀ d, (∏ u, if u = s then f (y d u) else if u = t then g (y d u) else 1) = f (y d s) * g (y d t) := fun d => by
    rw [Finset.prod_eq_mul s t hst]
    · simp [hst.symm]
    · intro u _ hu; simp [hu.1, hu.2]
    · simp
    · simp
  simp only [h1] at h
  rw [h, Finset.prod_eq_mul s t hst]
  · simp [hst.symm]
  · intro u _ hu
    simp [hu.1, hu.2, avg_const hK]
  · simp
  · simp
end

section
variable {R : Type} [Draw R F32] {N : ℕ} {r : (Fin N → Fin (2 ^ 24)) → R} (hr : Fair r)
include hr

/-- The samples, their independence, mean and mean square, and their range. -/
private theorem source : ∃ y : (Fin N → Fin (2 ^ 24)) → Fin N → ℚ,
    (∀ d (t : Fin N), ∃ v : F32, nthR Generator.process (Noise.new (r d)) t = (.ok v : Res F32) ∧ v.Is (y d t)) ∧
    (∀ φ : Fin N → ℚ → ℝ, avg (fun d => ∏ t, φ t (y d t)) = ∏ t, avg fun d => φ t (y d t)) ∧
    (∀ t, avg (fun d => (y d t : ℝ)) = -(2 ^ 24)⁻¹ ∧ avg (fun d => (y d t : ℝ) ^ 2) = 1 / 3 + 2 / 3 * (2 ^ 48)⁻¹) ∧
    (∀ d t, ∃ k : ℤ, y d t = k * pow2 (-23) ∧ |k| ≤ 2 ^ 23) := by
  obtain ⟨y, h1, h2, -, h4, -⟩ := C153_white hr
  refine ⟨y, h1, h2, h4, fun d t => ?_⟩
  obtain ⟨v, e1, e2⟩ := h1 d t
  obtain ⟨k, a1, -, a3, -⟩ := C43_noise (Draw.draw : R → F32 × R) (r d) hr.grid t
  have e3 : v = nth (Noise.process (Draw.draw : R → F32 × R)) (Noise.new (r d)) t := by
    have : nthR (S := F32) (E := Panic) Generator.process (Noise.new (r d)) t = .ok (nth (Noise.process (Draw.draw : R → F32 × R)) (Noise.new (r d)) t) := by
      have aux : ∀ (n : ℕ) (g : Noise R), afterR (S := F32) (E := Panic) Generator.process n g = .ok (after (Noise.process (Draw.draw : R → F32 × R)) n g) := by
        intro n
        induction n with
        | zero => intro g; rfl
        | succ n ih => intro g; rw [after_succ']; exact ih _
      unfold nthR
      rw [aux]
      rfl
    rw [e1] at this
    exact Except.ok.inj this
  rw [e3] at e2
  have e4 := e2.unique a3
  refine ⟨(k : ℤ) - 2 ^ 23, ?_, ?_⟩
  · rw [e4, show pow2 (-23) = 1 / 2 ^ 23 by decide +kernel]
    push_cast
    ring
  · rw [abs_le]
    constructor <;> omega

omit [Draw R F32] hr in
private theorem abs_le_one {q : ℚ} {k : ℤ} (h : q = k * pow2 (-23)) (hk : |k| ≤ 2 ^ 23) : |q| ≤ 1 := by
  rw [h, show pow2 (-23) = 1 / 2 ^ 23 by decide +kernel, abs_mul, ← Int.cast_abs]
  have : ((|k| : ℤ) : ℚ) ≤ 2 ^ 23 := by exact_mod_cast hk
  rw [abs_of_pos (show (0 : ℚ) < 1 / 2 ^ 23 by norm_num), mul_one_div, div_le_one (by norm_num)]
  exact this

/-- **C176** (what a meter shows). Noise at the gain `a` is added to any signal `x` of at most `A`, and the mean square of the mixture is measured over `N` samples.
For all but a share `(A + |a|)^4 / (4 N ε²)` of the outcomes of the random numbers it is within `ε` of the mean square of the signal plus `a² / 3`; the other terms are
due to the mean of the noise, -2^-24. -/
theorem C176_meter (hN : 0 < N) (x : Fin N → ℝ) {A : ℝ} (hx : ∀ t, |x t| ≤ A) (a : ℝ) {ε : ℝ} (hε : 0 < ε) : ∃ y : (Fin N → Fin (2 ^ 24)) → Fin N → ℚ,
    (∀ d (t : Fin N), ∃ v : F32, nthR Generator.process (Noise.new (r d)) t = (.ok v : Res F32) ∧ v.Is (y d t)) ∧
    chance (fun d => ε ≤ |(∑ t, (x t + a * y d t) ^ 2) / N - ((∑ t, x t ^ 2) / N + a ^ 2 * (1 / 3 + 2 / 3 * (2 ^ 48)⁻¹) - a * (2 ^ 23)⁻¹ * ((∑ t, x t) / N))|) ≤
      (A + |a|) ^ 4 / (4 * N * ε ^ 2) := by
  have hK : 0 < 2 ^ 24 := by norm_num
  have hN' : (N : ℝ) ≠ 0 := by exact_mod_cast hN.ne'
  obtain ⟨y, h1, h2, h3, h4⟩ := source hr
  refine ⟨y, h1, ?_⟩
  set m : Fin N → ℝ := fun t => x t ^ 2 + a ^ 2 * (1 / 3 + 2 / 3 * (2 ^ 48)⁻¹) - a * (2 ^ 23)⁻¹ * x t with hm
  have e1 : ∀ t, avg (fun d => (x t + a * y d t) ^ 2) = m t := by
    intro t
    have : (fun d => (x t + a * (y d t : ℝ)) ^ 2) = fun d => x t ^ 2 + (2 * a * x t * (y d t : ℝ) + a ^ 2 * (y d t : ℝ) ^ 2) := by funext d; ring
    rw [this, avg_add, avg_add, avg_const hK, avg_mul, avg_mul, (h3 t).1, (h3 t).2, hm]
    norm_num
    ring
  have bd : ∀ d t, (x t + a * (y d t : ℝ)) ^ 2 ≤ (A + |a|) ^ 2 := by
    intro d t
    obtain ⟨k, k1, k2⟩ := h4 d t
    have k3 : |(y d t : ℝ)| ≤ 1 := by
      have := abs_le_one k1 k2
      exact_mod_cast this
    rw [← sq_abs]
    refine pow_le_pow_left₀ (abs_nonneg _) ((abs_add_le _ _).trans (add_le_add (hx t) ?_)) 2
    rw [abs_mul]
    calc _ ≤ |a| * 1 := mul_le_mul_of_nonneg_left k3 (abs_nonneg _)
      _ = _ := mul_one _
  have hv : ∀ t, avg (fun d => ((x t + a * (y d t : ℝ)) ^ 2) ^ 2) ≤ (A + |a|) ^ 4 / 4 + m t ^ 2 := by
    intro t
    have : avg (fun d => ((x t + a * (y d t : ℝ)) ^ 2) ^ 2) ≤ avg fun d => (A + |a|) ^ 2 * (x t + a * (y d t : ℝ)) ^ 2 := avg_mono fun d => by
      rw [sq ((x t + a * (y d t : ℝ)) ^ 2)]
      exact mul_le_mul_of_nonneg_right (bd d t) (sq_nonneg _)
    rw [avg_mul, e1] at this
    nlinarith [sq_nonneg ((A + |a|) ^ 2 / 2 - m t)]
  have hi : ∀ s t, s ≠ t → avg (fun d => (x s + a * (y d s : ℝ)) ^ 2 * (x t + a * (y d t : ℝ)) ^ 2) = m s * m t := by
    intro s t hst
    rw [pair hK y h2 hst (fun q => (x s + a * (q : ℝ)) ^ 2) (fun q => (x t + a * (q : ℝ)) ^ 2), e1, e1]
  have := chebyshev hK hN (fun t d => (x t + a * (y d t : ℝ)) ^ 2) m ((A + |a|) ^ 4 / 4) e1 hv hi hε
  have em : (∑ t, m t) / N = (∑ t, x t ^ 2) / N + a ^ 2 * (1 / 3 + 2 / 3 * (2 ^ 48)⁻¹) - a * (2 ^ 23)⁻¹ * ((∑ t, x t) / N) := by
    rw [hm, Finset.sum_sub_distrib, Finset.sum_add_distrib, Finset.sum_const, Finset.card_univ, Fintype.card_fin, nsmul_eq_mul, ← Finset.mul_sum]
    field_simp
  rw [em] at this
  refine this.trans (le_of_eq ?_)
  field_simp

/-- **C176** (in `f32`). The same for the `f32` sum of the noise and a signal of at most 1, with 2^-21 for the rounding. -/
theorem C176_meter_f32 (hN : 0 < N) (x : Fin N → F32) (q : Fin N → ℚ) (hq : ∀ t, (x t).Is (q t) ∧ |q t| ≤ 1) {ε : ℝ} (hε : 0 < ε) :
    ∃ z : (Fin N → Fin (2 ^ 24)) → Fin N → ℚ,
    (∀ d (t : Fin N), ∃ v : F32, nthR Generator.process (Noise.new (r d)) t = (.ok v : Res F32) ∧ (x t + v).Is (z d t)) ∧
    chance (fun d => ε + (2 ^ 21)⁻¹ ≤ |(∑ t, (z d t : ℝ) ^ 2) / N - ((∑ t, (q t : ℝ) ^ 2) / N + 1 / 3)|) ≤ 4 / (N * ε ^ 2) := by
  have hN' : (0 : ℝ) < N := by exact_mod_cast hN
  obtain ⟨y, h1, h2⟩ := C176_meter hr hN (fun t => (q t : ℝ)) (A := 1) (fun t => by exact_mod_cast (hq t).2) 1 hε
  obtain ⟨y', h1', -, -, h4⟩ := source hr
  have ey : y' = y := by
    funext d t
    obtain ⟨v, a1, a2⟩ := h1 d t
    obtain ⟨v', b1, b2⟩ := h1' d t
    rw [a1] at b1
    cases b1
    exact b2.unique a2
  subst ey
  have hy : ∀ d t, |y' d t| ≤ 1 := fun d t => by
    obtain ⟨k, k1, k2⟩ := h4 d t
    exact abs_le_one k1 k2
  have hs : ∀ d t, |q t + y' d t| ≤ 2 := fun d t => (abs_add_le _ _).trans (by linarith [hy d t, (hq t).2])
  have herr : ∀ d t, |b32.rnd (q t + y' d t) - (q t + y' d t)| ≤ (2 ^ 24)⁻¹ := by
    intro d t
    have := b32.abs_rnd_sub_le_of_abs_le (q := q t + y' d t) (k := 1) (by decide) ((hs d t).trans (by decide +kernel))
    exact this.trans (by decide +kernel)
  refine ⟨fun d t => b32.rnd (q t + y' d t), fun d t => ?_, ?_⟩
  · obtain ⟨v, a1, a2⟩ := h1 d t
    exact ⟨v, a1, Is.add (hq t).1 a2 (fits32' 1 (by norm_num) (by simpa using hs d t))⟩
  · have hms : ∀ d, |(∑ t, ((b32.rnd (q t + y' d t) : ℚ) : ℝ) ^ 2) / N - (∑ t, ((q t : ℝ) + 1 * y' d t) ^ 2) / N| ≤ 5 * (2 ^ 24)⁻¹ := by
      intro d
      rw [← sub_div, ← Finset.sum_sub_distrib, abs_div, abs_of_pos hN', div_le_iff₀ hN']
      refine (Finset.abs_sum_le_sum_abs _ _).trans ?_
      have : ∀ t ∈ (Finset.univ : Finset (Fin N)), |((b32.rnd (q t + y' d t) : ℚ) : ℝ) ^ 2 - ((q t : ℝ) + 1 * y' d t) ^ 2| ≤ 5 * (2 ^ 24)⁻¹ := by
        intro t _
        have a1 : |((b32.rnd (q t + y' d t) : ℚ) : ℝ) - ((q t : ℝ) + y' d t)| ≤ (2 ^ 24)⁻¹ := by
          have h : ((|b32.rnd (q t + y' d t) - (q t + y' d t)| : ℚ) : ℝ) ≤ (((2 ^ 24)⁻¹ : ℚ) : ℝ) := by exact_mod_cast herr d t
          push_cast at h
          exact h
        have a2 : |(q t : ℝ) + y' d t| ≤ 2 := by
          have := hs d t
          exact_mod_cast this
        generalize ((b32.rnd (q t + y' d t) : ℚ) : ℝ) = z at *
        rw [one_mul]
        generalize (q t : ℝ) + y' d t = w at *
        rw [show z ^ 2 - w ^ 2 = (z - w) * ((z - w) + 2 * w) by ring, abs_mul, mul_comm]
        refine mul_le_mul ((abs_add_le _ _).trans ?_) a1 (abs_nonneg _) (by norm_num)
        rw [abs_mul, abs_two]
        have : ((2 : ℝ) ^ 24)⁻¹ ≤ 1 := by norm_num
        linarith
      refine (Finset.sum_le_sum this).trans (le_of_eq ?_)
      rw [Finset.sum_const, Finset.card_univ, Fintype.card_fin, nsmul_eq_mul, mul_comm]
    have hmq : |(∑ t, (q t : ℝ)) / N| ≤ 1 := by
      rw [abs_div, abs_of_pos hN', div_le_one hN']
      refine (Finset.abs_sum_le_sum_abs _ _).trans ((Finset.sum_le_sum fun t _ => show |(q t : ℝ)| ≤ 1 by exact_mod_cast (hq t).2).trans (le_of_eq ?_))
      rw [Finset.sum_const, Finset.card_univ, Fintype.card_fin, nsmul_eq_mul, mul_one]
    refine (chance_mono _ _ fun d hd => ?_).trans (h2.trans (le_of_eq ?_))
    · have h3 := hms d
      generalize (∑ t, ((b32.rnd (q t + y' d t) : ℚ) : ℝ) ^ 2) / N = z at *
      generalize (∑ t, ((q t : ℝ) + 1 * (y' d t : ℝ)) ^ 2) / (N : ℝ) = w at *
      generalize (∑ t, (q t : ℝ) ^ 2) / N = p at *
      generalize (∑ t, (q t : ℝ)) / N = o at *
      have c1 : |z - (p + 1 / 3)| ≤ |w - (p + 1 ^ 2 * (1 / 3 + 2 / 3 * (2 ^ 48)⁻¹) - 1 * (2 ^ 23)⁻¹ * o)| + (2 ^ 21)⁻¹ := by
        have : z - (p + 1 / 3) = (w - (p + 1 ^ 2 * (1 / 3 + 2 / 3 * (2 ^ 48)⁻¹) - 1 * (2 ^ 23)⁻¹ * o)) + ((z - w) + (2 / 3 * (2 ^ 48)⁻¹ - (2 ^ 23)⁻¹ * o)) := by ring
        rw [this]
        refine (abs_add_le _ _).trans (add_le_add le_rfl ((abs_add_le _ _).trans ?_))
        have c2 : |2 / 3 * (2 ^ 48 : ℝ)⁻¹ - (2 ^ 23)⁻¹ * o| ≤ 2 / 3 * (2 ^ 48)⁻¹ + (2 ^ 23)⁻¹ * 1 := by
          refine (abs_sub _ _).trans (add_le_add (le_of_eq (abs_of_pos (by positivity))) ?_)
          rw [abs_mul, abs_of_pos (by positivity)]
          exact mul_le_mul_of_nonneg_left hmq (by positivity)
        refine (add_le_add h3 c2).trans ?_
        norm_num
      linarith
    · rw [abs_one]
      norm_num
      field_simp
      norm_num

/-- **C176** (voices). The sum of any `V` samples, of one noise generator or of several, has the mean `-V 2^-24` and the mean square `V (1 - 2^-48) / 3` above the square
of the mean: voices add in power, not in amplitude, 3 dB for each doubling. The `f32` sum of two is exact. -/
theorem C176_voices : ∃ y : (Fin N → Fin (2 ^ 24)) → Fin N → ℚ,
    (∀ d (t : Fin N), ∃ v : F32, nthR Generator.process (Noise.new (r d)) t = (.ok v : Res F32) ∧ v.Is (y d t)) ∧
    (∀ T : Finset (Fin N), avg (fun d => ∑ t ∈ T, (y d t : ℝ)) = -(T.card * (2 ^ 24)⁻¹) ∧
      avg (fun d => (∑ t ∈ T, (y d t : ℝ)) ^ 2) = T.card * ((1 - (2 ^ 48)⁻¹) / 3) + (T.card * (2 ^ 24)⁻¹) ^ 2) ∧
    ∀ d (s t : Fin N), ∃ v w : F32, nthR Generator.process (Noise.new (r d)) s = (.ok v : Res F32) ∧ nthR Generator.process (Noise.new (r d)) t = (.ok w : Res F32) ∧
      (v + w).Is (y d s + y d t) := by
  have hK : 0 < 2 ^ 24 := by norm_num
  obtain ⟨y, h1, h2, h3, h4⟩ := source hr
  refine ⟨y, h1, fun T => ⟨?_, ?_⟩, fun d s t => ?_⟩
  · rw [avg_sum, Finset.sum_congr rfl fun t _ => (h3 t).1, Finset.sum_const, nsmul_eq_mul]
    ring
  · have e : ∀ d, (∑ t ∈ T, (y d t : ℝ)) ^ 2 = ∑ s ∈ T, ∑ t ∈ T, (y d s : ℝ) * y d t := fun d => by rw [sq, Finset.sum_mul_sum]
    simp only [e]
    rw [avg_sum]
    have e2 : ∀ s ∈ T, avg (fun d => ∑ t ∈ T, (y d s : ℝ) * y d t) = (1 - (2 ^ 48)⁻¹) / 3 + T.card * (2 ^ 48)⁻¹ := by
      intro s hs
      rw [avg_sum]
      have e3 : ∀ t ∈ T, avg (fun d => (y d s : ℝ) * y d t) = (if t = s then (1 - (2 ^ 48)⁻¹) / 3 else 0) + (2 ^ 48)⁻¹ := by
        intro t _
        by_cases hst : t = s
        · subst hst
          rw [if_pos rfl]
          simp only [← sq]
          rw [(h3 t).2]
          norm_num
        · rw [if_neg hst, pair hK y h2 (Ne.symm hst) (fun q => (q : ℝ)) (fun q => (q : ℝ)), (h3 s).1, (h3 t).1]
          norm_num
      rw [Finset.sum_congr rfl e3, Finset.sum_add_distrib, Finset.sum_ite_eq' _ s, if_pos hs, Finset.sum_const, nsmul_eq_mul]
    rw [Finset.sum_congr rfl e2, Finset.sum_const, nsmul_eq_mul]
    norm_num
    ring
  · obtain ⟨v, a1, a2⟩ := h1 d s
    obtain ⟨w, b1, b2⟩ := h1 d t
    obtain ⟨k, k1, k2⟩ := h4 d s
    obtain ⟨l, l1, l2⟩ := h4 d t
    refine ⟨v, w, a1, b1, ?_⟩
    have hb : |y d s + y d t| ≤ 2 := (abs_add_le _ _).trans (by linarith [abs_le_one k1 k2, abs_le_one l1 l2])
    have := Is.add a2 b2 (fits32' 1 (by norm_num) (by simpa using hb))
    rwa [b32.rnd_of_repr] at this
    refine Fmt.repr_dyadic (m := k + l) (e := -23) (by rw [k1, l1]; push_cast; ring) ?_ (by decide)
    refine (abs_add_le k l).trans ((add_le_add k2 l2).trans ?_)
    decide
end

/-- One second of noise with a signal: with a chance of 99 % the mean square shown is right to within 0.1. -/
example {R : Type} [Draw R F32] {r : (Fin 48000 → Fin (2 ^ 24)) → R} (hr : Fair r) (x : Fin 48000 → F32) (q : Fin 48000 → ℚ) (hq : ∀ t, (x t).Is (q t) ∧ |q t| ≤ 1) :=
  C176_meter_f32 hr (by norm_num) x q hq (ε := 1 / 10) (by norm_num)
example : (4 : ℝ) / ((48000 : ℕ) * (1 / 10) ^ 2) < 1 / 100 := by norm_num
/-- Four voices. -/
example : (({0, 1, 2, 3} : Finset (Fin 1000)).card : ℝ) * ((1 - (2 ^ 48)⁻¹) / 3) + ((({0, 1, 2, 3} : Finset (Fin 1000)).card : ℝ) * (2 ^ 24)⁻¹) ^ 2 < 4 / 3 + 1 / 10 ^ 12 := by
  rw [show ({0, 1, 2, 3} : Finset (Fin 1000)).card = 4 by decide]
  norm_num
end Verif
