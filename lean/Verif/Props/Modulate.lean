import Verif.Props.Retune
import Verif.Proofs.FilterAcc
import Verif.Proofs.Lyapunov

/-! # Cutoffs that never stop moving, within a ratio: C135 (exact arithmetic)

The filters are backward differences of `y''' + k ω y'' + k ω² y' + ω³ y = ω³ x`. -/

namespace Verif

theorem omega_range {f g R : ℝ} (hR : 1 ≤ R) (h1 : f ≤ g) (h2 : g ≤ R * f) : omega f ≤ omega g ∧ omega g ≤ R * omega f := by
  have hp := Real.pi_pos
  have a : min f 24000 ≤ min g 24000 := min_le_min_right _ h1
  have b : min g 24000 ≤ R * min f 24000 := by
    rcases le_total f 24000 with h | h
    · rw [min_eq_left h]; exact (min_le_left _ _).trans h2
    · rw [min_eq_right h]; exact (min_le_right _ _).trans (by linarith)
  unfold omega
  constructor
  · gcongr
  · calc 2 * Real.pi * min g 24000 / 48000 ≤ 2 * Real.pi * (R * min f 24000) / 48000 := by gcongr
      _ = _ := by ring

theorem damping_low {r : ℝ} (h : r ≤ 1 / 2) : 3 / 2 ≤ damping r ∧ damping r ≤ 2 :=
  ⟨lpK_half (le_max_right _ _) (max_le ((min_le_left _ _).trans h) (by norm_num)), (damping_mem r).2⟩

theorem damping_none {r : ℝ} (h : r ≤ 0) : damping r = 2 := by
  unfold damping
  rw [max_eq_right ((min_le_left _ _).trans h), show Real.pi * (4 - 0) / 6 = Real.pi - Real.pi / 3 by ring, Real.cos_pi_sub, Real.cos_pi_div_three]
  norm_num

/-- A setting whose cutoff stays within a factor 9/5 without resonance, or within a factor 7/5 with resonance at most 1/2. -/
def Narrow (f : ℝ) (q : ℕ → ℝ × ℝ) : Prop :=
  (∀ n, f ≤ (q n).1 ∧ (q n).1 ≤ 9 / 5 * f ∧ (q n).2 ≤ 0) ∨ ∀ n, f ≤ (q n).1 ∧ (q n).1 ≤ 7 / 5 * f ∧ (q n).2 ≤ 1 / 2

theorem lp_diff {t k a x u v w y : ℝ} (ht : 0 < t) (hk : 0 ≤ k) (h : y = a ^ 3 / lpG t k * x + (k * t ^ 2 + 2 * k * t + 3) / lpG t k * u +
    (-k * t - 3) / lpG t k * v + 1 / lpG t k * w) : (y - 3 * u + 3 * v - w) + k * t * (y - 2 * u + v) + k * t ^ 2 * (y - u) + t ^ 3 * y = a ^ 3 * x := by
  have hG := (lpG_pos ht hk).ne'
  have : y * lpG t k = a ^ 3 * x + (k * t ^ 2 + 2 * k * t + 3) * u + (-k * t - 3) * v + w := by
    rw [h]; field_simp
  unfold lpG at this
  linear_combination this

/-- **C135** (low pass, parameters that never stop changing). As long as the cutoff moves within a factor 9/5 (without resonance; a factor 7/5
with resonance at most 1/2), in whatever way, a low pass filter is as safe as one that is left alone: from any state, the output is bounded by 58
times the input level and a part that dies away geometrically and is absent in a new filter. -/
theorem C135_lowpass_modulated_partial {f : ℝ} (hf : 0 < f) (m : LowPass ℝ ℝ) : ∃ C, (m.o0 = 0 → m.o1 = 0 → m.o2 = 0 → C = 0) ∧
    ∀ (q : ℕ → ℝ × ℝ) (x : ℕ → ℝ) (B : ℝ), Narrow f q → (∀ n, |x n| ≤ B) →
    ∀ n, ∃ y, tunedOut LowPass.tune Modifier.process q x m n = (.ok y : Res ℝ) ∧ |y| ≤ 58 * B + C / (1 + 9 / 200 * omega f) ^ n := by
  have hτ := omega_pos hf
  refine ⟨max (89 / 100 * certA.size (omega f) m.o0 m.o1 m.o2) (95 / 100 * certB.size (omega f) m.o0 m.o1 m.o2), fun a b c => ?_, fun q x B hq hx n => ?_⟩
  · rw [a, b, c, Cert.size_zero, Cert.size_zero]; norm_num
  obtain ⟨Y, y0, y1, y2, hY⟩ := lp_tuned m q x
  refine ⟨Y (n + 3), (hY n).1, ?_⟩
  have hB : 0 ≤ B := (abs_nonneg _).trans (hx 0)
  have hpos : ∀ n, 0 < (q n).1 := fun n => by rcases hq with h | h <;> linarith [(h n).1]
  have eq : ∀ n, (Y (n + 3) - 3 * Y (n + 2) + 3 * Y (n + 1) - Y n) + damping (q n).2 * omega (q n).1 * (Y (n + 3) - 2 * Y (n + 2) + Y (n + 1)) +
      damping (q n).2 * omega (q n).1 ^ 2 * (Y (n + 3) - Y (n + 2)) + omega (q n).1 ^ 3 * Y (n + 3) = omega f ^ 3 * ((omega (q n).1 / omega f) ^ 3 * x n) := by
    intro n
    have h := (hY n).2
    have e : (LowPass.new (q n).1 (q n).2 : LowPass ℝ ℝ) = _ := lowpass_new (q n).1 (q n).2
    simp only [e] at h
    rw [lp_diff (k := damping (q n).2) (a := omega (q n).1) (omega_pos (hpos n)) (by linarith [(damping_mem (q n).2).1]) h, div_pow]
    field_simp
  have hd : ∀ a : ℝ, 9 / 200 ≤ a → (1 + 9 / 200 * omega f) ^ n ≤ (1 + omega f * a) ^ n := fun a ha =>
    pow_le_pow_left₀ (by positivity) (by nlinarith) n
  have hI : ∀ {R : ℝ}, (∀ n, omega f ≤ omega (q n).1 ∧ omega (q n).1 ≤ R * omega f) → ∀ n, |(omega (q n).1 / omega f) ^ 3 * x n| ≤ R ^ 3 * B := by
    intro R h n
    have p := div_nonneg (omega_pos (hpos n)).le hτ.le
    rw [abs_mul, abs_of_nonneg (pow_nonneg p 3)]
    refine mul_le_mul (pow_le_pow_left₀ p ?_ 3) (hx n) (abs_nonneg _) (pow_nonneg (p.trans ?_) 3) <;> rw [div_le_iff₀ hτ] <;> exact (h n).2
  rcases hq with hq | hq
  · have hw := fun n => omega_range (by norm_num : (1 : ℝ) ≤ 9 / 5) (hq n).1 (hq n).2.1
    have := certA.run (by norm_num) (by norm_num) hτ hw (fun n => damping_none (hq n).2.2) n (fun j _ => hI hw j) (fun j _ => eq j)
    rw [y0, y1, y2] at this
    refine this.trans (add_le_add (by nlinarith) (div_le_div₀ (le_max_of_le_right ?_) (le_max_left _ _) (by positivity) (hd _ (by norm_num))))
    exact mul_nonneg (by norm_num) (Real.sqrt_nonneg _)
  · have hw := fun n => omega_range (by norm_num : (1 : ℝ) ≤ 7 / 5) (hq n).1 (hq n).2.1
    have := certB.run (by norm_num) (by norm_num) hτ hw (fun n => damping_low (hq n).2.2) n (fun j _ => hI hw j) (fun j _ => eq j)
    rw [y0, y1, y2] at this
    refine this.trans (add_le_add (by nlinarith) (div_le_div₀ (le_max_of_le_right ?_) (le_max_right _ _) (by positivity) (hd _ (by norm_num))))
    exact mul_nonneg (by norm_num) (Real.sqrt_nonneg _)

theorem hp_diff {t k x x1 x2 x3 u v w y : ℝ} (ht : 0 < t) (hk : 0 ≤ k) (h : y = 1 / lpG t k * x + -3 / lpG t k * x1 + 3 / lpG t k * x2 +
    -1 / lpG t k * x3 + (k * t ^ 2 + 2 * k * t + 3) / lpG t k * u + (-k * t - 3) / lpG t k * v + 1 / lpG t k * w) :
    ((y - x) - 3 * (u - x1) + 3 * (v - x2) - (w - x3)) + k * t * ((y - x) - 2 * (u - x1) + (v - x2)) + k * t ^ 2 * ((y - x) - (u - x1)) + t ^ 3 * (y - x) =
      -(k * t * (x - 2 * x1 + x2) + k * t ^ 2 * (x - x1) + t ^ 3 * x) := by
  have hG := (lpG_pos ht hk).ne'
  have : y * lpG t k = x - 3 * x1 + 3 * x2 - x3 + (k * t ^ 2 + 2 * k * t + 3) * u + (-k * t - 3) * v + w := by
    rw [h]; field_simp; ring
  unfold lpG at this
  linear_combination this

/-- The same for the high pass filter, with a factor that grows for low cutoffs; `B` also bounds the last two inputs before. -/
theorem C135_highpass_modulated_partial {f : ℝ} (hf : 0 < f) (m : HighPass ℝ ℝ) :
    ∃ C, (m.x1 = 0 → m.x2 = 0 → m.x3 = 0 → m.y1 = 0 → m.y2 = 0 → m.y3 = 0 → C = 0) ∧
    ∀ (q : ℕ → ℝ × ℝ) (x : ℕ → ℝ) (B : ℝ), Narrow f q → |m.x1| ≤ B → |m.x2| ≤ B → (∀ n, |x n| ≤ B) →
    ∀ n, ∃ y, tunedOut HighPass.tune Modifier.process q x m n = (.ok y : Res ℝ) ∧
      |y| ≤ (59 + 166 / omega f + 237 / omega f ^ 2) * B + C / (1 + 9 / 200 * omega f) ^ n := by
  have hτ := omega_pos hf
  refine ⟨max (89 / 100 * certA.size (omega f) (m.y1 - m.x1) (m.y2 - m.x2) (m.y3 - m.x3)) (95 / 100 * certB.size (omega f) (m.y1 - m.x1) (m.y2 - m.x2) (m.y3 - m.x3)),
    fun a b c d e g => ?_, fun q x B hq b1 b2 hx n => ?_⟩
  · rw [a, b, c, d, e, g, sub_zero, Cert.size_zero, Cert.size_zero]; norm_num
  obtain ⟨U, Y, ⟨u0, u1, u2, hU⟩, ⟨y0, y1, y2⟩, hY⟩ := hp_tuned m q x
  refine ⟨Y (n + 3), (hY n).1, ?_⟩
  have hB : 0 ≤ B := (abs_nonneg _).trans (hx 0)
  have hUB : ∀ n, |U (n + 1)| ≤ B := by
    rintro (- | - | n)
    · rw [u1]; exact b2
    · rw [u2]; exact b1
    · rw [hU]; exact hx n
  have hpos : ∀ n, 0 < (q n).1 := fun n => by rcases hq with h | h <;> linarith [(h n).1]
  set i : ℕ → ℝ := fun n => -(damping (q n).2 * (omega (q n).1 / omega f) / omega f ^ 2 * (U (n + 3) - 2 * U (n + 2) + U (n + 1)) +
    damping (q n).2 * (omega (q n).1 / omega f) ^ 2 / omega f * (U (n + 3) - U (n + 2)) + (omega (q n).1 / omega f) ^ 3 * U (n + 3)) with hi
  have eq : ∀ n, ((Y (n + 3) - U (n + 3)) - 3 * (Y (n + 2) - U (n + 2)) + 3 * (Y (n + 1) - U (n + 1)) - (Y n - U n)) +
      damping (q n).2 * omega (q n).1 * ((Y (n + 3) - U (n + 3)) - 2 * (Y (n + 2) - U (n + 2)) + (Y (n + 1) - U (n + 1))) +
      damping (q n).2 * omega (q n).1 ^ 2 * ((Y (n + 3) - U (n + 3)) - (Y (n + 2) - U (n + 2))) + omega (q n).1 ^ 3 * (Y (n + 3) - U (n + 3)) = omega f ^ 3 * i n := by
    intro n
    have h := (hY n).2
    have e : (HighPass.new (q n).1 (q n).2 : HighPass ℝ ℝ) = _ := highpass_new (q n).1 (q n).2
    simp only [e] at h
    rw [← hU n] at h
    rw [hp_diff (k := damping (q n).2) (omega_pos (hpos n)) (by linarith [(damping_mem (q n).2).1]) h, hi]
    field_simp
  have hd : ∀ a : ℝ, 9 / 200 ≤ a → (1 + 9 / 200 * omega f) ^ n ≤ (1 + omega f * a) ^ n := fun a ha =>
    pow_le_pow_left₀ (by positivity) (by nlinarith) n
  have hI : ∀ {R : ℝ}, (∀ n, omega f ≤ omega (q n).1 ∧ omega (q n).1 ≤ R * omega f) → ∀ n,
      |i n| ≤ (8 * R / omega f ^ 2 + 4 * R ^ 2 / omega f + R ^ 3) * B := by
    intro R h n
    have p := div_nonneg (omega_pos (hpos n)).le hτ.le
    have pR : omega (q n).1 / omega f ≤ R := by rw [div_le_iff₀ hτ]; exact (h n).2
    have hR := p.trans pR
    have k2 := (damping_mem (q n).2).2
    have k0 : 0 ≤ damping (q n).2 := by linarith [(damping_mem (q n).2).1]
    rw [hi]
    simp only
    rw [abs_neg]
    generalize omega (q n).1 / omega f = w at p pR ⊢
    obtain ⟨a1, a2⟩ := abs_le.mp (hUB n)
    obtain ⟨a3, a4⟩ := abs_le.mp (hUB (n + 1))
    obtain ⟨a5, a6⟩ := abs_le.mp (hUB (n + 2))
    have A : |damping (q n).2 * w / omega f ^ 2 * (U (n + 3) - 2 * U (n + 2) + U (n + 1))| ≤ 2 * R / omega f ^ 2 * (4 * B) := by
      rw [abs_mul, abs_of_nonneg (by positivity)]
      exact mul_le_mul (by gcongr) (abs_le.mpr ⟨by linarith, by linarith⟩) (abs_nonneg _) (by positivity)
    have A' : |damping (q n).2 * w ^ 2 / omega f * (U (n + 3) - U (n + 2))| ≤ 2 * R ^ 2 / omega f * (2 * B) := by
      rw [abs_mul, abs_of_nonneg (by positivity)]
      exact mul_le_mul (by gcongr) (abs_le.mpr ⟨by linarith, by linarith⟩) (abs_nonneg _) (by positivity)
    have A'' : |w ^ 3 * U (n + 3)| ≤ R ^ 3 * B := by
      rw [abs_mul, abs_of_nonneg (by positivity)]
      exact mul_le_mul (by gcongr) (hUB (n + 2)) (abs_nonneg _) (by positivity)
    refine (abs_add_three _ _ _).trans ((add_le_add (add_le_add A A') A'').trans (le_of_eq ?_))
    ring
  have fin : ∀ {v w : ℝ}, |Y (n + 3) - U (n + 3)| ≤ v → v + B ≤ w → |Y (n + 3)| ≤ w := by
    intro v w h1 h2
    have := abs_sub_abs_le_abs_sub (Y (n + 3)) (U (n + 3))
    have := hUB (n + 2)
    linarith
  have i1 : 0 ≤ 1 / omega f := by positivity
  have i2 : 0 ≤ 1 / omega f ^ 2 := by positivity
  have b1 := mul_nonneg i1 hB
  have b2 := mul_nonneg i2 hB
  rcases hq with hq | hq
  · have hw := fun n => omega_range (by norm_num : (1 : ℝ) ≤ 9 / 5) (hq n).1 (hq n).2.1
    have := certA.run (y := fun n => Y n - U n) (by norm_num) (by norm_num) hτ hw (fun n => damping_none (hq n).2.2) n (fun j _ => hI hw j) (fun j _ => eq j)
    simp only [y0, y1, y2, u0, u1, u2] at this
    have l : 89 / 100 * certA.size (omega f) (m.y1 - m.x1) (m.y2 - m.x2) (m.y3 - m.x3) / (1 + omega f * (9 / 100)) ^ n ≤ _ :=
      div_le_div₀ (le_max_of_le_right (mul_nonneg (by norm_num) (Real.sqrt_nonneg _))) (le_max_left _
        (95 / 100 * certB.size (omega f) (m.y1 - m.x1) (m.y2 - m.x2) (m.y3 - m.x3))) (by positivity) (hd _ (by norm_num))
    refine fin (this.trans (add_le_add le_rfl l)) ?_
    rw [add_right_comm]
    refine add_le_add ?_ le_rfl
    have e1 : 89 / 100 * ((8 * (9 / 5) / omega f ^ 2 + 4 * (9 / 5) ^ 2 / omega f + (9 / 5) ^ 3) * B / (9 / 100)) + B =
      712 / 5 * (1 / omega f ^ 2 * B) + 11534400 / 90000 * (1 / omega f * B) + (5190480 / 90000 + 1) * B := by ring
    rw [e1]
    have e2 : (59 + 166 / omega f + 237 / omega f ^ 2) * B = 237 * (1 / omega f ^ 2 * B) + 166 * (1 / omega f * B) + 59 * B := by ring
    rw [e2]
    linarith
  · have hw := fun n => omega_range (by norm_num : (1 : ℝ) ≤ 7 / 5) (hq n).1 (hq n).2.1
    have := certB.run (y := fun n => Y n - U n) (by norm_num) (by norm_num) hτ hw (fun n => damping_low (hq n).2.2) n (fun j _ => hI hw j) (fun j _ => eq j)
    simp only [y0, y1, y2, u0, u1, u2] at this
    have l : 95 / 100 * certB.size (omega f) (m.y1 - m.x1) (m.y2 - m.x2) (m.y3 - m.x3) / (1 + omega f * (9 / 200)) ^ n ≤ _ :=
      div_le_div₀ (le_max_of_le_right (mul_nonneg (by norm_num) (Real.sqrt_nonneg _))) (le_max_right
        (89 / 100 * certA.size (omega f) (m.y1 - m.x1) (m.y2 - m.x2) (m.y3 - m.x3)) _) (by positivity) (hd _ (by norm_num))
    refine fin (this.trans (add_le_add le_rfl l)) ?_
    rw [add_right_comm]
    refine add_le_add ?_ le_rfl
    have e1 : 95 / 100 * ((8 * (7 / 5) / omega f ^ 2 + 4 * (7 / 5) ^ 2 / omega f + (7 / 5) ^ 3) * B / (9 / 200)) + B =
      95 / 100 * (200 / 9) * (56 / 5) * (1 / omega f ^ 2 * B) + 95 / 100 * (200 / 9) * (196 / 25) * (1 / omega f * B) + (95 / 100 * (200 / 9) * (343 / 125) + 1) * B := by ring
    rw [e1]
    have e2 : (59 + 166 / omega f + 237 / omega f ^ 2) * B = 237 * (1 / omega f ^ 2 * B) + 166 * (1 / omega f * B) + 59 * B := by ring
    rw [e2]
    linarith

/-- A cutoff that jumps between 1 kHz and 1.8 kHz at every sample; a vibrato of a few semitones with resonance 1/2. -/
example : Narrow 1000 (fun n => if n % 2 = 0 then (1000, 0) else (1800, 0)) := by
  refine .inl fun n => ?_
  by_cases h : n % 2 = 0 <;> simp only [h, if_true, if_false] <;> norm_num

example : Narrow 1000 (fun n => (1200 + 200 * Real.sin n, 1 / 2)) := by
  refine .inr fun n => ⟨?_, ?_, le_rfl⟩
  · have := Real.neg_one_le_sin n; simp only; linarith
  · have := Real.sin_le_one n; simp only; linarith

end Verif
