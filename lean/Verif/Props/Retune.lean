import Verif.Props.Filters
import Verif.Proofs.BandPassAcc
import Verif.Proofs.Tuned

/-! # Retuning a playing filter, exact arithmetic: C135 -/

namespace Verif
open Filter Topology

/-! ## after the last change -/

section
variable {f r : ℝ} (hf : 0 < f) {q : ℕ → ℝ × ℝ} {N : ℕ} (hq : ∀ n, N ≤ n → q n = (f, r)) (x : ℕ → ℝ)
include hf hq

/-- **C135** (low pass, parameters that stop changing). A low pass filter in any state, retuned in any way for a while, from then on
forgets what happened: its output approaches that of a new filter with the final parameters that has been fed the same input. -/
theorem C135_lowpass_partial (m : LowPass ℝ ℝ) : ∃ y u : ℕ → ℝ,
    (∀ n, tunedOut LowPass.tune Modifier.process q x m n = (.ok (y n) : Res ℝ)) ∧
    (∀ n, modOut Modifier.process x (LowPass.new f r : LowPass ℝ ℝ) n = .ok (u n)) ∧
    Tendsto (fun n => y n - u n) atTop (𝓝 0) := by
  obtain ⟨Y, -, -, -, hY⟩ := lp_tuned m q x
  have e : (LowPass.new f r : LowPass ℝ ℝ) = _ := lowpass_new f r
  obtain ⟨u, hu⟩ := lowpass_out (LowPass.new f r : LowPass ℝ ℝ) (by rw [e]) (by rw [e]) (by rw [e]) x
  refine ⟨fun n => Y (n + 3), u, fun n => (hY n).1, fun n => (hu n).1, ?_⟩
  have hk := damping_mem r
  have hg : 0 < lpG (omega f) (damping r) := lpG_pos (omega_pos hf) (by linarith)
  have h3 : ThirdOrder (omega f) (damping r - 1) (fun n => Y (n + N + 3) - u (n + N)) (fun _ => 0) := by
    intro n
    have h1 := (hY (n + 3 + N)).2
    have h2 := (hu (n + 3 + N)).2
    rw [hq _ (by omega)] at h1
    rw [show delayed 0 u 1 (n + 3 + N) = u (n + 2 + N) by rw [show n + 3 + N = n + 2 + N + 1 by ring, delayed_succ, delayed_zero'],
      show delayed 0 u 2 (n + 3 + N) = u (n + 1 + N) by rw [show n + 3 + N = n + 1 + N + 1 + 1 by ring, delayed_succ, delayed_succ, delayed_zero'],
      show delayed 0 u 3 (n + 3 + N) = u (n + N) by rw [show n + 3 + N = n + N + 1 + 1 + 1 by ring, delayed_succ, delayed_succ, delayed_succ, delayed_zero']] at h2
    simp only [e] at h1 h2
    change Y (n + 3 + N + 3) = omega f ^ 3 / lpG (omega f) (damping r) * _ + (damping r * omega f ^ 2 + 2 * damping r * omega f + 3) / lpG (omega f) (damping r) * _ +
      (-damping r * omega f - 3) / lpG (omega f) (damping r) * _ + 1 / lpG (omega f) (damping r) * _ at h1
    change u (n + 3 + N) = omega f ^ 3 / lpG (omega f) (damping r) * _ + (damping r * omega f ^ 2 + 2 * damping r * omega f + 3) / lpG (omega f) (damping r) * _ +
      (-damping r * omega f - 3) / lpG (omega f) (damping r) * _ + 1 / lpG (omega f) (damping r) * _ at h2
    have hG : (omega f ^ 3 + (damping r - 1 + 1) * omega f ^ 2 + (damping r - 1 + 1) * omega f + 1) = lpG (omega f) (damping r) := by unfold lpG; ring
    rw [hG]
    simp only
    rw [h1, h2, show n + 3 + N + 2 = n + 2 + N + 3 by ring, show n + 3 + N + 1 = n + 1 + N + 3 by ring, show n + 3 + N = n + N + 3 by ring]
    field_simp
    ring
  have := thirdOrder_tendsto (omega_pos hf) (by linarith [hk.1]) (by linarith [hk.2]) h3 tendsto_const_nhds
  exact (tendsto_add_atTop_iff_nat (f := fun n => Y (n + 3) - u n) N).mp this

/-- The same for the high pass filter. -/
theorem C135_highpass_partial (m : HighPass ℝ ℝ) : ∃ y u : ℕ → ℝ,
    (∀ n, tunedOut HighPass.tune Modifier.process q x m n = (.ok (y n) : Res ℝ)) ∧
    (∀ n, modOut Modifier.process x (HighPass.new f r : HighPass ℝ ℝ) n = .ok (u n)) ∧
    Tendsto (fun n => y n - u n) atTop (𝓝 0) := by
  obtain ⟨U, Y, ⟨-, -, -, hU⟩, -, hY⟩ := hp_tuned m q x
  have e : (HighPass.new f r : HighPass ℝ ℝ) = _ := highpass_new f r
  obtain ⟨u, hu⟩ := highpass_out (HighPass.new f r : HighPass ℝ ℝ) (by rw [e]) (by rw [e]) (by rw [e]) (by rw [e]) (by rw [e]) (by rw [e]) x
  refine ⟨fun n => Y (n + 3), u, fun n => (hY n).1, fun n => (hu n).1, ?_⟩
  have hk := damping_mem r
  have hg : 0 < lpG (omega f) (damping r) := lpG_pos (omega_pos hf) (by linarith)
  have dl : ∀ (v : ℕ → ℝ) (n : ℕ), delayed 0 v 1 (n + 3 + N) = v (n + 2 + N) ∧ delayed 0 v 2 (n + 3 + N) = v (n + 1 + N) ∧
      delayed 0 v 3 (n + 3 + N) = v (n + N) := fun v n =>
    ⟨by rw [show n + 3 + N = n + 2 + N + 1 by ring, delayed_succ, delayed_zero'],
      by rw [show n + 3 + N = n + 1 + N + 1 + 1 by ring, delayed_succ, delayed_succ, delayed_zero'],
      by rw [show n + 3 + N = n + N + 1 + 1 + 1 by ring, delayed_succ, delayed_succ, delayed_succ, delayed_zero']⟩
  have h3 : ThirdOrder (omega f) (damping r - 1) (fun n => Y (n + N + 3) - u (n + N)) (fun _ => 0) := by
    intro n
    have h1 := (hY (n + 3 + N)).2
    have h2 := (hu (n + 3 + N)).2
    rw [hq _ (by omega), show n + 3 + N + 2 = n + 2 + N + 3 by ring, show n + 3 + N + 1 = n + 1 + N + 3 by ring, hU, hU,
      show U (n + 3 + N) = x (n + N) by rw [show n + 3 + N = n + N + 3 by ring, hU]] at h1
    rw [(dl u n).1, (dl u n).2.1, (dl u n).2.2, (dl x n).1, (dl x n).2.1, (dl x n).2.2] at h2
    have d1 : Y (n + 3 + N + 3) - u (n + 3 + N) = (HighPass.new f r : HighPass ℝ ℝ).b1 * (Y (n + 2 + N + 3) - u (n + 2 + N)) +
        (HighPass.new f r : HighPass ℝ ℝ).b2 * (Y (n + 1 + N + 3) - u (n + 1 + N)) + (HighPass.new f r : HighPass ℝ ℝ).b3 * (Y (n + N + 3) - u (n + N)) := by
      rw [h1, h2, show n + 3 + N = n + N + 3 by ring]
      ring
    simp only [e] at d1
    change _ = (damping r * omega f ^ 2 + 2 * damping r * omega f + 3) / lpG (omega f) (damping r) * _ +
      (-damping r * omega f - 3) / lpG (omega f) (damping r) * _ + 1 / lpG (omega f) (damping r) * _ at d1
    have hG : (omega f ^ 3 + (damping r - 1 + 1) * omega f ^ 2 + (damping r - 1 + 1) * omega f + 1) = lpG (omega f) (damping r) := by unfold lpG; ring
    rw [hG]
    simp only
    rw [d1]
    field_simp
    ring
  have := thirdOrder_tendsto (omega_pos hf) (by linarith [hk.1]) (by linarith [hk.2]) h3 tendsto_const_nhds
  exact (tendsto_add_atTop_iff_nat (f := fun n => Y (n + 3) - u n) N).mp this
end

/-- A sweep from 20 kHz down to 200 Hz in 99 steps, then constant. -/
example : ∀ n : ℕ, 99 ≤ n → (fun n : ℕ => ((20000 - 200 * (min n 99 : ℕ), 1 / 2) : ℝ × ℝ)) n = (200, 1 / 2) := by
  intro n hn
  simp only [min_eq_right hn]
  norm_num

/-! ## band pass -/

private theorem bp_coef (m : BandPass ℝ ℝ) {a b : ℝ} (ha : 0 < a) (hb : 0 < b) (hab : a ≠ b) :
    (m.setCornerFrequencies (a, b)).a0 = (1 - 1 / (1 + Real.tan (Real.pi * max a b / 48000))) * (1 / (1 + Real.tan (Real.pi * min a b / 48000))) ∧
    (m.setCornerFrequencies (a, b)).b1 = bpPole a + bpPole b ∧ (m.setCornerFrequencies (a, b)).b2 = bpPole a * bpPole b := by
  have h := (C64_corners m a b ha hb hab).2.1
  have hg : ∀ k : BandPass ℝ ℝ, k.reset.getCornerFrequencies = k.getCornerFrequencies := fun k => rfl
  unfold BandPass.setCornerFrequencies at h ⊢
  simp only at h ⊢
  rw [hg] at h
  rw [bandpass_reset _ h]
  refine ⟨rfl, ?_, ?_⟩
  · rcases le_total a b with h | h <;> simp only [h, min_eq_left, max_eq_right, min_eq_right, max_eq_left]
    ring
  · rcases le_total a b with h | h <;> simp only [h, min_eq_left, max_eq_right, min_eq_right, max_eq_left]
    ring

private theorem bp_coef' {a b : ℝ} (ha : 0 < a) (hb : 0 < b) (hab : a ≠ b) :
    (BandPass.fromCorners (a, b) : BandPass ℝ ℝ).a0 = (1 - 1 / (1 + Real.tan (Real.pi * max a b / 48000))) * (1 / (1 + Real.tan (Real.pi * min a b / 48000))) ∧
    (BandPass.fromCorners (a, b) : BandPass ℝ ℝ).b1 = bpPole a + bpPole b ∧ (BandPass.fromCorners (a, b) : BandPass ℝ ℝ).b2 = bpPole a * bpPole b := by
  have h := (C64_corners (BandPass.fromCorners (a, b)) a b ha hb hab).1
  have hg : ∀ k : BandPass ℝ ℝ, k.reset.getCornerFrequencies = k.getCornerFrequencies := fun k => rfl
  unfold BandPass.fromCorners at h ⊢
  rw [hg] at h
  rw [bandpass_reset _ h]
  refine ⟨rfl, ?_, ?_⟩
  · rcases le_total a b with h | h <;> simp only [h, min_eq_left, max_eq_right, min_eq_right, max_eq_left]
    ring
  · rcases le_total a b with h | h <;> simp only [h, min_eq_left, max_eq_right, min_eq_right, max_eq_left]
    ring

private theorem bp_tuned' (m : BandPass ℝ ℝ) (q : ℕ → ℝ × ℝ) (x : ℕ → ℝ) : ∃ (s : ℕ → BandPass ℝ ℝ) (U Y : ℕ → ℝ),
    (U 0 = m.x2 ∧ U 1 = m.x1 ∧ ∀ n, U (n + 2) = x n) ∧ (Y 0 = m.y2 ∧ Y 1 = m.y1) ∧
    ∀ n, tunedOut BandPass.setCornerFrequencies Modifier.process q x m n = (.ok (Y (n + 2)) : Res ℝ) ∧
      Y (n + 2) = ((s n).setCornerFrequencies (q n)).a0 * (x n - U n) + ((s n).setCornerFrequencies (q n)).b1 * Y (n + 1) -
        ((s n).setCornerFrequencies (q n)).b2 * Y n := bp_tuned m q x

/-- **C135** (band pass, corners that stop changing): the same as for the other two filters. -/
theorem C135_bandpass_partial {a b : ℝ} (ha : 0 < a) (hb : 0 < b) (hab : a ≠ b) (ha' : a < 24000) (hb' : b < 24000) {q : ℕ → ℝ × ℝ} {N : ℕ}
    (hq : ∀ n, N ≤ n → q n = (a, b)) (x : ℕ → ℝ) (m : BandPass ℝ ℝ) : ∃ y u : ℕ → ℝ,
    (∀ n, tunedOut BandPass.setCornerFrequencies Modifier.process q x m n = (.ok (y n) : Res ℝ)) ∧
    (∀ n, modOut Modifier.process x (BandPass.fromCorners (a, b) : BandPass ℝ ℝ) n = .ok (u n)) ∧
    Tendsto (fun n => y n - u n) atTop (𝓝 0) := by
  obtain ⟨s, U, Y, ⟨-, -, hU⟩, -, hY⟩ := bp_tuned' m q x
  obtain ⟨d0, d1, d2⟩ := bp_coef' ha hb hab
  have z : (dflt : ℝ) = 0 := by unfold dflt; real_simp
  obtain ⟨u, hu⟩ := bandpass_out (BandPass.fromCorners (a, b) : BandPass ℝ ℝ) z z z z x
  refine ⟨fun n => Y (n + 2), u, fun n => (hY n).1, fun n => (hu n).1, ?_⟩
  have h3 : ∀ n, Y (n + 2 + N + 2) - u (n + 2 + N) = (bpPole a + bpPole b) * (Y (n + 1 + N + 2) - u (n + 1 + N)) -
      bpPole a * bpPole b * (Y (n + N + 2) - u (n + N)) + 0 := by
    intro n
    have h1 := (hY (n + 2 + N)).2
    have h2 := (hu (n + 2 + N)).2
    obtain ⟨c0, c1, c2⟩ := bp_coef (s (n + 2 + N)) ha hb hab
    rw [hq _ (by omega), c0, c1, c2, show U (n + 2 + N) = x (n + N) by rw [show n + 2 + N = n + N + 2 by ring, hU],
      show n + 2 + N + 1 = n + 1 + N + 2 by ring, show Y (n + 2 + N) = Y (n + N + 2) by rw [show n + 2 + N = n + N + 2 by ring]] at h1
    rw [d0, d1, d2, show delayed 0 x 2 (n + 2 + N) = x (n + N) by rw [show n + 2 + N = n + N + 1 + 1 by ring, delayed_succ, delayed_succ, delayed_zero'],
      show delayed 0 u 1 (n + 2 + N) = u (n + 1 + N) by rw [show n + 2 + N = n + 1 + N + 1 by ring, delayed_succ, delayed_zero'],
      show delayed 0 u 2 (n + 2 + N) = u (n + N) by rw [show n + 2 + N = n + N + 1 + 1 by ring, delayed_succ, delayed_succ, delayed_zero']] at h2
    rw [h1, h2]
    ring
  have := twoPole_tendsto (e := fun n => Y (n + N + 2) - u (n + N)) (bpPole_abs ha ha') (bpPole_abs hb hb') h3 tendsto_const_nhds
  exact (tendsto_add_atTop_iff_nat (f := fun n => Y (n + 2) - u n) N).mp this

/-- Poles of corners strictly between 6 kHz and 18 kHz. -/
private theorem pole_small {f : ℝ} (h0 : 6000 < f) (h1 : f < 18000) : |bpPole f| ^ 2 + 2 * |bpPole f| < 1 := by
  have low : ∀ {f : ℝ}, 6000 < f → f ≤ 12000 → |bpPole f| ^ 2 + 2 * |bpPole f| < 1 := by
    intro f h0 h1
    have hp := Real.pi_pos
    have t1 : Real.tan (Real.pi * f / 48000) ≤ 1 := by
      rw [← Real.tan_pi_div_four]
      exact Real.strictMonoOn_tan.monotoneOn ⟨by rw [lt_div_iff₀ (by norm_num)]; nlinarith, by rw [div_lt_iff₀ (by norm_num)]; nlinarith⟩ ⟨by linarith, by linarith⟩
        (by rw [div_le_iff₀ (by norm_num)]; nlinarith)
    have t8 : Real.tan (Real.pi / 8) < Real.tan (Real.pi * f / 48000) :=
      Real.strictMonoOn_tan ⟨by linarith, by linarith⟩ ⟨by rw [lt_div_iff₀ (by norm_num)]; nlinarith, by rw [div_lt_iff₀ (by norm_num)]; nlinarith⟩
        (by rw [lt_div_iff₀ (by norm_num)]; nlinarith)
    have p8 : 0 < Real.tan (Real.pi / 8) := Real.tan_pos_of_pos_of_lt_pi_div_two (by positivity) (by linarith)
    have e8 : Real.tan (Real.pi / 8) ^ 2 + 2 * Real.tan (Real.pi / 8) = 1 := by
      have h := Real.tan_two_mul (x := Real.pi / 8)
      rw [show 2 * (Real.pi / 8) = Real.pi / 4 by ring, Real.tan_pi_div_four] at h
      have hne : 1 - Real.tan (Real.pi / 8) ^ 2 ≠ 0 := by
        intro h'
        rw [h', div_zero] at h
        norm_num at h
      rw [eq_div_iff hne] at h
      linarith
    unfold bpPole
    generalize Real.tan (Real.pi * f / 48000) = t at *
    generalize Real.tan (Real.pi / 8) = w at *
    have t0 : 0 < t := p8.trans t8
    rw [abs_of_nonneg (div_nonneg (by linarith) (by linarith)), div_pow, ← mul_div_assoc,
      show (1 - t) ^ 2 / (1 + t) ^ 2 + 2 * (1 - t) / (1 + t) = ((1 - t) ^ 2 + 2 * (1 - t) * (1 + t)) / (1 + t) ^ 2 by field_simp,
      div_lt_one (by positivity)]
    nlinarith
  have sym : bpPole (24000 - f) = -bpPole f := by
    have t0 := tan_pos' (f := f) (by linarith) (by linarith)
    unfold bpPole
    rw [show Real.pi * (24000 - f) / 48000 = Real.pi / 2 - Real.pi * f / 48000 by ring, Real.tan_pi_div_two_sub]
    generalize Real.tan (Real.pi * f / 48000) = t at *
    field_simp
    ring
  rcases le_total f 12000 with h | h
  · exact low h0 h
  · have := low (f := 24000 - f) (by linarith) (by linarith)
    rwa [sym, abs_neg] at this

/-- The pole moves down as the corner moves up. -/
private theorem pole_anti {f g : ℝ} (h0 : 0 < f) (h : f ≤ g) (h1 : g < 24000) : bpPole g ≤ bpPole f := by
  have hp := Real.pi_pos
  have tf := tan_pos' h0 (by linarith)
  have tg := tan_pos' (h0.trans_le h) h1
  have t : Real.tan (Real.pi * f / 48000) ≤ Real.tan (Real.pi * g / 48000) :=
    Real.strictMonoOn_tan.monotoneOn ⟨by rw [lt_div_iff₀ (by norm_num)]; nlinarith, by rw [div_lt_iff₀ (by norm_num)]; nlinarith⟩
      ⟨by rw [lt_div_iff₀ (by norm_num)]; nlinarith, by rw [div_lt_iff₀ (by norm_num)]; nlinarith⟩
      (by rw [div_le_div_iff_of_pos_right (by norm_num)]; nlinarith)
  unfold bpPole
  rw [div_le_div_iff₀ (by linarith) (by linarith)]
  nlinarith

private theorem a0_le {a b : ℝ} (ha : 0 < a) (ha' : a < 24000) (hb : 0 < b) (hb' : b < 24000) :
    |(1 - 1 / (1 + Real.tan (Real.pi * max a b / 48000))) * (1 / (1 + Real.tan (Real.pi * min a b / 48000)))| ≤ 1 := by
  have t1 := tan_pos' (lt_max_of_lt_left ha : 0 < max a b) (max_lt ha' hb')
  have t2 := tan_pos' (lt_min ha hb) (min_lt_of_left_lt ha' : min a b < 24000)
  generalize Real.tan (Real.pi * max a b / 48000) = t at *
  generalize Real.tan (Real.pi * min a b / 48000) = w at *
  have h1 : 1 / (1 + t) ≤ 1 := by rw [div_le_one (by linarith)]; linarith
  have h2 : 0 < 1 / (1 + t) := by positivity
  have h3 : 1 / (1 + w) ≤ 1 := by rw [div_le_one (by linarith)]; linarith
  have h4 : 0 < 1 / (1 + w) := by positivity
  rw [abs_of_nonneg (mul_nonneg (by linarith) h4.le)]
  nlinarith

/-- **C135** (band pass, corners that keep changing). As long as all corners stay between `lo` and `hi`, strictly inside
6 kHz … 18 kHz, the output of a band pass filter is bounded by the input level times a constant, however the corners are changed. -/
theorem C135_bandpass_modulated_partial {lo hi : ℝ} (h6 : 6000 < lo) (h18 : hi < 18000) : ∃ K, ∀ (q : ℕ → ℝ × ℝ) (x : ℕ → ℝ) (B : ℝ) (m : BandPass ℝ ℝ),
    (∀ n, lo ≤ (q n).1 ∧ (q n).1 ≤ hi ∧ lo ≤ (q n).2 ∧ (q n).2 ≤ hi ∧ (q n).1 ≠ (q n).2) → (∀ n, |x n| ≤ B) →
    m.x1 = 0 → m.x2 = 0 → m.y1 = 0 → m.y2 = 0 →
    ∀ n, ∃ y, tunedOut BandPass.setCornerFrequencies Modifier.process q x m n = (.ok y : Res ℝ) ∧ |y| ≤ K * B := by
  by_cases hlh : lo ≤ hi
  swap
  · exact ⟨0, fun q x B m hq => absurd ((hq 0).1.trans (hq 0).2.1) hlh⟩
  set ρ := max |bpPole lo| |bpPole hi| with hρ
  have hr : ρ ^ 2 + 2 * ρ < 1 := by
    rcases max_choice |bpPole lo| |bpPole hi| with h | h <;> rw [hρ, h]
    · exact pole_small h6 (by linarith)
    · exact pole_small (by linarith) h18
  have hr0 : 0 ≤ ρ := le_max_of_le_left (abs_nonneg _)
  have hpole : ∀ f, lo ≤ f → f ≤ hi → |bpPole f| ≤ ρ := by
    intro f h1 h2
    have a1 := pole_anti (by linarith) h1 (by linarith)
    have a2 := pole_anti (by linarith) h2 (by linarith)
    have b1 := (le_abs_self (bpPole lo)).trans (le_max_left _ |bpPole hi|)
    have b2 := (neg_le_of_abs_le (le_max_right |bpPole lo| |bpPole hi|))
    rw [abs_le]
    constructor <;> linarith
  refine ⟨2 / (1 - ρ ^ 2 - 2 * ρ), fun q x B m hq hx e1 e2 e3 e4 => ?_⟩
  obtain ⟨s, U, Y, ⟨hU0, hU1, hU⟩, ⟨hY0, hY1⟩, hY⟩ := bp_tuned' m q x
  have hB : 0 ≤ B := (abs_nonneg _).trans (hx 0)
  set C := 2 / (1 - ρ ^ 2 - 2 * ρ) * B with hC
  have hd : 0 < 1 - ρ ^ 2 - 2 * ρ := by linarith
  have hCe : (ρ ^ 2 + 2 * ρ) * C + 2 * B = C := by 
    have : 1 - ρ ^ 2 - 2 * ρ ≠ 0 := hd.ne'
    have e : C * (1 - ρ ^ 2 - 2 * ρ) = 2 * B := by rw [hC, div_mul_eq_mul_div, div_mul_cancel₀ _ this]
    linarith
  have hC0 : 0 ≤ C := by rw [hC]; positivity
  have hUB : ∀ n, |U n| ≤ B := by
    intro n
    match n with
    | 0 => rw [hU0, e2, abs_zero]; exact hB
    | 1 => rw [hU1, e1, abs_zero]; exact hB
    | n + 2 => rw [hU]; exact hx n
  have key : ∀ n, |Y n| ≤ C ∧ |Y (n + 1)| ≤ C := by
    intro n
    induction n with
    | zero => rw [hY0, hY1, e3, e4, abs_zero]; exact ⟨hC0, hC0⟩
    | succ n ih =>
      refine ⟨ih.2, ?_⟩
      obtain ⟨q1, q2, q3, q4, q5⟩ := hq n
      have h := (hY n).2
      obtain ⟨c0, c1, c2⟩ := bp_coef (s n) (a := (q n).1) (b := (q n).2) (by linarith) (by linarith) q5
      rw [show q n = ((q n).1, (q n).2) from rfl, c0, c1, c2] at h
      have ha := a0_le (a := (q n).1) (b := (q n).2) (by linarith) (by linarith) (by linarith) (by linarith)
      have p1 := hpole _ q1 q2
      have p2 := hpole _ q3 q4
      generalize (1 - 1 / (1 + Real.tan (Real.pi * max (q n).1 (q n).2 / 48000))) * (1 / (1 + Real.tan (Real.pi * min (q n).1 (q n).2 / 48000))) = A at *
      generalize bpPole (q n).1 = b at *
      generalize bpPole (q n).2 = c at *
      have t1 : |A * (x n - U n)| ≤ 2 * B := by
        rw [abs_mul]
        have : |x n - U n| ≤ 2 * B := (abs_sub _ _).trans (by linarith [hx n, hUB n])
        calc |A| * |x n - U n| ≤ 1 * (2 * B) := mul_le_mul ha this (abs_nonneg _) (by norm_num)
          _ = 2 * B := one_mul _
      have t2 : |(b + c) * Y (n + 1)| ≤ 2 * ρ * C := by
        rw [abs_mul]
        exact mul_le_mul ((abs_add_le b c).trans (by linarith)) ih.2 (abs_nonneg _) (by linarith)
      have t3 : |b * c * Y n| ≤ ρ ^ 2 * C := by
        rw [abs_mul, abs_mul, sq]
        exact mul_le_mul (mul_le_mul p1 p2 (abs_nonneg _) hr0) ih.1 (abs_nonneg _) (by positivity)
      rw [show n + 1 + 1 = n + 2 by ring, h]
      have a1 := abs_sub (A * (x n - U n) + (b + c) * Y (n + 1)) (b * c * Y n)
      have a2 := abs_add_le (A * (x n - U n)) ((b + c) * Y (n + 1))
      linarith
  exact fun n => ⟨Y (n + 2), (hY n).1, (key (n + 1)).2⟩

/-- A band moved from 20 kHz down to 200 Hz in 99 steps, then left alone. -/
example : ∀ n : ℕ, 99 ≤ n → (fun n : ℕ => ((20000 - 200 * (min n 99 : ℕ), 20100 - 200 * (min n 99 : ℕ)) : ℝ × ℝ)) n = (200, 300) := by
  intro n hn
  simp only [min_eq_right hn]
  norm_num

/-- Corners moved to and fro between two bands inside 7 kHz … 17 kHz. -/
example (n : ℕ) : let q : ℕ → ℝ × ℝ := fun n => if Even n then (7000, 9000) else (15000, 17000)
    7000 ≤ (q n).1 ∧ (q n).1 ≤ 17000 ∧ 7000 ≤ (q n).2 ∧ (q n).2 ≤ 17000 ∧ (q n).1 ≠ (q n).2 := by
  intro q
  simp only [q]
  split_ifs <;> norm_num

/-! ## band pass, violated -/

theorem bpPole_ge {f c : ℝ} (h0 : 0 < f) (h1 : f ≤ 4000) (hc : 0 ≤ c) (h : 315 * f / 4800000 * (1 + c) ≤ (1 - c) * (1 - (315 * f / 4800000) ^ 2 / 2)) : c ≤ bpPole f := by
  have hp := Real.pi_pos
  have hp1 := Real.pi_lt_d2
  have t0 := tan_pos' h0 (by linarith)
  have x0 : 0 < Real.pi * f / 48000 := by positivity
  have x1 : Real.pi * f / 48000 ≤ 315 * f / 4800000 := by
    rw [div_le_div_iff₀ (by norm_num) (by norm_num)]
    norm_num at hp1
    nlinarith
  have x2 : 315 * f / 4800000 ≤ 1 / 3 := by linarith
  unfold bpPole
  rw [le_div_iff₀ (by linarith)]
  rw [Real.tan_eq_sin_div_cos] at t0 ⊢
  have hs := Real.sin_le x0.le
  have hs0 : 0 < Real.sin (Real.pi * f / 48000) := Real.sin_pos_of_pos_of_lt_pi x0 (by linarith [Real.pi_gt_three])
  have hco := Real.one_sub_sq_div_two_le_cos (x := Real.pi * f / 48000)
  generalize Real.sin (Real.pi * f / 48000) = u at *
  generalize Real.cos (Real.pi * f / 48000) = v at *
  generalize Real.pi * f / 48000 = w at *
  generalize 315 * f / 4800000 = z at *
  have hv : 1 - z ^ 2 / 2 ≤ v := by nlinarith
  have hv0 : 0 < v := by nlinarith
  have hc1 : c ≤ 1 := by
    by_contra hlt
    have hz : 0 < z := by linarith
    have hz2 : 0 < 1 - z ^ 2 / 2 := by nlinarith
    have k1 : 0 < z * (1 + c) := mul_pos hz (by linarith)
    have k2 : (1 - c) * (1 - z ^ 2 / 2) ≤ 0 := mul_nonpos_of_nonpos_of_nonneg (by linarith) hz2.le
    linarith
  have : u * (1 + c) ≤ (1 - c) * v := by nlinarith
  have : u / v * (1 + c) ≤ 1 - c := by rw [div_mul_eq_mul_div, div_le_iff₀ hv0]; linarith
  linarith

private theorem pole_sym {f : ℝ} (h0 : 0 < f) (h1 : f < 24000) : bpPole (24000 - f) = -bpPole f := by
  have t0 := tan_pos' h0 h1
  unfold bpPole
  rw [show Real.pi * (24000 - f) / 48000 = Real.pi / 2 - Real.pi * f / 48000 by ring, Real.tan_pi_div_two_sub]
  generalize Real.tan (Real.pi * f / 48000) = t at *
  field_simp
  ring

/-- Two samples, the first with poles on the right and the second with poles on the left. -/
private theorem pump {s p u v : ℝ} (hs : 6 / 5 ≤ s) (hp : 0 ≤ p) (h : u * v ≤ 0) :
    (s * v - p * u) * (-s * (s * v - p * u) - p * v) ≤ 0 ∧ 36 / 25 * |v| ≤ |-s * (s * v - p * u) - p * v| := by
  set w := s * v - p * u with hw
  have h1 : s * v ^ 2 ≤ w * v := by rw [hw]; nlinarith
  have h2 : 0 ≤ v ^ 2 := sq_nonneg v
  have h3 : 0 ≤ w * v := le_trans (by positivity) h1
  constructor
  · nlinarith [sq_nonneg w, mul_nonneg hp h3]
  · rcases eq_or_ne v 0 with rfl | hv
    · rw [abs_zero, mul_zero]; exact abs_nonneg _
    · have hv' : 0 < |v| := abs_pos.mpr hv
      refine le_of_mul_le_mul_right ?_ hv'
      rw [← abs_mul, mul_assoc, abs_mul_abs_self]
      have : 36 / 25 * (v * v) ≤ -((-s * w - p * v) * v) := by nlinarith [mul_nonneg hp h2]
      exact this.trans (neg_le_abs _)

/-- Corners set before each sample: 2 kHz and 4 kHz, 20 kHz and 22 kHz in turn. -/
def zigzag (n : ℕ) : ℝ × ℝ := if Even n then (2000, 4000) else (20000, 22000)
/-- One sample of 1, then silence. -/
def impulse (n : ℕ) : ℝ := if n = 0 then 1 else 0

/-- **C135**, violated by the band pass filter: with the corners moved to and fro between two bands, each of which is fine by itself,
one sample of 1 followed by silence gives an output that grows past every bound. -/
theorem C135_bandpass_violated : ∃ y : ℕ → ℝ,
    (∀ n, tunedOut BandPass.setCornerFrequencies Modifier.process zigzag impulse (BandPass.fromCorners (2000, 4000) : BandPass ℝ ℝ) n = (.ok (y n) : Res ℝ)) ∧
    ∀ B, ∃ n, B < |y n| := by
  obtain ⟨s, U, Y, ⟨hU0, hU1, hU⟩, ⟨hY0, hY1⟩, hY⟩ := bp_tuned' (BandPass.fromCorners (2000, 4000) : BandPass ℝ ℝ) zigzag impulse
  refine ⟨fun n => Y (n + 2), fun n => (hY n).1, ?_⟩
  have z : (dflt : ℝ) = 0 := by unfold dflt; real_simp
  change U 0 = dflt at hU0
  change U 1 = dflt at hU1
  change Y 0 = dflt at hY0
  change Y 1 = dflt at hY1
  rw [z] at hU0 hU1 hY0 hY1
  have b0 : (7 / 10 : ℝ) ≤ bpPole 2000 := bpPole_ge (by norm_num) (by norm_num) (by norm_num) (by norm_num)
  have c0 : (1 / 2 : ℝ) ≤ bpPole 4000 := bpPole_ge (by norm_num) (by norm_num) (by norm_num) (by norm_num)
  have b1 : bpPole 22000 = -bpPole 2000 := by rw [← pole_sym (by norm_num) (by norm_num)]; norm_num
  have c1 : bpPole 20000 = -bpPole 4000 := by rw [← pole_sym (by norm_num) (by norm_num)]; norm_num
  have hev : ∀ n, Even n → ∃ A, 0 < A ∧ Y (n + 2) = A * (impulse n - U n) + (bpPole 2000 + bpPole 4000) * Y (n + 1) - bpPole 2000 * bpPole 4000 * Y n := by
    intro n hn
    have h := (hY n).2
    rw [show zigzag n = (2000, 4000) from if_pos hn] at h
    obtain ⟨d0, d1, d2⟩ := bp_coef (s n) (a := 2000) (b := 4000) (by norm_num) (by norm_num) (by norm_num)
    rw [d0, d1, d2] at h
    refine ⟨_, ?_, h⟩
    have t1 := tan_pos' (by norm_num : (0 : ℝ) < max 2000 4000) (by norm_num)
    have t2 := tan_pos' (by norm_num : (0 : ℝ) < min 2000 4000) (by norm_num)
    refine mul_pos ?_ (by positivity)
    rw [sub_pos, div_lt_one (by positivity)]
    linarith
  have hod : ∀ n, ¬ Even n → ∃ A, Y (n + 2) = A * (impulse n - U n) - (bpPole 2000 + bpPole 4000) * Y (n + 1) - bpPole 2000 * bpPole 4000 * Y n := by
    intro n hn
    have h := (hY n).2
    rw [show zigzag n = (20000, 22000) from if_neg hn] at h
    obtain ⟨d0, d1, d2⟩ := bp_coef (s n) (a := 20000) (b := 22000) (by norm_num) (by norm_num) (by norm_num)
    rw [d0, d1, d2, b1, c1] at h
    refine ⟨(1 - 1 / (1 + Real.tan (Real.pi * max 20000 22000 / 48000))) * (1 / (1 + Real.tan (Real.pi * min 20000 22000 / 48000))), ?_⟩
    rw [h]
    ring
  set σ := bpPole 2000 + bpPole 4000 with hσ
  set π := bpPole 2000 * bpPole 4000 with hπ
  have hσ' : 6 / 5 ≤ σ := by rw [hσ]; linarith
  have hπ' : 0 ≤ π := by rw [hπ]; exact mul_nonneg (by linarith) (by linarith)
  obtain ⟨A0, hA0, y2⟩ := hev 0 (by decide)
  obtain ⟨A1, y3⟩ := hod 1 (by decide)
  obtain ⟨A2, hA2, y4⟩ := hev 2 (by decide)
  obtain ⟨A3, y5⟩ := hod 3 (by decide)
  have i0 : impulse 0 = 1 := rfl
  have iz : ∀ n, impulse (n + 1) = 0 := fun n => rfl
  have u2 : U 2 = 1 := hU 0
  have uz : ∀ n, U (n + 3) = 0 := fun n => hU (n + 1)
  rw [i0, hU0, hY1, hY0] at y2
  rw [iz 0, hU1, hY1] at y3
  rw [iz 1, u2] at y4
  rw [iz 2, uz 0] at y5
  norm_num at y2 y3 y4 y5
  have p2 : 0 < Y 2 := by rw [y2]; exact hA0
  have p3 : Y 3 < 0 := by rw [y3]; have : 0 < σ * Y 2 := mul_pos (by linarith) p2; linarith
  have p4 : Y 4 < 0 := by
    rw [y4]
    have : 0 < σ * -Y 3 := mul_pos (by linarith) (by linarith)
    have : 0 ≤ π * Y 2 := mul_nonneg hπ' p2.le
    linarith
  have p5 : 0 < Y 5 := by
    rw [y5]
    have : 0 < σ * -Y 4 := mul_pos (by linarith) (by linarith)
    have : 0 ≤ π * -Y 3 := mul_nonneg hπ' (by linarith)
    linarith
  have key : ∀ k : ℕ, Y (2 * k + 4) * Y (2 * k + 5) ≤ 0 ∧ (36 / 25) ^ k * Y 5 ≤ |Y (2 * k + 5)| := by
    intro k
    induction k with
    | zero => exact ⟨by nlinarith, by rw [pow_zero, one_mul]; exact le_abs_self _⟩
    | succ k ih =>
      obtain ⟨A, -, h1⟩ := hev (2 * k + 4) ⟨k + 2, by ring⟩
      obtain ⟨A', h2⟩ := hod (2 * k + 5) (by rw [Nat.not_even_iff_odd]; exact ⟨k + 2, by ring⟩)
      rw [iz (2 * k + 3), uz (2 * k + 1)] at h1
      rw [iz (2 * k + 4), uz (2 * k + 2)] at h2
      rw [show 2 * (k + 1) + 4 = 2 * k + 4 + 2 by ring, show 2 * (k + 1) + 5 = 2 * k + 5 + 2 by ring]
      obtain ⟨g1, g2⟩ := pump hσ' hπ' ih.1
      have e1 : Y (2 * k + 4 + 2) = σ * Y (2 * k + 5) - π * Y (2 * k + 4) := by rw [h1]; ring
      have e2 : Y (2 * k + 5 + 2) = -σ * (σ * Y (2 * k + 5) - π * Y (2 * k + 4)) - π * Y (2 * k + 5) := by
        rw [h2, show 2 * k + 5 + 1 = 2 * k + 4 + 2 by ring, e1]; ring
      rw [e1, e2]
      refine ⟨g1, le_trans ?_ g2⟩
      rw [pow_succ]
      linarith [ih.2]
  intro B
  obtain ⟨k, hk⟩ := pow_unbounded_of_one_lt (B / Y 5) (by norm_num : (1 : ℝ) < 36 / 25)
  refine ⟨2 * k + 3, lt_of_lt_of_le ?_ (key k).2⟩
  rwa [div_lt_iff₀ p5] at hk

end Verif
