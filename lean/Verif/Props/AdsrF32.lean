import Verif.Props.Adsr
import Verif.Proofs.Rel

/-! # ADSR timing in floating point: C109 -/

namespace Verif
open Fl

/-- A duration in samples, exactly. -/
def Duration.samplesQ (d : Duration) : ℚ := (d.total : ℚ) / 10 ^ 9 * 48000

theorem Duration.samplesQ_pos {d : Duration} (h : d.total ≠ 0) : (2 ^ 15)⁻¹ ≤ d.samplesQ := by
  have : (1 : ℚ) ≤ d.total := by exact_mod_cast Nat.one_le_iff_ne_zero.mpr h
  unfold Duration.samplesQ
  norm_num
  linarith

/-- `as_secs_f64() * 48000` is accurate. -/
theorem Duration.samp64_rel {d : Duration} (h : d.total ≠ 0) : Rel (2 ^ 50)⁻¹ d.samp64 d.samplesQ := by
  have hN := Duration.samplesQ_pos h
  have e1 : Rel (2 ^ 53)⁻¹ (b64.rnd d.secs) d.secs := Rel.rnd64 (by
    rcases Nat.eq_zero_or_pos d.secs with h | h
    · exact .inl (by simp [h])
    · exact .inr (le_trans (by norm_num) (show (1 : ℚ) ≤ d.secs by exact_mod_cast h)))
  have e2 : Rel (2 ^ 53)⁻¹ d.frac64 ((d.nanos : ℚ) / 10 ^ 9) := Rel.rnd64 (by
    rcases Nat.eq_zero_or_pos d.nanos with h | h
    · exact .inl (by simp [h])
    · have : (1 : ℚ) ≤ d.nanos := by exact_mod_cast h
      exact .inr (by norm_num; linarith))
  have hs : (d.secs : ℚ) + (d.nanos : ℚ) / 10 ^ 9 = d.samplesQ / 48000 := by
    unfold Duration.samplesQ Duration.total
    push_cast
    ring
  have e3 := e1.add e2
  rw [hs] at e3
  have e3b := e3.bounds (by linarith) (by norm_num)
  have e4 : Rel _ d.secs64 _ := e3.trans (δ := (2 ^ 53)⁻¹) (by positivity) (Rel.rnd64 (.inr (by norm_num at e3b hN ⊢; linarith)))
  have e5 := e4.mul_const (k := 48000) (by norm_num)
  rw [div_mul_cancel₀ _ (by norm_num)] at e5
  have e5b := e5.bounds (by linarith) (by norm_num)
  have e6 : Rel _ d.samp64 _ := e5.trans (δ := (2 ^ 53)⁻¹) (by positivity) (Rel.rnd64 (.inr (by norm_num at e5b hN ⊢; linarith)))
  exact e6.mono (by linarith) (by norm_num)

/-- A ramp of rounded additions towards 1. -/
private theorem ramp_up {α : ℚ} (hα : (2 ^ 25)⁻¹ < α) (Q : ℕ → ℚ) (h0 : Q 0 = 0) (hs : ∀ n, Q (n + 1) = b32.rnd (Q n + α)) :
    ∃ T : ℕ, (∀ n < T, 0 ≤ Q n ∧ Q n < 1) ∧ 1 ≤ Q T ∧ 1 ≤ T * (α + (2 ^ 25)⁻¹) ∧ ((T : ℚ) - 1) * (α - (2 ^ 25)⁻¹) < 1 := by
  have err : ∀ q : ℚ, 0 ≤ q → q ≤ 1 → |b32.rnd q - q| ≤ (2 ^ 25)⁻¹ := by
    intro q q0 q1
    have := err32 (q := q) 0 (by norm_num) (by rw [abs_of_nonneg q0]; simpa using q1)
    rwa [show (2 : ℚ) ^ ((0 : ℤ) - 25) = (2 ^ 25)⁻¹ by norm_num] at this
  have r1 : b32.rnd 1 = 1 := by decide +kernel
  have nonneg : ∀ n, 0 ≤ Q n := by
    intro n
    induction n with
    | zero => rw [h0]
    | succ n ih => rw [hs]; exact b32.rnd_nonneg (by have : (0 : ℚ) < (2 ^ 25)⁻¹ := by positivity
                                                     linarith)
  have e0 : (0 : ℚ) < (2 ^ 25)⁻¹ := by positivity
  generalize ((2 : ℚ) ^ 25)⁻¹ = e at *
  have run : ∀ n, (∀ k ≤ n, Q k < 1) → |Q n - n * α| ≤ n * e := by
    intro n
    induction n with
    | zero => intro _; simp [h0]
    | succ n ih =>
      intro h
      have i := ih (fun k hk => h k (by omega))
      have hlt := h (n + 1) le_rfl
      have hsum : Q n + α < 1 := by
        by_contra hc
        have := b32.rnd_mono (not_lt.mp hc)
        rw [r1, ← hs] at this
        linarith
      have er := err (Q n + α) (by linarith [nonneg n]) hsum.le
      rw [← hs] at er
      push_cast
      calc |Q (n + 1) - (n + 1) * α| = |(Q (n + 1) - (Q n + α)) + (Q n - n * α)| := by congr 1; ring
        _ ≤ e + n * e := (abs_add_le _ _).trans (add_le_add er i)
        _ = _ := by ring
  have ex : ∃ n, 1 ≤ Q n := by
    by_contra hno
    push Not at hno
    obtain ⟨n, hn⟩ := exists_nat_gt (1 / (α - e))
    have h1 := (abs_le.mp (run n (fun k _ => hno k))).1
    have h2 : 1 < n * (α - e) := by rwa [div_lt_iff₀ (by linarith)] at hn
    have := hno n
    linarith
  obtain ⟨T, hT, hmin⟩ : ∃ T, 1 ≤ Q T ∧ ∀ n < T, Q n < 1 := ⟨Nat.find ex, Nat.find_spec ex, fun n hn => not_le.mp (Nat.find_min ex hn)⟩
  obtain ⟨t, rfl⟩ : ∃ t, T = t + 1 := by
    cases T with
    | zero => rw [h0] at hT; norm_num at hT
    | succ t => exact ⟨t, rfl⟩
  have hr := run t (fun k hk => hmin k (by omega))
  obtain ⟨l, u⟩ := abs_le.mp hr
  have ht := hmin t (by omega)
  refine ⟨t + 1, fun n hn => ⟨nonneg n, hmin n hn⟩, hT, ?_, ?_⟩
  · push_cast
    rcases le_or_gt 1 (Q t + α) with h | h
    · nlinarith
    · have er := (abs_le.mp (err (Q t + α) (by linarith [nonneg t]) h.le)).2
      rw [← hs] at er
      nlinarith
  · push_cast
    nlinarith

/-- A ramp of rounded subtractions from `q₀` down to a level `θ`. -/
theorem ramp_down {ρ q₀ θ : ℚ} (hρ : (2 ^ 25)⁻¹ < ρ) (hθ0 : 0 ≤ θ) (hθ : b32.Repr θ) (hq0 : θ < q₀) (hq1 : q₀ ≤ 1) (Q : ℕ → ℚ) (h0 : Q 0 = q₀)
    (hs : ∀ n, Q (n + 1) = b32.rnd (Q n + -ρ)) :
    ∃ T : ℕ, (∀ n < T, θ < Q n ∧ Q n ≤ 1) ∧ Q T ≤ θ ∧ q₀ - θ ≤ T * (ρ + (2 ^ 25)⁻¹) ∧ ((T : ℚ) - 1) * (ρ - (2 ^ 25)⁻¹) < q₀ - θ := by
  have err : ∀ q : ℚ, 0 ≤ q → q ≤ 1 → |b32.rnd q - q| ≤ (2 ^ 25)⁻¹ := by
    intro q q0 q1
    have := err32 (q := q) 0 (by norm_num) (by rw [abs_of_nonneg q0]; simpa using q1)
    rwa [show (2 : ℚ) ^ ((0 : ℤ) - 25) = (2 ^ 25)⁻¹ by norm_num] at this
  have e0 : (0 : ℚ) < (2 ^ 25)⁻¹ := by positivity
  have le1 : ∀ n, Q n ≤ 1 := by
    intro n
    induction n with
    | zero => rw [h0]; exact hq1
    | succ n ih =>
      rw [hs]
      exact b32.rnd_le_repr (by exact_mod_cast Fmt.repr32_int (n := 1) (by norm_num)) (by linarith)
  generalize ((2 : ℚ) ^ 25)⁻¹ = e at *
  have run : ∀ n, (∀ k ≤ n, θ < Q k) → |Q n - (q₀ - n * ρ)| ≤ n * e := by
    intro n
    induction n with
    | zero => intro _; simp [h0]
    | succ n ih =>
      intro h
      have i := ih (fun k hk => h k (by omega))
      have hgt := h (n + 1) le_rfl
      have hsum : θ < Q n + -ρ := by
        by_contra hc
        have := b32.rnd_le_repr hθ (not_lt.mp hc)
        rw [← hs] at this
        linarith
      have er := err (Q n + -ρ) (by linarith) (by linarith [le1 n])
      rw [← hs] at er
      push_cast
      calc |Q (n + 1) - (q₀ - (n + 1) * ρ)| = |(Q (n + 1) - (Q n + -ρ)) + (Q n - (q₀ - n * ρ))| := by congr 1; ring
        _ ≤ e + n * e := (abs_add_le _ _).trans (add_le_add er i)
        _ = _ := by ring
  have ex : ∃ n, Q n ≤ θ := by
    by_contra hno
    push Not at hno
    obtain ⟨n, hn⟩ := exists_nat_gt (1 / (ρ - e))
    have h1 := (abs_le.mp (run n (fun k _ => hno k))).2
    have h2 : 1 < n * (ρ - e) := by rwa [div_lt_iff₀ (by linarith)] at hn
    have := hno n
    linarith
  obtain ⟨T, hT, hmin⟩ : ∃ T, Q T ≤ θ ∧ ∀ n < T, θ < Q n := ⟨Nat.find ex, Nat.find_spec ex, fun n hn => not_le.mp (Nat.find_min ex hn)⟩
  obtain ⟨t, rfl⟩ : ∃ t, T = t + 1 := by
    cases T with
    | zero => rw [h0] at hT; linarith
    | succ t => exact ⟨t, rfl⟩
  have hr := run t (fun k hk => hmin k (by omega))
  obtain ⟨l, u⟩ := abs_le.mp hr
  have ht := hmin t (by omega)
  refine ⟨t + 1, fun n hn => ⟨hmin n hn, le1 n⟩, hT, ?_, ?_⟩
  · push_cast
    rcases le_or_gt (Q t + -ρ) θ with h | h
    · nlinarith
    · have er := (abs_le.mp (err (Q t + -ρ) (by linarith) (by linarith [le1 t]))).1
      rw [← hs] at er
      nlinarith
  · push_cast
    nlinarith

/-- From the ramp bounds to a bound on the time. -/
private theorem timing {N T δ γ : ℚ} (hN : 0 < N) (hδ : 0 ≤ δ) (hδ2 : δ ≤ 1 / 2) (hγ : 0 ≤ γ) (h1 : N * (1 - γ) ≤ T * (1 + δ))
    (h2 : (T - 1) * (1 - δ) < N * (1 + γ)) : |T - N| ≤ 1 + N * (2 * δ + 2 * γ) := by
  rw [abs_le]
  have a : 0 ≤ N * δ := by positivity
  have b : 0 ≤ N * γ := by positivity
  constructor
  · by_contra hc
    push Not at hc
    have : T * (1 + δ) < N * (1 - γ - δ) * (1 + δ) := mul_lt_mul_of_pos_right (by nlinarith) (by linarith)
    nlinarith [mul_nonneg b hδ, mul_nonneg a hδ]
  · by_contra hc
    push Not at hc
    have : N * (1 + 2 * δ + 2 * γ) * (1 - δ) < (T - 1) * (1 - δ) := mul_lt_mul_of_pos_right (by nlinarith) (by linarith)
    nlinarith [mul_nonneg b hδ, mul_nonneg a hδ, mul_nonneg a (sub_nonneg.mpr hδ2), mul_nonneg b (sub_nonneg.mpr hδ2)]

private theorem alpha_rel {a : Duration} (ha : a.total ≠ 0) (hN : a.samplesQ ≤ 2 ^ 23) : Rel (2 ^ 22)⁻¹ (b32.rnd (1 / a.samp32)) (1 / a.samplesQ) := by
  have hp := Duration.samplesQ_pos ha
  have hp' : 0 < a.samplesQ := lt_of_lt_of_le (by positivity) hp
  have e1 := Duration.samp64_rel ha
  have e1b := e1.bounds hp' (by norm_num)
  have e2 : Rel _ a.samp32 _ := e1.trans (δ := (2 ^ 24)⁻¹) (by positivity) (Rel.rnd32 (.inr (by norm_num at e1b hp ⊢; linarith)))
  have e3 := e2.inv hp' (by positivity) (by norm_num)
  have b0 : 0 < 1 / a.samplesQ := by positivity
  have b1 : (2 ^ 23)⁻¹ ≤ 1 / a.samplesQ := by
    rw [one_div]; exact inv_anti₀ hp' hN
  have e3b := e3.bounds b0 (by norm_num)
  have e4 := e3.trans (δ := (2 ^ 24)⁻¹) (by positivity) (Rel.rnd32 (.inr (by norm_num at e3b b1 ⊢; linarith)))
  exact e4.mono b0.le (by norm_num)

/-- The decay and release rates are accurate. -/
private theorem rate_rel {n : F64} {D : ℚ} (hn : n.Is (-b64.rnd D)) (h0 : 0 < D) (h1 : D ≤ 1) {d : Duration} (hd : d.total ≠ 0)
    (hN : d.samplesQ ≤ 2 ^ 22 * D) :
    ∃ ρ : ℚ, (SM.down (n / ((d.asSecs : F64) * srM)) : F32).Is (-ρ) ∧ Rel (2 ^ 22)⁻¹ ρ (D / d.samplesQ) ∧ 0 ≤ ρ ∧ ρ ≤ 2 ^ 15 := by
  have hp := Duration.samplesQ_pos hd
  have hp' : 0 < d.samplesQ := lt_of_lt_of_le (by positivity) hp
  have hD : (2 ^ 40)⁻¹ ≤ D := by norm_num at hp hN ⊢; linarith
  have e1 := Duration.samp64_rel hd
  have e1b := e1.bounds hp' (by norm_num)
  have e2 := (e1.inv hp' (by positivity) (by norm_num))
  have e3 : Rel (2 ^ 53)⁻¹ (b64.rnd D) D := Rel.rnd64 (.inr (le_trans (by norm_num) hD))
  have e4 := e3.mul h0 (by positivity) (by positivity) e2
  rw [mul_one_div, mul_one_div] at e4
  have b0 : 0 < D / d.samplesQ := by positivity
  have b1 : (2 ^ 22)⁻¹ ≤ D / d.samplesQ := by
    rw [le_div_iff₀ hp']; norm_num at hN ⊢; linarith
  have e4b := e4.bounds b0 (by norm_num)
  have e5 := e4.trans (δ := (2 ^ 53)⁻¹) (by positivity) (Rel.rnd64 (.inr (by norm_num at e4b b1 ⊢; linarith)))
  have e5b := e5.bounds b0 (by norm_num)
  have e6 := e5.trans (δ := (2 ^ 24)⁻¹) (by positivity) (Rel.rnd32 (.inr (by norm_num at e5b b1 ⊢; linarith)))
  have hs := Duration.samp64_pos hd
  have hs' : 0 < d.samp64 := lt_of_lt_of_le (by norm_num) hs
  have r1 : b64.rnd D ≤ 1 := b64.rnd_le_repr (by exact_mod_cast Fmt.repr64_int (n := 1) (by norm_num)) h1
  have q0 : 0 ≤ b64.rnd D / d.samp64 := div_nonneg (b64.rnd_nonneg h0.le) hs'.le
  have q1 : b64.rnd D / d.samp64 ≤ 2 ^ 15 := by
    rw [div_le_iff₀ hs']; norm_num at hs ⊢; linarith
  have qa : |-b64.rnd D / d.samp64| ≤ 2 ^ 15 := by rw [neg_div, abs_neg, abs_of_nonneg q0]; exact q1
  have v1 := Is.div hn d.samp_is hs'.ne' (fits64' 15 (by norm_num) qa)
  have v2 := Is.down v1 (fits32' 15 (by norm_num) (rnd64_pow2_le 15 qa))
  rw [neg_div, b64.rnd_neg, b32.rnd_neg] at v2
  refine ⟨_, v2, e6.mono b0.le (by norm_num), b32.rnd_nonneg (b64.rnd_nonneg q0), ?_⟩
  have := rnd32_pow2_le 15 (rnd64_pow2_le 15 qa)
  rw [neg_div, b64.rnd_neg, b32.rnd_neg, abs_neg] at this
  exact (le_abs_self _).trans this

/-- The time of a falling ramp. -/
private theorem fall {ρ D N q₀ θ : ℚ} (hN0 : 0 < N) (hD : 0 < D) (hN : N ≤ 2 ^ 22 * D) (hρ : Rel (2 ^ 22)⁻¹ ρ (D / N)) (hθ0 : 0 ≤ θ) (hθ : b32.Repr θ)
    (hq0 : θ < q₀) (hq1 : q₀ ≤ 1) (Q : ℕ → ℚ) (h0 : Q 0 = q₀) (hs : ∀ n, Q (n + 1) = b32.rnd (Q n + -ρ)) :
    ∃ T : ℕ, (∀ n < T, θ < Q n ∧ Q n ≤ 1) ∧ Q T ≤ θ ∧ (q₀ - θ) / D * N ≤ T * (1 + ((2 ^ 22)⁻¹ + N / D * (2 ^ 25)⁻¹)) ∧
      ((T : ℚ) - 1) * (1 - ((2 ^ 22)⁻¹ + N / D * (2 ^ 25)⁻¹)) < (q₀ - θ) / D * N := by
  have b1 : (2 ^ 22)⁻¹ ≤ D / N := by
    rw [le_div_iff₀ hN0]; norm_num at hN ⊢; linarith
  obtain ⟨l, u⟩ := abs_le.mp hρ
  have l' : (1 - (2 ^ 22)⁻¹) * (D / N) ≤ ρ := by linarith
  have u' : ρ ≤ (1 + (2 ^ 22)⁻¹) * (D / N) := by linarith
  have hρ0 : (2 ^ 25)⁻¹ < ρ := by norm_num at b1 l' ⊢; linarith
  obtain ⟨T, h1, h2, h3, h4⟩ := ramp_down hρ0 hθ0 hθ hq0 hq1 Q h0 hs
  have hNp : 0 < N / D := by positivity
  refine ⟨T, h1, h2, ?_, ?_⟩
  · have := h3.trans (mul_le_mul_of_nonneg_left (add_le_add_left u' (2 ^ 25)⁻¹) (Nat.cast_nonneg T))
    have := mul_le_mul_of_nonneg_left this hNp.le
    refine le_trans (le_of_eq (by ring)) (this.trans (le_of_eq ?_))
    field_simp
    ring
  · have hT1 : (1 : ℚ) ≤ T := by
      have : T ≠ 0 := by rintro rfl; rw [h0] at h2; linarith
      exact_mod_cast Nat.one_le_iff_ne_zero.mpr this
    have := lt_of_le_of_lt (mul_le_mul_of_nonneg_left (sub_le_sub_right l' (2 ^ 25)⁻¹) (by linarith : (0 : ℚ) ≤ T - 1)) h4
    have := mul_lt_mul_of_pos_left this hNp
    refine lt_of_le_of_lt (le_of_eq ?_) (this.trans_le (le_of_eq (by ring)))
    field_simp
    ring

/-- Sustain and stopped are stationary. -/
theorem adsr_rest (m : ADSR F32) (h : m.state = .sustain ∨ m.state = .stopped) (x : ℕ → F32) (n : ℕ) :
    modAfter (E := Panic) Modifier.process x m n = .ok m := by
  induction n with
  | zero => rfl
  | succ n ih =>
    rcases h with h | h
    · exact modAfter_succ ih (show (Except.ok (m.process (x n)) : Res _) = _ by rw [(C67_stationary m (x n)).1 h])
    · exact modAfter_succ ih (show (Except.ok (m.process (x n)) : Res _) = _ by rw [(C67_stationary m (x n)).2 h])

section
variable [Libm F64] (a d : Duration) (s : F64) (r : Duration)

/-- The attack phase in f32. -/
private theorem attack (x : ℕ → F32) (ha : a.total ≠ 0) (hN : a.samplesQ ≤ 2 ^ 22) :
    ∃ T : ℕ, |(T : ℚ) - a.samplesQ| ≤ 1 + a.samplesQ * (a.samplesQ / 2 ^ 24 + (2 ^ 21)⁻¹) ∧
      (∀ n < T, ∃ g, modAfter Modifier.process x (ADSR.new a d s r) n = .ok { (ADSR.new a d s r : ADSR F32) with g := g }) ∧
      modAfter Modifier.process x (ADSR.new a d s r) T = .ok { (ADSR.new a d s r : ADSR F32) with state := .decay, g := lit 1 } := by
  have hp := Duration.samplesQ_pos ha
  have hp' : 0 < a.samplesQ := lt_of_lt_of_le (by positivity) hp
  obtain ⟨e, p0, p1⟩ := adsr_a ha d s r
  have hrel := alpha_rel ha (by linarith)
  have hb : b32.rnd (1 / a.samp32) ≤ 2 ^ 15 := (le_abs_self _).trans (rnd32_pow2_le 15 (by rw [abs_of_nonneg p0]; exact p1))
  have hn : 0 ≤ b32.rnd (1 / a.samp32) := b32.rnd_nonneg p0
  set α := b32.rnd (1 / a.samp32) with hα
  obtain ⟨l, u⟩ := abs_le.mp hrel
  have l' : (1 - (2 ^ 22)⁻¹) * (1 / a.samplesQ) ≤ α := by linarith
  have u' : α ≤ (1 + (2 ^ 22)⁻¹) * (1 / a.samplesQ) := by linarith
  have b1 : (2 ^ 22)⁻¹ ≤ 1 / a.samplesQ := by
    rw [one_div]; exact inv_anti₀ hp' hN
  have hα0 : (2 ^ 25)⁻¹ < α := by norm_num at b1 l' ⊢; linarith
  let Q : ℕ → ℚ := fun n => n.rec 0 fun _ q => b32.rnd (q + α)
  obtain ⟨T, h1, h2, h3, h4⟩ := ramp_up hα0 Q rfl (fun _ => rfl)
  have step : ∀ n, n < T → ∃ g : F32, g.Is (Q n) ∧
      modAfter Modifier.process x (ADSR.new a d s r) n = .ok { (ADSR.new a d s r : ADSR F32) with g := g } := by
    intro n
    induction n with
    | zero => intro _; exact ⟨lit 0, lit32_0', rfl⟩
    | succ n ih =>
      intro hT
      obtain ⟨g, hg, hm⟩ := ih (by omega)
      obtain ⟨q0, q1⟩ := h1 n (by omega)
      have hsum := Is.add hg e (fits32' 16 (by norm_num) (by rw [abs_of_nonneg (by linarith)]; linarith [(by norm_num : (1 : ℚ) + 2 ^ 15 ≤ 2 ^ 16)]))
      have hlt := (h1 (n + 1) hT).2
      refine ⟨g + (ADSR.new a d s r : ADSR F32).a, hsum, ?_⟩
      refine modAfter_succ (y := x n * (g + (ADSR.new a d s r : ADSR F32).a)) hm (show (Except.ok (ADSR.process _ _) : Res _) = _ from ?_)
      have hc : (lit 1 ≤? g + (ADSR.new a d s r : ADSR F32).a) = false := by
        rw [Is.le lit32_1' hsum, decide_eq_false_iff_not]; exact not_le.mpr hlt
      unfold ADSR.process
      rw [show (ADSR.new a d s r : ADSR F32).state = .attack from rfl]
      simp only [hc, Bool.false_eq_true, if_false]
      rfl
  refine ⟨T, ?_, fun n hn => (step n hn).imp fun g h => h.2, ?_⟩
  · have := timing (N := a.samplesQ) (T := T) (δ := (2 ^ 22)⁻¹ + a.samplesQ * (2 ^ 25)⁻¹) (γ := 0) hp' (by positivity)
      (by norm_num at hN ⊢; linarith) le_rfl ?_ ?_
    · refine this.trans (le_of_eq ?_); ring
    · have := h3.trans (mul_le_mul_of_nonneg_left (add_le_add_left u' (2 ^ 25)⁻¹) (Nat.cast_nonneg T))
      have := mul_le_mul_of_nonneg_left this hp'.le
      refine le_trans (le_of_eq (by ring)) (this.trans (le_of_eq ?_))
      field_simp
      ring
    · have hT1 : (1 : ℚ) ≤ T := by
        have : T ≠ 0 := by rintro rfl; exact absurd h2 (by norm_num [Q])
        exact_mod_cast Nat.one_le_iff_ne_zero.mpr this
      have := lt_of_le_of_lt (mul_le_mul_of_nonneg_left (sub_le_sub_right l' (2 ^ 25)⁻¹) (by linarith : (0 : ℚ) ≤ T - 1)) h4
      have := mul_lt_mul_of_pos_left this hp'
      refine lt_of_le_of_lt (le_of_eq ?_) (this.trans_le (le_of_eq (by ring)))
      field_simp
      ring
  · obtain ⟨n, rfl⟩ : ∃ n, T = n + 1 := by
      cases T with
      | zero => exact absurd h2 (by norm_num [Q])
      | succ n => exact ⟨n, rfl⟩
    obtain ⟨g, hg, hm⟩ := step n (by omega)
    obtain ⟨q0, q1⟩ := h1 n (by omega)
    have hsum := Is.add hg e (fits32' 16 (by norm_num) (by rw [abs_of_nonneg (by linarith)]; linarith [(by norm_num : (1 : ℚ) + 2 ^ 15 ≤ 2 ^ 16)]))
    refine modAfter_succ (y := x n * lit 1) hm (show (Except.ok (ADSR.process _ _) : Res _) = _ from ?_)
    have hc : (lit 1 ≤? g + (ADSR.new a d s r : ADSR F32).a) = true := by
      rw [Is.le lit32_1' hsum, decide_eq_true_iff]; exact h2
    unfold ADSR.process
    rw [show (ADSR.new a d s r : ADSR F32).state = .attack from rfl]
    simp only [hc, if_true]

/-- The decay phase in f32, from full gain. -/
private theorem decay (x : ℕ → F32) {L : ℚ} (hL : (dbToLinear (Flt.fmin s (lit 0)) : F64).Is L) (hL0 : 0 ≤ L) (hL1 : L < 1) (hd : d.total ≠ 0)
    (hN : d.samplesQ ≤ 2 ^ 22 * (1 - L)) (m : ADSR F32) (hm : m = { (ADSR.new a d s r : ADSR F32) with state := .decay, g := lit 1 }) :
    ∃ T : ℕ, |(T : ℚ) - d.samplesQ| ≤ 1 + d.samplesQ * ((d.samplesQ + 1) / (1 - L) / 2 ^ 24 + (2 ^ 21)⁻¹) ∧
      (∀ n < T, ∃ g, modAfter Modifier.process x m n = .ok { m with g := g }) ∧
      modAfter Modifier.process x m T = .ok { m with state := .sustain, g := m.s } := by
  have hp := Duration.samplesQ_pos hd
  have hp' : 0 < d.samplesQ := lt_of_lt_of_le (by positivity) hp
  have hD : 0 < 1 - L := by linarith
  have hs : m.s.Is (b32.rnd L) := by
    rw [hm]; exact Is.down hL (fits32' 0 (by norm_num) (by rw [abs_of_nonneg hL0]; simpa using hL1.le))
  have hsub : (dbToLinear (Flt.fmin s (lit 0)) - lit 1 : F64).Is (-b64.rnd (1 - L)) := by
    have := Is.sub hL lit64_1 (fits64' 0 (by norm_num) (by rw [abs_le]; constructor <;> norm_num <;> linarith))
    rwa [← neg_sub 1 L, b64.rnd_neg] at this
  obtain ⟨ρ, hρ, hrel, ρ0, ρ1⟩ := rate_rel hsub hD (by linarith) hd hN
  have hρ' : m.d.Is (-ρ) := by rw [hm]; exact hρ
  have s0 : 0 ≤ b32.rnd L := b32.rnd_nonneg hL0
  have serr : |b32.rnd L - L| ≤ (2 ^ 25)⁻¹ := by
    have := err32 (q := L) 0 (by norm_num) (by rw [abs_of_nonneg hL0]; simpa using hL1.le)
    rwa [show (2 : ℚ) ^ ((0 : ℤ) - 25) = (2 ^ 25)⁻¹ by norm_num] at this
  obtain ⟨sl, su⟩ := abs_le.mp serr
  have s1 : b32.rnd L ≤ 1 := b32.rnd_le_repr (by exact_mod_cast Fmt.repr32_int (n := 1) (by norm_num)) hL1.le
  have hst : m.state = .decay := by rw [hm]
  have hg1 : m.g.Is 1 := by rw [hm]; exact lit32_1'
  have h15 : (1 : ℚ) + 2 ^ 15 ≤ 2 ^ 16 := by norm_num
  have last : ∀ (n : ℕ) (g : F32) (q : ℚ), g.Is q → 0 ≤ q → q ≤ 1 → b32.rnd (q + -ρ) ≤ b32.rnd L →
      modAfter (E := Panic) Modifier.process x m n = .ok { m with g := g } →
      modAfter (E := Panic) Modifier.process x m (n + 1) = .ok { m with state := .sustain, g := m.s } := by
    intro n g q hg q0 q1 hle hmn
    have hsum := Is.add hg hρ' (fits32' 16 (by norm_num) (by rw [abs_le]; constructor <;> linarith))
    refine modAfter_succ (y := x n * m.s) hmn (show (Except.ok (ADSR.process _ _) : Res _) = _ from ?_)
    have hc : (g + m.d ≤? m.s) = true := by rw [Is.le hsum hs, decide_eq_true_iff]; exact hle
    unfold ADSR.process
    simp only [hst, hc, if_true]
  rcases s1.eq_or_lt with hθ | hθ
  · -- the sustain level rounds to 1
    refine ⟨1, ?_, ?_, last 0 m.g 1 hg1 (by norm_num) le_rfl ?_ rfl⟩
    · rw [hθ] at su
      have : d.samplesQ ≤ 1 := by norm_num at hN su; linarith
      rw [Nat.cast_one, abs_of_nonneg (by linarith)]
      have : 0 ≤ d.samplesQ * ((d.samplesQ + 1) / (1 - L) / 2 ^ 24 + (2 ^ 21)⁻¹) := by positivity
      linarith
    · intro n hn
      obtain rfl : n = 0 := by omega
      exact ⟨m.g, rfl⟩
    · rw [hθ]; exact b32.rnd_le_repr (by exact_mod_cast Fmt.repr32_int (n := 1) (by norm_num)) (by linarith)
  · let Q : ℕ → ℚ := fun n => n.rec 1 fun _ q => b32.rnd (q + -ρ)
    obtain ⟨T, h1, h2, h3, h4⟩ := fall hp' hD hN hrel s0 (b32.repr_rnd L) hθ le_rfl Q rfl (fun _ => rfl)
    have step : ∀ n, n < T → ∃ g : F32, g.Is (Q n) ∧ modAfter (E := Panic) Modifier.process x m n = .ok { m with g := g } := by
      intro n
      induction n with
      | zero => intro _; exact ⟨m.g, hg1, rfl⟩
      | succ n ih =>
        intro hT
        obtain ⟨g, hg, hmn⟩ := ih (by omega)
        obtain ⟨q0, q1⟩ := h1 n (by omega)
        have hsum := Is.add hg hρ' (fits32' 16 (by norm_num) (by rw [abs_le]; constructor <;> linarith))
        have hlt := (h1 (n + 1) hT).1
        refine ⟨g + m.d, hsum, ?_⟩
        refine modAfter_succ (y := x n * (g + m.d)) hmn (show (Except.ok (ADSR.process _ _) : Res _) = _ from ?_)
        have hc : (g + m.d ≤? m.s) = false := by
          rw [Is.le hsum hs, decide_eq_false_iff_not]; exact not_le.mpr hlt
        unfold ADSR.process
        simp only [hst, hc, Bool.false_eq_true, if_false]
    refine ⟨T, ?_, fun n hn => (step n hn).imp fun g h => h.2, ?_⟩
    · have hND : d.samplesQ / (1 - L) ≤ 2 ^ 22 := by rw [div_le_iff₀ hD]; exact hN
      have w1 : 1 - (2 ^ 25)⁻¹ / (1 - L) ≤ (1 - b32.rnd L) / (1 - L) := by
        rw [sub_le_iff_le_add, ← add_div, le_div_iff₀ hD]; linarith
      have w2 : (1 - b32.rnd L) / (1 - L) ≤ 1 + (2 ^ 25)⁻¹ / (1 - L) := by
        rw [← sub_le_iff_le_add, ← sub_div, div_le_iff₀ hD]; linarith
      have := timing (N := d.samplesQ) (T := T) (δ := (2 ^ 22)⁻¹ + d.samplesQ / (1 - L) * (2 ^ 25)⁻¹) (γ := (2 ^ 25)⁻¹ / (1 - L)) hp' (by positivity)
        (by norm_num at hND ⊢; linarith) (by positivity) ?_ ?_
      · refine this.trans (le_of_eq ?_)
        field_simp
        ring
      · refine le_trans ?_ h3
        rw [mul_comm]
        exact mul_le_mul_of_nonneg_right w1 hp'.le
      · refine lt_of_lt_of_le h4 ?_
        rw [mul_comm d.samplesQ]
        exact mul_le_mul_of_nonneg_right w2 hp'.le
    · obtain ⟨n, rfl⟩ : ∃ n, T = n + 1 := by
        cases T with
        | zero => exact absurd (show (1 : ℚ) ≤ b32.rnd L from h2) (not_le.mpr hθ)
        | succ n => exact ⟨n, rfl⟩
      obtain ⟨g, hg, hmn⟩ := step n (by omega)
      obtain ⟨q0, q1⟩ := h1 n (by omega)
      exact last n g (Q n) hg (by linarith) q1 h2 hmn

/-- Attack, decay and sustain in f32: the attack and the decay take their requested times up to one sample and an error that grows
with the square of the time, and then the envelope stays at the sustain level. `L` is the linear sustain level. -/
theorem C109_attack_decay_partial (x : ℕ → F32) {L : ℚ} (hL : (dbToLinear (Flt.fmin s (lit 0)) : F64).Is L) (hL0 : 0 ≤ L) (hL1 : L < 1)
    (ha : a.total ≠ 0) (hd : d.total ≠ 0) (hNa : a.samplesQ ≤ 2 ^ 22) (hNd : d.samplesQ ≤ 2 ^ 22 * (1 - L)) :
    ∃ A D : ℕ, |(A : ℚ) - a.samplesQ| ≤ 1 + a.samplesQ * (a.samplesQ / 2 ^ 24 + (2 ^ 21)⁻¹) ∧
      |(D : ℚ) - d.samplesQ| ≤ 1 + d.samplesQ * ((d.samplesQ + 1) / (1 - L) / 2 ^ 24 + (2 ^ 21)⁻¹) ∧
      ∀ n, ∃ m : ADSR F32, modAfter Modifier.process x (ADSR.new a d s r) n = .ok m ∧
        (n < A → m.state = .attack) ∧ (A ≤ n → n < A + D → m.state = .decay) ∧ (A + D ≤ n → m.state = .sustain ∧ m.g.Is (b32.rnd L)) := by
  obtain ⟨A, hA, a1, a2⟩ := attack a d s r x ha hNa
  obtain ⟨D, hD, d1, d2⟩ := decay a d s r (fun i => x (A + i)) hL hL0 hL1 hd hNd _ rfl
  refine ⟨A, D, hA, hD, fun n => ?_⟩
  rcases lt_or_ge n A with h | h
  · obtain ⟨g, hg⟩ := a1 n h
    exact ⟨_, hg, fun _ => rfl, fun h' => absurd h (not_lt.mpr h'), fun h' => absurd h (by omega)⟩
  obtain ⟨k, rfl⟩ := Nat.exists_eq_add_of_le h
  rcases lt_or_ge k D with hk | hk
  · obtain ⟨g, hg⟩ := d1 k hk
    exact ⟨_, (modAfter_add a2 k).trans hg, fun h' => absurd h' (by omega), fun _ _ => rfl, fun h' => absurd h' (by omega)⟩
  obtain ⟨j, rfl⟩ := Nat.exists_eq_add_of_le hk
  exact ⟨_, (modAfter_add a2 (D + j)).trans ((modAfter_add d2 j).trans (adsr_rest _ (.inl rfl) _ j)), fun h' => absurd h' (by omega),
    fun _ h' => absurd h' (by omega), fun _ => ⟨rfl, Is.down hL (fits32' 0 (by norm_num) (by rw [abs_of_nonneg hL0]; simpa using hL1.le))⟩⟩

/-- Attack 10 ms (480 samples), decay 100 ms, level 1/2: the attack ends within 2 samples of 480. -/
example (x : ℕ → F32) (r : Duration) : ∃ A D : ℕ, 478 ≤ A ∧ A ≤ 482 ∧ ∀ n, ∃ m : ADSR F32,
    modAfter Modifier.process x (@ADSR.new F32 F64 _ _ _ libmHalf ⟨0, 10000000, by decide, by decide⟩ ⟨0, 100000000, by decide, by decide⟩ (lit (-6)) r) n = .ok m ∧
      (n < A → m.state = .attack) ∧ (A ≤ n → n < A + D → m.state = .decay) ∧ (A + D ≤ n → m.state = .sustain) := by
  let _ := libmHalf
  have e : (⟨0, 10000000, by decide, by decide⟩ : Duration).samplesQ = 480 := by decide +kernel
  obtain ⟨A, D, h1, -, h2⟩ := C109_attack_decay_partial ⟨0, 10000000, by decide, by decide⟩ ⟨0, 100000000, by decide, by decide⟩ (lit (-6)) r x (L := 1 / 2)
    (by decide +kernel) (by norm_num) (by norm_num) (by decide) (by decide) (by decide +kernel) (by decide +kernel)
  have h3 := abs_le.mp (h1.trans (show _ ≤ (2 : ℚ) by rw [e]; norm_num))
  rw [e] at h3
  refine ⟨A, D, ?_, ?_, fun n => ?_⟩
  · have : ((478 : ℕ) : ℚ) ≤ A := by push_cast; linarith [h3.1]
    exact_mod_cast this
  · have : (A : ℚ) ≤ ((482 : ℕ) : ℚ) := by push_cast; linarith [h3.2]
    exact_mod_cast this
  · obtain ⟨m, k1, k2, k3, k4⟩ := h2 n
    exact ⟨m, k1, k2, k3, fun h => (k4 h).1⟩

/-- Release in f32, from any gain `g > 0` an envelope can have: silence is reached after `g/L·r·48000` samples up to one sample and an error
that grows with the square of the time; from sustain that is `r·48000` up to a factor `1 ± 2^-24`. -/
theorem C109_release_partial (x : ℕ → F32) {L : ℚ} (hL : (dbToLinear (Flt.fmin s (lit 0)) : F64).Is L) (hL0 : 0 < L) (hL1 : L ≤ 1)
    (hd : d.total ≠ 0 ∨ L ≠ 1) (hr : r.total ≠ 0) (hN : r.samplesQ ≤ 2 ^ 22 * L) (cs : List (AdsrCall F32)) (m : ADSR F32)
    (hm : m = (ADSR.new a d s r : ADSR F32).run cs) {g : ℚ} (hg : m.g.Is g) (hg0 : 0 < g) :
    (m.state = .sustain → |g / L * r.samplesQ - r.samplesQ| ≤ r.samplesQ / 2 ^ 24) ∧
    ∃ T : ℕ, |(T : ℚ) - g / L * r.samplesQ| ≤ 1 + g / L * r.samplesQ * (r.samplesQ / L / 2 ^ 24 + (2 ^ 21)⁻¹) ∧
      ∀ n, ∃ m' : ADSR F32, modAfter Modifier.process x m.doRelease n = .ok m' ∧
        (n < T → m'.state = .release) ∧ (T ≤ n → m'.state = .stopped ∧ m'.g.Is 0) := by
  have hp := Duration.samplesQ_pos hr
  have hp' : 0 < r.samplesQ := lt_of_lt_of_le (by positivity) hp
  have hLN : (2 ^ 40)⁻¹ ≤ L := by norm_num at hp hN ⊢; linarith
  have ok : AdsrOk m := by
    rw [hm]; exact (adsr_new_ok a d s r hL hL0.le hL1 hd (.inr hL0.ne')).run cs
  obtain ⟨g', hg', -, hg1⟩ := ok.g
  obtain rfl := hg.unique hg'
  obtain ⟨-, -, e3, e4⟩ := run_params cs (ADSR.new a d s r : ADSR F32)
  rw [← hm] at e3 e4
  have hneg : (-dbToLinear (Flt.fmin s (lit 0)) : F64).Is (-b64.rnd L) := by
    rw [b64.rnd_of_repr hL.repr]; exact Is.neg hL
  obtain ⟨ρ, hρ, hrel, ρ0, ρ1⟩ := rate_rel hneg hL0 hL1 hr hN
  have hρ' : m.doRelease.r.Is (-ρ) := by
    show m.r.Is _
    rw [e4]; exact hρ
  have hst : m.doRelease.state = .release := rfl
  have hgr : m.doRelease.g.Is g := hg
  have h15 : (1 : ℚ) + 2 ^ 15 ≤ 2 ^ 16 := by norm_num
  constructor
  · intro h
    have := (C67_levels (M := F64) a d s r cs).1
    rw [← hm] at this
    have hgs := (this h).1
    rw [hgs, e3] at hg
    have hs := Is.down hL (fits32' 0 (by norm_num) (by rw [abs_of_nonneg hL0.le]; simpa using hL1))
    obtain rfl := hg.unique hs
    have er : Rel (2 ^ 24)⁻¹ (b32.rnd L) L := Rel.rnd32 (.inr (le_trans (by norm_num) hLN))
    unfold Rel at er
    rw [show b32.rnd L / L * r.samplesQ - r.samplesQ = (b32.rnd L - L) / L * r.samplesQ by field_simp, abs_mul, abs_of_pos hp', abs_div, abs_of_pos hL0]
    calc |b32.rnd L - L| / L * r.samplesQ ≤ (2 ^ 24)⁻¹ * L / L * r.samplesQ := by gcongr
      _ = _ := by field_simp
  generalize m.doRelease = m₀ at *
  let Q : ℕ → ℚ := fun n => n.rec g fun _ q => b32.rnd (q + -ρ)
  obtain ⟨T, h1, h2, h3, h4⟩ := fall hp' hL0 hN hrel le_rfl b32.repr_zero hg0 hg1 Q rfl (fun _ => rfl)
  rw [sub_zero] at h3 h4
  have step : ∀ n, n < T → ∃ v : F32, v.Is (Q n) ∧ modAfter (E := Panic) Modifier.process x m₀ n = .ok { m₀ with g := v } := by
    intro n
    induction n with
    | zero => intro _; exact ⟨m₀.g, hgr, rfl⟩
    | succ n ih =>
      intro hT
      obtain ⟨v, hv, hmn⟩ := ih (by omega)
      obtain ⟨q0, q1⟩ := h1 n (by omega)
      have hsum := Is.add hv hρ' (fits32' 16 (by norm_num) (by rw [abs_le]; constructor <;> linarith))
      have hlt := (h1 (n + 1) hT).1
      refine ⟨v + m₀.r, hsum, ?_⟩
      refine modAfter_succ (y := x n * (v + m₀.r)) hmn (show (Except.ok (ADSR.process _ _) : Res _) = _ from ?_)
      have hc : (v + m₀.r ≤? lit 0) = false := by
        rw [Is.le hsum lit32_0', decide_eq_false_iff_not]; exact not_le.mpr hlt
      unfold ADSR.process
      simp only [hst, hc, Bool.false_eq_true, if_false]
  have stop : modAfter (E := Panic) Modifier.process x m₀ T = .ok { m₀ with state := .stopped, g := lit 0 } := by
    obtain ⟨n, rfl⟩ : ∃ n, T = n + 1 := by
      cases T with
      | zero => exact absurd (show g ≤ 0 from h2) (not_le.mpr hg0)
      | succ n => exact ⟨n, rfl⟩
    obtain ⟨v, hv, hmn⟩ := step n (by omega)
    obtain ⟨q0, q1⟩ := h1 n (by omega)
    have hsum := Is.add hv hρ' (fits32' 16 (by norm_num) (by rw [abs_le]; constructor <;> linarith))
    refine modAfter_succ (y := x n * lit 0) hmn (show (Except.ok (ADSR.process _ _) : Res _) = _ from ?_)
    have hc : (v + m₀.r ≤? lit 0) = true := by rw [Is.le hsum lit32_0', decide_eq_true_iff]; exact h2
    unfold ADSR.process
    simp only [hst, hc, if_true]
  refine ⟨T, ?_, fun n => ?_⟩
  · have hND : r.samplesQ / L ≤ 2 ^ 22 := by rw [div_le_iff₀ hL0]; exact hN
    have := timing (N := g / L * r.samplesQ) (T := T) (δ := (2 ^ 22)⁻¹ + r.samplesQ / L * (2 ^ 25)⁻¹) (γ := 0) (by positivity) (by positivity)
      (by norm_num at hND ⊢; linarith) le_rfl (by rw [sub_zero, mul_one]; exact h3) (by rw [add_zero, mul_one]; exact h4)
    refine this.trans (le_of_eq ?_)
    ring
  · rcases lt_or_ge n T with h | h
    · obtain ⟨v, -, hv⟩ := step n h
      exact ⟨_, hv, fun _ => hst, fun h' => absurd h (not_lt.mpr h')⟩
    · obtain ⟨j, rfl⟩ := Nat.exists_eq_add_of_le h
      exact ⟨_, (modAfter_add stop j).trans (adsr_rest _ (.inr rfl) _ j), fun h' => absurd h' (by omega), fun _ => ⟨rfl, lit32_0'⟩⟩

/-- Released after one sample of an instant attack the gain is 1, and a release of one second with sustain level 1/2 takes
two seconds up to 0.8 %. -/
example (x : ℕ → F32) : ∃ T : ℕ, |(T : ℚ) - 96000| ≤ 700 ∧ ∀ n, ∃ m' : ADSR F32,
    modAfter Modifier.process x ((@ADSR.new F32 F64 _ _ _ libmHalf Duration.zero ⟨1, 0, by decide, by decide⟩ (lit (-6)) ⟨1, 0, by decide, by decide⟩).run [.process (lit 1)]).doRelease n = .ok m' ∧
      (n < T → m'.state = .release) ∧ (T ≤ n → m'.state = .stopped) := by
  let _ := libmHalf
  have e : (⟨1, 0, by decide, by decide⟩ : Duration).samplesQ = 48000 := by decide +kernel
  obtain ⟨-, T, h1, h2⟩ := C109_release_partial Duration.zero ⟨1, 0, by decide, by decide⟩ (lit (-6)) ⟨1, 0, by decide, by decide⟩ x (L := 1 / 2)
    (by decide +kernel) (by norm_num) (by norm_num) (.inl (by decide)) (by decide) (by decide +kernel) [.process (lit 1)] _ rfl (g := 1) (by decide +kernel) (by norm_num)
  rw [e] at h1
  refine ⟨T, ?_, fun n => ?_⟩
  · norm_num at h1 ⊢; linarith
  · obtain ⟨m, k1, k2, k3⟩ := h2 n
    exact ⟨m, k1, k2, fun h => (k3 h).1⟩

/-- A 100 s attack. -/
def sec100 : Duration := ⟨100, 0, by decide, by decide⟩

omit [Libm F64] in
/-- The attack ramp of a 100 s attack stays below 1 for 5153140 samples. -/
private theorem slow {α : ℚ} (hα : α = 14660155 / 2 ^ 46) (Q : ℕ → ℚ) (h0 : Q 0 = 0) (hs : ∀ n, Q (n + 1) = b32.rnd (Q n + α)) :
    ∀ n ≤ 5153140, Q n < 1 := by
  have α0 : 0 ≤ α := by rw [hα]; norm_num
  have nonneg : ∀ n, 0 ≤ Q n := by
    intro n
    induction n with
    | zero => rw [h0]
    | succ n ih => rw [hs]; exact b32.rnd_nonneg (by linarith)
  have A : ∀ n ≤ 1158566, Q n ≤ n * (α + (2 ^ 27)⁻¹) ∧ Q n ≤ 1 / 4 := by
    intro n hn
    have hn' : (n : ℚ) ≤ 1158566 := by exact_mod_cast hn
    have : Q n ≤ n * (α + (2 ^ 27)⁻¹) := by
      clear hn'
      induction n with
      | zero => simp [h0]
      | succ n ih =>
        have i := ih (by omega)
        have hn' : (n : ℚ) + 1 ≤ 1158566 := by exact_mod_cast hn
        have hle : Q n + α ≤ 1 / 4 := by rw [hα] at i ⊢; norm_num at i ⊢; linarith
        have er := err32 (q := Q n + α) (-2) (by norm_num) (by rw [abs_of_nonneg (by linarith [nonneg n])]; norm_num; linarith)
        rw [← hs, show (2 : ℚ) ^ ((-2 : ℤ) - 25) = (2 ^ 27)⁻¹ by norm_num] at er
        have := (abs_le.mp er).2
        push_cast
        linarith
    exact ⟨this, by rw [hα] at this; norm_num at this; linarith⟩
  have B : ∀ j ≤ 1198372, Q (1158566 + j) ≤ (2 ^ 23 + 7 * j : ℕ) * 2 ^ ((-2 : ℤ) - 23) := by
    intro j
    induction j with
    | zero => intro _; have := (A 1158566 le_rfl).2; norm_num at this ⊢; exact this
    | succ j ih =>
      intro hj
      rw [← Nat.add_assoc, hs, show 2 ^ 23 + 7 * (j + 1) = 2 ^ 23 + 7 * j + 7 by ring]
      exact rnd_add_le (k := -2) (c := 7) (M := 2 ^ 23 + 7 * j) (by norm_num) (by rw [hα]; norm_num [abs_lt]) α0 (by omega) (by omega) (ih (by omega))
  have C : ∀ j ≤ 2796202, Q (2356938 + j) ≤ (2 ^ 23 + 3 * j : ℕ) * 2 ^ ((-1 : ℤ) - 23) := by
    intro j
    induction j with
    | zero => intro _; have := B 1198372 le_rfl; norm_num at this ⊢; linarith
    | succ j ih =>
      intro hj
      rw [← Nat.add_assoc, hs, show 2 ^ 23 + 3 * (j + 1) = 2 ^ 23 + 3 * j + 3 by ring]
      exact rnd_add_le (k := -1) (c := 3) (M := 2 ^ 23 + 3 * j) (by norm_num) (by rw [hα]; norm_num [abs_lt]) α0 (by omega) (by omega) (ih (by omega))
  intro n hn
  rcases le_or_gt n 1158566 with h | h
  · have := (A n h).2; linarith
  rcases le_or_gt n 2356938 with h' | h'
  · obtain ⟨j, rfl⟩ := Nat.exists_eq_add_of_le h.le
    have hj : (j : ℚ) ≤ 1198372 := by exact_mod_cast (by omega : j ≤ 1198372)
    have := B j (by omega)
    push_cast at this
    norm_num at this
    linarith
  · obtain ⟨j, rfl⟩ := Nat.exists_eq_add_of_le h'.le
    have hj : (j : ℚ) ≤ 2796202 := by exact_mod_cast (by omega : j ≤ 2796202)
    have := C j (by omega)
    push_cast at this
    norm_num at this
    linarith

/-- An attack of 100 s takes more than 107 s: after 5153000 samples (4800000 requested) it is still going on. -/
theorem C109_violated (x : ℕ → F32) (n : ℕ) (hn : n ≤ 5153000) :
    sec100.samplesQ = 4800000 ∧
    ∃ m : ADSR F32, modAfter Modifier.process x (ADSR.new sec100 d s r) n = .ok m ∧ m.state = .attack := by
  refine ⟨by decide +kernel, ?_⟩
  obtain ⟨e, p0, -⟩ := adsr_a (a := sec100) (by decide) d s r
  have al : b32.rnd (1 / sec100.samp32) = 14660155 / 2 ^ 46 := by decide +kernel
  set α := b32.rnd (1 / sec100.samp32) with hα
  let Q : ℕ → ℚ := fun n => n.rec 0 fun _ q => b32.rnd (q + α)
  have hQ := slow al Q rfl (fun _ => rfl)
  have α0 : 0 ≤ α := b32.rnd_nonneg p0
  have α1 : α ≤ 1 := by rw [al]; norm_num
  have nonneg : ∀ n, 0 ≤ Q n := by
    intro n
    induction n with
    | zero => exact le_rfl
    | succ n ih => exact b32.rnd_nonneg (by linarith)
  have step : ∀ n, n ≤ 5153000 → ∃ g : F32, g.Is (Q n) ∧
      modAfter (E := Panic) Modifier.process x (ADSR.new sec100 d s r) n = .ok { (ADSR.new sec100 d s r : ADSR F32) with g := g } := by
    intro n
    induction n with
    | zero => intro _; exact ⟨lit 0, lit32_0', rfl⟩
    | succ n ih =>
      intro hT
      obtain ⟨g, hg, hm⟩ := ih (by omega)
      have q0 := nonneg n
      have q1 := hQ n (by omega)
      have hsum := Is.add hg e (fits32' 1 (by norm_num) (by rw [abs_of_nonneg (by linarith)]; linarith))
      have hlt : b32.rnd (Q n + α) < 1 := hQ (n + 1) (by omega)
      refine ⟨g + (ADSR.new sec100 d s r : ADSR F32).a, hsum, ?_⟩
      refine modAfter_succ (y := x n * (g + (ADSR.new sec100 d s r : ADSR F32).a)) hm (show (Except.ok (ADSR.process _ _) : Res _) = _ from ?_)
      have hc : (lit 1 ≤? g + (ADSR.new sec100 d s r : ADSR F32).a) = false := by
        rw [Is.le lit32_1' hsum, decide_eq_false_iff_not]; exact not_le.mpr hlt
      unfold ADSR.process
      rw [show (ADSR.new sec100 d s r : ADSR F32).state = .attack from rfl]
      simp only [hc, Bool.false_eq_true, if_false]
      rfl
  obtain ⟨g, -, hm⟩ := step n hn
  exact ⟨_, hm, rfl⟩

end

/-- 10 ms attack, 100 ms decay to -6 dB, 1 s release: the conditions hold. -/
example : @Fl.Is b64 (@dbToLinear F64 _ libmHalf (Flt.fmin (lit (-6)) (lit 0))) (1 / 2) ∧
    (⟨0, 10000000, by decide, by decide⟩ : Duration).samplesQ = 480 ∧
    (⟨0, 100000000, by decide, by decide⟩ : Duration).samplesQ ≤ 2 ^ 22 * (1 - 1 / 2) ∧
    (⟨1, 0, by decide, by decide⟩ : Duration).samplesQ ≤ 2 ^ 22 * (1 / 2) := by
  refine ⟨by decide +kernel, by decide +kernel, by decide +kernel, by decide +kernel⟩

end Verif
