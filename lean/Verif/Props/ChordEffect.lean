import Verif.Props.Transfer
import Verif.Props.Level
import Verif.Spec.Tracks
import Verif.Props.Budget

/-! # The level of a mixture of tones after an effect: C172

Any frequencies between 0 and 24 kHz, no two equal. The level over n samples from sample s on comes as near as wanted to the value
predicted from the gains of the effect at these frequencies, once n is large, for all s at once. -/

namespace Verif
open Filter Topology

/-- The mixture: tone `k` has the amplitude `a k`, the frequency `ν k` and the phase `φ k`. -/
noncomputable def tones {ι : Type} [Fintype ι] (ν a φ : ι → ℝ) (n : ℕ) : ℝ := ∑ k, a k * Real.cos (2 * Real.pi * ν k / 48000 * n + φ k)

private theorem cos_bound {w : ℝ} (hw : Real.sin (w / 2) ≠ 0) (φ : ℝ) (n : ℕ) :
    |∑ i ∈ Finset.range n, Real.cos (w * i + φ)| ≤ 1 / |Real.sin (w / 2)| := by
  have t : 2 * Real.sin (w / 2) * ∑ i ∈ Finset.range n, Real.cos (w * i + φ) = Real.sin (w * n + φ - w / 2) - Real.sin (φ - w / 2) := by
    induction n with
    | zero => simp
    | succ n ih =>
      rw [Finset.sum_range_succ, mul_add, ih]
      have a := Real.sin_sub_sin (w * (n + 1 : ℕ) + φ - w / 2) (w * n + φ - w / 2)
      rw [show (w * (n + 1 : ℕ) + φ - w / 2 - (w * n + φ - w / 2)) / 2 = w / 2 by push_cast; ring,
        show (w * (n + 1 : ℕ) + φ - w / 2 + (w * n + φ - w / 2)) / 2 = w * n + φ by push_cast; ring] at a
      linarith
  have h1 := Real.abs_sin_le_one (w * n + φ - w / 2)
  have h2 := Real.abs_sin_le_one (φ - w / 2)
  have h3 : |2 * Real.sin (w / 2) * ∑ i ∈ Finset.range n, Real.cos (w * i + φ)| ≤ 2 := by
    rw [t]
    exact (abs_sub _ _).trans (by linarith)
  rw [abs_mul, abs_mul, abs_two] at h3
  rw [le_div_iff₀ (abs_pos.mpr hw)]
  linarith

section
variable {ι : Type} [Fintype ι] {ν : ι → ℝ} (hinj : Function.Injective ν) (h0 : ∀ k, 0 < ν k) (h1 : ∀ k, ν k < 24000)
include hinj h0 h1

omit [Fintype ι] in
private theorem pair_sum (k l : ι) (φ θ : ℝ) (hkl : k = l → φ = θ) : ∃ K : ℝ, ∀ s n : ℕ,
    |(∑ i ∈ Finset.range n, Real.cos (2 * Real.pi * ν k / 48000 * (s + i : ℕ) + φ) * Real.cos (2 * Real.pi * ν l / 48000 * (s + i : ℕ) + θ)) -
      (if ν k = ν l then (n : ℝ) / 2 else 0)| ≤ K := by
  set w := 2 * Real.pi * ν k / 48000 with hw
  set v := 2 * Real.pi * ν l / 48000 with hv
  have hp := Real.pi_pos
  have rng : ∀ j : ι, 0 < 2 * Real.pi * ν j / 48000 ∧ 2 * Real.pi * ν j / 48000 < Real.pi := by
    intro j
    refine ⟨by have := h0 j; positivity, ?_⟩
    rw [div_lt_iff₀ (by norm_num)]
    nlinarith [h1 j]
  obtain ⟨a1, a2⟩ := rng k
  obtain ⟨b1, b2⟩ := rng l
  rw [← hw] at a1 a2
  rw [← hv] at b1 b2
  have sp : Real.sin ((w + v) / 2) ≠ 0 := (Real.sin_pos_of_pos_of_lt_pi (by linarith) (by linarith)).ne'
  have e : ∀ s n : ℕ, ∑ i ∈ Finset.range n, Real.cos (w * (s + i : ℕ) + φ) * Real.cos (v * (s + i : ℕ) + θ) =
      (∑ i ∈ Finset.range n, Real.cos ((w - v) * i + ((w - v) * s + φ - θ))) / 2 +
      (∑ i ∈ Finset.range n, Real.cos ((w + v) * i + ((w + v) * s + φ + θ))) / 2 := by
    intro s n
    rw [Finset.sum_div, Finset.sum_div, ← Finset.sum_add_distrib]
    refine Finset.sum_congr rfl fun i _ => ?_
    have a := Real.cos_sub (w * (s + i : ℕ) + φ) (v * (s + i : ℕ) + θ)
    have b := Real.cos_add (w * (s + i : ℕ) + φ) (v * (s + i : ℕ) + θ)
    rw [show (w - v) * (i : ℝ) + ((w - v) * s + φ - θ) = w * (s + i : ℕ) + φ - (v * (s + i : ℕ) + θ) by push_cast; ring,
      show (w + v) * (i : ℝ) + ((w + v) * s + φ + θ) = w * (s + i : ℕ) + φ + (v * (s + i : ℕ) + θ) by push_cast; ring, a, b]
    ring
  by_cases hkl' : ν k = ν l
  · have ek := hinj hkl'
    have eφ := hkl ek
    have ev : w = v := by rw [hw, hv, hkl']
    refine ⟨1 / |Real.sin ((w + v) / 2)| / 2, fun s n => ?_⟩
    rw [if_pos hkl', e]
    have := cos_bound sp ((w + v) * s + φ + θ) n
    have z : ∑ i ∈ Finset.range n, Real.cos ((w - v) * i + ((w - v) * s + φ - θ)) = n := by
      rw [ev, eφ]
      simp
    rw [z, add_sub_cancel_left, abs_div, abs_two]
    linarith
  · have sm : Real.sin ((w - v) / 2) ≠ 0 := by
      have hne : (w - v) / 2 ≠ 0 := by
        intro h
        apply hkl'
        have : w = v := by linarith
        rw [hw, hv] at this
        have h2 : 2 * Real.pi * ν k = 2 * Real.pi * ν l := by linarith
        exact mul_left_cancel₀ (by positivity) h2
      rw [Ne, Real.sin_eq_zero_iff_of_lt_of_lt (by linarith) (by linarith)]
      exact hne
    refine ⟨1 / |Real.sin ((w - v) / 2)| / 2 + 1 / |Real.sin ((w + v) / 2)| / 2, fun s n => ?_⟩
    rw [if_neg hkl', e, sub_zero]
    have c1 := cos_bound sp ((w + v) * s + φ + θ) n
    have c2 := cos_bound sm ((w - v) * s + φ - θ) n
    refine (abs_add_le _ _).trans (add_le_add ?_ ?_)
    · rw [abs_div, abs_two]; linarith
    · rw [abs_div, abs_two]; linarith

/-- The sum of the squares of a mixture is n times the sum of the powers, up to a constant. -/
private theorem tones_sq (a φ : ι → ℝ) : ∃ K : ℝ, ∀ s n : ℕ,
    |(∑ i ∈ Finset.range n, tones ν a φ (s + i) ^ 2) - n * ∑ k, a k ^ 2 / 2| ≤ K := by
  classical
  choose K hK using fun k l => pair_sum hinj h0 h1 k l (φ k) (φ l) (fun h => by rw [h])
  refine ⟨∑ k, ∑ l, |a k * a l| * K k l, fun s n => ?_⟩
  have e : ∑ i ∈ Finset.range n, tones ν a φ (s + i) ^ 2 = ∑ k, ∑ l, a k * a l * ∑ i ∈ Finset.range n,
      (Real.cos (2 * Real.pi * ν k / 48000 * (s + i : ℕ) + φ k) * Real.cos (2 * Real.pi * ν l / 48000 * (s + i : ℕ) + φ l)) := by
    have e1 : ∀ i, tones ν a φ (s + i) ^ 2 = ∑ k, ∑ l, a k * a l *
        (Real.cos (2 * Real.pi * ν k / 48000 * (s + i : ℕ) + φ k) * Real.cos (2 * Real.pi * ν l / 48000 * (s + i : ℕ) + φ l)) := by
      intro i
      unfold tones
      rw [sq, Finset.sum_mul_sum]
      exact Finset.sum_congr rfl fun k _ => Finset.sum_congr rfl fun l _ => by ring
    simp only [e1]
    rw [Finset.sum_comm]
    refine Finset.sum_congr rfl fun k _ => ?_
    rw [Finset.sum_comm]
    refine Finset.sum_congr rfl fun l _ => ?_
    rw [Finset.mul_sum]
  have d : (n : ℝ) * ∑ k, a k ^ 2 / 2 = ∑ k, ∑ l, a k * a l * (if ν k = ν l then (n : ℝ) / 2 else 0) := by
    rw [Finset.mul_sum]
    refine Finset.sum_congr rfl fun k _ => ?_
    have : ∀ l, a k * a l * (if ν k = ν l then (n : ℝ) / 2 else 0) = if k = l then (n : ℝ) * (a k ^ 2 / 2) else 0 := by
      intro l
      by_cases hkl : k = l
      · subst hkl
        rw [if_pos rfl, if_pos rfl]
        ring
      · rw [if_neg (fun h => hkl (hinj h)), if_neg hkl, mul_zero]
    simp only [this]
    rw [Finset.sum_ite_eq Finset.univ k (fun _ => (n : ℝ) * (a k ^ 2 / 2)), if_pos (Finset.mem_univ k)]
  rw [e, d, ← Finset.sum_sub_distrib]
  refine (Finset.abs_sum_le_sum_abs _ _).trans (Finset.sum_le_sum fun k _ => ?_)
  rw [← Finset.sum_sub_distrib]
  refine (Finset.abs_sum_le_sum_abs _ _).trans (Finset.sum_le_sum fun l _ => ?_)
  rw [← mul_sub, abs_mul]
  exact mul_le_mul_of_nonneg_left (hK k l s n) (abs_nonneg _)
end

private theorem tones_abs {ι : Type} [Fintype ι] (ν a φ : ι → ℝ) (n : ℕ) : |tones ν a φ n| ≤ ∑ k, |a k| := by
  refine (Finset.abs_sum_le_sum_abs _ _).trans (Finset.sum_le_sum fun k _ => ?_)
  rw [abs_mul]
  exact mul_le_of_le_one_right (abs_nonneg _) (Real.abs_cos_le_one _)

private theorem sqrt_near {x y e : ℝ} (hx : 0 ≤ x) (hy : 0 ≤ y) (he : 0 ≤ e) (h : |x - y| ≤ e ^ 2) : |Real.sqrt x - Real.sqrt y| ≤ e := by
  have a := Real.sqrt_nonneg x
  have b := Real.sqrt_nonneg y
  have c := Real.sq_sqrt hx
  have d := Real.sq_sqrt hy
  rw [abs_le] at h ⊢
  constructor
  · by_contra hc
    push Not at hc
    nlinarith
  · by_contra hc
    push Not at hc
    nlinarith

/-- A signal that approaches a mixture of tones has its long-term level, wherever the window begins. -/
private theorem level_approach {ι : Type} [Fintype ι] {ν : ι → ℝ} (hinj : Function.Injective ν) (h0 : ∀ k, 0 < ν k) (h1 : ∀ k, ν k < 24000)
    (b θ : ι → ℝ) {y : ℕ → ℝ} (hy : Tendsto (fun n => y n - tones ν b θ n) atTop (𝓝 0)) {ε : ℝ} (hε : 0 < ε) :
    ∃ n0, ∀ n ≥ n0, ∀ s, |level (fun i => y (s + i)) n - Real.sqrt (∑ k, b k ^ 2 / 2)| ≤ ε := by
  obtain ⟨K, hK⟩ := tones_sq hinj h0 h1 b θ
  have hK0 : 0 ≤ K := (abs_nonneg _).trans (hK 0 0)
  set Z := ∑ k, |b k| with hZ
  have hZ0 : 0 ≤ Z := Finset.sum_nonneg fun k _ => abs_nonneg _
  set e : ℕ → ℝ := fun n => y n - tones ν b θ n with he
  obtain ⟨E, hE⟩ : ∃ E : ℝ, ∀ n, |e n| ≤ E := by
    obtain ⟨E, hE⟩ := (Metric.isBounded_range_of_tendsto _ hy).exists_norm_le
    exact ⟨E, fun n => hE _ ⟨n, rfl⟩⟩
  have hE0 : 0 ≤ E := (abs_nonneg _).trans (hE 0)
  set δ := ε ^ 2 / (4 * (2 * Z + E + 1)) with hδ
  have hq : 0 < 2 * Z + E + 1 := by linarith
  have hδ0 : 0 < δ := by positivity
  obtain ⟨n1, hn1⟩ := Metric.tendsto_atTop.mp hy δ hδ0
  have hsum : ∀ n s : ℕ, ∑ i ∈ Finset.range n, |e (s + i)| ≤ n1 * E + n * δ := by
    intro n s
    have hc : ∀ i ∈ Finset.range n, |e (s + i)| ≤ (if i < n1 then E else 0) + δ := by
      intro i _
      by_cases hi : i < n1
      · rw [if_pos hi]
        linarith [hE (s + i)]
      · rw [if_neg hi, zero_add]
        have := hn1 (s + i) (by omega)
        rw [Real.dist_eq, sub_zero] at this
        exact this.le
    refine (Finset.sum_le_sum hc).trans ?_
    rw [Finset.sum_add_distrib, Finset.sum_const, Finset.card_range, nsmul_eq_mul]
    refine add_le_add ?_ le_rfl
    rw [← Finset.sum_filter, Finset.sum_const, nsmul_eq_mul]
    refine mul_le_mul_of_nonneg_right ?_ hE0
    have : ((Finset.range n).filter (· < n1)).card ≤ n1 := by
      refine (Finset.card_le_card (t := Finset.range n1) fun i hi => ?_).trans_eq (Finset.card_range n1)
      exact Finset.mem_range.mpr (Finset.mem_filter.mp hi).2
    exact_mod_cast this
  obtain ⟨n0, hn0⟩ := exists_nat_ge ((K + (2 * Z + E) * (n1 * E)) / (ε ^ 2 / 2))
  refine ⟨n0 + 1, fun n hn s => ?_⟩
  have hnp : (0 : ℝ) < n := by exact_mod_cast (by omega : 0 < n)
  have hL : 0 ≤ ∑ k, b k ^ 2 / 2 := Finset.sum_nonneg fun k _ => by positivity
  unfold level
  refine sqrt_near (div_nonneg (Finset.sum_nonneg fun i _ => sq_nonneg _) hnp.le) hL hε.le ?_
  have d1 : |(∑ i ∈ Finset.range n, y (s + i) ^ 2) - ∑ i ∈ Finset.range n, tones ν b θ (s + i) ^ 2| ≤ (2 * Z + E) * (n1 * E + n * δ) := by
    rw [← Finset.sum_sub_distrib]
    refine (Finset.abs_sum_le_sum_abs _ _).trans ?_
    refine le_trans ?_ (mul_le_mul_of_nonneg_left (hsum n s) (by linarith))
    rw [Finset.mul_sum]
    refine Finset.sum_le_sum fun i _ => ?_
    rw [show y (s + i) ^ 2 - tones ν b θ (s + i) ^ 2 = (2 * tones ν b θ (s + i) + e (s + i)) * e (s + i) by simp only [he]; ring, abs_mul]
    refine mul_le_mul_of_nonneg_right ((abs_add_le _ _).trans ?_) (abs_nonneg _)
    rw [abs_mul, abs_two]
    linarith [hE (s + i), tones_abs ν b θ (s + i)]
  have d2 := hK s n
  have d3 : |(∑ i ∈ Finset.range n, y (s + i) ^ 2) - n * ∑ k, b k ^ 2 / 2| ≤ (2 * Z + E) * (n1 * E + n * δ) + K :=
    (abs_sub_le _ _ _).trans (add_le_add d1 d2)
  rw [show (∑ i ∈ Finset.range n, y (s + i) ^ 2) / n - ∑ k, b k ^ 2 / 2 = ((∑ i ∈ Finset.range n, y (s + i) ^ 2) - n * ∑ k, b k ^ 2 / 2) / n by
    field_simp, abs_div, abs_of_pos hnp, div_le_iff₀ hnp]
  have d4 : K + (2 * Z + E) * (n1 * E) ≤ n * (ε ^ 2 / 2) := by
    rw [div_le_iff₀ (by positivity)] at hn0
    refine hn0.trans (mul_le_mul_of_nonneg_right ?_ (by positivity))
    exact_mod_cast (by omega : n0 ≤ n)
  have d5 : (2 * Z + E) * δ ≤ ε ^ 2 / 4 := by
    rw [hδ, ← mul_div_assoc, div_le_iff₀ (by positivity)]
    nlinarith [sq_nonneg ε]
  have d6 : (2 * Z + E) * (n * δ) ≤ n * (ε ^ 2 / 4) := by
    rw [show (2 * Z + E) * (n * δ) = n * ((2 * Z + E) * δ) by ring]
    exact mul_le_mul_of_nonneg_left d5 hnp.le
  have d7 : 0 ≤ n * (ε ^ 2 / 4) := by positivity
  linarith [d3, d4, d6]

section
variable {ι : Type} [Fintype ι] {ν : ι → ℝ} {X E : Type} {p : X → ℝ → Except E (ℝ × X)} {m : X} {g : ι → ℝ}

/-- A linear effect turns a mixture of tones into a mixture of tones, each with its own gain. -/
theorem C172_tones (hs : Settles p m) (hg : ∀ k, SteadyGain p m (ν k) (g k)) : ∃ ψ : ι → ℝ, ∀ a φ : ι → ℝ, ∃ y : ℕ → ℝ,
    (∀ n, modOut p (tones ν a φ) m n = .ok (y n)) ∧
    Tendsto (fun n => y n - tones ν (fun k => g k * a k) (fun k => φ k + ψ k) n) atTop (𝓝 0) := by
  classical
  choose ψ hψ using fun k => (hg k).2
  refine ⟨ψ, fun a φ => ?_⟩
  have key : ∀ t : Finset ι, ∃ y : ℕ → ℝ,
      (∀ n, modOut p (fun n : ℕ => ∑ k ∈ t, a k * Real.cos (2 * Real.pi * ν k / 48000 * n + φ k)) m n = .ok (y n)) ∧
      Tendsto (fun n : ℕ => y n - ∑ k ∈ t, g k * a k * Real.cos (2 * Real.pi * ν k / 48000 * n + (φ k + ψ k))) atTop (𝓝 0) := by
    intro t
    induction t using Finset.induction_on with
    | empty =>
      obtain ⟨y, h1, h2⟩ := hs.fades (fun _ => 0) tendsto_const_nhds
      exact ⟨y, by simpa using h1, by simpa using h2⟩
    | insert k t hk ih =>
      obtain ⟨y, h1, h2⟩ := ih
      obtain ⟨z, h3, h4⟩ := hψ k (a k) (φ k)
      refine ⟨fun n => z n + y n, fun n => ?_, ?_⟩
      · obtain ⟨s, t', e1, e2, e3⟩ := hs.superposition (fun n : ℕ => a k * Real.cos (2 * Real.pi * ν k / 48000 * n + φ k))
          (fun n : ℕ => ∑ k ∈ t, a k * Real.cos (2 * Real.pi * ν k / 48000 * n + φ k)) 1 1 n
        rw [h3 n] at e1
        rw [h1 n] at e2
        injection e1 with e1
        injection e2 with e2
        subst e1 e2
        simp only [one_mul] at e3
        rw [← e3]
        congr 1
        funext i
        rw [Finset.sum_insert hk]
      · have := h4.add h2
        rw [add_zero] at this
        refine this.congr fun n => ?_
        rw [Finset.sum_insert hk, ← add_assoc (2 * Real.pi * ν k / 48000 * n)]
        ring
  exact key Finset.univ

variable (hinj : Function.Injective ν) (h0 : ∀ k, 0 < ν k) (h1 : ∀ k, ν k < 24000)
include hinj h0 h1

/-- Exact arithmetic: after the effect the powers of the tones, each multiplied by the square of the gain at its frequency, add. -/
theorem C172_level (hs : Settles p m) (hg : ∀ k, SteadyGain p m (ν k) (g k)) (a φ : ι → ℝ) : ∃ y : ℕ → ℝ,
    (∀ n, modOut p (tones ν a φ) m n = .ok (y n)) ∧
    ∀ ε > 0, ∃ n0, ∀ n ≥ n0, ∀ s, |level (fun i => y (s + i)) n - Real.sqrt (∑ k, (g k * a k) ^ 2 / 2)| ≤ ε := by
  obtain ⟨ψ, h⟩ := C172_tones hs hg
  obtain ⟨y, e1, e2⟩ := h a φ
  exact ⟨y, e1, fun ε hε => level_approach hinj h0 h1 _ _ e2 hε⟩

/-- In `f32`: the input may be off by `d` and the effect rounds; its bounds (C129) say how much of this is in the level. -/
theorem C172_level_f32 {Y : Type} {Q : Y → F32 → Except E (F32 × Y)} {q : Y} {B C : ℝ} (ht : Tracks Q q p m B C) (hs : Settles p m)
    (hg : ∀ k, SteadyGain p m (ν k) (g k)) (a φ : ι → ℝ) {x : ℕ → F32} {d : ℝ} (hd : 0 ≤ d) (hx : Follows x (tones ν a φ) d)
    (hlo : (2 ^ 80)⁻¹ ≤ ∑ k, |a k|) (hhi : C * ((∑ k, |a k|) + d) ≤ 2 ^ 80) : ∃ (y : ℕ → F32) (u : ℕ → ℚ),
    (∀ n, modOut Q x q n = .ok (y n)) ∧ (∀ n, (y n).Is (u n)) ∧
    ∀ ε > 0, ∃ n0, ∀ n ≥ n0, ∀ s, |level (fun i => (u (s + i) : ℝ)) n - Real.sqrt (∑ k, (g k * a k) ^ 2 / 2)| ≤
      (C * ((∑ k, |a k|) + d) - B * ∑ k, |a k|) + ε := by
  obtain ⟨z, e1, e2⟩ := C172_level hinj h0 h1 hs hg a φ
  obtain ⟨hB, hBC, ht⟩ := ht
  obtain ⟨y, z', f1, f2, _, f4⟩ := ht x (tones ν a φ) (∑ k, |a k|) d hlo hd hhi hx (tones_abs ν a φ)
  have ez : z' = z := funext fun n => Except.ok.inj ((f2 n).symm.trans (e1 n))
  subst ez
  choose u hu1 hu2 using f4
  refine ⟨y, u, f1, hu1, fun ε hε => ?_⟩
  obtain ⟨n0, hn0⟩ := e2 ε hε
  refine ⟨n0 + 1, fun n hn s => ?_⟩
  have n1 := level_near (y := fun i => (u (s + i) : ℝ)) (z := fun i => z' (s + i)) (n := n) (by omega) ((abs_nonneg _).trans (hu2 0))
    fun i _ => (abs_abs_sub_abs_le _ _).trans (hu2 (s + i))
  exact (abs_sub_le _ _ _).trans (add_le_add n1 (hn0 n (by omega) s))
end

/-- A triad through a low pass at 1 kHz. -/
example (a φ : Fin 3 → ℝ) : ∃ y : ℕ → ℝ, (∀ n, modOut Modifier.process (tones ![440, 550, 660] a φ) (LowPass.new 1000 0 : LowPass ℝ ℝ) n = .ok (y n)) ∧
    ∀ ε > 0, ∃ n0, ∀ n ≥ n0, ∀ s, |level (fun i => y (s + i)) n - Real.sqrt (∑ k, (lowGain 1000 0 (![440, 550, 660] k) * a k) ^ 2 / 2)| ≤ ε := by
  refine C172_level ?_ ?_ ?_ (C126_filters_settle 1000 0 (by norm_num) (l := 1) (h := 2) (by norm_num) (by norm_num) (by norm_num)).1
    (fun k => C123_lowpass 1000 0 (by norm_num) _) a φ
  · intro i j h
    fin_cases i <;> fin_cases j <;> first | rfl | (norm_num at h)
  · intro i
    fin_cases i <;> norm_num
  · intro i
    fin_cases i <;> norm_num

/-- Every signal of moderate size has `f32` samples within 1/1024, so the input of `C172_level_f32` exists. -/
example (v : ℕ → ℝ) (hv : ∀ n, |v n| ≤ 3) : ∃ x : ℕ → F32, Follows x v (1 / 1024) := by
  refine ⟨fun n => Flt.lit ((⌊v n * 1024⌋ : ℚ) / 1024), fun n => ⟨(⌊v n * 1024⌋ : ℚ) / 1024, ?_, ?_⟩⟩
  · have h := abs_le.mp (hv n)
    have h1 : ⌊v n * 1024⌋ ≤ 3072 := by
      rw [Int.floor_le_iff]; push_cast; linarith
    have h2 : -3072 ≤ ⌊v n * 1024⌋ := by
      rw [Int.le_floor]; push_cast; linarith
    have h1' : (⌊v n * 1024⌋ : ℚ) ≤ 3072 := by exact_mod_cast h1
    have h2' : (-3072 : ℚ) ≤ ⌊v n * 1024⌋ := by exact_mod_cast h2
    have hab : |(⌊v n * 1024⌋ : ℚ)| ≤ 3072 := abs_le.mpr ⟨h2', h1'⟩
    refine Fl.lit_is_repr (fits32' 2 (by norm_num) ?_) ⟨⌊v n * 1024⌋, -10, ?_, ?_, by decide⟩
    · rw [abs_div, abs_of_pos (by norm_num : (0 : ℚ) < 1024), div_le_iff₀ (by norm_num)]; linarith
    · rw [show pow2 (-10) = 1 / 1024 by decide +kernel]; ring
    · exact (by exact_mod_cast hab : |⌊v n * 1024⌋| ≤ 3072).trans (by decide)
  · push_cast
    have h1 := Int.floor_le (v n * 1024)
    have h2 := Int.lt_floor_add_one (v n * 1024)
    rw [abs_le]
    constructor <;> linarith

/-- In `f32`, with three voices of amplitude 1/3, the level is right to 1/16. -/
example [Libm F64] (ha : LibmAccurate) (φ : Fin 3 → ℝ) {x : ℕ → F32} (hx : Follows x (tones ![440, 550, 660] (fun _ => 1 / 3) φ) (1 / 1024)) :
    ∃ (y : ℕ → F32) (u : ℕ → ℚ), (∀ n, modOut Modifier.process x (LowPass.new (Flt.lit 1000) (Flt.lit 0) : LowPass F32 F64) n = .ok (y n)) ∧ (∀ n, (y n).Is (u n)) ∧
    ∃ n0, ∀ n ≥ n0, ∀ s, |level (fun i => (u (s + i) : ℝ)) n - Real.sqrt (∑ k, (lowGain 1000 0 (![440, 550, 660] k) * (1 / 3)) ^ 2 / 2)| ≤ 1 / 16 := by
  have ht := C129_lowpass ha (fc := Flt.lit 1000) (r := Flt.lit 0) (f := 1000) (ρ := 0) (by decide +kernel) (by decide +kernel) (.inr ⟨le_rfl, by norm_num⟩)
  have e1 : (((1000 : ℚ)) : ℝ) = 1000 := by norm_num
  have e0 : (((0 : ℚ)) : ℝ) = 0 := by norm_num
  rw [e1, e0] at ht
  have hsum : ∑ _k : Fin 3, |(1 / 3 : ℝ)| = 1 := by
    rw [Finset.sum_const, Finset.card_univ, Fintype.card_fin]; norm_num [abs_of_pos]
  obtain ⟨y, u, f1, f2, f3⟩ := C172_level_f32 (ν := ![440, 550, 660]) (g := fun k => lowGain 1000 0 (![440, 550, 660] k)) (by
      intro i j h
      fin_cases i <;> fin_cases j <;> first | rfl | (norm_num at h)) (by
      intro i
      fin_cases i <;> norm_num) (by
      intro i
      fin_cases i <;> norm_num) ht
    (C126_filters_settle 1000 0 (by norm_num) (l := 1) (h := 2) (by norm_num) (by norm_num) (by norm_num)).1
    (fun k => C123_lowpass 1000 0 (by norm_num) _) (fun _ => 1 / 3) φ (by norm_num) hx (by rw [hsum]; norm_num) (by rw [hsum]; norm_num)
  refine ⟨y, u, f1, f2, ?_⟩
  obtain ⟨n0, h⟩ := f3 (1 / 1000) (by norm_num)
  refine ⟨n0, fun n hn s => (h n hn s).trans ?_⟩
  rw [hsum]
  norm_num

end Verif
