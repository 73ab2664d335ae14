import Verif.Props.Harmonics
import Verif.Props.OscTune
import Verif.Props.SineTune
import Verif.Spec.LibmSin

/-! # Harmonics of the waveforms in `f32`: C150 -/

namespace Verif
open Fl Flt

/-- Signals that are close but for a few samples. -/
private theorem component_near_but {y z : ℕ → ℝ} {e b : ℝ} {M c : ℕ} (he : 0 ≤ e) (hb : 0 ≤ b) (B : Finset ℕ) (hB : (B.filter (· < M)).card ≤ c)
    (h : ∀ i < M, i ∉ B → |y i - z i| ≤ e) (h' : ∀ i < M, |y i - z i| ≤ b) (k : ℕ) : ‖component y M k - component z M k‖ ≤ M * e + c * b := by
  classical
  unfold component
  rw [← Finset.sum_sub_distrib]
  refine (norm_sum_le_of_le _ (n := fun i => e + if i ∈ B then b else 0) fun i hi => ?_).trans ?_
  · rw [← sub_mul, norm_mul, mul_comm Complex.I, Complex.norm_exp_ofReal_mul_I, mul_one, ← Complex.ofReal_sub, Complex.norm_real, Real.norm_eq_abs]
    have hi := Finset.mem_range.mp hi
    split_ifs with hm
    · linarith [h' i hi]
    · linarith [h i hi hm]
  · rw [Finset.sum_add_distrib, Finset.sum_const, Finset.card_range, nsmul_eq_mul, ← Finset.sum_filter, Finset.sum_const, nsmul_eq_mul]
    have : ((Finset.range M).filter (· ∈ B)).card ≤ c := by
      refine le_trans (le_of_eq (congrArg _ ?_)) hB
      ext i
      simp [and_comm]
    have : (((Finset.range M).filter (· ∈ B)).card : ℝ) ≤ c := by exact_mod_cast this
    have := mul_le_mul_of_nonneg_right this hb
    linarith

private theorem unique_phase {N P : ℕ} (hN : 0 < N) (hc : P.Coprime N) (s : ℕ) {i i' : ℕ} (hi : i < N) (hi' : i' < N)
    (h : Int.fract (((s + i : ℕ) : ℚ) * P / N) = Int.fract (((s + i' : ℕ) : ℚ) * P / N)) : i = i' := by
  have hNr : (N : ℚ) ≠ 0 := by positivity
  rw [Int.fract_eq_fract] at h
  obtain ⟨z, hz⟩ := h
  have e : (((s + i : ℕ) : ℤ) - (s + i' : ℕ)) * P = N * z := by
    have : (((s + i : ℕ) : ℚ) - (s + i' : ℕ)) * P = N * z := by
      rw [← hz]; field_simp
    exact_mod_cast this
  have d : (N : ℤ) ∣ ((s + i : ℕ) : ℤ) - (s + i' : ℕ) :=
    IsCoprime.dvd_of_dvd_mul_right (Nat.isCoprime_iff_coprime.mpr hc.symm) ⟨z, e⟩
  obtain ⟨k, hk⟩ := d
  push_cast at hk
  have : (N : ℤ) * k < N := by omega
  have : -(N : ℤ) < N * k := by omega
  have hk0 : k = 0 := by
    have a1 : k < 1 := by nlinarith
    have a2 : -1 < k := by nlinarith
    omega
  rw [hk0] at hk
  omega

/-- At most one of N samples is at a given phase. -/
private theorem one_phase {N P : ℕ} (hN : 0 < N) (hc : P.Coprime N) (s : ℕ) (φ : ℚ) :
    (((Finset.range N).filter (fun i => Int.fract (((s + i : ℕ) : ℚ) * P / N) = φ)).filter (· < N)).card ≤ 1 := by
  rw [Finset.card_le_one]
  intro a ha b hb
  simp only [Finset.mem_filter, Finset.mem_range] at ha hb
  exact unique_phase hN hc s ha.2 hb.2 (ha.1.2.trans hb.1.2.symm)

private theorem square_value (g : Square F64) : ((g.process).1 : F32) = lit 1 ∨ (g.process.1 : F32) = lit (-1) := by
  show (if (g.inv ≤? g.ind) && (g.ind <? lit 2 * g.inv) then -lit 1 else lit 1) = (lit 1 : F32) ∨
    (if (g.inv ≤? g.ind) && (g.ind <? lit 2 * g.inv) then -lit 1 else lit 1) = (lit (-1) : F32)
  have : (-lit 1 : F32) = lit (-1) := by decide +kernel
  split_ifs
  · exact .inr this
  · exact .inl rfl

section
variable {N P : ℕ} (hN : 0 < N) (hc : P.Coprime N) (s j : ℕ) {f : F64} (hf : f.Is (48000 * P / N))
include hN hc hf

omit hc hf in
private theorem freq_q (n : ℕ) : (n : ℚ) * (48000 * P / N) / 48000 = n * P / N := by
  have : (N : ℚ) ≠ 0 := by positivity
  field_simp

omit hc hf in
private theorem freq_half (hle : 2 * P ≤ N) : (48000 * P / N : ℚ) ≤ 24000 := by
  have : (0 : ℚ) < N := by positivity
  have h : (2 * P : ℚ) ≤ N := by exact_mod_cast hle
  rw [div_le_iff₀ this]
  linarith

omit hN hc hf in
private theorem drift {i : ℕ} (hi : i < N) (b : ℕ) : (((s + i : ℕ) : ℝ)) * (2 ^ b)⁻¹ ≤ (s + N : ℕ) * (2 ^ b)⁻¹ := by
  have : ((s + i : ℕ) : ℝ) ≤ (s + N : ℕ) := by exact_mod_cast (by omega : s + i ≤ s + N)
  exact mul_le_mul_of_nonneg_right this (by positivity)

omit hc in
private theorem tri_near (h0 : 0 < P) (hle : 2 * P ≤ N) : ∃ u : ℕ → ℚ, (∀ i, (nth Triangle.process (Triangle.new f) (s + i) : F32).Is (u i)) ∧
    ‖component (fun i => (u i : ℝ)) N (j * P) - component (fun i => nth (S := ℝ) Triangle.process (Triangle.new (48000 * P / N : ℝ)) (s + i)) N (j * P)‖ ≤
      N * ((2 ^ 25)⁻¹ + (s + N : ℕ) * (2 ^ 49)⁻¹) := by
  choose u h1 h3 using fun i => C99_triangle_tune hf (by positivity) (freq_half hN hle) (s + i)
  have hq := freq_le (P := P) (c := 1 / 2) hN (by have : (2 * P : ℝ) ≤ N := by exact_mod_cast hle
                                                  linarith)
  exact ⟨u, h1, component_near (fun i hi => by
    rw [C95_triangle _ (show (0 : ℝ) < 48000 * P / N by positivity) (hq.trans (by norm_num))]
    have := h3 i
    push_cast at this
    have d := drift (N := N) s hi 49
    push_cast at d
    push_cast
    linarith) (j * P)⟩

/-- `f32`: the harmonics of a triangle wave from sample `s` on are those of the exact one up to the error of N samples. -/
theorem C150_triangle_f32_partial (h0 : 0 < P) (hle : 2 * P ≤ N) : ∃ u : ℕ → ℚ,
    (∀ i, (nth Triangle.process (Triangle.new f) (s + i) : F32).Is (u i)) ∧
    let E : ℝ := N * ((2 ^ 25)⁻¹ + (s + N : ℕ) * (2 ^ 49)⁻¹)
    (N % 2 = 0 → j % 2 = 0 → ‖component (fun i => (u i : ℝ)) N (j * P)‖ ≤ E) ∧
    (N % 4 = 0 → j % 2 = 1 → |‖component (fun i => (u i : ℝ)) N (j * P)‖ - 4 / (N * Real.sin (Real.pi * j / N) ^ 2)| ≤ E) ∧
    (N % 4 = 2 → j % 2 = 1 → |‖component (fun i => (u i : ℝ)) N (j * P)‖ - 4 * |Real.cos (Real.pi * j / N)| / (N * Real.sin (Real.pi * j / N) ^ 2)| ≤ E) ∧
    (N % 2 = 1 → j % 2 = 1 → |‖component (fun i => (u i : ℝ)) N (j * P)‖ - |Real.cos (Real.pi * j / (2 * N))| / (N * Real.sin (Real.pi * j / (2 * N)) ^ 2)| ≤ E) ∧
    (N % 2 = 1 → j % 2 = 0 → |‖component (fun i => (u i : ℝ)) N (j * P)‖ - |Real.sin (Real.pi * j / (2 * N))| / (N * Real.cos (Real.pi * j / (2 * N)) ^ 2)| ≤ E) := by
  obtain ⟨u, h1, near⟩ := tri_near hN s j hf h0 hle
  refine ⟨u, h1, fun h2 hj => ?_, fun h4 hj => ?_, fun h4 hj => ?_, fun h2 hj => ?_, fun h2 hj => ?_⟩
  · rwa [(C150_triangle_partial hN hc s j h0 hle h2).1 hj, sub_zero] at near
  · rw [← (C150_triangle_partial hN hc s j h0 hle (by omega)).2.1 h4 hj]
    exact (abs_norm_sub_norm_le _ _).trans near
  · rw [← (C150_triangle_partial hN hc s j h0 hle (by omega)).2.2 h4 hj]
    exact (abs_norm_sub_norm_le _ _).trans near
  · rw [← (C150_triangle_violated hN hc s j h0 hle h2).1 hj]
    exact (abs_norm_sub_norm_le _ _).trans near
  · rw [← (C150_triangle_violated hN hc s j h0 hle h2).2.1 hj]
    exact (abs_norm_sub_norm_le _ _).trans near

/-- `f32`: a sine has its fundamental and no other harmonic up to the error of its table and the drift of N samples. -/
theorem C150_sine_f32_partial [Libm F64] (hl : SinAccurate) (hle : P ≤ N) : ∃ (y : ℕ → F32) (u : ℕ → ℚ),
    (∀ i, nthR Sine.process (Sine.new f) (s + i) = .ok (y i)) ∧ (∀ i, (y i).Is (u i)) ∧
    let E : ℝ := N * (2 * Real.pi / 4800 + (2 ^ 23)⁻¹ + (s + N : ℕ) * (2 ^ 48)⁻¹)
    (¬ (N : ℤ) ∣ (j : ℤ) - 1 → ¬ N ∣ j + 1 → ‖component (fun i => (u i : ℝ)) N (j * P)‖ ≤ E) ∧
    (3 ≤ N → (N : ℤ) ∣ (j : ℤ) - 1 → |‖component (fun i => (u i : ℝ)) N (j * P)‖ - N / 2| ≤ E) := by
  have hq : (48000 * P / N : ℚ) ≤ 48000 := by
    have : (0 : ℚ) < N := by positivity
    have h : (P : ℚ) ≤ N := by exact_mod_cast hle
    rw [div_le_iff₀ this]
    linarith
  choose y u h1 h2 h3 _ using fun i => C101_sine_tune hl hf (by positivity) hq (s + i)
  have near := component_near (y := fun i => (u i : ℝ)) (z := fun i => Real.sin (2 * Real.pi * ((s + i : ℕ) * P / N))) (M := N)
    (e := 2 * Real.pi / 4800 + (2 ^ 23)⁻¹ + (s + N : ℕ) * (2 ^ 48)⁻¹) (fun i hi => by
      have := h3 i
      rw [show 2 * Real.pi * ((48000 * P / N : ℚ) : ℝ) * (s + i : ℕ) / 48000 = 2 * Real.pi * ((s + i : ℕ) * P / N) by
        rw [← freq_eq hN]; push_cast; ring] at this
      exact this.trans (by linarith [drift (N := N) s hi 48])) (j * P)
  obtain ⟨a, b⟩ := sine_component hN hc s j
  refine ⟨y, u, h1, h2, fun d1 d2 => ?_, fun h3 d1 => ?_⟩
  · rwa [a d1 d2, sub_zero] at near
  · rw [← b h3 d1]
    exact (abs_norm_sub_norm_le _ _).trans near

omit hc hf in
private theorem phase_num (i : ℕ) : ∃ m : ℕ, m < N ∧ Int.fract (((s + i : ℕ) : ℚ) * P / N) = m / N := by
  have hNr : (0 : ℚ) < N := by positivity
  refine ⟨((s + i) * P) % N, Nat.mod_lt _ hN, ?_⟩
  have hlt : ((((s + i) * P) % N : ℕ) : ℚ) < N := by exact_mod_cast Nat.mod_lt _ hN
  have hdm : ((((s + i) * P) % N : ℕ) : ℚ) + N * (((s + i) * P) / N : ℕ) = (s + i : ℕ) * P := by exact_mod_cast Nat.mod_add_div ((s + i) * P) N
  rw [Int.fract_eq_iff]
  refine ⟨by positivity, (div_lt_one hNr).mpr hlt, (((s + i) * P) / N : ℕ), ?_⟩
  rw [Int.cast_natCast]
  field_simp
  linarith

/-- `f32`: the harmonics of a square wave are those of the exact one, but that the two samples at its edges may fall on either side. -/
theorem C150_square_f32_partial (h0 : (1 : ℚ) / 1024 ≤ 48000 * P / N) (hle : 2 * P ≤ N) (h2 : N % 2 = 0) (hs : N * (s + N + 2) ≤ 2 ^ 50) : ∃ u : ℕ → ℚ,
    (∀ i, (nth Square.process (Square.new f) (s + i) : F32).Is (u i)) ∧
    (j % 2 = 0 → ‖component (fun i => (u i : ℝ)) N (j * P)‖ ≤ 4) ∧
    (j % 2 = 1 → |‖component (fun i => (u i : ℝ)) N (j * P)‖ - 2 / _root_.abs (Real.sin (Real.pi * j / N))| ≤ 4) := by
  have hNr : (0 : ℚ) < N := by positivity
  have hP : 0 < P := by
    rcases Nat.eq_zero_or_pos P with h | h
    · rw [h] at h0; norm_num at h0
    · exact h
  have i1 : (lit 1 : F32).Is 1 := by decide +kernel
  have i2 : (lit (-1) : F32).Is (-1) := by decide +kernel
  have hv : ∀ n, (nth Square.process (Square.new f) n : F32) = lit 1 ∨ (nth Square.process (Square.new f) n : F32) = lit (-1) := fun n => square_value _
  have hu : ∀ i, ∃ q : ℚ, (nth Square.process (Square.new f) (s + i) : F32).Is q ∧ (q = 1 ∨ q = -1) := by
    intro i
    rcases hv (s + i) with h | h <;> rw [h]
    · exact ⟨1, i1, .inl rfl⟩
    · exact ⟨-1, i2, .inr rfl⟩
  choose u h1 h3 using hu
  have hq := freq_le (P := P) (c := 1 / 2) hN (by have : (2 * P : ℝ) ≤ N := by exact_mod_cast hle
                                                  linarith)
  set z := fun i => nth (S := ℝ) Square.process (Square.new (48000 * P / N : ℝ)) (s + i) with hz
  have ez : ∀ i, z i = if Int.fract (((s + i : ℕ) : ℚ) * P / N) < 1 / 2 then 1 else -1 := by
    intro i
    rw [hz]
    simp only
    rw [C38_square _ (show (0 : ℝ) < 48000 * P / N by positivity) (hq.trans (by norm_num)), freq_eq hN]
    have : Int.fract (((s + i : ℕ) : ℝ) * P / N) < 1 / 2 ↔ Int.fract (((s + i : ℕ) : ℚ) * P / N) < 1 / 2 := by
      rw [← Rat.cast_lt (K := ℝ)]
      push_cast
      rfl
    simp only [this]
  set B := (Finset.range N).filter (fun i => Int.fract (((s + i : ℕ) : ℚ) * P / N) = 0) ∪ (Finset.range N).filter (fun i => Int.fract (((s + i : ℕ) : ℚ) * P / N) = 1 / 2) with hB
  have near := component_near_but (y := fun i => (u i : ℝ)) (z := z) (M := N) (c := 2) (e := 0) (b := 2) le_rfl (by norm_num) B (by
      rw [hB, Finset.filter_union]
      exact (Finset.card_union_le _ _).trans (add_le_add (one_phase hN hc s 0) (one_phase hN hc s (1 / 2)))) (fun i hi hb => by
      rw [hB, Finset.mem_union, Finset.mem_filter, Finset.mem_filter, not_or, not_and, not_and] at hb
      have hr := Finset.mem_range.mpr hi
      obtain ⟨m, hm, em⟩ := phase_num (P := P) hN s i
      have b1 := hb.1 hr
      have b2 := hb.2 hr
      have m1 : m ≠ 0 := by
        intro h; rw [em, h] at b1; norm_num at b1
      have m2 : 2 * m ≠ N := by
        intro h
        apply b2
        rw [em, div_eq_div_iff hNr.ne' (by norm_num)]
        have : (2 : ℚ) * m = N := by exact_mod_cast h
        linarith
      obtain ⟨t1, t2⟩ := C100_square_tune hf h0 (freq_half hN hle) (s + i)
      rw [freq_q hN, em] at t1 t2
      have heps : (((s + i : ℕ) : ℚ) + 2) * (2 ^ 50)⁻¹ ≤ 1 / N := by
        rw [← div_eq_mul_inv, div_le_div_iff₀ (by norm_num) hNr]
        have : (s + i + 2) * N ≤ 1 * 2 ^ 50 := by
          rw [one_mul, mul_comm]
          exact (Nat.mul_le_mul_left _ (by omega)).trans hs
        exact_mod_cast this
      rw [ez, em]
      by_cases hlt : 2 * m < N
      · have c1 : (2 * m + 2 : ℚ) ≤ N := by exact_mod_cast (by omega : 2 * m + 2 ≤ N)
        have c0 : (1 : ℚ) ≤ m := by exact_mod_cast (by omega : 1 ≤ m)
        have e1 := t1 (heps.trans (by gcongr)) (by
          have : (m : ℚ) / N ≤ 1 / 2 - 1 / N := by
            rw [div_sub_div _ _ (by norm_num) hNr.ne', div_le_div_iff₀ hNr (by positivity)]
            nlinarith
          linarith)
        have : u i = 1 := by
          have := h1 i
          rw [e1] at this
          exact Option.some.inj (this.symm.trans i1)
        rw [this, if_pos (by rw [div_lt_div_iff₀ hNr (by norm_num)]; linarith)]
        norm_num
      · have c1 : (N + 2 : ℚ) ≤ 2 * m := by exact_mod_cast (by omega : N + 2 ≤ 2 * m)
        have c0 : (m + 1 : ℚ) ≤ N := by exact_mod_cast (by omega : m + 1 ≤ N)
        have e1 := t2 (by
          have : 1 / 2 + 1 / N ≤ (m : ℚ) / N := by
            rw [div_add_div _ _ (by norm_num) hNr.ne', div_le_div_iff₀ (by positivity) hNr]
            nlinarith
          linarith) (by
          have : (m : ℚ) / N ≤ 1 - 1 / N := by
            rw [div_le_iff₀ hNr, sub_mul, div_mul_cancel₀ _ hNr.ne']
            linarith
          linarith)
        have : u i = -1 := by
          have := h1 i
          rw [e1] at this
          exact Option.some.inj (this.symm.trans i2)
        rw [this, if_neg (by rw [not_lt, div_le_div_iff₀ (by norm_num) hNr]; linarith)]
        norm_num) (fun i _ => by
      rw [ez]
      rcases h3 i with h | h <;> rw [h] <;> split_ifs <;> norm_num) (j * P)
  norm_num at near
  obtain ⟨a, b⟩ := C150_square_partial hN hc s j hP hle h2
  refine ⟨u, h1, fun hj => ?_, fun hj => ?_⟩
  · rwa [hz, a hj, sub_zero] at near
  · rw [← b hj]
    exact (abs_norm_sub_norm_le _ _).trans near

/-- `f32`: the harmonics of a sawtooth are those of the exact one up to the error of N samples, but that the sample at its edge may fall on either side. -/
theorem C150_sawtooth_f32_partial (hle : 2 * P ≤ N) (hs : N * (2 ^ 24 + s + N) < 2 ^ 49) (hj : ¬ N ∣ j) : ∃ u : ℕ → ℚ,
    (∀ i, (nth Sawtooth.process (Sawtooth.new f) (s + i) : F32).Is (u i)) ∧
    |‖component (fun i => (u i : ℝ)) N (j * P)‖ - 1 / _root_.abs (Real.sin (Real.pi * j / N))| ≤ N * ((2 ^ 25)⁻¹ + (s + N : ℕ) * (2 ^ 49)⁻¹) + 2 := by
  have hNr : (0 : ℚ) < N := by positivity
  choose u h1 h3 h4 k h5 using fun i => C98_sawtooth_tune hf (by positivity) (freq_half hN hle) (s + i)
  have hq := freq_le (P := P) (c := 1) hN (by have : (P : ℝ) ≤ N := by exact_mod_cast (by omega : P ≤ N)
                                              linarith)
  set z := fun i => nth (S := ℝ) Sawtooth.process (Sawtooth.new (48000 * P / N : ℝ)) (s + i) with hz
  have ez : ∀ i, z i = ((2 * Int.fract (((s + i : ℕ) : ℚ) * P / N + 1 / 2) - 1 : ℚ) : ℝ) := by
    intro i
    rw [hz]
    simp only
    rw [C34_sawtooth _ (show (0 : ℝ) ≤ 48000 * P / N by positivity) (hq.trans (by norm_num)), freq_eq hN]
    push_cast
    rfl
  set B := (Finset.range N).filter (fun i => Int.fract (((s + i : ℕ) : ℚ) * P / N) = 1 / 2) with hB
  have hE : ((2 : ℚ) ^ 25)⁻¹ + (s + N : ℕ) * (2 ^ 49)⁻¹ < 1 / N := by
    rw [lt_div_iff₀ hNr]
    have : (N : ℚ) * (2 ^ 24 + s + N) < 2 ^ 49 := by exact_mod_cast hs
    rw [show ((2 : ℚ) ^ 25)⁻¹ = 2 ^ 24 * (2 ^ 49)⁻¹ by norm_num, ← add_mul, mul_right_comm, ← div_eq_mul_inv, div_lt_one (by norm_num)]
    push_cast
    linarith
  have near := component_near_but (y := fun i => (u i : ℝ)) (z := z) (M := N) (c := 1) (e := (2 ^ 25)⁻¹ + (s + N : ℕ) * (2 ^ 49)⁻¹) (b := 2) (by positivity) (by norm_num) B
    (one_phase hN hc s (1 / 2)) (fun i hi hb => by
      rw [hB, Finset.mem_filter, not_and] at hb
      have b2 := hb (Finset.mem_range.mpr hi)
      obtain ⟨m, hm, em⟩ := phase_num (P := P) hN s i
      have m2 : 2 * m ≠ N := by
        intro h
        apply b2
        rw [em, div_eq_div_iff hNr.ne' (by norm_num)]
        have : (2 : ℚ) * m = N := by exact_mod_cast h
        linarith
      set x : ℚ := ((s + i : ℕ) : ℚ) * P / N with hx
      have hfr : 1 / (2 * N) ≤ Int.fract (x + 1 / 2) ∧ Int.fract (x + 1 / 2) ≤ 1 - 1 / (2 * N) := by
        have hfl := Int.self_sub_floor x
        rw [em] at hfl
        by_cases hlt : 2 * m < N
        · have c1 : (2 * m + 1 : ℚ) ≤ N := by exact_mod_cast hlt
          have d1 : (m : ℚ) / N ≤ 1 / 2 - 1 / (2 * N) := by
            rw [div_sub_div _ _ (by norm_num) (by positivity), div_le_div_iff₀ hNr (by positivity)]
            nlinarith
          have d2 : (1 : ℚ) / (2 * N) ≤ 1 / 2 := by
            rw [div_le_div_iff₀ (by positivity) (by norm_num)]
            have : (1 : ℚ) ≤ N := by exact_mod_cast hN
            linarith
          have d3 : (0 : ℚ) ≤ m / N := by positivity
          have d4 : (0 : ℚ) < 1 / (2 * N) := by positivity
          have : Int.fract (x + 1 / 2) = m / N + 1 / 2 := by
            rw [Int.fract_eq_iff]
            exact ⟨by linarith, by linarith, ⌊x⌋, by linarith⟩
          rw [this]
          constructor <;> linarith
        · have c1 : (N + 1 : ℚ) ≤ 2 * m := by exact_mod_cast (by omega : N + 1 ≤ 2 * m)
          have c0 : (m + 1 : ℚ) ≤ N := by exact_mod_cast (by omega : m + 1 ≤ N)
          have d1 : 1 / 2 + 1 / (2 * N) ≤ (m : ℚ) / N := by
            rw [div_add_div _ _ (by norm_num) (by positivity), div_le_div_iff₀ (by positivity) hNr]
            nlinarith
          have d2 : (1 : ℚ) / (2 * N) ≤ 1 / 2 := by
            rw [div_le_div_iff₀ (by positivity) (by norm_num)]
            have : (1 : ℚ) ≤ N := by exact_mod_cast hN
            linarith
          have d3 : (m : ℚ) / N ≤ 1 := by rw [div_le_one hNr]; linarith
          have d4 : (0 : ℚ) < 1 / (2 * N) := by positivity
          have : Int.fract (x + 1 / 2) = m / N - 1 / 2 := by
            rw [Int.fract_eq_iff]
            exact ⟨by linarith, by linarith, ⌊x⌋ + 1, by push_cast; linarith⟩
          rw [this]
          constructor <;> linarith
      have hk := h5 i
      rw [freq_q hN, ← hx] at hk
      have hdr : ((2 : ℚ) ^ 25)⁻¹ + (s + i : ℕ) * (2 ^ 49)⁻¹ ≤ (2 ^ 25)⁻¹ + (s + N : ℕ) * (2 ^ 49)⁻¹ := by
        have : ((s + i : ℕ) : ℚ) ≤ (s + N : ℕ) := by exact_mod_cast (by omega : s + i ≤ s + N)
        gcongr
      have hk' := abs_le.mp (hk.trans hdr)
      have hfl := Int.self_sub_floor (x + 1 / 2)
      have hd : k i = ⌊x + 1 / 2⌋ := by
        have h2N : (1 : ℚ) / (2 * N) = 1 / N / 2 := by field_simp
        rw [h2N] at hfr
        have a1 := h3 i
        have a2 := h4 i
        have b1 : (k i : ℚ) - ⌊x + 1 / 2⌋ < 1 := by linarith
        have b2 : (-1 : ℚ) < k i - ⌊x + 1 / 2⌋ := by linarith
        have c1 : k i - ⌊x + 1 / 2⌋ < 1 := by exact_mod_cast b1
        have c2 : -1 < k i - ⌊x + 1 / 2⌋ := by exact_mod_cast b2
        omega
      rw [ez, ← Rat.cast_sub, ← Rat.cast_abs, ← hx]
      have : |u i - (2 * Int.fract (x + 1 / 2) - 1)| ≤ (2 ^ 25)⁻¹ + (s + N : ℕ) * (2 ^ 49)⁻¹ := by
        rw [hd] at hk'
        rw [abs_le]
        constructor <;> linarith
      have := Rat.cast_le (K := ℝ) |>.mpr this
      push_cast at this ⊢
      exact this) (fun i _ => by
      rw [ez, ← Rat.cast_sub, ← Rat.cast_abs]
      have a1 := Int.fract_nonneg (((s + i : ℕ) : ℚ) * P / N + 1 / 2)
      have a2 := Int.fract_lt_one (((s + i : ℕ) : ℚ) * P / N + 1 / 2)
      have : |u i - (2 * Int.fract (((s + i : ℕ) : ℚ) * P / N + 1 / 2) - 1)| ≤ 2 := by
        rw [abs_le]
        constructor <;> linarith [h3 i, h4 i]
      exact_mod_cast this) (j * P)
  rw [Nat.cast_one, one_mul] at near
  refine ⟨u, h1, ?_⟩
  rw [← C150_sawtooth hN hc s j (by omega) hj]
  exact (abs_norm_sub_norm_le _ _).trans near
end

/-- 440 Hz from the start of the second hour on: 11 periods in 1200 samples. -/
example : Nat.Coprime 11 1200 ∧ (lit 440 : F64).Is (48000 * (11 : ℕ) / (1200 : ℕ)) ∧ 1200 * (48000 * 3600 + 1200 + 2) ≤ 2 ^ 50 ∧
    1200 * (2 ^ 24 + 48000 * 3600 + 1200) < 2 ^ 49 ∧ (1 : ℚ) / 1024 ≤ 48000 * (11 : ℕ) / (1200 : ℕ) ∧ (∃ l : Libm F64, @SinAccurate l) ∧
    (1200 : ℝ) * ((2 ^ 25)⁻¹ + (48000 * 3600 + 1200 : ℕ) * (2 ^ 49)⁻¹) ≤ 1 / 1000 := by
  refine ⟨by decide, ?_, by norm_num, by norm_num, by norm_num, sinAccurate_exists, by norm_num⟩
  rw [show (48000 * (11 : ℕ) / (1200 : ℕ) : ℚ) = 440 by norm_num]
  exact lit64_nat (n := 440) (by norm_num)

end Verif
