import Verif.Props.Energy
import Verif.Props.EchoF32

/-! # Filters designed with Generic: all-pass, linear phase, undoing an effect: C158 -/

namespace Verif
open Filter Topology

private theorem tapSum_eq (past : ℕ → ℝ) (taps : List (ℕ × ℝ)) (acc : ℝ) :
    tapSum past taps acc = acc + (taps.map fun t => past t.1 * t.2).sum := by
  unfold tapSum
  induction taps generalizing acc with
  | nil => simp
  | cons t ts ih =>
    rw [List.foldl_cons, ih, List.map_cons, List.sum_cons]
    ring

private theorem sum_range_list (f : ℕ → ℝ) (n : ℕ) : ((List.range n).map f).sum = ∑ k ∈ Finset.range n, f k := by
  induction n with
  | zero => simp
  | succ n ih => rw [List.range_succ, List.map_append, List.sum_append, ih, Finset.sum_range_succ]; simp

/-! ## All-pass -/

/-- The taps of `y[n] = -g x[n] + x[n-D] + g y[n-D]`: every frequency comes out at the level it went in, and no input gains energy. -/
theorem C158_allpass (g : ℝ) (hg : |g| < 1) (D : ℕ) (hD : 0 < D) :
    (∀ ν, SteadyGain Generic.process (Generic.new [(0, -g), (D, 1)] [(D - 1, g)]) ν 1) ∧
    EnergyGain Generic.process (Generic.new [(0, -g), (D, 1)] [(D - 1, g)]) 1 := by
  have hz : LastLargest [((0 : ℕ), -g), (D, 1)] := by simp [LastLargest]
  have hp : LastLargest [(D - 1, g)] := by simp [LastLargest]
  have hs : ([(D - 1, g)].map fun t => |t.2|).sum < 1 := by simpa using hg
  have one : ∀ w : ℝ, ‖transfer [((0 : ℕ), -g), (D, 1)] [(D - 1, g)] w‖ = 1 := by
    intro w
    unfold transfer
    simp only [List.map_cons, List.map_nil, List.sum_cons, List.sum_nil, add_zero]
    have e : ((D - 1 : ℕ) : ℝ) + 1 = D := by rw [Nat.cast_sub hD]; simp
    rw [e]
    simp only [Nat.cast_zero, mul_zero, neg_zero, Complex.ofReal_zero, zero_mul, Complex.exp_zero, mul_one, Complex.ofReal_one, one_mul]
    set z := Complex.exp (-((w * D : ℝ) : ℂ) * Complex.I) with hzd
    have nz : ‖z‖ = 1 := by
      rw [hzd, show -((w * D : ℝ) : ℂ) * Complex.I = ((-(w * D) : ℝ) : ℂ) * Complex.I by push_cast; ring]
      exact Complex.norm_exp_ofReal_mul_I _
    have sq : z.re * z.re + z.im * z.im = 1 := by
      have := Complex.normSq_apply z
      rw [Complex.normSq_eq_norm_sq, nz, one_pow] at this
      exact this.symm
    have den : Complex.normSq (1 - (g : ℂ) * z) = 1 - 2 * g * z.re + g ^ 2 := by
      rw [Complex.normSq_apply]
      simp
      linear_combination (g ^ 2) * sq
    have num : Complex.normSq (((-g : ℝ) : ℂ) + z) = 1 - 2 * g * z.re + g ^ 2 := by
      rw [Complex.normSq_apply]
      simp
      linear_combination sq
    have pos : 0 < 1 - 2 * g * z.re + g ^ 2 := by
      have h1 : |z.re| ≤ 1 := (Complex.abs_re_le_norm z).trans nz.le
      have h2 : g * z.re ≤ |g| := by
        calc g * z.re ≤ |g * z.re| := le_abs_self _
          _ = |g| * |z.re| := abs_mul _ _
          _ ≤ |g| * 1 := by gcongr
          _ = |g| := mul_one _
      have h3 : g ^ 2 = |g| ^ 2 := (sq_abs g).symm
      nlinarith [sq_nonneg (1 - |g|), mul_pos (sub_pos.mpr hg) (sub_pos.mpr hg)]
    rw [norm_div, div_eq_one_iff_eq]
    · have : ‖((-g : ℝ) : ℂ) + z‖ ^ 2 = ‖1 - (g : ℂ) * z‖ ^ 2 := by
        rw [← Complex.normSq_eq_norm_sq, ← Complex.normSq_eq_norm_sq, num, den]
      exact (sq_eq_sq₀ (norm_nonneg _) (norm_nonneg _)).mp this
    · intro h
      have : Complex.normSq (1 - (g : ℂ) * z) = 0 := by rw [Complex.normSq_eq_norm_sq, h]; simp
      rw [den] at this
      linarith
  have st : ∀ ν, SteadyGain Generic.process (Generic.new [(0, -g), (D, 1)] [(D - 1, g)]) ν 1 := fun ν => by
    have := C126_generic hz hp hs ν
    rwa [one] at this
  refine ⟨st, C151_energy (C58_generic _ _ hz hp) (K := ([((0 : ℕ), -g), (D, 1)].map fun t => |t.2|).sum / (1 - ([(D - 1, g)].map fun t => |t.2|).sum))
    (fun x B hx n => ?_) (fun ν => ⟨1, le_rfl, st ν⟩)⟩
  obtain ⟨y, a, b⟩ := C126_generic_bounded hz hp hs hx n
  exact ⟨y, a, b.trans (le_of_eq (by ring))⟩

example := C158_allpass (7 / 10) (by norm_num [abs_of_pos]) 347 (by norm_num)

/-! ## Linear phase -/

/-- Taps that read the same from both ends delay every frequency by the same time, half their number: after the first `N` samples
the answer to a sinusoid is that sinusoid `N/2` samples earlier, times a number that depends on the frequency only. -/
theorem C158_linear_phase (c : ℕ → ℝ) (N : ℕ) (hc : ∀ k ≤ N, c (N - k) = c k) (w φ : ℝ) (n : ℕ) (hn : N ≤ n) :
    modOut Generic.process (fun i => Real.cos (w * i + φ)) (Generic.new ((List.range (N + 1)).map fun k => (k, c k)) []) n =
      .ok ((∑ k ∈ Finset.range (N + 1), c k * Real.cos (w * (k - N / 2))) * Real.cos (w * (n - N / 2) + φ)) := by
  have hz : LastLargest ((List.range (N + 1)).map fun k => (k, c k)) := by
    intro t ht l hl
    rw [List.range_succ, List.map_append, List.map_singleton, List.getLast?_concat, Option.mem_some_iff] at hl
    subst hl
    obtain ⟨k, hk, rfl⟩ := List.mem_map.mp ht
    have := List.mem_range.mp hk
    show k ≤ N
    omega
  obtain ⟨y, hy⟩ := C56_generic ((List.range (N + 1)).map fun k => (k, c k)) [] hz (by simp [LastLargest]) (fun i => Real.cos (w * i + φ))
  rw [(hy n).1, (hy n).2]
  congr 1
  rw [tapSum_eq, tapSum_eq]
  simp only [List.map_nil, List.sum_nil, add_zero, List.map_map, Function.comp_def]
  simp only [show (lit 0 : ℝ) = 0 by real_simp, zero_add]
  rw [sum_range_list, Finset.sum_mul]
  have term : ∀ k ∈ Finset.range (N + 1), (if n < k then 0 else Real.cos (w * ((n - k : ℕ) : ℝ) + φ)) * c k =
      c k * Real.cos (w * (k - N / 2)) * Real.cos (w * (n - N / 2) + φ) + c k * Real.sin (w * (k - N / 2)) * Real.sin (w * (n - N / 2) + φ) := by
    intro k hk
    have hk := Finset.mem_range.mp hk
    rw [if_neg (by omega), Nat.cast_sub (by omega), show w * ((n : ℝ) - k) + φ = w * (n - N / 2) + φ - w * (k - N / 2) by ring, Real.cos_sub]
    ring
  rw [Finset.sum_congr rfl term, Finset.sum_add_distrib]
  have odd : ∑ k ∈ Finset.range (N + 1), c k * Real.sin (w * (k - N / 2)) = 0 := by
    have r := Finset.sum_range_reflect (fun k => c k * Real.sin (w * ((k : ℝ) - N / 2))) (N + 1)
    have e : ∀ k ∈ Finset.range (N + 1), c (N + 1 - 1 - k) * Real.sin (w * (((N + 1 - 1 - k : ℕ) : ℝ) - N / 2)) = -(c k * Real.sin (w * (k - N / 2))) := by
      intro k hk
      have hk := Finset.mem_range.mp hk
      rw [show N + 1 - 1 - k = N - k by omega, hc k (by omega), Nat.cast_sub (by omega),
        show w * ((N : ℝ) - k - N / 2) = -(w * (k - N / 2)) by ring, Real.sin_neg]
      ring
    rw [Finset.sum_congr rfl e, Finset.sum_neg_distrib] at r
    linarith
  rw [← Finset.sum_mul (f := fun k : ℕ => c k * Real.sin (w * ((k : ℝ) - N / 2))), odd, zero_mul, add_zero]

/-- Taps 1/4, 1/2, 1/4: one sample late at every frequency. -/
example (w φ : ℝ) (n : ℕ) (hn : 2 ≤ n) := C158_linear_phase (fun k => if k = 1 then 1 / 2 else 1 / 4) 2
  (fun k hk => by
    obtain rfl | rfl | rfl : k = 0 ∨ k = 1 ∨ k = 2 := by omega
    all_goals simp) w φ n hn

/-! ## Undoing an effect -/

/-- The taps that undo `(0, 1) :: zeros`, `poles`: each list becomes the other, negated. -/
def undoZeros (poles : List (ℕ × ℝ)) : List (ℕ × ℝ) := (0, 1) :: poles.map fun t => (t.1 + 1, -t.2)

/-- See `undoZeros`. -/
def undoPoles (zeros : List (ℕ × ℝ)) : List (ℕ × ℝ) := zeros.map fun t => (t.1 - 1, -t.2)

/-- Exact: a filter whose first tap is `(0, 1)` is undone, sample for sample, by the filter with the exchanged and negated taps. -/
theorem C158_undo (zeros poles : List (ℕ × ℝ)) (hz : LastLargest zeros) (hz1 : ∀ t ∈ zeros, 1 ≤ t.1) (hp : LastLargest poles) (x : ℕ → ℝ) :
    ∃ y : ℕ → ℝ, (∀ n, modOut Generic.process x (Generic.new ((0, 1) :: zeros) poles) n = .ok (y n)) ∧
      ∀ n, modOut Generic.process y (Generic.new (undoZeros poles) (undoPoles zeros)) n = .ok (x n) := by
  have cons : ∀ l : List (ℕ × ℝ), LastLargest l → LastLargest ((0, 1) :: l) := by
    intro l hl t ht v hv
    cases l with
    | nil =>
      simp at ht hv
      subst ht hv
      exact le_rfl
    | cons a l =>
      rw [List.getLast?_cons_cons] at hv
      rcases List.mem_cons.mp ht with rfl | ht
      · exact Nat.zero_le _
      · exact hl t ht v hv
  have shift : ∀ (l : List (ℕ × ℝ)) (f : ℕ → ℕ), Monotone f → LastLargest l → LastLargest (l.map fun t => (f t.1, -t.2)) := by
    intro l f hf hl t ht v hv
    obtain ⟨a, ha, rfl⟩ := List.mem_map.mp ht
    rw [List.getLast?_map] at hv
    obtain ⟨b, hb, rfl⟩ := Option.mem_map.mp hv
    exact hf (hl a ha b hb)
  obtain ⟨y, hy⟩ := C56_generic ((0, 1) :: zeros) poles (cons _ hz) hp x
  obtain ⟨v, hv⟩ := C56_generic (undoZeros poles) (undoPoles zeros)
    (cons _ (shift poles (· + 1) (fun a b h => Nat.succ_le_succ h) hp)) (shift zeros (· - 1) (fun a b h => Nat.sub_le_sub_right h 1) hz) y
  refine ⟨y, fun n => (hy n).1, fun n => ?_⟩
  rw [(hv n).1]
  congr 1
  induction n using Nat.strong_induction_on with
  | _ n ih =>
    have e1 := (hy n).2
    have e2 := (hv n).2
    unfold undoZeros undoPoles at e2
    simp only [tapSum_eq, List.map_cons, List.sum_cons, List.map_map, Function.comp_def, show (lit 0 : ℝ) = 0 by real_simp, zero_add, mul_one, Nat.not_lt_zero, if_false,
      Nat.sub_zero] at e1 e2
    have z : (zeros.map fun t => (if n < t.1 - 1 + 1 then 0 else v (n - (t.1 - 1 + 1))) * -t.2).sum =
        -(zeros.map fun t => (if n < t.1 then 0 else x (n - t.1)) * t.2).sum := by
      rw [List.sum_neg, List.map_map]
      refine congrArg List.sum (List.map_congr_left fun t ht => ?_)
      have h1 := hz1 t ht
      rw [show t.1 - 1 + 1 = t.1 by omega]
      simp only [Function.comp_def]
      split_ifs with h
      · ring
      · rw [ih (n - t.1) (by omega)]; ring
    have p : (poles.map fun t => (if n < t.1 + 1 then 0 else y (n - (t.1 + 1))) * -t.2).sum =
        -(poles.map fun t => (if n < t.1 + 1 then 0 else y (n - (t.1 + 1))) * t.2).sum := by
      rw [List.sum_neg, List.map_map]
      refine congrArg List.sum (List.map_congr_left fun t ht => ?_)
      simp only [Function.comp_def]
      ring
    rw [z, p] at e2
    linarith

example (x : ℕ → ℝ) := C158_undo [(1, 1 / 2), (3, -(1 / 4))] [(0, 1 / 3)] (by simp [LastLargest]) (by simp) (by simp [LastLargest]) x

/-- Exact: an echo is undone by the filter with taps `(0, 1)` and `(D, -g)`, whatever the gain. -/
theorem C158_undo_echo (m : Echo ℝ) (D : ℕ) (hD : 0 < D) (hm : m.delay = List.replicate D 0) (x : ℕ → ℝ) :
    ∃ y : ℕ → ℝ, (∀ n, modOut Echo.process x m n = .ok (y n)) ∧
      ∀ n, modOut Generic.process y (Generic.new [(0, 1), (D, -m.gain)] []) n = .ok (x n) := by
  have l0 : (lit 0 : ℝ) = 0 := by real_simp
  obtain ⟨y, hy⟩ := C54_echo m D hD (by rw [hm, l0]) x
  obtain ⟨v, hv⟩ := C56_generic [(0, 1), (D, -m.gain)] [] (by simp [LastLargest]) (by simp [LastLargest]) y
  refine ⟨y, fun n => (hy n).1, fun n => ?_⟩
  rw [(hv n).1]
  congr 1
  have e1 := (hy n).2
  have e2 := (hv n).2
  simp only [tapSum_eq, List.map_cons, List.map_nil, List.sum_cons, List.sum_nil, l0, zero_add, add_zero, mul_one, Nat.not_lt_zero, if_false, Nat.sub_zero] at e1 e2
  have e1' : y n = (if n < D then 0 else y (n - D)) * m.gain + x n := e1
  rw [e2]
  linarith

example (x : ℕ → ℝ) := C158_undo_echo ⟨[0, 0, 0], 2⟩ 3 (by norm_num) rfl x

section IEEE
open Fl

/-- Violated in IEEE: undoing an echo does not give back the very same samples. A second sample of `2^-25` is lost beside the
echo of the first. -/
theorem C158_undo_violated : ∃ x y : ℕ → F32, (∀ n < 2, (modOut Echo.process x ⟨[lit 0], lit (1 / 2)⟩ n).toOption = some (y n)) ∧
    (modOut Generic.process y (Generic.new [(0, lit 1), (1, -lit (1 / 2))] []) 1).toOption = some (lit 0) ∧ (x 1).Is (2 ^ 25)⁻¹ := by
  refine ⟨fun n => if n = 0 then lit 1 else lit ((2 ^ 25)⁻¹), fun n => if n = 0 then lit 1 else lit (1 / 2), ?_, by decide +kernel, by decide +kernel⟩
  decide +kernel

/-- IEEE: it gives them back up to rounding, two units of the last place of the larger of the sample and the echo's output, and the
errors do not build up. -/
theorem C158_undo_partial (m : Echo F32) (D : ℕ) (hD : 0 < D) (hm : m.delay = List.replicate D (lit 0)) {g : ℚ}
    (hg : m.gain.Is g) (hg1 : |g| ≤ 1 - (2 ^ 20)⁻¹) (x : ℕ → F32) {X : ℚ} (hX : X ≤ 2 ^ 70) (hx : ∀ n, (x n).In (-X) X) :
    ∃ y : ℕ → F32, (∀ n, modOut Echo.process x m n = .ok (y n)) ∧
      ∀ n, ∃ (z : F32) (a b r : ℚ), modOut Generic.process y (Generic.new [(0, lit 1), (D, -m.gain)] []) n = .ok z ∧
        (x n).Is a ∧ (y n).Is b ∧ z.Is r ∧ |r - a| ≤ (2 ^ 23)⁻¹ * (|a| + |b|) + (2 ^ 148)⁻¹ := by
  obtain ⟨y, hy⟩ := C54_echo m D hD hm x
  obtain ⟨v, hv⟩ := C56_generic [(0, lit 1), (D, -m.gain)] [] (by simp [LastLargest]) (by simp [LastLargest]) y
  refine ⟨y, fun n => (hy n).1, fun n => ?_⟩
  have X0 : 0 ≤ X := by
    obtain ⟨q, -, h1, h2⟩ := hx 0
    linarith
  have val : ∀ n, ∃ b, (y n).Is b ∧ |b| ≤ 2 ^ 93 := by
    intro n
    obtain ⟨w, b, h1, h2, h3⟩ := C102_echo_bounded m D hD hm hg hg1 x hX hx n
    have : w = y n := Except.ok.inj (h1.symm.trans (hy n).1)
    subst this
    refine ⟨b, h2, h3.trans ?_⟩
    have : 2 * X / (1 - |g|) ≤ 2 ^ 92 := by
      have d : (2 ^ 20 : ℚ)⁻¹ ≤ 1 - |g| := by linarith
      have dp : 0 < 1 - |g| := lt_of_lt_of_le (by positivity) d
      rw [div_le_iff₀ dp]
      calc 2 * X ≤ 2 ^ 92 * (2 ^ 20)⁻¹ := by norm_num; linarith
        _ ≤ 2 ^ 92 * (1 - |g|) := by gcongr
    refine (add_le_add this le_rfl).trans (by norm_num)
  obtain ⟨a, ha, a0, a1⟩ := hx n
  have aX : |a| ≤ X := abs_le.mpr ⟨a0, a1⟩
  obtain ⟨b, hb, bB⟩ := val n
  obtain ⟨p, hp, pB⟩ : ∃ p, ((if n < D then lit 0 else y (n - D)) : F32).Is p ∧ |p| ≤ 2 ^ 93 := by
    split_ifs with h
    · exact ⟨0, by decide +kernel, by norm_num⟩
    · exact val _
  have pg : |p * g| ≤ 2 ^ 93 := by
    rw [abs_mul]
    calc |p| * |g| ≤ 2 ^ 93 * 1 := mul_le_mul pB (by linarith [show (0 : ℚ) ≤ (2 ^ 20)⁻¹ by positivity]) (abs_nonneg _) (by positivity)
      _ = 2 ^ 93 := mul_one _
  have e24 : pow2 (-(b32.p : ℤ)) = (2 ^ 24)⁻¹ ∧ pow2 (b32.emin - 1) = (2 ^ 150)⁻¹ := by decide +kernel
  have mixed : ∀ q : ℚ, |b32.rnd q - q| ≤ |q| * (2 ^ 24)⁻¹ + (2 ^ 150)⁻¹ := fun q => by
    have h := b32.abs_rnd_sub_le_mixed q
    rw [e24.1, e24.2] at h
    linarith
  set P := b32.rnd (p * g) with hP
  have PB : |P| ≤ 2 ^ 94 := by
    have h1 := mixed (p * g)
    have h2 := abs_sub_abs_le_abs_sub P (p * g)
    rw [← hP] at h1
    have : |P| ≤ |p * g| * (1 + (2 ^ 24)⁻¹) + (2 ^ 150)⁻¹ := by linarith
    refine this.trans ?_
    norm_num at pg ⊢
    linarith
  -- what the echo puts out
  have hPi := Is.mul hp hg (fits32' 93 (by norm_num) pg)
  rw [← hP] at hPi
  have Pa : |P + a| ≤ 2 ^ 95 := (abs_add_le _ _).trans (by
    refine (add_le_add PB (aX.trans hX)).trans (by norm_num))
  have hyb := Is.add hPi ha (fits32' 95 (by norm_num) Pa)
  rw [← (hy n).2] at hyb
  have eb : b = b32.rnd (P + a) := Is.unique hb hyb
  -- what the filter makes of it
  have z0 : (lit 0 : F32).Is 0 := by decide +kernel
  have z1 : (lit 1 : F32).Is 1 := by decide +kernel
  have s1 := Is.mul hb z1 (by rw [mul_one]; exact hb.fits)
  rw [mul_one, hb.rnd] at s1
  have s2 := Is.add z0 s1 (by rw [zero_add]; exact hb.fits)
  rw [zero_add, hb.rnd] at s2
  have s3 := Is.mul hp hg.neg (by rw [mul_neg]; exact fits32' 93 (by norm_num) (by rw [abs_neg]; exact pg))
  rw [mul_neg, Fmt.rnd_neg, ← hP] at s3
  have bP : |b + -P| ≤ 2 ^ 95 := (abs_add_le _ _).trans (by
    rw [abs_neg]
    refine (add_le_add bB PB).trans (by norm_num))
  have s4 := Is.add s2 s3 (fits32' 95 (by norm_num) bP)
  have ev : v n = (lit 0 + y n * lit 1) + (if n < D then lit 0 else y (n - D)) * -m.gain := (hv n).2
  refine ⟨v n, a, b, b32.rnd (b + -P), (hv n).1, ha, hb, by rw [ev]; exact s4, ?_⟩
  have m1 := mixed (P + a)
  rw [← eb] at m1
  have m2 := mixed (b + -P)
  -- |P + a| in terms of |b|
  have t1 : |P + a| ≤ |b| + (|P + a| * (2 ^ 24)⁻¹ + (2 ^ 150)⁻¹) := by
    have := abs_sub_abs_le_abs_sub (P + a) b
    rw [abs_sub_comm] at this
    linarith
  have t2 : |b + -P| ≤ |a| + (|P + a| * (2 ^ 24)⁻¹ + (2 ^ 150)⁻¹) := by
    rw [show b + -P = a + (b - (P + a)) by ring]
    exact (abs_add_le _ _).trans (by linarith)
  have t3 : |b32.rnd (b + -P) - a| ≤ |b32.rnd (b + -P) - (b + -P)| + |b - (P + a)| := by
    rw [show b32.rnd (b + -P) - a = (b32.rnd (b + -P) - (b + -P)) + (b - (P + a)) by ring]
    exact abs_add_le _ _
  have n1 := abs_nonneg a
  have n2 := abs_nonneg b
  norm_num at m1 m2 t1 t2 ⊢
  linarith

example : (⟨List.replicate 10 (lit 0), lit (1 / 2)⟩ : Echo F32).gain.Is (1 / 2) ∧ |(1 / 2 : ℚ)| ≤ 1 - (2 ^ 20)⁻¹ ∧
    ∀ n : ℕ, (if n % 2 = 0 then lit 1 else lit (-1) : F32).In (-1) 1 := by
  refine ⟨by decide +kernel, by norm_num [abs_of_pos], fun n => ?_⟩
  split_ifs
  · exact ⟨1, by decide +kernel, by norm_num, by norm_num⟩
  · exact ⟨-1, by decide +kernel, by norm_num, by norm_num⟩

end IEEE

end Verif
