import Verif.Props.Response
import Verif.Props.Linear
import Verif.Proofs.Chain

/-! # Transfer functions of Generic, Echo and Delay, and of chains of modifiers: C126, C127 -/

namespace Verif
open Filter Topology

/-! ## A recurrence with summable feedback forgets -/

private theorem forget {e f : ℕ → ℝ} {ρ : ℝ} (h0 : 0 ≤ ρ) (h1 : ρ < 1) (N M : ℕ)
    (h : ∀ n, N ≤ n → ∀ B, (∀ j, j < n → n ≤ j + M → |e j| ≤ B) → 0 ≤ B → |e n| ≤ ρ * B + |f n|) (hf : Tendsto f atTop (𝓝 0)) :
    Tendsto e atTop (𝓝 0) := by
  have hfa : Tendsto (fun n => |f n|) atTop (𝓝 0) := by simpa using hf.abs
  obtain ⟨F, hF⟩ : ∃ F, ∀ n, |f n| ≤ F := by
    obtain ⟨F, hF⟩ := hfa.bddAbove_range
    exact ⟨F, fun n => hF ⟨n, rfl⟩⟩
  have hF0 : 0 ≤ F := (abs_nonneg _).trans (hF 0)
  obtain ⟨C, hC⟩ : ∃ C, ∀ n, n < N → |e n| ≤ C := by
    refine ⟨∑ i ∈ Finset.range N, |e i|, fun n hn => ?_⟩
    exact Finset.single_le_sum (f := fun i => |e i|) (fun i _ => abs_nonneg _) (Finset.mem_range.mpr hn)
  set B0 := max (max C 0) (F / (1 - ρ)) with hB0
  have hB0n : 0 ≤ B0 := (le_max_right C 0).trans (le_max_left _ _)
  have hB1 : ρ * B0 + F ≤ B0 := by
    have : F / (1 - ρ) ≤ B0 := le_max_right _ _
    rw [div_le_iff₀ (by linarith)] at this
    linarith
  have bound : ∀ n, |e n| ≤ B0 := by
    intro n
    induction n using Nat.strong_induction_on with
    | _ n ih =>
      rcases lt_or_ge n N with hn | hn
      · exact (hC n hn).trans ((le_max_left C 0).trans (le_max_left _ _))
      · have := h n hn B0 (fun j hj _ => ih j hj) hB0n
        linarith [hF n]
  rw [Metric.tendsto_atTop]
  intro ε hε
  have hε2 : 0 < ε / 3 := by positivity
  obtain ⟨N1, hN1⟩ := (Metric.tendsto_atTop.mp hfa) ((1 - ρ) * (ε / 3)) (mul_pos (by linarith) hε2)
  have step : ∀ m : ℕ, ∃ K, ∀ n, K ≤ n → |e n| ≤ ρ ^ m * B0 + ε / 3 := by
    intro m
    induction m with
    | zero => exact ⟨0, fun n _ => by rw [pow_zero, one_mul]; linarith [bound n]⟩
    | succ m ih =>
      obtain ⟨K, hK⟩ := ih
      refine ⟨max (K + M) (max N N1), fun n hn => ?_⟩
      have a1 : K + M ≤ n := (le_max_left _ _).trans hn
      have a2 : N ≤ n := (le_max_left _ _).trans ((le_max_right _ _).trans hn)
      have a3 : N1 ≤ n := (le_max_right _ _).trans ((le_max_right _ _).trans hn)
      have := h n a2 (ρ ^ m * B0 + ε / 3) (fun j _ hj => hK j (by omega)) (by positivity)
      have hfn := hN1 n a3
      rw [Real.dist_eq, sub_zero, abs_abs] at hfn
      rw [pow_succ]
      nlinarith
  obtain ⟨m, hm⟩ : ∃ m : ℕ, ρ ^ m * B0 < ε / 3 := by
    have := (tendsto_pow_atTop_nhds_zero_of_lt_one h0 h1).mul_const B0
    rw [zero_mul] at this
    exact ((tendsto_order.mp this).2 _ hε2).exists
  obtain ⟨K, hK⟩ := step m
  refine ⟨K, fun n hn => ?_⟩
  rw [Real.dist_eq, sub_zero]
  linarith [hK n hn]

private theorem tapSum_real (past : ℕ → ℝ) (taps : List (ℕ × ℝ)) (acc : ℝ) :
    tapSum past taps acc = acc + (taps.map fun t => past t.1 * t.2).sum := by
  unfold tapSum
  induction taps generalizing acc with
  | nil => simp
  | cons t ts ih =>
    rw [List.foldl_cons, ih, List.map_cons, List.sum_cons]
    ring

private theorem sum_abs_le {past : ℕ → ℝ} {taps : List (ℕ × ℝ)} {B : ℝ} (h : ∀ t ∈ taps, |past t.1| ≤ B) :
    |(taps.map fun t => past t.1 * t.2).sum| ≤ (taps.map fun t => |t.2|).sum * B := by
  induction taps with
  | nil => simp
  | cons t ts ih =>
    rw [List.map_cons, List.sum_cons, List.map_cons, List.sum_cons, add_mul]
    refine (abs_add_le _ _).trans (add_le_add ?_ (ih fun t ht => h t (List.mem_cons_of_mem _ ht)))
    rw [abs_mul, mul_comm]
    exact mul_le_mul_of_nonneg_left (h t (List.mem_cons_self ..)) (abs_nonneg _)

private theorem sum_tendsto {g : ℕ → ℕ → ℝ} {taps : List (ℕ × ℝ)} (h : ∀ t ∈ taps, Tendsto (fun n => g n t.1) atTop (𝓝 0)) :
    Tendsto (fun n => (taps.map fun t => g n t.1 * t.2).sum) atTop (𝓝 0) := by
  induction taps with
  | nil => simp
  | cons t ts ih =>
    simp only [List.map_cons, List.sum_cons]
    have := ((h t (List.mem_cons_self ..)).mul_const t.2).add (ih fun t ht => h t (List.mem_cons_of_mem _ ht))
    simpa using this

private theorem sum_abs_nonneg (l : List (ℕ × ℝ)) : 0 ≤ (l.map fun t => |t.2|).sum := by
  refine List.sum_nonneg fun a ha => ?_
  obtain ⟨t, -, rfl⟩ := List.mem_map.mp ha
  exact abs_nonneg _

/-- The recurrence of C56 over the reals. -/
private theorem generic_rec (zeros poles : List (ℕ × ℝ)) (hz : LastLargest zeros) (hp : LastLargest poles) (x : ℕ → ℝ) :
    ∃ y : ℕ → ℝ, ∀ n, modOut Generic.process x (Generic.new zeros poles) n = .ok (y n) ∧
      y n = (zeros.map fun t => (if n < t.1 then 0 else x (n - t.1)) * t.2).sum +
        (poles.map fun t => (if n < t.1 + 1 then 0 else y (n - (t.1 + 1))) * t.2).sum := by
  obtain ⟨y, hy⟩ := C56_generic zeros poles hz hp x
  refine ⟨y, fun n => ⟨(hy n).1, ?_⟩⟩
  have h := (hy n).2
  rw [tapSum_real, tapSum_real] at h
  have e : (lit 0 : ℝ) = 0 := by real_simp
  simp only [e, zero_add] at h
  exact h

/-! ## Generic -/

section generic
variable {zeros poles : List (ℕ × ℝ)} (hz : LastLargest zeros) (hp : LastLargest poles) (hs : (poles.map fun t => |t.2|).sum < 1)
include hz hp hs

/-- With feedback coefficients that sum to less than one in absolute value, the output is bounded by the input. -/
theorem C126_generic_bounded {x : ℕ → ℝ} {X : ℝ} (hx : ∀ n, |x n| ≤ X) (n : ℕ) :
    ∃ y, modOut Generic.process x (Generic.new zeros poles) n = .ok y ∧
      |y| ≤ (zeros.map fun t => |t.2|).sum * X / (1 - (poles.map fun t => |t.2|).sum) := by
  obtain ⟨y, hy⟩ := generic_rec zeros poles hz hp x
  refine ⟨y n, (hy n).1, ?_⟩
  have hX : 0 ≤ X := (abs_nonneg _).trans (hx 0)
  have p0 : 0 ≤ (poles.map fun t => |t.2|).sum := sum_abs_nonneg _
  have z0 : 0 ≤ (zeros.map fun t => |t.2|).sum := sum_abs_nonneg _
  set P := (poles.map fun t => |t.2|).sum
  set Z := (zeros.map fun t => |t.2|).sum
  have hd : 0 < 1 - P := by linarith
  have hB : 0 ≤ Z * X / (1 - P) := by positivity
  induction n using Nat.strong_induction_on with
  | _ n ih =>
    rw [(hy n).2]
    have h1 : |(zeros.map fun t => (if n < t.1 then 0 else x (n - t.1)) * t.2).sum| ≤ Z * X :=
      sum_abs_le (past := fun k => if n < k then 0 else x (n - k)) (fun t _ => by
        show |if n < t.1 then 0 else x (n - t.1)| ≤ X
        split_ifs
        · simpa using hX
        · exact hx _)
    have h2 : |(poles.map fun t => (if n < t.1 + 1 then 0 else y (n - (t.1 + 1))) * t.2).sum| ≤ P * (Z * X / (1 - P)) :=
      sum_abs_le (past := fun k => if n < k + 1 then 0 else y (n - (k + 1))) (fun t _ => by
        show |if n < t.1 + 1 then 0 else y (n - (t.1 + 1))| ≤ _
        split_ifs
        · simpa using hB
        · exact ih _ (by omega))
    refine (abs_add_le _ _).trans ((add_le_add h1 h2).trans (le_of_eq ?_))
    field_simp
    ring

private theorem generic_forget {e f : ℕ → ℝ} (h : ∀ n, max (Generic.back zeros) (Generic.back poles) ≤ n →
    e n = f n + (poles.map fun t => e (n - (t.1 + 1)) * t.2).sum) (hf : Tendsto f atTop (𝓝 0)) : Tendsto e atTop (𝓝 0) := by
  have := hz
  refine forget (ρ := (poles.map fun t => |t.2|).sum) (sum_abs_nonneg _) hs (max (Generic.back zeros) (Generic.back poles)) (Generic.back poles) (fun n hn B hB hB0 => ?_) hf
  rw [h n hn]
  have h2 : |(poles.map fun t => e (n - (t.1 + 1)) * t.2).sum| ≤ (poles.map fun t => |t.2|).sum * B :=
    sum_abs_le (past := fun k => e (n - (k + 1))) (fun t ht => by
      have h1 := back_le hp t ht
      have h2 : Generic.back poles ≤ n := (le_max_right _ _).trans hn
      exact hB _ (by omega) (by omega))
  refine (abs_add_le _ _).trans ?_
  linarith

/-- It is linear and forgets. -/
theorem C126_generic_settles : Settles Generic.process (Generic.new zeros poles) := by
  refine ⟨(C58_generic zeros poles hz hp).superposition, fun x hx => ?_⟩
  obtain ⟨y, hy⟩ := generic_rec zeros poles hz hp x
  refine ⟨y, fun n => (hy n).1, generic_forget hz hp hs (f := fun n => (zeros.map fun t => (if n < t.1 then 0 else x (n - t.1)) * t.2).sum) (fun n hn => ?_) ?_⟩
  · rw [(hy n).2]
    congr 2
    refine List.map_congr_left fun t ht => ?_
    have h1 := back_le hp t ht
    have h2 : Generic.back poles ≤ n := (le_max_right _ _).trans hn
    rw [if_neg (by omega)]
  · refine sum_tendsto (g := fun n k => if n < k then 0 else x (n - k)) fun t _ => ?_
    have : Tendsto (fun n => x (n - t.1)) atTop (𝓝 0) := hx.comp (tendsto_sub_atTop_nat t.1)
    refine this.congr' ?_
    filter_upwards [eventually_ge_atTop t.1] with n hn
    rw [if_neg (by omega)]

end generic

/-- The transfer function with the given taps at angle `w`: feed-forward taps delay by their index, feedback taps by one more. -/
noncomputable def transfer (zeros poles : List (ℕ × ℝ)) (w : ℝ) : ℂ :=
  (zeros.map fun t => (t.2 : ℂ) * Complex.exp (-(w * t.1 : ℝ) * Complex.I)).sum /
    (1 - (poles.map fun t => (t.2 : ℂ) * Complex.exp (-(w * (t.1 + 1) : ℝ) * Complex.I)).sum)

private theorem zw_back (w : ℝ) {n k : ℕ} (h : k ≤ n) : zw w ^ (n - k) = Complex.exp (-(w * k : ℝ) * Complex.I) * zw w ^ n := by
  rw [zw_pow, zw_pow, ← Complex.exp_add, Nat.cast_sub h]
  congr 1
  push_cast
  ring

private theorem sum_re (l : List ℂ) : l.sum.re = (l.map Complex.re).sum := by
  induction l with
  | nil => rfl
  | cons a l ih => rw [List.sum_cons, Complex.add_re, ih, List.map_cons, List.sum_cons]

private theorem norm_sum_le' (l : List ℂ) : ‖l.sum‖ ≤ (l.map fun z => ‖z‖).sum := by
  induction l with
  | nil => simp
  | cons a l ih =>
    rw [List.sum_cons, List.map_cons, List.sum_cons]
    exact (norm_add_le _ _).trans (by linarith)

private theorem sum_mul_right' (l : List ℂ) (c : ℂ) : l.sum * c = (l.map fun z => z * c).sum := by
  induction l with
  | nil => simp
  | cons a l ih => rw [List.sum_cons, add_mul, ih, List.map_cons, List.sum_cons]

private theorem den_ne {poles : List (ℕ × ℝ)} (hs : (poles.map fun t => |t.2|).sum < 1) (w : ℝ) :
    (1 - (poles.map fun t => (t.2 : ℂ) * Complex.exp (-(w * (t.1 + 1) : ℝ) * Complex.I)).sum) ≠ 0 := by
  intro h
  have h1 : ‖(poles.map fun t => (t.2 : ℂ) * Complex.exp (-(w * (t.1 + 1) : ℝ) * Complex.I)).sum‖ = 1 := by
    rw [← sub_eq_zero.mp h]
    simp
  have h2 := norm_sum_le' (poles.map fun t => (t.2 : ℂ) * Complex.exp (-(w * (t.1 + 1) : ℝ) * Complex.I))
  rw [h1, List.map_map] at h2
  have e : (fun z : ℂ => ‖z‖) ∘ (fun t : ℕ × ℝ => (t.2 : ℂ) * Complex.exp (-(w * (t.1 + 1) : ℝ) * Complex.I)) = fun t => |t.2| := by
    funext t
    simp only [Function.comp, norm_mul, Complex.norm_real, Real.norm_eq_abs]
    rw [show (-(w * (t.1 + 1) : ℝ) * Complex.I : ℂ) = ((-(w * (t.1 + 1)) : ℝ) : ℂ) * Complex.I by push_cast; ring, Complex.norm_exp_ofReal_mul_I, mul_one]
  rw [e] at h2
  linarith

/-- Exact arithmetic: Generic realises its transfer function. -/
theorem C126_generic {zeros poles : List (ℕ × ℝ)} (hz : LastLargest zeros) (hp : LastLargest poles)
    (hs : (poles.map fun t => |t.2|).sum < 1) (ν : ℝ) :
    SteadyGain Generic.process (Generic.new zeros poles) ν ‖transfer zeros poles (2 * Real.pi * ν / 48000)‖ := by
  set w := 2 * Real.pi * ν / 48000 with hw
  refine steady_of (transfer zeros poles w) rfl fun A φ => ?_
  rw [← hw]
  obtain ⟨y, hy⟩ := generic_rec zeros poles hz hp (fun n : ℕ => A * Real.cos (w * n + φ))
  refine ⟨y, fun n => (hy n).1, ?_⟩
  set E : ℂ := transfer zeros poles w * phasor A φ with hE
  have hEd : E = E * (poles.map fun t => (t.2 : ℂ) * Complex.exp (-(w * (t.1 + 1) : ℝ) * Complex.I)).sum +
      phasor A φ * (zeros.map fun t => (t.2 : ℂ) * Complex.exp (-(w * t.1 : ℝ) * Complex.I)).sum := by
    have hd := den_ne hs w
    rw [hE]
    unfold transfer
    generalize (poles.map fun t => (t.2 : ℂ) * Complex.exp (-(w * (t.1 + 1) : ℝ) * Complex.I)).sum = P at hd ⊢
    generalize (zeros.map fun t => (t.2 : ℂ) * Complex.exp (-(w * t.1 : ℝ) * Complex.I)).sum = Z
    field_simp
    ring
  refine generic_forget hz hp hs (f := fun _ => 0) (fun n hn => ?_) tendsto_const_nhds
  have e1 : E * zw w ^ n = (poles.map fun t => (t.2 : ℂ) * (E * zw w ^ (n - (t.1 + 1)))).sum +
      (zeros.map fun t => (t.2 : ℂ) * (phasor A φ * zw w ^ (n - t.1))).sum := by
    conv_lhs => rw [hEd]
    have c : ∀ (a : ℂ) (l : List ℂ) (b : ℂ), a * l.sum * b = (l.map fun z => z * (a * b)).sum := by
      intro a l b
      rw [← sum_mul_right']
      ring
    rw [add_mul, c, c, List.map_map, List.map_map]
    congr 1
    · congr 1
      refine List.map_congr_left fun t ht => ?_
      have h1 := back_le hp t ht
      have h2 : Generic.back poles ≤ n := (le_max_right _ _).trans hn
      rw [zw_back w (show t.1 + 1 ≤ n by omega)]
      simp only [Function.comp]
      push_cast
      ring
    · congr 1
      refine List.map_congr_left fun t ht => ?_
      have h1 := back_le hz t ht
      have h2 : Generic.back zeros ≤ n := (le_max_left _ _).trans hn
      rw [zw_back w (show t.1 ≤ n by omega)]
      simp only [Function.comp]
      ring
  have e2 := congrArg Complex.re e1
  rw [Complex.add_re, sum_re, sum_re, List.map_map, List.map_map] at e2
  rw [(hy n).2, e2, zero_add]
  have z1 : (zeros.map fun t => (if n < t.1 then 0 else A * Real.cos (w * ((n - t.1 : ℕ) : ℝ) + φ)) * t.2) =
      zeros.map (Complex.re ∘ fun t => (t.2 : ℂ) * (phasor A φ * zw w ^ (n - t.1))) := by
    refine List.map_congr_left fun t ht => ?_
    have h1 := back_le hz t ht
    have h2 : Generic.back zeros ≤ n := (le_max_left _ _).trans hn
    rw [if_neg (by omega)]
    simp only [Function.comp, Complex.re_ofReal_mul, phasor_re]
    ring
  have z2 : ((poles.map fun t => (if n < t.1 + 1 then 0 else y (n - (t.1 + 1))) * t.2).sum) =
      (poles.map (Complex.re ∘ fun t => (t.2 : ℂ) * (E * zw w ^ (n - (t.1 + 1))))).sum +
      (poles.map fun t => (y (n - (t.1 + 1)) - (E * zw w ^ (n - (t.1 + 1))).re) * t.2).sum := by
    rw [← List.sum_map_add]
    congr 1
    refine List.map_congr_left fun t ht => ?_
    have h1 := back_le hp t ht
    have h2 : Generic.back poles ≤ n := (le_max_right _ _).trans hn
    rw [if_neg (by omega)]
    simp only [Function.comp, Complex.re_ofReal_mul]
    ring
  rw [z1, z2]
  ring

example (ν : ℝ) : SteadyGain Generic.process (Generic.new [(0, 1), (2, 1 / 2)] [(0, 1 / 2)]) ν ‖transfer [(0, 1), (2, 1 / 2)] [(0, 1 / 2)] (2 * Real.pi * ν / 48000)‖ :=
  C126_generic (by simp [LastLargest]) (by simp [LastLargest]) (by norm_num [abs_of_pos]) ν

/-! ## Echo, Delay, Gain, Passthrough -/

private theorem echo_generic (m : Echo ℝ) (D : ℕ) (hD : 0 < D) (hm : m.delay = List.replicate D 0) (x : ℕ → ℝ) (n : ℕ) :
    modOut Echo.process x m n = modOut Generic.process x (Generic.new [(0, 1)] [(D - 1, m.gain)]) n := by
  have z : (lit 0 : ℝ) = 0 := by real_simp
  obtain ⟨y, hy⟩ := C54_echo m D hD (by rw [hm, z]) x
  obtain ⟨y', hy'⟩ := generic_rec [(0, 1)] [(D - 1, m.gain)] (by simp [LastLargest]) (by simp [LastLargest]) x
  rw [(hy n).1, (hy' n).1]
  congr 1
  induction n using Nat.strong_induction_on with
  | _ n ih =>
    rw [(hy n).2, (hy' n).2]
    have e : D - 1 + 1 = D := by omega
    simp only [List.map_cons, List.map_nil, List.sum_cons, List.sum_nil, e, Nat.not_lt_zero, if_false, Nat.sub_zero, mul_one, add_zero, z]
    by_cases h : n < D
    · simp only [if_pos h]
      ring
    · simp only [if_neg h]
      rw [ih (n - D) (by omega)]
      ring

/-- The comb response of an echo of `D` samples and gain `g` at frequency `ν`. -/
noncomputable def combGain (D : ℕ) (g ν : ℝ) : ℝ := 1 / Real.sqrt (1 - 2 * g * Real.cos (2 * Real.pi * ν / 48000 * D) + g ^ 2)

/-- Exact arithmetic: an echo with a gain below one in absolute value has the comb response, forgets, and its output is at most
`1/(1-|gain|)` times its input. -/
theorem C126_echo (m : Echo ℝ) (D : ℕ) (hD : 0 < D) (hm : m.delay = List.replicate D 0) (hg : |m.gain| < 1) :
    (∀ ν, SteadyGain Echo.process m ν (combGain D m.gain ν)) ∧ Settles Echo.process m ∧
    ∀ (x : ℕ → ℝ) (X : ℝ), (∀ n, |x n| ≤ X) → ∀ n, ∃ y, modOut Echo.process x m n = .ok y ∧ |y| ≤ X / (1 - |m.gain|) := by
  have hz : LastLargest [((0 : ℕ), (1 : ℝ))] := by simp [LastLargest]
  have hp : LastLargest [((D - 1 : ℕ), m.gain)] := by simp [LastLargest]
  have hs : ([((D - 1 : ℕ), m.gain)].map fun t => |t.2|).sum < 1 := by simpa using hg
  have e := echo_generic m D hD hm
  refine ⟨fun ν => ?_, (C126_generic_settles hz hp hs).congr e, fun x X hx n => ?_⟩
  · have h := (C126_generic hz hp hs ν).congr e
    have : ‖transfer [(0, 1)] [(D - 1, m.gain)] (2 * Real.pi * ν / 48000)‖ = combGain D m.gain ν := by
      have hd : ((D - 1 : ℕ) : ℝ) + 1 = D := by exact_mod_cast (by omega : D - 1 + 1 = D)
      unfold transfer combGain
      simp only [List.map_cons, List.map_nil, List.sum_cons, List.sum_nil, add_zero, hd]
      rw [norm_div]
      congr 1
      · simp
      · rw [← Real.sqrt_sq (norm_nonneg _), ← Complex.normSq_eq_norm_sq]
        congr 1
        have e1 : Complex.exp (-((2 * Real.pi * ν / 48000 * D : ℝ) : ℂ) * Complex.I) =
            ⟨Real.cos (2 * Real.pi * ν / 48000 * D), -Real.sin (2 * Real.pi * ν / 48000 * D)⟩ := by
          rw [show (-((2 * Real.pi * ν / 48000 * D : ℝ) : ℂ) * Complex.I) = ((-(2 * Real.pi * ν / 48000 * D) : ℝ) : ℂ) * Complex.I by push_cast; ring]
          apply Complex.ext
          · rw [Complex.exp_ofReal_mul_I_re, Real.cos_neg]
          · rw [Complex.exp_ofReal_mul_I_im, Real.sin_neg]
        rw [e1, Complex.normSq_apply]
        have := Real.sin_sq_add_cos_sq (2 * Real.pi * ν / 48000 * D)
        simp
        linear_combination m.gain ^ 2 * this
    rwa [this] at h
  · obtain ⟨y, h1, h2⟩ := C126_generic_bounded hz hp hs hx n
    refine ⟨y, by rw [e]; exact h1, ?_⟩
    simpa using h2

example (ν : ℝ) : SteadyGain Echo.process (⟨[0, 0, 0], 1 / 4⟩ : Echo ℝ) ν (combGain 3 (1 / 4) ν) :=
  (C126_echo _ 3 (by norm_num) rfl (by norm_num [abs_of_pos])).1 ν

/-- The bound on the echo gain is needed: with gain one or more a constant input of 1 grows beyond all bounds. -/
theorem C126_echo_needed (m : Echo ℝ) (D : ℕ) (hD : 0 < D) (hm : m.delay = List.replicate D 0) (hg : 1 ≤ m.gain) (k : ℕ) :
    ∃ y, modOut Echo.process (fun _ => 1) m (D * k) = .ok y ∧ (k : ℝ) + 1 ≤ y := by
  have z : (lit 0 : ℝ) = 0 := by real_simp
  obtain ⟨y, hy⟩ := C54_echo m D hD (by rw [hm, z]) (fun _ => 1)
  refine ⟨y (D * k), (hy _).1, ?_⟩
  induction k with
  | zero =>
    rw [(hy _).2, Nat.mul_zero, if_pos hD, z]
    norm_num
  | succ k ih =>
    rw [(hy _).2, if_neg (by rw [Nat.mul_succ]; omega), show D * (k + 1) - D = D * k by rw [Nat.mul_succ]; omega]
    push_cast
    nlinarith [Nat.cast_nonneg (α := ℝ) k]

example (k : ℕ) : ∃ y, modOut Echo.process (fun _ => 1) (⟨[0, 0, 0], 1⟩ : Echo ℝ) (3 * k) = .ok y ∧ (k : ℝ) + 1 ≤ y :=
  C126_echo_needed _ 3 (by norm_num) rfl (by norm_num) k

/-- Delay has gain one at every frequency, Gain the absolute value of its factor, Passthrough one; all three forget. -/
theorem C126_memoryless (m : Delay ℝ) (D : ℕ) (hm : m.delay = List.replicate D 0) (a ν : ℝ) :
    (SteadyGain Delay.process m ν 1 ∧ Settles Delay.process m) ∧
    (SteadyGain Modifier.process (Gain.new a) ν |a| ∧ Settles Modifier.process (Gain.new a)) ∧
    (SteadyGain (X := Passthrough) (E := Panic) Modifier.process Passthrough.mk ν 1 ∧
      Settles (X := Passthrough) (E := Panic) Modifier.process Passthrough.mk) := by
  have z : (lit 0 : ℝ) = 0 := by real_simp
  have h1 := fun x n => (C51_delay m D (by rw [hm, z]) x n).1
  have h2 := fun x n => C73_memoryless a x n
  refine ⟨⟨steady_of ((zw (2 * Real.pi * ν / 48000))⁻¹ ^ D) (by simp [zw_norm]) fun A φ => ⟨_, h1 _, ?_⟩, (C58_delay m D hm).superposition, fun x hx => ⟨_, h1 x, ?_⟩⟩,
    ⟨steady_of (a : ℂ) (by simp) fun A φ => ⟨_, fun n => (h2 _ n).1, ?_⟩, (C58_gain a).1.superposition, fun x hx => ⟨_, fun n => (h2 x n).1, ?_⟩⟩,
    steady_of 1 (by simp) fun A φ => ⟨_, fun n => (h2 _ n).2.1, ?_⟩, (C58_gain a).2.superposition, fun x hx => ⟨_, fun n => (h2 x n).2.1, hx⟩⟩
  · refine tendsto_const_nhds.congr' ?_
    filter_upwards [eventually_ge_atTop D] with n hn
    rw [if_neg (by omega), ← phasor_re]
    have hz := zw_ne (2 * Real.pi * ν / 48000)
    obtain ⟨k, rfl⟩ : ∃ k, n = k + D := ⟨n - D, by omega⟩
    rw [Nat.add_sub_cancel, pow_add, ← sub_eq_zero.mpr rfl]
    rw [show (zw (2 * Real.pi * ν / 48000))⁻¹ ^ D * phasor A φ * (zw (2 * Real.pi * ν / 48000) ^ k * zw (2 * Real.pi * ν / 48000) ^ D) =
      phasor A φ * zw (2 * Real.pi * ν / 48000) ^ k by rw [inv_pow]; field_simp, sub_self]
  · have : Tendsto (fun n => x (n - D)) atTop (𝓝 0) := hx.comp (tendsto_sub_atTop_nat D)
    refine this.congr' ?_
    filter_upwards [eventually_ge_atTop D] with n hn
    rw [if_neg (by omega)]
  · refine tendsto_const_nhds.congr fun n => ?_
    rw [mul_assoc (a : ℂ), Complex.re_ofReal_mul, phasor_re]
    ring
  · simpa using hx.mul_const a
  · refine tendsto_const_nhds.congr fun n => ?_
    rw [one_mul, phasor_re, sub_self]

/-! ## LowPass, HighPass and BandPass forget -/

/-- Exact arithmetic: the filters of C123 are linear and forget. -/
theorem C126_filters_settle (fc r : ℝ) (hfc : 0 < fc) {l h : ℝ} (hl : 0 < l) (hlh : l < h) (hh : h < 24000) :
    Settles Modifier.process (LowPass.new fc r : LowPass ℝ ℝ) ∧ Settles Modifier.process (HighPass.new fc r : HighPass ℝ ℝ) ∧
    Settles Modifier.process (BandPass.fromCorners (l, h) : BandPass ℝ ℝ) := by
  refine ⟨⟨(C58_new fc r).1.superposition, fun x hx => ?_⟩, ⟨(C58_new fc r).2.1.superposition, fun x hx => ?_⟩, ?_⟩
  · obtain ⟨y, h1, h2⟩ := lp_third fc r hfc x
    refine ⟨y, h1, ?_⟩
    have h4 := thirdOrder_tendsto (omega_pos hfc) (by linarith [(damping_mem r).1]) (by linarith [(damping_mem r).2]) h2
      (by simpa using hx.const_mul (omega fc ^ 3))
    have := (tendsto_add_atTop_iff_nat 3).mpr h4
    simpa only [delayed_succ, delayed_zero'] using this
  · obtain ⟨y, h1, h2⟩ := hp_third fc r hfc x
    refine ⟨y, h1, ?_⟩
    have h4 := thirdOrder_tendsto (omega_pos hfc) (by linarith [(damping_mem r).1]) (by linarith [(damping_mem r).2]) h2 (by
      have e1 : Tendsto (fun n => x (n - 1)) atTop (𝓝 0) := hx.comp (tendsto_sub_atTop_nat 1)
      have e2 : Tendsto (fun n => x (n - 2)) atTop (𝓝 0) := hx.comp (tendsto_sub_atTop_nat 2)
      have e3 : Tendsto (fun n => x (n - 3)) atTop (𝓝 0) := hx.comp (tendsto_sub_atTop_nat 3)
      have e := ((hx.sub (e1.const_mul 3)).add (e2.const_mul 3)).sub e3
      simp only [mul_zero, sub_zero, add_zero] at e
      refine e.congr' ?_
      filter_upwards [eventually_ge_atTop 3] with n hn
      rw [bdiff3_eq]
      unfold delayed
      rw [if_neg (by omega), if_neg (by omega), if_neg (by omega)])
    have := (tendsto_add_atTop_iff_nat 3).mpr h4
    simpa only [delayed_succ, delayed_zero'] using this
  · have hP : 0 < l * h := mul_pos hl (hl.trans hlh)
    have e1 : (BandPass.fromCorners (l, h) : BandPass ℝ ℝ) = BandPass.new (Real.sqrt (l * h)) (Real.sqrt (l * h) / (h - l)) := by
      unfold BandPass.fromCorners BandPass.new
      real_simp
      rw [abs_of_pos hP, abs_of_pos (sub_pos.mpr hlh)]
    have hS : 0 < Real.sqrt (l * h) := Real.sqrt_pos.mpr hP
    have hd : Real.sqrt (l * h) / (Real.sqrt (l * h) / (h - l)) = h - l := by
      have : h - l ≠ 0 := (sub_pos.mpr hlh).ne'
      field_simp
    rw [e1]
    refine ⟨(C58_new _ _).2.2.superposition, fun x hx => ?_⟩
    have e := bp_new hl hlh rfl hd
    rw [e]
    obtain ⟨y, hy⟩ := bandpass_out (⟨Real.sqrt (l * h), Real.sqrt (l * h) / (h - l), (1 - 1 / (1 + Real.tan (Real.pi * h / 48000))) *
      (1 / (1 + Real.tan (Real.pi * l / 48000))), bpPole h + bpPole l, bpPole h * bpPole l, 0, 0, 0, 0⟩ : BandPass ℝ ℝ) rfl rfl rfl rfl x
    refine ⟨y, fun n => (hy n).1, ?_⟩
    have h4 := twoPole_tendsto (e := delayed 0 y 2) (f := fun n => (1 - 1 / (1 + Real.tan (Real.pi * h / 48000))) *
      (1 / (1 + Real.tan (Real.pi * l / 48000))) * (x n - delayed 0 x 2 n)) (bpPole_abs (hl.trans hlh) hh) (bpPole_abs hl (hlh.trans hh))
      (fun n => by
        have := (hy n).2
        simp only [delayed_succ, delayed_zero'] at this ⊢
        rw [this]
        ring) (by
        have e2 : Tendsto (fun n => x (n - 2)) atTop (𝓝 0) := hx.comp (tendsto_sub_atTop_nat 2)
        have e := (hx.sub e2).const_mul ((1 - 1 / (1 + Real.tan (Real.pi * h / 48000))) * (1 / (1 + Real.tan (Real.pi * l / 48000))))
        rw [sub_zero, mul_zero] at e
        refine e.congr' ?_
        filter_upwards [eventually_ge_atTop 2] with n hn
        unfold delayed
        rw [if_neg (by omega)])
    have := (tendsto_add_atTop_iff_nat 2).mpr h4
    simpa only [delayed_succ, delayed_zero'] using this

/-! ## Chains of modifiers in a SimpleSound -/

section chain
variable {B : Type} [Block B ℝ]

/-- A modifier in a block responds as it does alone. -/
theorem C127_block {X : Type} [Modifier X ℝ] (m : X) {ν g : ℝ} (h : SteadyGain Modifier.process m ν g) (hs : Settles Modifier.process m) :
    SteadyGain blockStep (StandardBlock.fromModifier m : StandardBlock Zero X StdInter ℝ) ν g ∧
    Settles blockStep (StandardBlock.fromModifier m : StandardBlock Zero X StdInter ℝ) := by
  have e : ∀ (x : ℕ → ℝ) n, modOut blockStep x (StandardBlock.fromModifier m : StandardBlock Zero X StdInter ℝ) n = modOut Modifier.process x m n := by
    intro x n
    rw [modOut_block]
    have : (fun n => (dflt : ℝ) + x n) = x := funext fun n => by unfold dflt; real_simp; ring
    rw [this]
  exact ⟨h.congr e, hs.congr e⟩

/-- Blocks in series: the gains multiply. -/
theorem C127_series {bs : List B} {gs : List ℝ} {ν : ℝ} (h : List.Forall₂ (fun b g => SteadyGain blockStep b ν g ∧ Settles blockStep b) bs gs) :
    SteadyGain series bs ν gs.prod ∧ Settles series bs := by
  induction h with
  | nil =>
    have e := fun (x : ℕ → ℝ) n => modOut_series_nil (B := B) x n
    refine ⟨steady_of 1 (by simp) fun A φ => ⟨_, e _, ?_⟩, fun u v a b n => ⟨_, _, e _ _, e _ _, e _ _⟩, fun x hx => ⟨x, e x, hx⟩⟩
    refine tendsto_const_nhds.congr fun n => ?_
    rw [one_mul, phasor_re, sub_self]
  | @cons b g bs gs hb _ ih =>
    have e := fun (x : ℕ → ℝ) n => modOut_series_cons b bs x n
    rw [List.prod_cons]
    exact ⟨(hb.1.andThen ih.1 ih.2).congr e, (hb.2.andThen ih.2).congr e⟩

/-- A sound whose blocks have gains `gs` at frequency `ν` has gain `|input gain| · Π gs · |output gain|` there. -/
theorem C127_sound (h : Heap B) (s : SimpleSound ℝ) {bs : List B} {gs : List ℝ} {ν : ℝ} (ho : Owns h (s.generator :: s.modifierList) bs)
    (hp : s.paused = false) (hm : s.muted = false)
    (hb : List.Forall₂ (fun b g => SteadyGain blockStep b ν g ∧ Settles blockStep b) bs gs) :
    SteadyGain (fun h x => SimpleSound.process h s x) h ν (|s.inputGain| * gs.prod * |s.outputGain|) ∧
    Settles (fun h x => SimpleSound.process h s x) h := by
  obtain ⟨h1, h2⟩ := C127_series hb
  obtain ⟨-, ⟨i1, i2⟩, -⟩ := C126_memoryless ⟨[]⟩ 0 rfl s.inputGain ν
  obtain ⟨-, ⟨o1, o2⟩, -⟩ := C126_memoryless ⟨[]⟩ 0 rfl s.outputGain ν
  have e := fun (x : ℕ → ℝ) n => modOut_sound h s ho hp hm x n
  exact ⟨((i1.andThen h1 h2).andThen o1 o2).congr e, ((i2.andThen h2).andThen o2).congr e⟩

omit [Block B ℝ] in
/-- Played through `dyn Sound` (sounds/mod.rs) both kinds of sound answer every input as when called directly: the blocks move on from
sample to sample. -/
theorem C79_trait_play {S : Type} [Flt S] [Block B S] (h : Heap B) (s : SimpleSound S) (c : ComplexSound) (x : ℕ → S) (n : ℕ) :
    modOut Sound.process x (s, h) n = modOut (fun h x => SimpleSound.process h s x) x h n ∧
    modOut Sound.process x (c, h) n = modOut (fun h x => ComplexSound.process h c x) x h n := by
  constructor
  · refine modOut_sim (fun (k : Heap B) (t : SimpleSound S × Heap B) => t = (s, k)) (fun k t v ht => ?_) rfl n
    subst ht
    rcases e : SimpleSound.process k s v with p | ⟨y, k'⟩
    · exact .inr ⟨p, rfl, by simp only [Sound.process, e]; rfl⟩
    · exact .inl ⟨y, k', (s, k'), rfl, by simp only [Sound.process, e]; rfl, rfl⟩
  · refine modOut_sim (fun (k : Heap B) (t : ComplexSound × Heap B) => t = (c, k)) (fun k t v ht => ?_) rfl n
    subst ht
    rcases e : ComplexSound.process k c v with p | ⟨y, k'⟩
    · exact .inr ⟨p, rfl, by simp only [Sound.process, e]; rfl⟩
    · exact .inl ⟨y, k', (c, k'), rfl, by simp only [Sound.process, e]; rfl, rfl⟩

/-- Blocks of two types in one chain respond as they do alone. -/
theorem C127_sum {A C : Type} [Block A ℝ] [Block C ℝ] (a : A) (c : C) {ν g g' : ℝ}
    (ha : SteadyGain blockStep a ν g ∧ Settles blockStep a) (hc : SteadyGain blockStep c ν g' ∧ Settles blockStep c) :
    (SteadyGain blockStep (.inl a : A ⊕ C) ν g ∧ Settles blockStep (.inl a : A ⊕ C)) ∧
    (SteadyGain blockStep (.inr c : A ⊕ C) ν g' ∧ Settles blockStep (.inr c : A ⊕ C)) := by
  have e1 := fun (x : ℕ → ℝ) n => modOut_inl (C := C) a x n
  have e2 := fun (x : ℕ → ℝ) n => modOut_inr (A := A) c x n
  exact ⟨⟨ha.1.congr e1, ha.2.congr e1⟩, hc.1.congr e2, hc.2.congr e2⟩

end chain

/-- A delay of one sample in a sound, played through the trait: what goes in comes out one sample later. -/
example : modOut Sound.process (fun n => if n = 0 then (lit 5 : F32) else lit 0)
    ((SimpleSound.new (lit 1 : F64) (lit 1 : F64) 0 : SimpleSound F32), ([⟨StandardBlock.fromModifier ⟨[lit 0]⟩, 1⟩] : Heap (StandardBlock Zero (Delay F32) StdInter F32))) 1 =
      .ok (lit 5) := by decide +kernel

/-- A low pass and an echo in one sound: the hypotheses of `C127_sound` are met, and the gain is the product. -/
example (ν : ℝ) : ∃ (h : Heap (StandardBlock Zero (LowPass ℝ ℝ) StdInter ℝ ⊕ StandardBlock Zero (Echo ℝ) StdInter ℝ)),
    SteadyGain (fun h x => SimpleSound.process h ((SimpleSound.new (1 : ℝ) (1 / 2 : ℝ) 0 : SimpleSound ℝ).addModifier 1) x) h ν
      (1 / 2 * (lowGain 1000 0 ν * combGain 3 (1 / 4) ν)) := by
  set lp : StandardBlock Zero (LowPass ℝ ℝ) StdInter ℝ ⊕ StandardBlock Zero (Echo ℝ) StdInter ℝ := .inl (StandardBlock.fromModifier (LowPass.new 1000 0)) with hlp
  set ec : StandardBlock Zero (LowPass ℝ ℝ) StdInter ℝ ⊕ StandardBlock Zero (Echo ℝ) StdInter ℝ := .inr (StandardBlock.fromModifier ⟨[0, 0, 0], 1 / 4⟩) with hec
  refine ⟨[⟨lp, 1⟩, ⟨ec, 1⟩], ?_⟩
  have h1 := C127_block (LowPass.new 1000 0 : LowPass ℝ ℝ) (C123_lowpass 1000 0 (by norm_num) ν)
    (C126_filters_settle 1000 0 (by norm_num) (l := 1) (h := 2) (by norm_num) (by norm_num) (by norm_num)).1
  obtain ⟨e1, e2, -⟩ := C126_echo (⟨[0, 0, 0], 1 / 4⟩ : Echo ℝ) 3 (by norm_num) rfl (by norm_num [abs_of_pos])
  have h2 := C127_block (⟨[0, 0, 0], 1 / 4⟩ : Echo ℝ) (e1 ν) e2
  obtain ⟨c1, c2⟩ := C127_sum _ _ h1 h2
  have h3 := (C127_sound (bs := [lp, ec]) (gs := [lowGain 1000 0 ν, combGain 3 (1 / 4) ν]) (ν := ν) [⟨lp, 1⟩, ⟨ec, 1⟩]
    ((SimpleSound.new (1 : ℝ) (1 / 2 : ℝ) 0 : SimpleSound ℝ).addModifier 1)
    ⟨by simp [SimpleSound.new, SimpleSound.addModifier], by simp [SimpleSound.new, SimpleSound.addModifier]⟩ rfl rfl (.cons c1 (.cons c2 .nil))).1
  have e : (|((SimpleSound.new (1 : ℝ) (1 / 2 : ℝ) 0 : SimpleSound ℝ).addModifier 1).inputGain| * [lowGain 1000 0 ν, combGain 3 (1 / 4) ν].prod *
      |((SimpleSound.new (1 : ℝ) (1 / 2 : ℝ) 0 : SimpleSound ℝ).addModifier 1).outputGain|) = 1 / 2 * (lowGain 1000 0 ν * combGain 3 (1 / 4) ν) := by
    simp [SimpleSound.new, SimpleSound.addModifier, SM.down]
    ring
  rwa [e] at h3

/-- The hypotheses on the taps hold for an ordinary two-tap filter with feedback. -/
example : LastLargest [((0 : ℕ), (1 : ℝ)), (2, 1 / 2)] ∧ LastLargest [((0 : ℕ), (1 / 2 : ℝ)), (4, -1 / 4)] ∧
    ([((0 : ℕ), (1 / 2 : ℝ)), (4, -1 / 4)].map fun t => |t.2|).sum < 1 := by
  refine ⟨by simp [LastLargest], by simp [LastLargest], ?_⟩
  norm_num [abs_of_pos, abs_of_neg]

end Verif
