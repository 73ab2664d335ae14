import Verif.Props.Convolution
import Verif.Props.Transfer
import Verif.Props.Response
import Mathlib.Analysis.Asymptotics.Lemmas
import Mathlib.Analysis.Asymptotics.SpecificAsymptotics
import Mathlib.Data.Sign.Basic
import Mathlib.Analysis.Complex.Trigonometric
import Mathlib.Analysis.Normed.Group.InfiniteSum
import Mathlib.Topology.Algebra.InfiniteSum.NatInt

/-! # Energy: C151 (exact arithmetic) -/

namespace Verif
open Filter Topology

/-! ## Specification -/

/-- The energy of the first `N` samples. -/
def energy (x : ℕ → ℝ) (N : ℕ) : ℝ := ∑ n ∈ Finset.range N, x n ^ 2

/-- From its current state the effect never puts out more than `G²` times the energy put in so far. -/
def EnergyGain {X E : Type} (p : X → ℝ → Except E (ℝ × X)) (m : X) (G : ℝ) : Prop :=
  0 ≤ G ∧ ∀ x : ℕ → ℝ, ∃ y : ℕ → ℝ, (∀ n, modOut p x m n = .ok (y n)) ∧ ∀ N, energy y N ≤ G ^ 2 * energy x N

/-- Samples of at most `B` give samples of at most `K * B`. -/
def PeakGain {X E : Type} (p : X → ℝ → Except E (ℝ × X)) (m : X) (K : ℝ) : Prop :=
  ∀ (x : ℕ → ℝ) (B : ℝ), (∀ n, |x n| ≤ B) → ∀ n, ∃ y, modOut p x m n = .ok y ∧ |y| ≤ K * B

/-! ## The discrete Fourier transform keeps the energy -/

private theorem zw_neg_pow (M j n : ℕ) : zw (-(2 * Real.pi * j / M)) ^ n = Complex.exp (((-(2 * Real.pi * j * n / M) : ℝ)) * Complex.I) := by
  rw [zw_pow]
  congr 3
  ring

private theorem orth {M : ℕ} (hM : 0 < M) {n m : ℕ} (hn : n < M) (hm : m < M) :
    ∑ j ∈ Finset.range M, zw (-(2 * Real.pi * j / M)) ^ n * (starRingEnd ℂ) (zw (-(2 * Real.pi * j / M)) ^ m) = if n = m then (M : ℂ) else 0 := by
  have hMr : (M : ℝ) ≠ 0 := by positivity
  set u := Complex.exp (((-(2 * Real.pi * ((n : ℝ) - m) / M) : ℝ)) * Complex.I) with hu
  have e : ∀ j ∈ Finset.range M, zw (-(2 * Real.pi * j / M)) ^ n * (starRingEnd ℂ) (zw (-(2 * Real.pi * j / M)) ^ m) = u ^ j := by
    intro j _
    rw [zw_neg_pow, zw_neg_pow, ← Complex.exp_conj, map_mul, Complex.conj_I, Complex.conj_ofReal, ← Complex.exp_add, hu, ← Complex.exp_nat_mul]
    congr 1
    push_cast
    ring
  rw [Finset.sum_congr rfl e]
  split_ifs with h
  · have : u = 1 := by rw [hu, h]; simp
    simp [this]
  · have hne : u ≠ 1 := by
      intro h1
      rw [hu, Complex.exp_eq_one_iff] at h1
      obtain ⟨z, hz⟩ := h1
      have : ((-(2 * Real.pi * ((n : ℝ) - m) / M) : ℝ) : ℂ) = ((z * (2 * Real.pi) : ℝ) : ℂ) := by
        have hI := Complex.I_ne_zero
        apply mul_right_cancel₀ hI
        rw [hz]
        push_cast
        ring
      have h2 := Complex.ofReal_injective this
      have h3 : (m : ℝ) - n = z * M := by
        have hp := Real.pi_pos
        field_simp at h2
        nlinarith
      have h4 : (m : ℤ) - n = z * M := by exact_mod_cast h3
      have hz0 : z = 0 := by
        by_contra hz0
        have : 1 ≤ |z| := Int.one_le_abs hz0
        have h5 : |(m : ℤ) - n| = |z| * M := by rw [h4, abs_mul, Nat.abs_cast]
        have h6 : |(m : ℤ) - n| < M := by rw [abs_lt]; constructor <;> omega
        nlinarith
      rw [hz0] at h4
      omega
    have hg := geom_sum_mul u M
    have hM1 : u ^ M = 1 := by
      rw [hu, ← Complex.exp_nat_mul, Complex.exp_eq_one_iff]
      refine ⟨(m : ℤ) - n, ?_⟩
      push_cast
      have : (M : ℂ) ≠ 0 := by exact_mod_cast hM.ne'
      field_simp
      ring
    rw [hM1, sub_self] at hg
    exact (mul_eq_zero.mp hg).resolve_right (sub_ne_zero.mpr hne)

/-- Parseval's equation. -/
private theorem parseval {M : ℕ} (hM : 0 < M) (a : ℕ → ℝ) :
    ∑ j ∈ Finset.range M, ‖∑ n ∈ Finset.range M, (a n : ℂ) * zw (-(2 * Real.pi * j / M)) ^ n‖ ^ 2 = M * energy a M := by
  have key : ∀ j : ℕ, ((‖∑ n ∈ Finset.range M, (a n : ℂ) * zw (-(2 * Real.pi * j / M)) ^ n‖ ^ 2 : ℝ) : ℂ) =
      ∑ n ∈ Finset.range M, ∑ m ∈ Finset.range M, (a n * a m : ℝ) *
        (zw (-(2 * Real.pi * j / M)) ^ n * (starRingEnd ℂ) (zw (-(2 * Real.pi * j / M)) ^ m)) := by
    intro j
    rw [← Complex.normSq_eq_norm_sq, ← Complex.mul_conj, map_sum, Finset.sum_mul_sum]
    refine Finset.sum_congr rfl fun n _ => Finset.sum_congr rfl fun m _ => ?_
    rw [map_mul, Complex.conj_ofReal]
    push_cast
    ring
  have : ((∑ j ∈ Finset.range M, ‖∑ n ∈ Finset.range M, (a n : ℂ) * zw (-(2 * Real.pi * j / M)) ^ n‖ ^ 2 : ℝ) : ℂ) = ((M * energy a M : ℝ) : ℂ) := by
    rw [Complex.ofReal_sum, Finset.sum_congr rfl fun j _ => key j, Finset.sum_comm]
    unfold energy
    push_cast
    rw [Finset.mul_sum]
    refine Finset.sum_congr rfl fun n hn => ?_
    rw [Finset.sum_comm]
    have : ∀ m ∈ Finset.range M, ∑ j ∈ Finset.range M, ((a n : ℂ) * a m) * (zw (-(2 * Real.pi * j / M)) ^ n * (starRingEnd ℂ) (zw (-(2 * Real.pi * j / M)) ^ m)) =
        if n = m then (M : ℂ) * (a n : ℂ) ^ 2 else 0 := by
      intro m hm
      rw [← Finset.mul_sum, orth hM (Finset.mem_range.mp hn) (Finset.mem_range.mp hm)]
      split_ifs with h
      · rw [h]; ring
      · rw [mul_zero]
    rw [Finset.sum_congr rfl this, Finset.sum_ite_eq, if_pos hn]
  exact Complex.ofReal_injective this

/-! ## Impulse responses of bounded effects -/

section
variable {X E : Type} {p : X → ℝ → Except E (ℝ × X)} {m : X}

private theorem abs_sum_le {g : ℕ → ℝ} (hg : ∀ (x : ℕ → ℝ) (n : ℕ), modOut p x m n = .ok (∑ k ∈ Finset.range (n + 1), x k * g (n - k)))
    {K : ℝ} (hK : PeakGain p m K) : (Summable fun k => |g k|) ∧ ∑' k, |g k| ≤ K := by
  have key : ∀ n, ∑ k ∈ Finset.range n, |g k| ≤ K := by
    intro n
    cases n with
    | zero =>
      obtain ⟨y, -, hy⟩ := hK (fun _ => 0) 1 (fun _ => by simp) 0
      simpa using (abs_nonneg y).trans hy
    | succ n =>
      obtain ⟨y, e, hy⟩ := hK (fun k => SignType.sign (g (n - k))) 1 (fun k => by
        rcases lt_trichotomy (g (n - k)) 0 with h | h | h
        · simp [h]
        · simp [h]
        · simp [h]) n
      rw [hg] at e
      injection e with e
      rw [← e, mul_one] at hy
      refine le_trans (le_of_eq ?_) ((le_abs_self _).trans hy)
      rw [← Finset.sum_range_reflect]
      refine Finset.sum_congr rfl fun k hk => ?_
      rw [sign_mul_self, show n + 1 - 1 - k = n - k by omega]
  have hs := summable_of_sum_range_le (fun k => abs_nonneg (g k)) key
  exact ⟨hs, hs.tsum_le_of_sum_range_le key⟩

private noncomputable def freqResp (g : ℕ → ℝ) (w : ℝ) : ℂ := ∑' k, (g k : ℂ) * zw (-w) ^ k

private theorem resp_norm (g : ℕ → ℝ) (w : ℝ) (k : ℕ) : ‖(g k : ℂ) * zw (-w) ^ k‖ = |g k| := by
  rw [norm_mul, norm_pow, zw_norm, one_pow, mul_one, Complex.norm_real, Real.norm_eq_abs]

private theorem freq_tail {g : ℕ → ℝ} (hg : Summable fun k => |g k|) (w : ℝ) (n : ℕ) :
    ‖∑ k ∈ Finset.range n, (g k : ℂ) * zw (-w) ^ k - freqResp g w‖ ≤ ∑' k, |g (k + n)| := by
  have hs : Summable fun k => (g k : ℂ) * zw (-w) ^ k := Summable.of_norm (by simpa only [resp_norm] using hg)
  have h := hs.sum_add_tsum_nat_add n
  rw [freqResp, ← h, sub_add_cancel_left, norm_neg]
  have ht : Summable fun k => ‖(g (k + n) : ℂ) * zw (-w) ^ (k + n)‖ := by
    simp only [resp_norm]
    exact (summable_nat_add_iff (f := fun k => |g k|) n).mpr hg
  refine (norm_tsum_le_tsum_norm ht).trans (le_of_eq ?_)
  simp only [resp_norm]

private theorem tail_zero {g : ℕ → ℝ} : Tendsto (fun n => ∑' k, |g (k + n)|) atTop (𝓝 0) :=
  tendsto_sum_nat_add fun k => |g k|

private theorem zw_mul_neg (w : ℝ) : zw w * zw (-w) = 1 := by
  unfold zw
  rw [← Complex.exp_add]
  simp

private theorem conv_sine {g : ℕ → ℝ} (w A φ : ℝ) (n : ℕ) :
    ∑ k ∈ Finset.range (n + 1), A * Real.cos (w * k + φ) * g (n - k) =
      (phasor A φ * zw w ^ n * ∑ k ∈ Finset.range (n + 1), (g k : ℂ) * zw (-w) ^ k).re := by
  rw [Finset.mul_sum, Complex.re_sum, ← Finset.sum_range_reflect]
  refine Finset.sum_congr rfl fun k hk => ?_
  have hk := Finset.mem_range.mp hk
  rw [show n + 1 - 1 - k = n - k by omega, show n - (n - k) = k by omega, ← phasor_re, mul_comm, ← Complex.re_ofReal_mul]
  congr 1
  have : zw w ^ n = zw w ^ (n - k) * zw w ^ k := by rw [← pow_add]; congr 1; omega
  have h1 : zw w ^ k * zw (-w) ^ k = 1 := by rw [← mul_pow, zw_mul_neg, one_pow]
  rw [this]
  linear_combination -(phasor A φ * zw w ^ (n - k) * g k) * h1

private theorem conv_steady {g : ℕ → ℝ} (hx : ∀ (x : ℕ → ℝ) (n : ℕ), modOut p x m n = .ok (∑ k ∈ Finset.range (n + 1), x k * g (n - k)))
    (hg : Summable fun k => |g k|) (ν : ℝ) : SteadyGain p m ν ‖freqResp g (2 * Real.pi * ν / 48000)‖ := by
  set w := 2 * Real.pi * ν / 48000 with hw
  refine steady_of (freqResp g w) rfl fun A φ => ⟨_, fun n => hx _ n, ?_⟩
  rw [← hw]
  have hz : Tendsto (fun n : ℕ => |A| * ∑' k, |g (k + (n + 1))|) atTop (𝓝 0) := by
    have := ((tail_zero (g := g)).comp (tendsto_add_atTop_nat 1)).const_mul |A|
    simpa using this
  refine squeeze_zero_norm (fun n => ?_) hz
  rw [conv_sine, ← Complex.sub_re, show phasor A φ * zw w ^ n * ∑ k ∈ Finset.range (n + 1), (g k : ℂ) * zw (-w) ^ k - freqResp g w * phasor A φ * zw w ^ n =
    phasor A φ * zw w ^ n * (∑ k ∈ Finset.range (n + 1), (g k : ℂ) * zw (-w) ^ k - freqResp g w) by ring, Real.norm_eq_abs]
  refine (Complex.abs_re_le_norm _).trans ?_
  rw [norm_mul, norm_mul, norm_pow, zw_norm, one_pow, mul_one, phasor, norm_mul, Complex.norm_exp_ofReal_mul_I, mul_one, Complex.norm_real, Real.norm_eq_abs]
  exact mul_le_mul_of_nonneg_left (freq_tail hg w _) (abs_nonneg A)

/-- A linear, time invariant effect that keeps bounded sounds bounded has a gain at every frequency, no larger than its
peak gain. -/
theorem C151_gain_exists (h : LTI p m) {K : ℝ} (hb : PeakGain p m K) (ν : ℝ) : ∃ g, g ≤ K ∧ SteadyGain p m ν g := by
  obtain ⟨g, -, hx⟩ := C144_convolution h
  obtain ⟨hs, hk⟩ := abs_sum_le hx hb
  refine ⟨_, le_trans ?_ hk, conv_steady hx hs ν⟩
  have hn : Summable fun k => ‖(g k : ℂ) * zw (-(2 * Real.pi * ν / 48000)) ^ k‖ := by simpa only [resp_norm] using hs
  have := norm_tsum_le_tsum_norm hn
  unfold freqResp
  simpa only [resp_norm] using this

private theorem conv_dft {g : ℕ → ℝ} (x : ℕ → ℝ) (z : ℂ) (M : ℕ) :
    ∑ n ∈ Finset.range M, ((∑ k ∈ Finset.range (n + 1), x k * g (n - k) : ℝ) : ℂ) * z ^ n =
      ∑ k ∈ Finset.range M, (x k : ℂ) * z ^ k * ∑ i ∈ Finset.range (M - k), (g i : ℂ) * z ^ i := by
  induction M with
  | zero => simp
  | succ M ih =>
    rw [Finset.sum_range_succ, ih, Finset.sum_range_succ (fun k => (x k : ℂ) * z ^ k * ∑ i ∈ Finset.range (M + 1 - k), (g i : ℂ) * z ^ i)]
    have : ∀ k ∈ Finset.range M, (x k : ℂ) * z ^ k * ∑ i ∈ Finset.range (M + 1 - k), (g i : ℂ) * z ^ i =
        (x k : ℂ) * z ^ k * ∑ i ∈ Finset.range (M - k), (g i : ℂ) * z ^ i + (x k * g (M - k) : ℂ) * z ^ M := by
      intro k hk
      have hk := Finset.mem_range.mp hk
      rw [show M + 1 - k = (M - k) + 1 by omega, Finset.sum_range_succ, mul_add]
      congr 1
      have : z ^ M = z ^ k * z ^ (M - k) := by rw [← pow_add]; congr 1; omega
      rw [this]
      ring
    rw [Finset.sum_congr rfl this, Finset.sum_add_distrib, add_assoc]
    congr 1
    rw [Finset.sum_range_succ]
    push_cast
    rw [add_mul, Finset.sum_mul]
    congr 1
    simp
    ring

/-- **Energy.** A linear, time invariant effect that keeps bounded sounds bounded, and amplifies no frequency by more than `G`, never
puts out more than `G²` times the energy it was given. -/
theorem C151_energy (h : LTI p m) {K G : ℝ} (hb : PeakGain p m K) (hG : ∀ ν, ∃ g, g ≤ G ∧ SteadyGain p m ν g) : EnergyGain p m G := by
  obtain ⟨g, -, hx⟩ := C144_convolution h
  obtain ⟨hs, -⟩ := abs_sum_le hx hb
  have hH : ∀ w, ‖freqResp g w‖ ≤ G := by
    intro w
    obtain ⟨g', h1, h2⟩ := hG (w * 48000 / (2 * Real.pi))
    have h3 := conv_steady hx hs (w * 48000 / (2 * Real.pi))
    have hp := Real.pi_pos
    rw [show 2 * Real.pi * (w * 48000 / (2 * Real.pi)) / 48000 = w by field_simp] at h3
    rw [h3.unique h2]
    exact h1
  have G0 : 0 ≤ G := (norm_nonneg _).trans (hH 0)
  refine ⟨G0, fun x => ⟨_, fun n => hx x n, fun N => ?_⟩⟩
  set y := fun n => ∑ k ∈ Finset.range (n + 1), x k * g (n - k) with hy
  -- the input cut off after `N` samples
  set u : ℕ → ℝ := fun n => if n < N then x n else 0 with hu
  set v := fun n => ∑ k ∈ Finset.range (n + 1), u k * g (n - k) with hv
  have hyv : energy y N = energy v N := by
    refine Finset.sum_congr rfl fun n hn => ?_
    have hn := Finset.mem_range.mp hn
    congr 1
    refine Finset.sum_congr rfl fun k hk => ?_
    have hk := Finset.mem_range.mp hk
    rw [hu]
    simp only [if_pos (by omega : k < N)]
  have hsum : ∀ (f : ℕ → ℝ → ℝ), (∀ n, f n 0 = 0) → ∀ M, N ≤ M → ∑ n ∈ Finset.range M, f n (u n) = ∑ n ∈ Finset.range N, f n (x n) := by
    intro f hf M hM
    rw [← Finset.sum_subset (Finset.range_mono hM) (f := fun n => f n (u n))]
    · refine Finset.sum_congr rfl fun n hn => ?_
      rw [hu]
      simp only [if_pos (Finset.mem_range.mp hn)]
    · intro n _ hn
      rw [hu]
      simp only [if_neg (fun h => hn (Finset.mem_range.mpr h)), hf]
  set X1 := ∑ n ∈ Finset.range N, |x n| with hX1
  have X10 : 0 ≤ X1 := Finset.sum_nonneg fun _ _ => abs_nonneg _
  have key : ∀ δ, 0 < δ → energy y N ≤ G ^ 2 * energy x N + (2 * G * δ + δ ^ 2) * X1 ^ 2 := by
    intro δ hδ
    obtain ⟨K, hK⟩ := eventually_atTop.mp ((tail_zero (g := g)).eventually_lt_const hδ)
    set M := K + N + 1 with hM
    have hM0 : 0 < M := by omega
    have hMr : (0 : ℝ) < M := by exact_mod_cast hM0
    have hen : energy u M = energy x N := hsum (fun _ t => t ^ 2) (by simp) M (by omega)
    have hle : energy v N ≤ energy v M :=
      Finset.sum_le_sum_of_subset_of_nonneg (Finset.range_mono (by omega)) fun _ _ _ => sq_nonneg _
    have hX : ∀ w, ‖∑ n ∈ Finset.range M, (u n : ℂ) * zw (-w) ^ n‖ ≤ X1 := by
      intro w
      refine (norm_sum_le _ _).trans (le_of_eq ?_)
      simp only [resp_norm]
      exact hsum (fun _ t => |t|) (by simp) M (by omega)
    have hP : ∀ w, ‖∑ n ∈ Finset.range M, (v n : ℂ) * zw (-w) ^ n‖ ≤ G * ‖∑ n ∈ Finset.range M, (u n : ℂ) * zw (-w) ^ n‖ + δ * X1 := by
      intro w
      rw [hv]
      simp only
      rw [conv_dft]
      have e : ∑ k ∈ Finset.range M, (u k : ℂ) * zw (-w) ^ k * ∑ i ∈ Finset.range (M - k), (g i : ℂ) * zw (-w) ^ i =
          freqResp g w * ∑ n ∈ Finset.range M, (u n : ℂ) * zw (-w) ^ n +
            ∑ k ∈ Finset.range M, (u k : ℂ) * zw (-w) ^ k * (∑ i ∈ Finset.range (M - k), (g i : ℂ) * zw (-w) ^ i - freqResp g w) := by
        rw [Finset.mul_sum, ← Finset.sum_add_distrib]
        refine Finset.sum_congr rfl fun k _ => ?_
        ring
      rw [e]
      refine (norm_add_le _ _).trans (add_le_add ?_ ?_)
      · rw [norm_mul]
        exact mul_le_mul_of_nonneg_right (hH w) (norm_nonneg _)
      · refine (norm_sum_le _ _).trans ?_
        calc ∑ k ∈ Finset.range M, ‖(u k : ℂ) * zw (-w) ^ k * (∑ i ∈ Finset.range (M - k), (g i : ℂ) * zw (-w) ^ i - freqResp g w)‖
            ≤ ∑ k ∈ Finset.range M, δ * |u k| := by
              refine Finset.sum_le_sum fun k hk => ?_
              rw [norm_mul, resp_norm, mul_comm]
              by_cases hkN : k < N
              · exact mul_le_mul_of_nonneg_right ((freq_tail hs w _).trans (hK (M - k) (by omega)).le) (abs_nonneg _)
              · have : u k = 0 := by rw [hu]; simp only [if_neg hkN]
                simp [this]
          _ = δ * X1 := by
              rw [← Finset.mul_sum, hsum (fun _ t => |t|) (by simp) M (by omega)]
    have p1 := parseval hM0 v
    have p2 := parseval hM0 u
    have : M * energy v M ≤ M * (G ^ 2 * energy x N + (2 * G * δ + δ ^ 2) * X1 ^ 2) := by
      rw [← p1, ← hen]
      calc _ ≤ ∑ j ∈ Finset.range M, (G ^ 2 * ‖∑ n ∈ Finset.range M, (u n : ℂ) * zw (-(2 * Real.pi * j / M)) ^ n‖ ^ 2 + (2 * G * δ + δ ^ 2) * X1 ^ 2) := by
            refine Finset.sum_le_sum fun j _ => ?_
            have a := hP (2 * Real.pi * j / M)
            have b := hX (2 * Real.pi * j / M)
            have c := norm_nonneg (∑ n ∈ Finset.range M, (v n : ℂ) * zw (-(2 * Real.pi * j / M)) ^ n)
            generalize ‖∑ n ∈ Finset.range M, (v n : ℂ) * zw (-(2 * Real.pi * j / M)) ^ n‖ = P at *
            have d := norm_nonneg (∑ n ∈ Finset.range M, (u n : ℂ) * zw (-(2 * Real.pi * j / M)) ^ n)
            generalize ‖∑ n ∈ Finset.range M, (u n : ℂ) * zw (-(2 * Real.pi * j / M)) ^ n‖ = U at *
            have h1 : P ^ 2 ≤ (G * U + δ * X1) ^ 2 := pow_le_pow_left₀ c a 2
            have h2 : 0 ≤ G * δ * X1 * (X1 - U) := by
              have : 0 ≤ X1 - U := by linarith
              positivity
            nlinarith
        _ = _ := by
            rw [Finset.sum_add_distrib, ← Finset.mul_sum, p2, Finset.sum_const, Finset.card_range, nsmul_eq_mul]
            ring
    have := le_of_mul_le_mul_left this hMr
    rw [hyv]
    linarith
  refine le_of_forall_pos_le_add fun ε hε => ?_
  set C := (2 * G + 1) * X1 ^ 2 with hC
  have C0 : 0 ≤ C := by positivity
  have hd : 0 < min 1 (ε / (C + 1)) := by positivity
  refine (key _ hd).trans ?_
  set δ := min 1 (ε / (C + 1))
  have d1 : δ ≤ 1 := min_le_left _ _
  have d2 : δ * (C + 1) ≤ ε := (le_div_iff₀ (by positivity)).mp (min_le_right _ _)
  have d3 : (2 * G * δ + δ ^ 2) * X1 ^ 2 ≤ δ * C := by
    rw [hC]
    have : δ ^ 2 ≤ δ := by nlinarith
    nlinarith [sq_nonneg X1, mul_nonneg (sq_nonneg X1) (sub_nonneg.mpr this)]
  linarith

/-- Conversely an effect that never puts out more than `G²` times the energy amplifies no frequency by more than `G`. -/
theorem C151_energy_sharp {G ν g : ℝ} (h : EnergyGain p m G) (hg : SteadyGain p m ν g) : g ≤ G := by
  obtain ⟨G0, h⟩ := h
  obtain ⟨g0, ψ, hg⟩ := hg
  set w := 2 * Real.pi * ν / 48000
  obtain ⟨y, a1, a2⟩ := hg 1 0
  obtain ⟨y', b1, b2⟩ := hg 1 (-(Real.pi / 2))
  have hE : ∀ {x z : ℕ → ℝ}, (∀ n, modOut p x m n = .ok (z n)) → ∀ N, energy z N ≤ G ^ 2 * energy x N := by
    intro x z hz N
    obtain ⟨z', h1, h2⟩ := h x
    have : z' = z := funext fun n => Except.ok.inj ((h1 n).symm.trans (hz n))
    exact this ▸ h2 N
  have e1 := hE a1
  have e2 := hE b1
  have hsin : ∀ n : ℕ, Real.cos (w * n + -(Real.pi / 2)) = Real.sin (w * n) := fun n => by
    rw [← sub_eq_add_neg, Real.cos_sub_pi_div_two]
  have hsum : ∀ N, ∑ n ∈ Finset.range N, (y n ^ 2 + y' n ^ 2) ≤ G ^ 2 * N := by
    intro N
    rw [Finset.sum_add_distrib]
    refine (add_le_add (e1 N) (e2 N)).trans (le_of_eq ?_)
    rw [← mul_add, energy, energy, ← Finset.sum_add_distrib]
    congr 1
    rw [Finset.sum_congr rfl fun n _ => show _ = (1 : ℝ) by rw [hsin, add_zero, one_mul, one_mul, add_comm, Real.sin_sq_add_cos_sq]]
    simp
  have hlim : Tendsto (fun n => y n ^ 2 + y' n ^ 2) atTop (𝓝 (g ^ 2)) := by
    have hb : ∀ φ : ℝ, IsBoundedUnder (· ≤ ·) atTop (fun n : ℕ => ‖2 * (g * 1 * Real.cos (w * n + φ + ψ))‖) := by
      intro φ
      refine isBoundedUnder_of ⟨2 * g, fun n => ?_⟩
      rw [Real.norm_eq_abs, mul_one, abs_mul, abs_mul, abs_of_nonneg g0, abs_two]
      have := Real.abs_cos_le_one (w * n + φ + ψ)
      nlinarith
    have t1 := (a2.zero_mul_isBoundedUnder_le (hb 0)).add (a2.pow 2)
    have t2 := (b2.zero_mul_isBoundedUnder_le (hb (-(Real.pi / 2)))).add (b2.pow 2)
    have t3 := (t1.add t2).add_const (g ^ 2)
    simp only [ne_eq, OfNat.ofNat_ne_zero, not_false_eq_true, zero_pow, add_zero, zero_add] at t3
    refine t3.congr fun n => ?_
    have hs := Real.sin_sq_add_cos_sq (w * n + ψ)
    rw [show w * n + -(Real.pi / 2) + ψ = (w * n + ψ) - Real.pi / 2 by ring, Real.cos_sub_pi_div_two]
    linear_combination -(g ^ 2) * hs
  have hc := hlim.cesaro
  have : g ^ 2 ≤ G ^ 2 := by
    refine le_of_tendsto hc (eventually_atTop.mpr ⟨1, fun N hN => ?_⟩)
    have hN : (0 : ℝ) < N := by exact_mod_cast hN
    rw [inv_mul_le_iff₀ hN]
    linarith [hsum N]
  exact (pow_le_pow_iff_left₀ g0 G0 (by norm_num)).mp this

/-- The smallest energy gain is the largest gain at any frequency. -/
theorem C151_energy_iff (h : LTI p m) {K G : ℝ} (hb : PeakGain p m K) :
    EnergyGain p m G ↔ ∀ ν g, SteadyGain p m ν g → g ≤ G := by
  refine ⟨fun hE ν g hg => C151_energy_sharp hE hg, fun hG => C151_energy h hb fun ν => ?_⟩
  obtain ⟨g, -, hg⟩ := C151_gain_exists h hb ν
  exact ⟨g, hG ν g hg, hg⟩

/-- The peak gain bounds the energy gain. -/
theorem C151_peak (h : LTI p m) {K : ℝ} (hb : PeakGain p m K) : EnergyGain p m K :=
  C151_energy h hb (C151_gain_exists h hb)

theorem EnergyGain.congr {Y E' : Type} {q : Y → ℝ → Except E' (ℝ × Y)} {k : Y} {G : ℝ} (h : EnergyGain p m G)
    (e : ∀ (x y : ℕ → ℝ), (∀ n, modOut p x m n = .ok (y n)) → ∀ n, modOut q x k n = .ok (y n)) : EnergyGain q k G :=
  ⟨h.1, fun x => by
    obtain ⟨y, h1, h2⟩ := h.2 x
    exact ⟨y, e x y h1, h2⟩⟩

theorem EnergyGain.andThen {Y : Type} {q : Y → ℝ → Except E (ℝ × Y)} {k : Y} {G G' : ℝ} (h : EnergyGain p m G) (h' : EnergyGain q k G') :
    EnergyGain (andThen p q) (m, k) (G * G') := by
  refine ⟨mul_nonneg h.1 h'.1, fun x => ?_⟩
  obtain ⟨y, a1, a2⟩ := h.2 x
  obtain ⟨z, b1, b2⟩ := h'.2 y
  refine ⟨z, fun n => modOut_andThen a1 b1 n, fun N => (b2 N).trans ?_⟩
  calc G' ^ 2 * energy y N ≤ G' ^ 2 * (G ^ 2 * energy x N) := mul_le_mul_of_nonneg_left (a2 N) (sq_nonneg _)
    _ = _ := by ring

end

/-! ## The effects of the crate -/

/-- Without resonance the low pass and the high pass never add energy. -/
theorem C151_filters {fc r : ℝ} (hfc : 0 < fc) (hn : fc ≤ 24000) (hr : r ≤ 0) :
    EnergyGain Modifier.process (LowPass.new fc r : LowPass ℝ ℝ) 1 ∧ EnergyGain Modifier.process (HighPass.new fc r : HighPass ℝ ℝ) 1 := by
  obtain ⟨K, hK⟩ := C63_lowpass fc r hfc
  obtain ⟨K', hK'⟩ := C63_highpass fc r hfc
  exact ⟨C151_energy (C58_new fc r).1 hK fun ν => ⟨_, (C124_never_amplifies hfc hn hr ν).1, C123_lowpass fc r hfc ν⟩,
    C151_energy (C58_new fc r).2.1 hK' fun ν => ⟨_, (C124_never_amplifies hfc hn hr ν).2, C123_highpass fc r hfc ν⟩⟩

/-- With full resonance the low pass adds energy: no `G` below `16000/(π·fc)` bounds it. -/
theorem C151_resonance_needed {fc r G : ℝ} (hfc : 0 < fc) (hn : fc ≤ 24000) (hr : 1 ≤ r)
    (h : EnergyGain Modifier.process (LowPass.new fc r : LowPass ℝ ℝ) G) : 16000 / (Real.pi * fc) ≤ G := by
  obtain ⟨ν, -, -, hν⟩ := C124_peak hfc hn hr
  exact hν.trans (C151_energy_sharp h (C123_lowpass fc r hfc ν))

/-- The band pass takes away energy from every sound; the smallest energy gain is `tan h/(tan h + tan l)`. -/
theorem C151_bandpass {l h : ℝ} (hl : 0 < l) (hlh : l < h) (hh : h < 24000) (G : ℝ) :
    EnergyGain Modifier.process (BandPass.fromCorners (l, h) : BandPass ℝ ℝ) G ↔
      Real.tan (Real.pi * h / 48000) / (Real.tan (Real.pi * h / 48000) + Real.tan (Real.pi * l / 48000)) ≤ G := by
  obtain ⟨K, hK⟩ := C63_bandpass_corners l h hl (hl.trans hlh) hlh.ne (hlh.trans hh) hh
  have hlti : LTI Modifier.process (BandPass.fromCorners (l, h) : BandPass ℝ ℝ) := by
    have : (BandPass.fromCorners (l, h) : BandPass ℝ ℝ) = BandPass.new (Real.sqrt (l * h)) (Real.sqrt (l * h) / (h - l)) := by
      unfold BandPass.fromCorners BandPass.new
      real_simp
      rw [abs_of_pos (mul_pos hl (hl.trans hlh)), abs_of_pos (sub_pos.mpr hlh)]
    rw [this]
    exact (C58_new _ _).2.2
  rw [C151_energy_iff hlti hK]
  constructor
  · intro hG
    obtain ⟨ν, -, -, hν, -⟩ := C125_peak_partial hl hlh hh
    rw [← hν]
    exact hG ν _ (C123_bandpass hl hlh hh ν).1
  · intro hG ν g hg
    rw [hg.unique (C123_bandpass hl hlh hh ν).1]
    exact (C125_peak_bound hl hlh hh ν).1.trans hG

/-- The smallest energy gain of an echo is `1/(1-|gain|)`; a delay keeps the energy, a gain of `a` scales it by `a²`. -/
theorem C151_echo (m : Echo ℝ) (D : ℕ) (hD : 0 < D) (hm : m.delay = List.replicate D 0) (hg : |m.gain| < 1) (G : ℝ) :
    EnergyGain Echo.process m G ↔ 1 / (1 - |m.gain|) ≤ G := by
  obtain ⟨h1, -, h3⟩ := C126_echo m D hD hm hg
  have hb : PeakGain Echo.process m (1 / (1 - |m.gain|)) := fun x B hx n => by
    obtain ⟨y, a, b⟩ := h3 x B hx n
    exact ⟨y, a, by rwa [one_div_mul_eq_div]⟩
  have hpos : 0 < 1 - |m.gain| := by linarith
  constructor
  · intro hE
    -- the frequency at which all echoes add up
    have key : ∃ ν : ℝ, combGain D m.gain ν = 1 / (1 - |m.gain|) := by
      have hDr : (0 : ℝ) < D := by exact_mod_cast hD
      have hp := Real.pi_pos
      rcases le_total 0 m.gain with h | h
      · refine ⟨0, ?_⟩
        unfold combGain
        rw [mul_zero, zero_div, zero_mul, Real.cos_zero, abs_of_nonneg h, show 1 - 2 * m.gain * 1 + m.gain ^ 2 = (1 - m.gain) ^ 2 by ring, Real.sqrt_sq]
        rw [abs_of_nonneg h] at hpos
        exact hpos.le
      · refine ⟨24000 / D, ?_⟩
        unfold combGain
        rw [show 2 * Real.pi * (24000 / D) / 48000 * D = Real.pi by field_simp; norm_num, Real.cos_pi, abs_of_nonpos h,
          show 1 - 2 * m.gain * -1 + m.gain ^ 2 = (1 - -m.gain) ^ 2 by ring, Real.sqrt_sq]
        rw [abs_of_nonpos h] at hpos
        exact hpos.le
    obtain ⟨ν, hν⟩ := key
    rw [← hν]
    exact C151_energy_sharp hE (h1 ν)
  · intro hG
    refine C151_energy (C58_echo m D hD hm) hb fun ν => ?_
    obtain ⟨g, a, b⟩ := C151_gain_exists (C58_echo m D hD hm) hb ν
    exact ⟨g, a.trans hG, b⟩

/-- A generic filter, with the sums of the magnitudes of its taps. -/
theorem C151_generic {zeros poles : List (ℕ × ℝ)} (hz : LastLargest zeros) (hp : LastLargest poles)
    (hs : (poles.map fun t => |t.2|).sum < 1) :
    EnergyGain Generic.process (Generic.new zeros poles) ((zeros.map fun t => |t.2|).sum / (1 - (poles.map fun t => |t.2|).sum)) :=
  C151_peak (C58_generic zeros poles hz hp) fun x B hx n => by
    obtain ⟨y, a, b⟩ := C126_generic_bounded hz hp hs hx n
    exact ⟨y, a, b.trans (le_of_eq (by ring))⟩

/-- A delay adds no energy, and a gain of `a` scales the energy by `a²`. -/
theorem C151_memoryless (m : Delay ℝ) (D : ℕ) (hm : m.delay = List.replicate D 0) (a : ℝ) :
    EnergyGain Delay.process m 1 ∧ EnergyGain Modifier.process (Gain.new a) |a| ∧
    EnergyGain (X := Passthrough) (E := Panic) Modifier.process Passthrough.mk 1 := by
  have z : (lit 0 : ℝ) = 0 := by real_simp
  have h1 := fun x n => (C51_delay m D (by rw [hm, z]) x n).1
  have h2 := fun x n => C73_memoryless a x n
  refine ⟨C151_peak (C58_delay m D hm) fun x B hx n => ⟨_, h1 x n, ?_⟩, ⟨abs_nonneg a, fun x => ⟨_, fun n => (h2 x n).1, fun N => ?_⟩⟩,
    ⟨zero_le_one, fun x => ⟨_, fun n => (h2 x n).2.1, fun N => ?_⟩⟩⟩
  · split
    · rw [z, abs_zero, one_mul]
      exact (abs_nonneg _).trans (hx 0)
    · rw [one_mul]
      exact hx _
  · unfold energy
    rw [Finset.mul_sum, sq_abs]
    exact Finset.sum_le_sum fun n _ => le_of_eq (by ring)
  · rw [one_pow, one_mul]

/-! ## Chains -/

section chain
variable {B : Type} [Block B ℝ]

/-- A modifier in a block handles energy as it does alone. -/
theorem C151_block {X : Type} [Modifier X ℝ] (m : X) {G : ℝ} (h : EnergyGain Modifier.process m G) :
    EnergyGain blockStep (StandardBlock.fromModifier m : StandardBlock Zero X StdInter ℝ) G := by
  refine h.congr fun x y hy n => ?_
  rw [modOut_block]
  have : (fun n => (dflt : ℝ) + x n) = x := funext fun n => by unfold dflt; real_simp; ring
  rw [this]
  exact hy n

/-- Blocks in series: the energy gains multiply. -/
theorem C151_series {bs : List B} {Gs : List ℝ} (h : List.Forall₂ (fun b G => EnergyGain blockStep b G) bs Gs) : EnergyGain series bs Gs.prod := by
  induction h with
  | nil => exact ⟨zero_le_one, fun x => ⟨x, fun n => modOut_series_nil (B := B) x n, fun N => by simp⟩⟩
  | @cons b g bs gs hb _ ih =>
    rw [List.prod_cons]
    exact (hb.andThen ih).congr fun x y hy n => by rw [modOut_series_cons]; exact hy n

/-- A sound puts out at most `(|input gain| · Π G · |output gain|)²` times the energy put in. -/
theorem C151_sound (h : Heap B) (s : SimpleSound ℝ) {bs : List B} {Gs : List ℝ} (ho : Owns h (s.generator :: s.modifierList) bs)
    (hp : s.paused = false) (hm : s.muted = false) (hb : List.Forall₂ (fun b G => EnergyGain blockStep b G) bs Gs) :
    EnergyGain (fun h x => SimpleSound.process h s x) h (|s.inputGain| * Gs.prod * |s.outputGain|) := by
  have i := (C151_memoryless ⟨[]⟩ 0 rfl s.inputGain).2.1
  have o := (C151_memoryless ⟨[]⟩ 0 rfl s.outputGain).2.1
  exact ((i.andThen (C151_series hb)).andThen o).congr fun x y hy n => by rw [modOut_sound h s ho hp hm]; exact hy n

/-- Blocks of two types in one chain handle energy as they do alone. -/
theorem C151_sum {A C : Type} [Block A ℝ] [Block C ℝ] (a : A) (c : C) {G G' : ℝ} (ha : EnergyGain blockStep a G) (hc : EnergyGain blockStep c G') :
    EnergyGain blockStep (.inl a : A ⊕ C) G ∧ EnergyGain blockStep (.inr c : A ⊕ C) G' :=
  ⟨ha.congr fun x y hy n => by rw [modOut_inl (C := C) a x n]; exact hy n, hc.congr fun x y hy n => by rw [modOut_inr (A := A) c x n]; exact hy n⟩

end chain

/-- A low pass, then an echo with gain 1/4, at half volume: at most 4/9 of the energy comes out. -/
example : ∃ (h : Heap (StandardBlock Zero (LowPass ℝ ℝ) StdInter ℝ ⊕ StandardBlock Zero (Echo ℝ) StdInter ℝ)),
    EnergyGain (fun h x => SimpleSound.process h ((SimpleSound.new (1 : ℝ) (1 / 2 : ℝ) 0 : SimpleSound ℝ).addModifier 1) x) h (2 / 3) := by
  set lp : StandardBlock Zero (LowPass ℝ ℝ) StdInter ℝ ⊕ StandardBlock Zero (Echo ℝ) StdInter ℝ := .inl (StandardBlock.fromModifier (LowPass.new 1000 0)) with hlp
  set ec : StandardBlock Zero (LowPass ℝ ℝ) StdInter ℝ ⊕ StandardBlock Zero (Echo ℝ) StdInter ℝ := .inr (StandardBlock.fromModifier ⟨[0, 0, 0], 1 / 4⟩) with hec
  refine ⟨[⟨lp, 1⟩, ⟨ec, 1⟩], ?_⟩
  have h1 := C151_block (LowPass.new 1000 0 : LowPass ℝ ℝ) (C151_filters (by norm_num) (by norm_num) le_rfl).1
  have h2 : EnergyGain Modifier.process (⟨[0, 0, 0], 1 / 4⟩ : Echo ℝ) (4 / 3) :=
    (C151_echo (⟨[0, 0, 0], 1 / 4⟩ : Echo ℝ) 3 (by norm_num) rfl (by norm_num [abs_of_pos]) _).mpr (by norm_num [abs_of_pos])
  obtain ⟨c1, c2⟩ := C151_sum _ _ h1 (C151_block _ h2)
  have h3 := C151_sound (bs := [lp, ec]) (Gs := [1, 4 / 3]) [⟨lp, 1⟩, ⟨ec, 1⟩]
    ((SimpleSound.new (1 : ℝ) (1 / 2 : ℝ) 0 : SimpleSound ℝ).addModifier 1)
    ⟨by simp [SimpleSound.new, SimpleSound.addModifier], by simp [SimpleSound.new, SimpleSound.addModifier]⟩ rfl rfl (.cons c1 (.cons c2 .nil))
  have e : (|((SimpleSound.new (1 : ℝ) (1 / 2 : ℝ) 0 : SimpleSound ℝ).addModifier 1).inputGain| * [(1 : ℝ), 4 / 3].prod *
      |((SimpleSound.new (1 : ℝ) (1 / 2 : ℝ) 0 : SimpleSound ℝ).addModifier 1).outputGain|) = 2 / 3 := by
    simp [SimpleSound.new, SimpleSound.addModifier, SM.down]
    norm_num
  rwa [e] at h3

/-- A two-tap filter with feedback: at most 36 times the energy comes out. -/
example : EnergyGain Generic.process (Generic.new [((0 : ℕ), (1 : ℝ)), (2, 1 / 2)] [((0 : ℕ), (1 / 2 : ℝ)), (4, -(1 / 4))]) 6 := by
  have h := C151_generic (zeros := [((0 : ℕ), (1 : ℝ)), (2, 1 / 2)]) (poles := [((0 : ℕ), (1 / 2 : ℝ)), (4, -(1 / 4))])
    (by simp [LastLargest]) (by simp [LastLargest]) (by norm_num [abs_of_pos, abs_of_neg])
  norm_num [abs_of_pos, abs_of_neg] at h
  exact h

/-- The band pass from 500 to 1000 Hz puts out less energy than it is given. -/
example : ∃ G < 1, EnergyGain Modifier.process (BandPass.fromCorners (500, 1000) : BandPass ℝ ℝ) G :=
  ⟨_, (C125_peak_bound (l := 500) (h := 1000) (by norm_num) (by norm_num) (by norm_num) 0).2,
    (C151_bandpass (by norm_num) (by norm_num) (by norm_num) _).mpr le_rfl⟩

/-- With a cutoff of 100 Hz and full resonance the energy can grow by a factor of 2500. -/
example {G : ℝ} (h : EnergyGain Modifier.process (LowPass.new 100 1 : LowPass ℝ ℝ) G) : 2500 ≤ G ^ 2 := by
  have h1 := C151_resonance_needed (by norm_num) (by norm_num) le_rfl h
  have hp := Real.pi_lt_d2
  have hp0 := Real.pi_pos
  have : (50 : ℝ) ≤ 16000 / (Real.pi * 100) := by
    rw [le_div_iff₀ (by positivity)]
    nlinarith
  nlinarith

end Verif
