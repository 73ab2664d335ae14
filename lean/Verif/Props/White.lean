import Verif.Spec.Chance
import Verif.Props.BlockAccess
import Verif.Props.Budget
import Verif.Props.Convolution

/-! # White noise: C153 -/

namespace Verif
open Fl

/-- An ideal source of random numbers: started in `r d`, it delivers the `N` draws `d`, in steps of 2^-24 and below 1. (All `d` are equally likely;
see `avg`.) -/
structure Fair {R : Type} [Draw R F32] {N : ℕ} (r : (Fin N → Fin (2 ^ 24)) → R) : Prop where
  next : ∀ (d : Fin N → Fin (2 ^ 24)) (t : Fin N), (Draw.draw ((fun r : R => (Draw.draw r : F32 × R).2)^[t] (r d)) : F32 × R).1.Is (((d t : ℕ) : ℚ) / 2 ^ 24)
  grid : ∀ r : R, ∃ k : ℕ, k < 2 ^ 24 ∧ (Draw.draw r : F32 × R).1.Is (k / 2 ^ 24)

section
variable {R : Type} [Draw R F32]

private theorem noise_ok (n : ℕ) (g : Noise R) :
    nthR (S := F32) (E := Panic) Generator.process g n = .ok (nth (Noise.process (Draw.draw : R → F32 × R)) g n) := by
  have : ∀ (n : ℕ) (g : Noise R), afterR (S := F32) (E := Panic) Generator.process n g = .ok (after (Noise.process (Draw.draw : R → F32 × R)) n g) := by
    intro n
    induction n with
    | zero => intro g; rfl
    | succ n ih => intro g; rw [after_succ']; exact ih _
  unfold nthR
  rw [this]
  rfl

private theorem draw_iter (n : ℕ) (r : R) : (fun r : R => (Draw.draw r : F32 × R).2)^[n] r = drawAfter (Draw.draw : R → F32 × R) n r := by
  induction n generalizing r with
  | zero => rfl
  | succ n ih => rw [Function.iterate_succ_apply, ih]; rfl

/-- The value of a sample as a function of its draw. -/
noncomputable def noiseValue (k : Fin (2 ^ 24)) : ℚ := 2 * (((k : ℕ) : ℚ) / 2 ^ 24) - 1

variable {N : ℕ} {r : (Fin N → Fin (2 ^ 24)) → R}

private theorem noise_at (hr : Fair r) (d : Fin N → Fin (2 ^ 24)) (t : Fin N) : ∃ v : F32, nthR Generator.process (Noise.new (r d)) t = (.ok v : Res F32) ∧ v.Is (noiseValue (d t)) := by
  obtain ⟨k, h1, h2, h3, -⟩ := C43_noise (Draw.draw : R → F32 × R) (r d) hr.grid t
  refine ⟨_, noise_ok _ _, ?_⟩
  have h4 := hr.next d t
  rw [draw_iter] at h4
  have : (k : ℚ) / 2 ^ 24 = ((d t : ℕ) : ℚ) / 2 ^ 24 := Option.some.inj (h2.symm.trans h4)
  rw [this] at h3
  exact h3
end

private theorem sums (K : ℕ) : (∑ k : Fin K, ((k : ℕ) : ℝ) = K * (K - 1) / 2) ∧ ∑ k : Fin K, ((k : ℕ) : ℝ) ^ 2 = K * (K - 1) * (2 * K - 1) / 6 := by
  rw [Fin.sum_univ_eq_sum_range (fun k : ℕ => (k : ℝ)), Fin.sum_univ_eq_sum_range (fun k : ℕ => (k : ℝ) ^ 2)]
  induction K with
  | zero => simp
  | succ K ih =>
    rw [Finset.sum_range_succ, Finset.sum_range_succ, ih.1, ih.2]
    push_cast
    constructor <;> ring

private theorem mean1 : (∑ k, (noiseValue k : ℝ)) / ((2 ^ 24 : ℕ) : ℝ) = -(2 ^ 24)⁻¹ := by
  have e : ∀ k, (noiseValue k : ℝ) = 2 / 2 ^ 24 * ((k : ℕ) : ℝ) - 1 := fun k => by unfold noiseValue; push_cast; ring
  simp only [e]
  rw [Finset.sum_sub_distrib, ← Finset.mul_sum, (sums _).1, Finset.sum_const, Finset.card_univ, Fintype.card_fin]
  push_cast
  norm_num

private theorem mean2 : (∑ k, (noiseValue k : ℝ) ^ 2) / ((2 ^ 24 : ℕ) : ℝ) = 1 / 3 + 2 / 3 * (2 ^ 48)⁻¹ := by
  have e : ∀ k, (noiseValue k : ℝ) ^ 2 = 4 / 2 ^ 48 * ((k : ℕ) : ℝ) ^ 2 - 4 / 2 ^ 24 * ((k : ℕ) : ℝ) + 1 := fun k => by unfold noiseValue; push_cast; ring
  simp only [e]
  rw [Finset.sum_add_distrib, Finset.sum_sub_distrib, ← Finset.mul_sum, ← Finset.mul_sum, (sums _).1, (sums _).2, Finset.sum_const, Finset.card_univ, Fintype.card_fin]
  push_cast
  norm_num

section
variable {R : Type} [Draw R F32] {N : ℕ} {r : (Fin N → Fin (2 ^ 24)) → R} (hr : Fair r)
include hr

/-- **C153** (white). With an ideal source of random numbers the samples of `Noise` are independent of each other, each takes the 2^24 values
`-1, -1 + 2^-23, …, 1 - 2^-23` equally often, and so has mean -2^-24 and mean square 1/3 (-4.77 dB). Two generators share the source of their
thread: this holds for the samples of all of them together, in the order of the calls. -/
theorem C153_white : ∃ y : (Fin N → Fin (2 ^ 24)) → Fin N → ℚ,
    (∀ d (t : Fin N), ∃ v : F32, nthR Generator.process (Noise.new (r d)) t = (.ok v : Res F32) ∧ v.Is (y d t)) ∧
    (∀ φ : Fin N → ℚ → ℝ, avg (fun d => ∏ t, φ t (y d t)) = ∏ t, avg fun d => φ t (y d t)) ∧
    (∀ t (k : ℕ), k < 2 ^ 24 → avg (fun d => if y d t = -1 + k / 2 ^ 23 then 1 else 0) = (2 ^ 24)⁻¹) ∧
    (∀ t, avg (fun d => (y d t : ℝ)) = -(2 ^ 24)⁻¹ ∧ avg (fun d => (y d t : ℝ) ^ 2) = 1 / 3 + 2 / 3 * (2 ^ 48)⁻¹) ∧
    ∀ s t, s ≠ t → avg (fun d => (y d s : ℝ) * y d t) = (2 ^ 48)⁻¹ := by
  have hK : 0 < 2 ^ 24 := by norm_num
  refine ⟨fun d t => noiseValue (d t), noise_at hr, fun φ => ?_, fun t k hk => ?_, fun t => ⟨?_, ?_⟩, fun s t hst => ?_⟩
  · rw [avg_prod fun t k => φ t (noiseValue k)]
    exact Finset.prod_congr rfl fun t _ => (avg_one hK t fun k => φ t (noiseValue k)).symm
  · rw [avg_one hK t fun j => if noiseValue j = -1 + k / 2 ^ 23 then (1 : ℝ) else 0]
    rw [Finset.sum_eq_single (⟨k, hk⟩ : Fin (2 ^ 24))]
    · rw [if_pos (by unfold noiseValue; simp only; ring)]
      norm_num
    · intro j _ hj
      refine if_neg fun h => hj (Fin.ext ?_)
      unfold noiseValue at h
      have : ((j : ℕ) : ℚ) = k := by linarith
      exact_mod_cast this
    · intro h; exact absurd (Finset.mem_univ _) h
  · rw [avg_one hK t fun k => (noiseValue k : ℝ), mean1]
  · rw [avg_one hK t fun k => (noiseValue k : ℝ) ^ 2, mean2]
  · rw [avg_two hK hst (fun k => (noiseValue k : ℝ)) (fun k => (noiseValue k : ℝ)), mean1]
    norm_num

/-- **C153** (through an effect, exact arithmetic). Noise through a linear effect whose answer to one sample is `g` has, at sample `n`, the mean
`-2^-24 ∑ g` and a mean square that exceeds the square of the mean by `(1 - 2^-48) / 3 * ∑ g²`. -/
theorem C153_effect {X E : Type} {p : X → ℝ → Except E (ℝ × X)} {m : X} (h : LTI p m) : ∃ g : ℕ → ℝ, (∀ n, modOut p unitImpulse m n = .ok (g n)) ∧
    ∀ x : (Fin N → Fin (2 ^ 24)) → ℕ → ℝ,
    (∀ d (t : Fin N), ∃ (v : F32) (q : ℚ), nthR Generator.process (Noise.new (r d)) t = (.ok v : Res F32) ∧ v.Is q ∧ x d t = q) →
    ∀ n < N, ∃ z : (Fin N → Fin (2 ^ 24)) → ℝ, (∀ d, modOut p (x d) m n = .ok (z d)) ∧ avg z = -(2 ^ 24)⁻¹ * ∑ k ∈ Finset.range (n + 1), g k ∧
      avg (fun d => z d ^ 2) = (1 - (2 ^ 48)⁻¹) / 3 * (∑ k ∈ Finset.range (n + 1), g k ^ 2) + avg z ^ 2 := by
  have hK : 0 < 2 ^ 24 := by norm_num
  obtain ⟨g, hg, hc⟩ := C144_convolution h
  refine ⟨g, hg, fun x hx n hn => ?_⟩
  have ex : ∀ d, ∀ k ∈ Finset.range (n + 1), ∃ hk : k < N, x d k = noiseValue (d ⟨k, hk⟩) := by
    intro d k hk
    have hk : k < N := by have := Finset.mem_range.mp hk; omega
    obtain ⟨v, q, h1, h2, h3⟩ := hx d ⟨k, hk⟩
    obtain ⟨v', h1', h2'⟩ := noise_at hr d ⟨k, hk⟩
    rw [h1] at h1'
    cases h1'
    exact ⟨hk, by rw [h3]; exact_mod_cast Option.some.inj (h2.symm.trans h2')⟩
  have m1 : ∀ k ∈ Finset.range (n + 1), avg (fun d => x d k) = -(2 ^ 24)⁻¹ := by
    intro k hk
    have hk' : k < N := by have := Finset.mem_range.mp hk; omega
    rw [← mean1, ← avg_one hK ⟨k, hk'⟩ fun k => (noiseValue k : ℝ)]
    congr 1
    funext d
    exact (ex d k hk).2
  have m2 : ∀ k ∈ Finset.range (n + 1), ∀ l ∈ Finset.range (n + 1), avg (fun d => x d k * x d l) = (2 ^ 48)⁻¹ + if l = k then (1 - (2 ^ 48)⁻¹) / 3 else 0 := by
    intro k hk l hl
    have hk' : k < N := by have := Finset.mem_range.mp hk; omega
    have hl' : l < N := by have := Finset.mem_range.mp hl; omega
    have e : (fun d => x d k * x d l) = fun d => (noiseValue (d ⟨k, hk'⟩) : ℝ) * noiseValue (d ⟨l, hl'⟩) := by
      funext d
      rw [(ex d k hk).2, (ex d l hl).2]
    rw [e]
    by_cases hkl : l = k
    · subst hkl
      rw [if_pos rfl]
      simp only [← sq]
      rw [avg_one hK ⟨l, hl'⟩ fun k => (noiseValue k : ℝ) ^ 2, mean2]
      norm_num
    · rw [if_neg hkl, avg_two hK (by simpa using Ne.symm hkl) (fun k => (noiseValue k : ℝ)) (fun k => (noiseValue k : ℝ)), mean1]
      norm_num
  have rev : ∀ f : ℕ → ℝ, ∑ k ∈ Finset.range (n + 1), f (n - k) = ∑ k ∈ Finset.range (n + 1), f k := fun f => Finset.sum_range_reflect f (n + 1)
  have a1 : avg (fun d => ∑ k ∈ Finset.range (n + 1), x d k * g (n - k)) = -(2 ^ 24)⁻¹ * ∑ k ∈ Finset.range (n + 1), g k := by
    rw [avg_sum, ← rev g, Finset.mul_sum]
    refine Finset.sum_congr rfl fun k hk => ?_
    rw [← m1 k hk, mul_comm, ← avg_mul]
    congr 1
    funext d
    ring
  refine ⟨fun d => ∑ k ∈ Finset.range (n + 1), x d k * g (n - k), fun d => hc (x d) n, a1, ?_⟩
  rw [a1]
  have e : ∀ d, (∑ k ∈ Finset.range (n + 1), x d k * g (n - k)) ^ 2 = ∑ k ∈ Finset.range (n + 1), ∑ l ∈ Finset.range (n + 1), g (n - k) * g (n - l) * (x d k * x d l) := by
    intro d
    rw [sq, Finset.sum_mul_sum]
    exact Finset.sum_congr rfl fun k _ => Finset.sum_congr rfl fun l _ => by ring
  simp only [e]
  rw [avg_sum]
  have e2 : ∀ k ∈ Finset.range (n + 1), avg (fun d => ∑ l ∈ Finset.range (n + 1), g (n - k) * g (n - l) * (x d k * x d l)) =
      (2 ^ 48)⁻¹ * g (n - k) * (∑ l ∈ Finset.range (n + 1), g l) + (1 - (2 ^ 48)⁻¹) / 3 * g (n - k) ^ 2 := by
    intro k hk
    rw [avg_sum]
    have : ∀ l ∈ Finset.range (n + 1), avg (fun d => g (n - k) * g (n - l) * (x d k * x d l)) =
        (2 ^ 48)⁻¹ * g (n - k) * g (n - l) + if l = k then (1 - (2 ^ 48)⁻¹) / 3 * g (n - k) ^ 2 else 0 := by
      intro l hl
      rw [avg_mul, m2 k hk l hl]
      by_cases hkl : l = k
      · subst hkl; rw [if_pos rfl, if_pos rfl]; ring
      · rw [if_neg hkl, if_neg hkl]; ring
    rw [Finset.sum_congr rfl this, Finset.sum_add_distrib, Finset.sum_ite_eq' _ k, if_pos hk, ← Finset.mul_sum, rev g]
  rw [Finset.sum_congr rfl e2, Finset.sum_add_distrib, ← Finset.mul_sum, ← Finset.sum_mul, ← Finset.mul_sum, rev g, rev fun k => g k ^ 2]
  ring

/-- **C153** (through an effect, `f32`). The `f32` effect gives noise of the same level, up to its rounding errors. -/
theorem C153_effect_f32 {X Y : Type} {P : Y → F32 → Res (F32 × Y)} {k : Y} {p : X → ℝ → Res (ℝ × X)} {m : X} {B C : ℝ} (ht : Tracks P k p m B C)
    (hC : C ≤ 2 ^ 80) (h : LTI p m) : ∃ g : ℕ → ℝ, (∀ n, modOut p unitImpulse m n = .ok (g n)) ∧
    ∃ x : (Fin N → Fin (2 ^ 24)) → ℕ → F32, (∀ d t, nthR Generator.process (Noise.new (r d)) t = (.ok (x d t) : Res F32)) ∧
    ∀ n < N, ∃ y : (Fin N → Fin (2 ^ 24)) → ℚ, (∀ d, ∃ v, modOut P (x d) k n = .ok v ∧ v.Is (y d)) ∧
      |rmsOver (fun d => (y d : ℝ)) - Real.sqrt ((1 - (2 ^ 48)⁻¹) / 3 * (∑ k ∈ Finset.range (n + 1), g k ^ 2) + ((2 ^ 24)⁻¹ * ∑ k ∈ Finset.range (n + 1), g k) ^ 2)| ≤ C - B := by
  obtain ⟨g, hg, he⟩ := C153_effect hr h
  refine ⟨g, hg, fun d => nth (Noise.process (Draw.draw : R → F32 × R)) (Noise.new (r d)), fun d t => noise_ok _ _, fun n hn => ?_⟩
  obtain ⟨h1, h2, ht⟩ := ht
  have hin : ∀ d t, ∃ q : ℚ, (nth (Noise.process (Draw.draw : R → F32 × R)) (Noise.new (r d)) t).Is q ∧ |(q : ℝ)| ≤ 1 := by
    intro d t
    obtain ⟨k, -, -, h3, h4, h5⟩ := C43_noise (Draw.draw : R → F32 × R) (r d) hr.grid t
    exact ⟨_, h3, abs_le.mpr ⟨by exact_mod_cast h4, by exact_mod_cast h5.le⟩⟩
  choose q hq1 hq2 using hin
  obtain ⟨z, hz, za, zs⟩ := he (fun d t => q d t) (fun d t => ⟨_, q d t, noise_ok _ _, hq1 d t, rfl⟩) n hn
  have hy : ∀ d, ∃ y : ℚ, (∃ v, modOut P (nth (Noise.process (Draw.draw : R → F32 × R)) (Noise.new (r d))) k n = .ok v ∧ v.Is y) ∧ |(y : ℝ) - z d| ≤ C - B := by
    intro d
    obtain ⟨y, z', b1, b2, -, b4⟩ := ht _ (fun t => (q d t : ℝ)) 1 0 (by norm_num) le_rfl (by linarith)
      (fun t => ⟨q d t, hq1 d t, by simp⟩) (hq2 d)
    obtain ⟨a, c1, c2⟩ := b4 n
    have := (hz d).symm.trans (b2 n)
    rw [Except.ok.inj this]
    exact ⟨a, ⟨y n, b1 n, c1⟩, by linarith⟩
  choose y hy1 hy2 using hy
  refine ⟨y, hy1, ?_⟩
  have := rmsOver_near (N := N) (K := 2 ^ 24) (by norm_num) (show 0 ≤ C - B by linarith) hy2
  rw [show rmsOver z = Real.sqrt _ from rfl, zs, za] at this
  rwa [neg_mul, neg_sq] at this
end

/-- Noise through a 2 kHz low pass filter. -/
example [Libm F64] (ha : LibmAccurate) {R : Type} [Draw R F32] {N : ℕ} {r : (Fin N → Fin (2 ^ 24)) → R} (hr : Fair r) :=
  C153_effect_f32 hr (C129_lowpass ha (fc := lit 2000) (r := lit 0) (f := 2000) (ρ := 0) (by decide +kernel) (by decide +kernel) (.inl le_rfl)) (by norm_num)
    (C58_new _ _).1

/-- A source that reads its draws from a sequence. -/
example : ∃ (_ : Draw (ℕ → Fin (2 ^ 24)) F32) (r : (Fin 1000 → Fin (2 ^ 24)) → ℕ → Fin (2 ^ 24)), Fair r := by
  have hl : ∀ k : Fin (2 ^ 24), (lit (((k : ℕ) : ℚ) / 2 ^ 24) : F32).Is (((k : ℕ) : ℚ) / 2 ^ 24) := by
    intro k
    have h : ((k : ℕ) : ℚ) < 2 ^ 24 := by exact_mod_cast k.2
    refine Fl.lit_is_repr (fits32' 0 (by norm_num) ?_) ⟨(k : ℕ), -24, ?_, ?_, by decide⟩
    · rw [abs_of_nonneg (by positivity), div_le_iff₀ (by norm_num)]; linarith
    · rw [show pow2 (-24) = 1 / 2 ^ 24 by decide +kernel, Int.cast_natCast]; ring
    · rw [abs_of_nonneg (by positivity)]; exact_mod_cast h.le
  have it : ∀ (n : ℕ) (s : ℕ → Fin (2 ^ 24)), (fun s : ℕ → Fin (2 ^ 24) => fun n => s (n + 1))^[n] s = fun j => s (j + n) := by
    intro n
    induction n with
    | zero => intro s; rfl
    | succ n ih => intro s; rw [Function.iterate_succ_apply, ih]; funext j; congr 1
  refine ⟨⟨fun s => (lit (((s 0 : ℕ) : ℚ) / 2 ^ 24), fun n => s (n + 1))⟩, fun d n => if h : n < 1000 then d ⟨n, h⟩ else 0, @Fair.mk _ (_) _ _ ?_ ?_⟩
  · intro d t
    have e := congrFun (it t fun n => if h : n < 1000 then d ⟨n, h⟩ else 0) 0
    simp only [Nat.zero_add, t.2, dite_true, Fin.eta] at e
    rw [← e]
    exact hl _
  · intro s
    exact ⟨s 0, (s 0).2, hl _⟩
end Verif
