import Verif.Props.Block
import Verif.Props.SineTune
import Verif.Props.Tone

/-! # The default interactor: ring modulation. C154 -/

namespace Verif
open Fl

private theorem rnd_near (q : ℚ) : |((b32.rnd q : ℚ) : ℝ) - q| ≤ (2 ^ 24)⁻¹ * |(q : ℝ)| + (2 ^ 150)⁻¹ := by
  have h := b32.abs_rnd_sub_le_mixed q
  have e : pow2 (-(b32.p : ℤ)) = (2 ^ 24)⁻¹ ∧ pow2 (b32.emin - 1) = (2 ^ 150)⁻¹ := by decide +kernel
  rw [e.1, e.2] at h
  have := Rat.cast_le (K := ℝ) |>.mpr h
  push_cast at this
  exact this

section
variable {X : Type} [Modifier X F32] (m : X) (u : ℕ → List F32) (n : ℕ)

/-- **C154** (IEEE). A block made of a `Sine` of frequency `s` and any modifier, with the default interactor, is a ring modulator: where the modifier
puts out a tone of frequency `ν`, the block puts out the tones `s + ν` and `s - ν` at half its amplitude each, and nothing else: up to the error `d` of the
tone and 1/750 of the level `M`. -/
theorem C154_ring [Libm F64] (hl : SinAccurate) {fs : F64} {s : ℚ} (hs : fs.Is s) (s1 : s ≤ 48000) {j : ℕ} (hj : s / 10 = j / 2 ^ 39)
    {z : F32} (hz : modOut Modifier.process (fun k => (u k).foldl (· + ·) (lit 0)) m n = .ok z) {q : ℚ} (hq : z.Is q) {M : ℚ} (hM1 : (2 ^ 100)⁻¹ ≤ M) (hM2 : M ≤ 2 ^ 90)
    (hqM : |q| ≤ M) {A ν φ d : ℝ} (hd : |(q : ℝ) - A * Real.cos (2 * Real.pi * ν / 48000 * n + φ)| ≤ d) :
    ∃ (y : F32) (r : ℚ), blockOut StandardBlock.primeInput StandardBlock.process u (StandardBlock.new (Sine.new fs) m ⟨StdInter.mul, 0⟩) n = .ok y ∧ y.Is r ∧
      |(r : ℝ) - (A / 2 * Real.sin (2 * Real.pi * (s + ν) / 48000 * n + φ) + A / 2 * Real.sin (2 * Real.pi * (s - ν) / 48000 * n - φ))| ≤ d + 1 / 750 * M := by
  obtain ⟨g, a, hg, ha, he, -⟩ := C101_no_drift hl hs s1 hj n
  have hpi := Real.pi_lt_d4
  have he' : |(a : ℝ) - Real.sin (2 * Real.pi * s * n / 48000)| ≤ 131 / 100000 := by
    refine he.trans ?_
    norm_num at hpi ⊢
    linarith
  have sb := Real.abs_sin_le_one (2 * Real.pi * s * n / 48000)
  have a1 : |(a : ℝ)| ≤ 101 / 100 := by
    have := abs_sub_abs_le_abs_sub (a : ℝ) (Real.sin (2 * Real.pi * s * n / 48000))
    linarith
  have hM1' : ((2 : ℝ) ^ 100)⁻¹ ≤ M := by
    have := Rat.cast_le (K := ℝ) |>.mpr hM1
    push_cast at this
    exact this
  have hqM' : |(q : ℝ)| ≤ M := by exact_mod_cast hqM
  have hM0 : (0 : ℝ) < M := lt_of_lt_of_le (by positivity) hM1'
  have hp : |((a * q : ℚ) : ℝ)| ≤ 101 / 100 * M := by
    push_cast
    rw [abs_mul]
    exact mul_le_mul a1 hqM' (abs_nonneg _) (by norm_num)
  have hfit : b32.Fits (a * q) := by
    refine fits32' 91 (by norm_num) ?_
    have h2 : ((|a * q| : ℚ) : ℝ) ≤ ((2 ^ 91 : ℚ) : ℝ) := by
      push_cast at hp ⊢
      refine hp.trans ?_
      have : (M : ℝ) ≤ 2 ^ 90 := by exact_mod_cast hM2
      norm_num at this ⊢
      linarith
    exact_mod_cast h2
  refine ⟨g * z, _, C75_default (Sine.new fs) m u n g z hg hz, ha.mul hq hfit, ?_⟩
  have h3 := rnd_near (a * q)
  have h4 : |((a * q : ℚ) : ℝ) - Real.sin (2 * Real.pi * s * n / 48000) * q| ≤ 131 / 100000 * M := by
    push_cast
    rw [← sub_mul, abs_mul]
    exact mul_le_mul he' hqM' (abs_nonneg _) (by norm_num)
  have h5 : |Real.sin (2 * Real.pi * s * n / 48000) * q - Real.sin (2 * Real.pi * s * n / 48000) * (A * Real.cos (2 * Real.pi * ν / 48000 * n + φ))| ≤ d := by
    rw [← mul_sub, abs_mul]
    calc _ ≤ 1 * |(q : ℝ) - A * Real.cos (2 * Real.pi * ν / 48000 * n + φ)| := mul_le_mul_of_nonneg_right sb (abs_nonneg _)
      _ ≤ d := by rw [one_mul]; exact hd
  have e : A / 2 * Real.sin (2 * Real.pi * (s + ν) / 48000 * n + φ) + A / 2 * Real.sin (2 * Real.pi * (s - ν) / 48000 * n - φ) =
      Real.sin (2 * Real.pi * s * n / 48000) * (A * Real.cos (2 * Real.pi * ν / 48000 * n + φ)) := by
    rw [show 2 * Real.pi * (s + ν) / 48000 * n + φ = 2 * Real.pi * s * n / 48000 + (2 * Real.pi * ν / 48000 * n + φ) by ring,
      show 2 * Real.pi * (s - ν) / 48000 * n - φ = 2 * Real.pi * s * n / 48000 - (2 * Real.pi * ν / 48000 * n + φ) by ring, Real.sin_add, Real.sin_sub]
    ring
  rw [e]
  have h6 : ((2 : ℝ) ^ 24)⁻¹ * |((a * q : ℚ) : ℝ)| + (2 ^ 150)⁻¹ ≤ 1 / 100000 * M := by
    have h7 : ((2 : ℝ) ^ 150)⁻¹ ≤ (2 ^ 50)⁻¹ * M := by
      calc ((2 : ℝ) ^ 150)⁻¹ = (2 ^ 50)⁻¹ * (2 ^ 100)⁻¹ := by norm_num
        _ ≤ _ := mul_le_mul_of_nonneg_left hM1' (by positivity)
    norm_num at h7 ⊢
    norm_num at hp
    linarith
  rw [abs_le] at h3 h4 h5 ⊢
  constructor <;> linarith

/-- **C154** (IEEE, chopper). With a `Square` as the generator the block passes what the modifier puts out, every sample either unchanged or with its sign
changed, exactly. -/
theorem C154_square (f : F64) {z : F32} (hz : modOut Modifier.process (fun k => (u k).foldl (· + ·) (lit 0)) m n = .ok z) {q : ℚ} (hq : z.Is q) :
    ∃ y : F32, blockOut StandardBlock.primeInput StandardBlock.process u (StandardBlock.new (Square.new f) m ⟨StdInter.mul, 0⟩) n = .ok y ∧
      (nthR Generator.process (Square.new f) n = (.ok (lit 1) : Res F32) ∧ y.Is q ∨ nthR Generator.process (Square.new f) n = (.ok (lit (-1)) : Res F32) ∧ y.Is (-q)) := by
  obtain ⟨g', hg', -⟩ := afterR_inv (G := Square F64) (S := F32) (E := Panic) (p := Generator.process) (fun _ => True) (fun g _ => ⟨_, _, rfl, trivial⟩) n (Square.new f) trivial
  have h1 : nthR (S := F32) Generator.process (Square.new f) n = (.ok (g'.process : F32 × _).1 : Res F32) := by
    unfold nthR
    rw [hg']
    rfl
  have e : (g'.process : F32 × _).1 = lit 1 ∨ (g'.process : F32 × _).1 = lit (-1) := by
    show (if (g'.inv ≤? g'.ind) && (g'.ind <? lit 2 * g'.inv) then -lit 1 else lit 1) = (lit 1 : F32) ∨
      (if (g'.inv ≤? g'.ind) && (g'.ind <? lit 2 * g'.inv) then -lit 1 else lit 1) = (lit (-1) : F32)
    have : (-lit 1 : F32) = lit (-1) := by decide +kernel
    split_ifs
    · exact .inr this
    · exact .inl rfl
  refine ⟨_, C75_default (Square.new f) m u n _ z h1 hz, ?_⟩
  rcases e with e | e <;> rw [e] at h1 ⊢
  · refine .inl ⟨h1, ?_⟩
    have := (show (lit 1 : F32).Is 1 by decide +kernel).mul hq (by rw [one_mul]; exact hq.fits)
    rwa [one_mul, hq.rnd] at this
  · refine .inr ⟨h1, ?_⟩
    have := (show (lit (-1) : F32).Is (-1) by decide +kernel).mul hq (by rw [neg_one_mul]; exact hq.neg.fits)
    rwa [neg_one_mul, hq.neg.rnd] at this
end

private theorem through_out (x : ℕ → F32) (n : ℕ) : modOut Modifier.process x Passthrough.mk n = (.ok (x n) : Res F32) := by
  have : modAfter (E := Panic) Modifier.process x Passthrough.mk n = .ok Passthrough.mk := by
    induction n with
    | zero => rfl
    | succ n ih => exact modAfter_succ ih (y := x n) rfl
  exact modOut_of this (m'' := ⟨⟩) rfl

/-- **C154** (IEEE, two oscillators). A `Sine` of frequency `s` that multiplies the samples `x` of a `Sine` of frequency `t`: the sum and the difference of the
frequencies, to 1/370. -/
theorem C154_two_sines [Libm F64] (hl : SinAccurate) {fs ft : F64} {s t : ℚ} (hs : fs.Is s) (s1 : s ≤ 48000) {j : ℕ} (hj : s / 10 = j / 2 ^ 39)
    (ht : ft.Is t) (t1 : t ≤ 48000) {k : ℕ} (hk : t / 10 = k / 2 ^ 39) : ∃ x : ℕ → F32, (∀ n, nthR Generator.process (Sine.new ft) n = (.ok (x n) : Res F32)) ∧
    ∀ n : ℕ, ∃ (y : F32) (r : ℚ),
      blockOut StandardBlock.primeInput StandardBlock.process (fun n => [x n]) (StandardBlock.new (Sine.new fs) Passthrough.mk ⟨StdInter.mul, 0⟩) n = .ok y ∧ y.Is r ∧
      |(r : ℝ) - (Real.cos (2 * Real.pi * (s - t) / 48000 * n) / 2 - Real.cos (2 * Real.pi * (s + t) / 48000 * n) / 2)| ≤ 1 / 370 := by
  choose x a hx ha he _ using fun n => C101_no_drift hl ht t1 hk n
  refine ⟨x, hx, fun n => ?_⟩
  have hpi := Real.pi_lt_d4
  have he' : |(a n : ℝ) - Real.sin (2 * Real.pi * t * n / 48000)| ≤ 131 / 100000 := by
    refine (he n).trans ?_
    norm_num at hpi ⊢
    linarith
  have a1 : |(a n : ℝ)| ≤ 101 / 100 := by
    have := abs_sub_abs_le_abs_sub (a n : ℝ) (Real.sin (2 * Real.pi * t * n / 48000))
    have := Real.abs_sin_le_one (2 * Real.pi * t * n / 48000)
    linarith
  have a1' : |a n| ≤ 101 / 100 := by
    have : ((|a n| : ℚ) : ℝ) ≤ ((101 / 100 : ℚ) : ℝ) := by push_cast; exact a1
    exact_mod_cast this
  have hz : ([x n].foldl (· + ·) (lit 0) : F32).Is (a n) := by
    have := (show (lit 0 : F32).Is 0 by decide +kernel).add (ha n) (by rw [zero_add]; exact (ha n).fits)
    rwa [zero_add, (ha n).rnd] at this
  obtain ⟨y, r, h1, h2, h3⟩ := C154_ring Passthrough.mk (fun n => [x n]) n hl hs s1 hj (through_out _ n) hz (M := 101 / 100) (by norm_num) (by norm_num) a1'
    (A := 1) (ν := t) (φ := -(Real.pi / 2)) (d := 131 / 100000) (by
      rw [← sub_eq_add_neg, Real.cos_sub_pi_div_two, one_mul, show 2 * Real.pi * t / 48000 * n = 2 * Real.pi * t * n / 48000 by ring]
      exact he')
  refine ⟨y, r, h1, h2, ?_⟩
  rw [← sub_eq_add_neg, Real.sin_sub_pi_div_two, sub_neg_eq_add, Real.sin_add_pi_div_two] at h3
  rw [show Real.cos (2 * Real.pi * (s - t) / 48000 * n) / 2 - Real.cos (2 * Real.pi * (s + t) / 48000 * n) / 2 =
    1 / 2 * -Real.cos (2 * Real.pi * (s + t) / 48000 * n) + 1 / 2 * Real.cos (2 * Real.pi * (s - t) / 48000 * n) by ring]
  refine h3.trans ?_
  push_cast
  norm_num

/-- A 440 Hz tone and a 100 Hz one: 540 Hz and 340 Hz. -/
example : ∃ _ : Libm F64, ∃ x : ℕ → F32, (∀ n, nthR Generator.process (@Sine.new F64 _ (lit 100)) n = (.ok (x n) : Res F32)) ∧
    ∀ n : ℕ, ∃ (y : F32) (r : ℚ),
      blockOut StandardBlock.primeInput StandardBlock.process (fun n => [x n]) (StandardBlock.new (@Sine.new F64 _ (lit 440)) Passthrough.mk ⟨StdInter.mul, 0⟩) n = .ok y ∧ y.Is r ∧
      |(r : ℝ) - (Real.cos (2 * Real.pi * 340 / 48000 * n) / 2 - Real.cos (2 * Real.pi * 540 / 48000 * n) / 2)| ≤ 1 / 370 := by
  obtain ⟨l, hl⟩ := sinAccurate_exists
  have := C154_two_sines hl (fs := lit 440) (ft := lit 100) (s := 440) (t := 100) (j := 44 * 2 ^ 39) (k := 10 * 2 ^ 39) (by decide +kernel) (by norm_num) (by norm_num) (by decide +kernel)
    (by norm_num) (by norm_num)
  obtain ⟨x, h1, h2⟩ := this
  refine ⟨l, x, h1, fun n => ?_⟩
  obtain ⟨y, r, h3, h4, h5⟩ := h2 n
  refine ⟨y, r, h3, h4, ?_⟩
  norm_num at h5 ⊢
  exact h5
end Verif
