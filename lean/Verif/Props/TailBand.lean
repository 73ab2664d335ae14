import Verif.Props.BandPassAcc
import Verif.Props.Retune

/-! # Tails of BandPass: C140 -/

namespace Verif
open Fl

/-- The smallest positive number of `f32`. -/
private def u : ℚ := (2 ^ 149)⁻¹

private theorem u_pow : u = pow2 (-149) := by decide +kernel
private theorem u_pos : 0 < u := by decide +kernel

/-- Rounding a number that is closest to a small multiple of the smallest number. -/
private theorem rnd_tiny {t : ℚ} {r : ℤ} (hr : |(r : ℚ)| ≤ 2 ^ 20) (h : |t - r * u| < u / 2) : b32.rnd t = r * u := by
  have hu := u_pos
  have b : |t| ≤ pow2 (-126) := by
    have h1 := abs_sub_abs_le_abs_sub t (r * u)
    have h2 : |(r : ℚ) * u| ≤ 2 ^ 20 * u := by rw [abs_mul, abs_of_pos hu]; gcongr
    have h3 : 2 ^ 20 * u + u / 2 ≤ pow2 (-126) := by decide +kernel
    linarith
  have e := b32.abs_rnd_sub_le_of_abs_le (q := t) (k := -126) (by decide) b
  rw [show pow2 (max (-126 - (b32.p : ℤ)) b32.emin - 1) = u / 2 by decide +kernel] at e
  obtain ⟨m, k, hm, -, hk⟩ := b32.repr_rnd t
  obtain ⟨j, rfl⟩ : ∃ j : ℕ, k = -149 + j := ⟨(k + 149).toNat, by have : (-149 : ℤ) ≤ k := hk; omega⟩
  have hm' : b32.rnd t = (m * 2 ^ j : ℤ) * u := by
    rw [hm, pow2_add, u_pow]
    have : pow2 (j : ℤ) = 2 ^ j := by unfold pow2; simp
    rw [this]; push_cast; ring
  rw [hm'] at e ⊢
  have d : |((m * 2 ^ j - r : ℤ) : ℚ) * u| < 1 * u := by
    have t1 := abs_sub_le (((m * 2 ^ j : ℤ) : ℚ) * u) t (r * u)
    rw [show (((m * 2 ^ j - r : ℤ) : ℚ)) * u = ((m * 2 ^ j : ℤ) : ℚ) * u - r * u by push_cast; ring]
    linarith
  rw [abs_mul, abs_of_pos hu] at d
  have d' := lt_of_mul_lt_mul_right d hu.le
  have : |m * 2 ^ j - r| < 1 := by exact_mod_cast d'
  rw [show m * 2 ^ j = r by rw [Int.abs_lt_one_iff] at this; omega]

private theorem is_mul_u {i : ℤ} (h : |(i : ℚ)| ≤ 2 ^ 21) : (lit (i * u) : F32).Is (i * u) := by
  have r : b32.Repr (i * u) := ⟨i, -149, by rw [u_pow], by
    have : |i| ≤ 2 ^ 21 := by exact_mod_cast h
    exact this.trans (by decide), by decide⟩
  refine Fl.lit_is_repr (Fmt.fits_of_repr r ?_) r
  rw [abs_mul, abs_of_pos u_pos]
  have : (2 : ℚ) ^ 21 * u < pow2 (b32.emax + 1) := by decide +kernel
  have := mul_le_mul_of_nonneg_right h u_pos.le
  linarith

private theorem small64 {z : ℚ} (h : |z| ≤ 2 ^ 24 * u) : b64.Fits z ∧ |b64.rnd z - z| ≤ u / 1000 := by
  have c : (2 : ℚ) ^ 24 * u ≤ 1 := by decide +kernel
  refine ⟨fits64' 0 (by norm_num) (h.trans (by rw [pow_zero]; exact c)), (mixed64' z).trans ?_⟩
  have : (2 ^ 53 : ℚ)⁻¹ * (2 ^ 24 * u) + (2 ^ 200)⁻¹ ≤ u / 1000 := by decide +kernel
  have := mul_le_mul_of_nonneg_left h (by positivity : (0 : ℚ) ≤ (2 ^ 53)⁻¹)
  linarith

/-- One sample of a filter whose history consists of small multiples of the smallest number. -/
private theorem tiny_step {A P Q : F64} {a p q : ℚ} (ha : A.Is a) (hp : P.Is p) (hq : Q.Is q) (a0 : |a| ≤ 2) (p0 : |p| ≤ 3) (q0 : |q| ≤ 2)
    {x x2 y1 y2 : F32} {i i2 j k r : ℤ} (hx : x.Is (i * u)) (hx2 : x2.Is (i2 * u)) (hy1 : y1.Is (j * u)) (hy2 : y2.Is (k * u))
    (hi : |(i : ℚ)| ≤ 2 ^ 20) (hi2 : |(i2 : ℚ)| ≤ 2 ^ 20) (hj : |(j : ℚ)| ≤ 2 ^ 20) (hk : |(k : ℚ)| ≤ 2 ^ 20) (hr : |(r : ℚ)| ≤ 2 ^ 20)
    (h : |a * (i - i2) + p * j - q * k - r| ≤ 49 / 100) :
    (SM.down (A * SM.up (x - x2) + P * SM.up y1 - Q * SM.up y2) : F32).Is (r * u) := by
  have hu := u_pos
  have hd : |((i - i2 : ℤ) : ℚ)| ≤ 2 ^ 21 := by
    push_cast
    have := abs_sub (i : ℚ) i2
    linarith
  have dd : (x - x2 : F32).Is ((i - i2 : ℤ) * u) := by
    have f := (is_mul_u hd)
    have e : (i : ℚ) * u - i2 * u = ((i - i2 : ℤ) : ℚ) * u := by push_cast; ring
    have := Is.sub hx hx2 (by rw [e]; exact f.fits)
    rwa [e, f.rnd] at this
  have bnd : ∀ {c n : ℚ} {C N : ℚ}, |c| ≤ C → |n| ≤ N → |c * (n * u)| ≤ C * N * u := by
    intro c n C N h1 h2
    have := mul_le_mul h1 h2 (abs_nonneg _) ((abs_nonneg _).trans h1)
    rw [abs_mul, abs_mul, abs_of_pos hu, ← mul_assoc]
    gcongr
  have b0 := bnd a0 hd
  have b1 := bnd p0 hj
  have b2 := bnd q0 hk
  obtain ⟨f0, g0⟩ := small64 (b0.trans (by gcongr; norm_num))
  obtain ⟨f1, g1⟩ := small64 (b1.trans (by gcongr; norm_num))
  obtain ⟨f2, g2⟩ := small64 (b2.trans (by gcongr; norm_num))
  have i0 := Is.mul ha dd.up f0
  have i1 := Is.mul hp hy1.up f1
  have i2' := Is.mul hq hy2.up f2
  set z0 := a * (((i - i2 : ℤ) : ℚ) * u)
  set z1 := p * ((j : ℚ) * u)
  set z2 := q * ((k : ℚ) * u)
  have s1 : |b64.rnd z0 + b64.rnd z1| ≤ 2 ^ 23 * u := by
    have t1 := abs_add_le (b64.rnd z0) (b64.rnd z1)
    have t2 := abs_sub_abs_le_abs_sub (b64.rnd z0) z0
    have t3 := abs_sub_abs_le_abs_sub (b64.rnd z1) z1
    norm_num at b0 b1 ⊢
    linarith
  obtain ⟨f3, g3⟩ := small64 (s1.trans (by gcongr <;> norm_num))
  have s2 : |b64.rnd (b64.rnd z0 + b64.rnd z1) - b64.rnd z2| ≤ 2 ^ 24 * u := by
    have t1 := abs_sub (b64.rnd (b64.rnd z0 + b64.rnd z1)) (b64.rnd z2)
    have t2 := abs_sub_abs_le_abs_sub (b64.rnd z2) z2
    have t3 := abs_sub_abs_le_abs_sub (b64.rnd (b64.rnd z0 + b64.rnd z1)) (b64.rnd z0 + b64.rnd z1)
    norm_num at b2 s1 ⊢
    linarith
  obtain ⟨f4, g4⟩ := small64 s2
  set T := b64.rnd (b64.rnd (b64.rnd z0 + b64.rnd z1) - b64.rnd z2)
  have key : |T - r * u| < u / 2 := by
    have e : |z0 + z1 - z2 - r * u| ≤ 49 / 100 * u := by
      have : z0 + z1 - z2 - r * u = (a * (i - i2) + p * j - q * k - r) * u := by
        simp only [z0, z1, z2]; push_cast; ring
      rw [this, abs_mul, abs_of_pos hu]
      gcongr
    rw [abs_le] at g0 g1 g2 g3 g4 e
    rw [abs_lt]
    constructor <;> linarith
  have fin : b32.rnd T = r * u := rnd_tiny hr key
  have := (Is.sub (Is.add i0 i1 f3) i2' f4).down (by
    show b32.Fits T
    unfold Fmt.Fits
    rw [fin]
    exact (is_mul_u (hr.trans (by norm_num))).abs_lt)
  show (_ : F32).Is _
  rw [← fin]
  exact this

/-- An input that falls to zero, one step at a time. -/
private def fade (v w n : ℕ) : ℤ := if n % 2 = 0 then ((v - n / 2 : ℕ) : ℤ) else -((w - n / 2 : ℕ) : ℤ)

private theorem fade_le {v w n : ℕ} (hv : v ≤ 2 ^ 20) (hw : w ≤ 2 ^ 20) : |(fade v w n : ℚ)| ≤ 2 ^ 20 := by
  have : |fade v w n| ≤ 2 ^ 20 := by
    unfold fade
    split <;> rw [abs_le] <;> constructor <;> omega
  exact_mod_cast this

private theorem fade_step (v w n : ℕ) : |fade v w (n + 2) - fade v w n| ≤ 1 := by
  unfold fade
  rcases Nat.mod_two_eq_zero_or_one n with h | h
  · rw [if_pos h, if_pos (by omega), abs_le]; constructor <;> omega
  · rw [if_neg (by omega), if_neg (by omega), abs_le]; constructor <;> omega

/-- IEEE: for every pass band with corners between 9 and 4000 Hz, at least 2^-20 Hz apart, and every math library accurate to the bound of
`Tan64Accurate`: there is an input, exactly zero from some sample on, to which every output is 2^-149, a subnormal number, for ever. -/
theorem C140_bandpass_violated [Libm F64] (ht : Tan64Accurate) {a b : F64} {p q : ℚ} (h : Corners a b p q) (p0 : 9 ≤ p) (p1 : p ≤ 4000) (q0 : 9 ≤ q) (q1 : q ≤ 4000) :
    ∃ (x : ℕ → F32) (N : ℕ), (∀ n, (x n).Finite) ∧ (∀ n ≥ N, x n = lit 0) ∧
      ∀ n, ∃ y : F32, modOut Modifier.process x (BandPass.fromCorners (a, b) : BandPass F32 F64) n = .ok y ∧ y.Is (2 ^ 149)⁻¹ := by
  have p0' : (9 : ℝ) ≤ p := by exact_mod_cast p0
  have p1' : (p : ℝ) ≤ 4000 := by exact_mod_cast p1
  have q0' : (9 : ℝ) ≤ q := by exact_mod_cast q0
  have q1' : (q : ℝ) ≤ 4000 := by exact_mod_cast q1
  have hn := near_corners ht h p0 (p1.trans (by norm_num)) q0 (q1.trans (by norm_num))
  have low : ∀ {f : ℝ}, 9 ≤ f → f ≤ 4000 → 1 / 2 ≤ bpPole f ∧ bpPole f ≤ 1 - 1 / 2000 := by
    intro f f0 f1
    refine ⟨bpPole_ge (by linarith) f1 (by norm_num) (by nlinarith), ?_⟩
    have g := bpPole_gap (f := f) (by linarith) (by linarith)
    rw [min_eq_left (by linarith)] at g
    have : (1 : ℝ) / 2000 ≤ Real.pi * f / 48000 := by nlinarith [Real.pi_gt_three]
    linarith [le_abs_self (bpPole f)]
  obtain ⟨c1, c2⟩ := low (le_min p0' q0') ((min_le_left _ _).trans p1')
  obtain ⟨b1, b2⟩ := low (le_max_of_le_left p0') (max_le p1' q1')
  set B := bpPole (max (p : ℝ) q)
  set C := bpPole (min (p : ℝ) q)
  obtain ⟨α, hα, eα⟩ := hn.a0
  obtain ⟨β, hβ, eβ⟩ := hn.b1
  obtain ⟨γ, hγ, eγ⟩ := hn.b2
  rw [abs_le] at eα eβ eγ
  have ρ0 : (2 ^ 33 : ℝ)⁻¹ ≤ 1 / 1000000000 := by norm_num
  have α0 : (1 : ℝ) / 10000 ≤ α := by nlinarith
  have α1 : (α : ℝ) ≤ 26 / 100 := by nlinarith
  have β0 : (999 : ℝ) / 1000 ≤ β := by linarith
  have β1 : (β : ℝ) ≤ 2 := by linarith
  have γ0 : (0 : ℝ) ≤ γ := by nlinarith
  have γ1 : (γ : ℝ) ≤ 1 := by nlinarith
  have δ : 1 - 49 / 100 + α ≤ (β : ℝ) - γ := by nlinarith
  have δ' : (β : ℝ) - γ + α ≤ 1 + 49 / 100 := by nlinarith
  have r0 : (1 : ℚ) / 10000 ≤ α := by exact_mod_cast (by push_cast; exact α0 : (((1 : ℚ) / 10000 : ℚ) : ℝ) ≤ (α : ℝ))
  have r1 : α ≤ 26 / 100 := by exact_mod_cast (by push_cast; exact α1 : (α : ℝ) ≤ (((26 : ℚ) / 100 : ℚ) : ℝ))
  have r2 : (999 : ℚ) / 1000 ≤ β := by exact_mod_cast (by push_cast; exact β0 : (((999 : ℚ) / 1000 : ℚ) : ℝ) ≤ (β : ℝ))
  have r3 : β ≤ 2 := by exact_mod_cast β1
  have r4 : 0 ≤ γ := by exact_mod_cast γ0
  have r5 : γ ≤ 1 := by exact_mod_cast γ1
  have r6 : 1 - 49 / 100 + α ≤ β - γ := by exact_mod_cast (by push_cast; exact δ : ((1 - 49 / 100 + α : ℚ) : ℝ) ≤ ((β - γ : ℚ) : ℝ))
  have r7 : β - γ + α ≤ 1 + 49 / 100 := by exact_mod_cast (by push_cast; exact δ' : ((β - γ + α : ℚ) : ℝ) ≤ ((1 + 49 / 100 : ℚ) : ℝ))
  have αp : 0 < α := by linarith
  set v := ⌊1 / α⌋₊
  set w := ⌊(β - 1) / α⌋₊
  have hv1 : α * v ≤ 1 := by
    have := Nat.floor_le (by positivity : (0 : ℚ) ≤ 1 / α)
    rw [le_div_iff₀ αp] at this
    linarith
  have hv2 : 1 - α ≤ α * v := by
    have := Nat.lt_floor_add_one (1 / α)
    rw [div_lt_iff₀ αp] at this
    linarith
  have hw2 : β - 1 - α ≤ α * w := by
    have := Nat.lt_floor_add_one ((β - 1) / α)
    rw [div_lt_iff₀ αp] at this
    linarith
  have hw1 : α * w ≤ β - 1 + 1 / 1000 := by
    rcases le_total 1 β with hβ1 | hβ1
    · have := Nat.floor_le (div_nonneg (by linarith : (0 : ℚ) ≤ β - 1) αp.le)
      rw [le_div_iff₀ αp] at this
      linarith
    · have : w = 0 := Nat.floor_of_nonpos (div_nonpos_of_nonpos_of_nonneg (by linarith) αp.le)
      rw [this]
      simp only [Nat.cast_zero, mul_zero]
      linarith
  have vb : v ≤ 2 ^ 20 := by
    have : (v : ℚ) ≤ 10000 := by nlinarith [(Nat.cast_nonneg v : (0 : ℚ) ≤ v)]
    have : v ≤ 10000 := by exact_mod_cast this
    omega
  have wb : w ≤ 2 ^ 20 := by
    have : (w : ℚ) ≤ 20000 := by nlinarith [(Nat.cast_nonneg w : (0 : ℚ) ≤ w)]
    have : w ≤ 20000 := by exact_mod_cast this
    omega
  have hX : ∀ n, (lit ((fade v w n : ℚ) * u) : F32).Is (fade v w n * u) := fun n => is_mul_u ((fade_le vb wb).trans (by norm_num))
  refine ⟨fun n => lit ((fade v w n : ℚ) * u), 2 * (v + w + 1), fun n => ⟨_, hX n⟩, fun n hn => ?_, ?_⟩
  · have : fade v w n = 0 := by unfold fade; split <;> omega
    simp only [this, Int.cast_zero, zero_mul]
  obtain ⟨y, hy, hr⟩ := bp_recurrence (BandPass.fromCorners (a, b) : BandPass F32 F64) rfl rfl rfl rfl (fun n => lit ((fade v w n : ℚ) * u))
  have za : |α| ≤ 2 := by rw [abs_of_pos αp]; linarith
  have zb : |β| ≤ 3 := by rw [abs_of_nonneg (by linarith)]; linarith
  have zc : |γ| ≤ 2 := by rw [abs_of_nonneg r4]; linarith
  have z0 : (lit 0 : F32).Is ((0 : ℤ) * u) := by decide +kernel
  have k0 : |((0 : ℤ) : ℚ)| ≤ 2 ^ 20 := by norm_num
  have k1 : |((1 : ℤ) : ℚ)| ≤ 2 ^ 20 := by norm_num
  have key : ∀ n, (y n).Is ((1 : ℤ) * u) := by
    intro n
    induction n using Nat.strong_induction_on with
    | _ n ih =>
      rw [hr n]
      rcases n with _ | _ | n
      · simp only [delayed_startS]
        refine tiny_step hα hβ hγ za zb zc (hX 0) z0 z0 z0 (fade_le vb wb) k0 k0 k0 k1 ?_
        have : fade v w 0 = v := rfl
        rw [this, abs_le]
        push_cast
        constructor <;> linarith
      · simp only [delayed_startS, delayed_succS, delayed_zeroS]
        refine tiny_step hα hβ hγ za zb zc (hX 1) z0 (ih 0 (by omega)) z0 (fade_le vb wb) k0 k1 k0 k1 ?_
        have : fade v w 1 = -w := rfl
        rw [this, abs_le]
        push_cast
        constructor <;> linarith
      · simp only [delayed_succS, delayed_zeroS]
        refine tiny_step hα hβ hγ za zb zc (hX (n + 2)) (hX n) (ih (n + 1) (by omega)) (ih n (by omega)) (fade_le vb wb) (fade_le vb wb) k1 k1 k1 ?_
        have s : |((fade v w (n + 2) - fade v w n : ℤ) : ℚ)| ≤ 1 := by exact_mod_cast fade_step v w n
        push_cast at s
        rw [abs_le] at s ⊢
        push_cast
        constructor <;> nlinarith
  intro n
  refine ⟨y n, hy n, ?_⟩
  have := key n
  rwa [show ((1 : ℤ) : ℚ) * u = (2 ^ 149)⁻¹ by unfold u; push_cast; ring] at this

/-- Corners at 500 and 2000 Hz. -/
example : ∃ (l : Libm F64) (x : ℕ → F32) (N : ℕ), (∀ n ≥ N, x n = lit 0) ∧
    ∀ n, ∃ y : F32, modOut Modifier.process x (@BandPass.fromCorners F32 F64 _ _ _ l (lit 2000, lit 500)) n = .ok y ∧ y.Is (2 ^ 149)⁻¹ := by
  obtain ⟨l, hl⟩ := tan64Accurate_exists
  obtain ⟨x, N, -, h1, h2⟩ := C140_bandpass_violated hl (a := lit 2000) (b := lit 500) (p := 2000) (q := 500)
    ⟨by decide +kernel, by decide +kernel, by norm_num, by norm_num, by norm_num, by norm_num, by norm_num [abs_of_pos]⟩
    (by norm_num) (by norm_num) (by norm_num) (by norm_num)
  exact ⟨l, x, N, h1, h2⟩

end Verif
