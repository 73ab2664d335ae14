import Verif.Spec.Tracks
import Verif.Props.Tone
import Verif.Props.EchoF32

/-! # Rounding errors along a chain of modifiers: C129 -/

namespace Verif
open Fl Filter Topology

private theorem rnd_err (q : ℚ) : |((b32.rnd q : ℚ) : ℝ) - q| ≤ (2 ^ 24)⁻¹ * |(q : ℝ)| + (2 ^ 150)⁻¹ := by
  have h := b32.abs_rnd_sub_le_mixed q
  have e : pow2 (-(b32.p : ℤ)) = (2 ^ 24)⁻¹ ∧ pow2 (b32.emin - 1) = (2 ^ 150)⁻¹ := by decide +kernel
  rw [e.1, e.2] at h
  have := Rat.cast_le (K := ℝ) |>.mpr h
  push_cast at this
  linarith

private theorem fits_real {q : ℚ} (h : |(q : ℝ)| ≤ 2 ^ 90) : b32.Fits q := by
  refine fits32' 90 (by norm_num) ?_
  have : ((|q| : ℚ) : ℝ) ≤ ((2 ^ 90 : ℚ) : ℝ) := by push_cast; exact h
  exact Rat.cast_le.mp this

private theorem near_le {q : ℚ} {v d M : ℝ} (h : |(q : ℝ) - v| ≤ d) (hv : |v| ≤ M) : |(q : ℝ)| ≤ M + d := by
  have := abs_sub_abs_le_abs_sub (q : ℝ) v
  linarith

/-! ## single modifiers -/

/-- IEEE: Gain. -/
theorem C129_gain {a : F32} {γ : ℚ} (ha : a.Is γ) {B : ℝ} (hB1 : 1 ≤ B) (hB : |(γ : ℝ)| ≤ B) :
    Tracks Modifier.process (Gain.new a) Modifier.process (Gain.new (γ : ℝ)) B (B * (1 + (2 ^ 23)⁻¹)) := by
  have out : ∀ {S : Type} [Flt S] (g : S) (x : ℕ → S) (n : ℕ), modOut Modifier.process x (Gain.new g) n = .ok (x n * g) := by
    intro S _ g x n
    have : modAfter Modifier.process x (Gain.new g) n = .ok (Gain.new g) := by
      induction n with
      | zero => rfl
      | succ n ih => exact modAfter_succ (y := x n * g) ih rfl
    exact modOut_of this rfl
  refine ⟨hB1, by nlinarith [show (0 : ℝ) < (2 ^ 23)⁻¹ by positivity], fun x v M d a1 a2 a3 a4 a5 => ⟨_, _, out _ _, out _ _, fun n => ?_, fun n => ?_⟩⟩
  · rw [abs_mul, mul_comm B]
    exact mul_le_mul (a5 n) hB (abs_nonneg _) ((abs_nonneg _).trans (a5 n))
  · obtain ⟨q, h1, h2⟩ := a4 n
    have hq := near_le h2 (a5 n)
    have hM : 0 < M := lt_of_lt_of_le (by positivity) a1
    have hW : 0 < M + d := by linarith
    have h3 : |((q * γ : ℚ) : ℝ)| ≤ B * (M + d) := by
      push_cast
      rw [abs_mul, mul_comm B]
      exact mul_le_mul hq hB (abs_nonneg _) hW.le
    have hBW : M + d ≤ B * (M + d) := le_mul_of_one_le_left hW.le hB1
    have h4 := Is.mul h1 ha (fits_real (h3.trans (by norm_num at a3 ⊢; nlinarith)))
    refine ⟨_, h4, ?_⟩
    have h5 := rnd_err (q * γ)
    have h6 : |(q : ℝ) * γ - v n * γ| ≤ B * d := by
      rw [← sub_mul, abs_mul, mul_comm B]
      exact mul_le_mul h2 hB (abs_nonneg _) a2
    have h7 := abs_sub_le ((b32.rnd (q * γ) : ℚ) : ℝ) ((q * γ : ℚ) : ℝ) (v n * γ)
    push_cast at h3 h5 h7
    have h8 : ((2 : ℝ) ^ 150)⁻¹ ≤ (2 ^ 24)⁻¹ * (2 ^ 80)⁻¹ := by norm_num
    have h9 : ((2 : ℝ) ^ 24)⁻¹ * (2 ^ 80)⁻¹ ≤ (2 ^ 24)⁻¹ * (B * (M + d)) := by gcongr; linarith
    have h10 : ((2 : ℝ) ^ 24)⁻¹ * |(q : ℝ) * γ| ≤ (2 ^ 24)⁻¹ * (B * (M + d)) := by gcongr
    have h11 : B * (1 + (2 ^ 23)⁻¹) * (M + d) - B * M = B * d + 2 * ((2 ^ 24)⁻¹ * (B * (M + d))) := by ring
    rw [h11]
    linarith

/-- IEEE: Delay. -/
theorem C129_delay (m : Delay F32) (m' : Delay ℝ) (D : ℕ) (hm : m.delay = List.replicate D (lit 0)) (hm' : m'.delay = List.replicate D 0) :
    Tracks Modifier.process m Modifier.process m' 1 1 := by
  refine ⟨le_rfl, le_rfl, fun x v M d a1 a2 a3 a4 a5 => ⟨_, _, fun n => (C51_delay m D hm x n).1,
    fun n => (C51_delay m' D (by rw [hm']; simp [lit]) v n).1, fun n => ?_, fun n => ?_⟩⟩
  · have hM : 0 < M := lt_of_lt_of_le (by positivity) a1
    rw [one_mul]
    split_ifs
    · simp [lit, hM.le]
    · exact a5 _
  · rw [one_mul, one_mul, add_sub_cancel_left]
    by_cases h : n < D
    · simp only [if_pos h]
      exact ⟨0, by decide +kernel, by simp [lit, a2]⟩
    · simp only [if_neg h]
      exact a4 _

/-- IEEE: Echo with a gain of magnitude below `1 - 2^-22`. -/
theorem C129_echo (m : Echo F32) (m' : Echo ℝ) (D : ℕ) (hD : 0 < D) (hm : m.delay = List.replicate D (lit 0)) (hm' : m'.delay = List.replicate D 0)
    {γ : ℚ} (hg : m.gain.Is γ) (hg' : m'.gain = γ) (h1 : |(γ : ℝ)| < 1 - (2 ^ 22)⁻¹) :
    Tracks Modifier.process m Modifier.process m' (1 / (1 - |(γ : ℝ)|)) (1 / (1 - |(γ : ℝ)| - (2 ^ 22)⁻¹)) := by
  set g := |(γ : ℝ)| with hgdef
  have g0 : 0 ≤ g := abs_nonneg _
  have p22 : (0 : ℝ) < (2 ^ 22)⁻¹ := by positivity
  set B := 1 / (1 - g) with hB
  set C := 1 / (1 - g - (2 ^ 22)⁻¹) with hC
  have hBd : B * (1 - g) = 1 := by rw [hB]; field_simp; rw [div_self]; linarith
  have hCd : C * (1 - g - (2 ^ 22)⁻¹) = 1 := by rw [hC]; rw [one_div, inv_mul_cancel₀]; linarith
  have hB1 : 1 ≤ B := by rw [hB, le_div_iff₀ (by linarith)]; linarith
  have hBC : B ≤ C := one_div_le_one_div_of_le (by linarith) (by linarith)
  refine ⟨hB1, hBC, fun x v M d a1 a2 a3 a4 a5 => ?_⟩
  obtain ⟨y, hy⟩ := C54_echo m D hD hm x
  obtain ⟨z, hz⟩ := C54_echo m' D hD (by rw [hm']; simp [lit]) v
  have hM : 0 < M := lt_of_lt_of_le (by positivity) a1
  set W := M + d with hW
  have hWM : M ≤ W := by linarith
  have hCW : W ≤ C * W := le_mul_of_one_le_left (by linarith) (hB1.trans hBC)
  have eB : g * (B * M) = B * M - M := by linear_combination (-M) * hBd
  have eC : C * W = g * (C * W) + (2 ^ 22)⁻¹ * (C * W) + W := by linear_combination W * hCd
  have key : ∀ n, |z n| ≤ B * M ∧ ∃ q : ℚ, (y n).Is q ∧ |(q : ℝ) - z n| ≤ C * W - B * M := by
    intro n
    induction n using Nat.strong_induction_on with
    | _ n ih =>
      obtain ⟨p, r, hp, hr, hpr, hrB, ey, ez⟩ : ∃ (p : ℚ) (r : ℝ), ((if n < D then lit 0 else y (n - D)) : F32).Is p ∧
          (if n < D then lit 0 else z (n - D) : ℝ) = r ∧ |(p : ℝ) - r| ≤ C * W - B * M ∧ |r| ≤ B * M ∧
          y n = (if n < D then lit 0 else y (n - D)) * m.gain + x n ∧ z n = r * γ + v n := by
        by_cases h : n < D
        · refine ⟨0, 0, by simp only [if_pos h]; decide +kernel, by simp [if_pos h, lit], ?_, by rw [abs_zero]; positivity, (hy n).2, ?_⟩
          · have : B * M ≤ C * W := mul_le_mul hBC hWM hM.le (by linarith)
            simp only [Rat.cast_zero, sub_self, abs_zero]
            linarith
          · rw [(hz n).2, hg']; simp [if_pos h, lit]
        · obtain ⟨i1, q, i2, i3⟩ := ih (n - D) (by omega)
          refine ⟨q, z (n - D), by simp only [if_neg h]; exact i2, by simp only [if_neg h], i3, i1, (hy n).2, ?_⟩
          rw [(hz n).2, hg']; simp [if_neg h]
      obtain ⟨q, hq, hqv⟩ := a4 n
      have hqW := near_le hqv (a5 n)
      rw [← hW] at hqW
      constructor
      · rw [ez]
        refine (abs_add_le _ _).trans ?_
        rw [abs_mul, mul_comm]
        have : g * |r| ≤ g * (B * M) := mul_le_mul_of_nonneg_left hrB g0
        linarith [a5 n]
      · have hpW : |(p : ℝ)| ≤ C * W := by
          have := near_le hpr hrB
          linarith
        have hpg : |((p * γ : ℚ) : ℝ)| ≤ g * (C * W) := by
          push_cast
          rw [abs_mul, mul_comm]
          exact mul_le_mul_of_nonneg_left hpW g0
        have gCW : g * (C * W) ≤ C * W := mul_le_of_le_one_left (by linarith) (by linarith)
        have f1 := Is.mul hp hg (fits_real (hpg.trans (gCW.trans (a3.trans (by norm_num)))))
        have r1 := rnd_err (p * γ)
        have s1 : |((b32.rnd (p * γ) : ℚ) : ℝ)| ≤ g * (C * W) + ((2 ^ 24)⁻¹ * (g * (C * W)) + (2 ^ 150)⁻¹) := by
          have := abs_sub_abs_le_abs_sub ((b32.rnd (p * γ) : ℚ) : ℝ) ((p * γ : ℚ) : ℝ)
          have : (2 ^ 24 : ℝ)⁻¹ * |((p * γ : ℚ) : ℝ)| ≤ (2 ^ 24)⁻¹ * (g * (C * W)) := by gcongr
          linarith
        have s2 : |((b32.rnd (p * γ) + q : ℚ) : ℝ)| ≤ g * (C * W) + ((2 ^ 24)⁻¹ * (g * (C * W)) + (2 ^ 150)⁻¹) + W := by
          push_cast
          exact (abs_add_le _ _).trans (add_le_add s1 hqW)
        have f2 := Is.add f1 hq (fits_real (s2.trans (by norm_num at a3 ⊢; linarith)))
        rw [ey]
        refine ⟨_, f2, ?_⟩
        have r2 := rnd_err (b32.rnd (p * γ) + q)
        have t1 : |((p * γ : ℚ) : ℝ) - r * γ| ≤ g * (C * W - B * M) := by
          push_cast
          rw [← sub_mul, abs_mul, mul_comm]
          exact mul_le_mul_of_nonneg_left hpr g0
        rw [ez]
        have u1 : (2 ^ 24 : ℝ)⁻¹ * |((p * γ : ℚ) : ℝ)| ≤ (2 ^ 24)⁻¹ * (C * W) := by gcongr; exact hpg.trans gCW
        have u2 : (2 ^ 24 : ℝ)⁻¹ * |((b32.rnd (p * γ) + q : ℚ) : ℝ)| ≤ (2 ^ 24)⁻¹ * (21 / 10 * (C * W)) := by
          gcongr
          norm_num at a1 s2 ⊢
          linarith
        have u3 : (2 ^ 150 : ℝ)⁻¹ ≤ (2 ^ 24)⁻¹ * (1 / 10 * (C * W)) := by
          have : (2 ^ 150 : ℝ)⁻¹ ≤ (2 ^ 24)⁻¹ * (1 / 10 * (2 ^ 80)⁻¹) := by norm_num
          refine this.trans ?_
          gcongr
          linarith
        have e4 : (2 ^ 22 : ℝ)⁻¹ = 4 * (2 ^ 24)⁻¹ := by norm_num
        rw [e4] at eC
        have hCW0 : 0 ≤ (2 ^ 24 : ℝ)⁻¹ * (C * W) := mul_nonneg (by positivity) (by linarith)
        push_cast at r1 r2 t1 u1 u2 ⊢
        set A1 := ((b32.rnd (p * γ) : ℚ) : ℝ)
        set A2 := ((b32.rnd (b32.rnd (p * γ) + q) : ℚ) : ℝ)
        have tri : |A2 - (r * γ + v n)| ≤ |A2 - (A1 + q)| + |A1 - (p : ℝ) * γ| + |(p : ℝ) * γ - r * γ| + |(q : ℝ) - v n| := by
          rw [show A2 - (r * γ + v n) = (A2 - (A1 + q)) + (A1 - (p : ℝ) * γ) + ((p : ℝ) * γ - r * γ) + ((q : ℝ) - v n) by ring]
          exact (abs_add_le _ _).trans (add_le_add ((abs_add_le _ _).trans (add_le_add (abs_add_le _ _) le_rfl)) le_rfl)
        linarith
  exact ⟨y, z, fun n => (hy n).1, fun n => (hz n).1, fun n => (key n).1, fun n => (key n).2⟩

/-- A linear filter whose `f32` form stays within a fraction `η` of the largest input of the exact form. -/
theorem tracks_of_near {X Y : Type} {P : Y → F32 → Res (F32 × Y)} {k : Y} {p : X → ℝ → Res (ℝ × X)} {m : X} {B η : ℝ} (hη : 0 ≤ η) (hB1 : 2 ≤ B) (hs : Settles p m)
    (hB : ∀ (x : ℕ → ℝ) (d : ℝ), (∀ n, |x n| ≤ d) → ∃ y : ℕ → ℝ, (∀ n, modOut p x m n = .ok (y n)) ∧ ∀ n, |y n| ≤ B * d)
    (hn : ∀ (x : ℕ → F32) (u : ℕ → ℚ) (X : ℚ), (2 ^ 90)⁻¹ ≤ X → X ≤ 2 ^ 80 → (∀ n, (x n).Is (u n)) → (∀ n, |u n| ≤ X) → ∀ n, ∃ (y : F32) (q : ℚ) (z : ℝ),
      modOut P x k n = .ok y ∧ y.Is q ∧ modOut p (fun n => (u n : ℝ)) m n = .ok z ∧ |(q : ℝ) - z| ≤ η * X) :
    Tracks P k p m B (B + 4 / 3 * η) := by
  refine ⟨by linarith, by linarith, fun x v M d a1 a2 a3 a4 a5 => ?_⟩
  choose u hu hd using a4
  have hM : 0 < M := lt_of_lt_of_le (by positivity) a1
  obtain ⟨X, hX1, hX2⟩ := exists_rat_btwn (show M + d < 104 / 100 * (M + d) by linarith)
  have hX3 : (X : ℝ) ≤ 2 ^ 80 := by
    have h1 : 0 ≤ η * (M + d) := mul_nonneg hη (by linarith)
    have h2 : 2 * (M + d) ≤ B * (M + d) := mul_le_mul_of_nonneg_right hB1 (by linarith)
    linarith
  obtain ⟨z, hz, hzb⟩ := hB v M a5
  obtain ⟨e, he, heb⟩ := hB (fun n => (u n : ℝ) - v n) d hd
  choose y q w h1 h2 h3 h4 using hn x u X
    (by
      have : (((2 ^ 90)⁻¹ : ℚ) : ℝ) ≤ X := by
        push_cast
        norm_num at a1 ⊢
        linarith
      exact Rat.cast_le.mp this)
    (by have : (X : ℝ) ≤ ((2 ^ 80 : ℚ) : ℝ) := by push_cast; exact hX3
        exact Rat.cast_le.mp this) hu
    (fun n => by
      have : ((|u n| : ℚ) : ℝ) ≤ X := by
        push_cast
        exact (near_le (hd n) (a5 n)).trans hX1.le
      exact Rat.cast_le.mp this)
  refine ⟨y, z, h1, hz, hzb, fun n => ⟨q n, h2 n, ?_⟩⟩
  have hw : w n = z n + e n := by
    obtain ⟨a, b, ha, hb', hab⟩ := hs.superposition v (fun n => (u n : ℝ) - v n) 1 1 n
    rw [hz n] at ha
    rw [he n] at hb'
    have e1 : (fun i : ℕ => 1 * v i + 1 * ((u i : ℝ) - v i)) = fun n => (u n : ℝ) := by
      funext i; ring
    rw [e1, h3 n] at hab
    rw [Except.ok.inj hab, ← Except.ok.inj ha, ← Except.ok.inj hb']
    ring
  have h5 := h4 n
  have h6 := heb n
  rw [hw] at h5
  have h7 : (B + 4 / 3 * η) * (M + d) - B * M = B * d + 4 / 3 * (η * (M + d)) := by ring
  rw [h7]
  have h8 : η * (X : ℝ) ≤ 104 / 100 * (η * (M + d)) := by
    have := mul_le_mul_of_nonneg_left hX2.le hη
    linarith
  have h9 : 0 ≤ η * (M + d) := mul_nonneg hη (by linarith)
  rw [abs_le] at h5 h6 ⊢
  constructor <;> linarith [h5.1, h5.2, h6.1, h6.2]

section
variable [Libm F64] (ha : LibmAccurate) {fc r : F64} {f ρ : ℚ} (hfc : fc.Is f) (hr : r.Is ρ)
include ha hfc hr

/-- IEEE: LowPass from 2 kHz up, or from 1 kHz up at a resonance up to 1/2. -/
theorem C129_lowpass (hf : 2000 ≤ f ∨ 1000 ≤ f ∧ ρ ≤ 1 / 2) :
    Tracks Modifier.process (LowPass.new fc r : LowPass F32 F64) Modifier.process (LowPass.new (f : ℝ) (ρ : ℝ) : LowPass ℝ ℝ) 10 (10 + 4 / 100) := by
  have hf0 : (0 : ℝ) < f := by
    have : (0 : ℚ) < f := by rcases hf with hf | hf <;> linarith
    exact_mod_cast this
  have hf' : (2000 : ℝ) ≤ f ∨ (1000 : ℝ) ≤ f ∧ (ρ : ℝ) ≤ 1 / 2 := by
    rcases hf with hf | ⟨hf, h⟩
    · left; exact_mod_cast hf
    · right
      refine ⟨by exact_mod_cast hf, ?_⟩
      have := Rat.cast_le (K := ℝ) |>.mpr h
      push_cast at this
      exact this
  exact (tracks_of_near (by norm_num) (by norm_num) (C126_filters_settle (f : ℝ) (ρ : ℝ) hf0 (l := 1) (h := 2) (by norm_num) (by norm_num) (by norm_num)).1
    (fun x d hx => lp_bounded hf' hx) (fun x u X h1 h2 h3 h4 => C118_lowpass_partial ha hfc hr h1 h2 x u h3 h4 hf)).mono (by norm_num)

/-- IEEE: HighPass from 2.5 kHz up, or from 1.5 kHz up at a resonance up to 1/2. -/
theorem C129_highpass (hf : 2500 ≤ f ∨ 1500 ≤ f ∧ ρ ≤ 1 / 2) :
    Tracks Modifier.process (HighPass.new fc r : HighPass F32 F64) Modifier.process (HighPass.new (f : ℝ) (ρ : ℝ) : HighPass ℝ ℝ) 25 (25 + 4 / 100) := by
  have hf0 : (0 : ℝ) < f := by
    have : (0 : ℚ) < f := by rcases hf with hf | hf <;> linarith
    exact_mod_cast this
  have hf' : (2500 : ℝ) ≤ f ∨ (1500 : ℝ) ≤ f ∧ (ρ : ℝ) ≤ 1 / 2 := by
    rcases hf with hf | ⟨hf, h⟩
    · left; exact_mod_cast hf
    · right
      refine ⟨by exact_mod_cast hf, ?_⟩
      have := Rat.cast_le (K := ℝ) |>.mpr h
      push_cast at this
      exact this
  exact (tracks_of_near (by norm_num) (by norm_num) (C126_filters_settle (f : ℝ) (ρ : ℝ) hf0 (l := 1) (h := 2) (by norm_num) (by norm_num) (by norm_num)).2.1
    (fun x d hx => hp_bounded hf' hx) (fun x u X h1 h2 h3 h4 => C118_highpass_partial ha hfc hr h1 h2 x u h3 h4 hf)).mono (by norm_num)
end

/-! ## the generic filter -/

/-- The taps of the exact filter next to an `f32` one. -/
noncomputable def tapsR (l : List (ℕ × F32)) : List (ℕ × ℝ) := l.map fun t => (t.1, rv t.2)

/-- The sum of the magnitudes of the coefficients. -/
noncomputable def tapsAbs (l : List (ℕ × F32)) : ℝ := (l.map fun t => |rv t.2|).sum

private theorem tapsAbs_nonneg (l : List (ℕ × F32)) : 0 ≤ tapsAbs l := by
  refine List.sum_nonneg fun a ha => ?_
  obtain ⟨t, -, rfl⟩ := List.mem_map.mp ha
  exact abs_nonneg _

/-- One tap: product and sum in `f32` next to the exact ones. -/
private theorem tap_step {p a c : F32} {q r γ : ℚ} (hp : p.Is q) (ha : a.Is r) (hc : c.Is γ) {q' r' m w G H : ℝ} (hm : 0 ≤ w) (hq : |q'| ≤ m)
    (hqq : |(q : ℝ) - q'| ≤ w - m) (hr : |r'| ≤ H) (hrr : |(r : ℝ) - r'| ≤ G - H) (hbig : G + |(γ : ℝ)| * w ≤ 2 ^ 85) :
    ∃ s : ℚ, (a + p * c).Is s ∧ |(s : ℝ) - (r' + q' * γ)| ≤ (G + |(γ : ℝ)| * w) * (1 + (2 ^ 22)⁻¹) + (2 ^ 148)⁻¹ - (H + |(γ : ℝ)| * m) := by
  set g := |(γ : ℝ)| with hg
  have g0 : 0 ≤ g := abs_nonneg _
  have hqw := near_le hqq hq
  have hrG := near_le hrr hr
  have hG : 0 ≤ G := by linarith [abs_nonneg (r : ℝ)]
  have hqg : |((q * γ : ℚ) : ℝ)| ≤ g * w := by
    push_cast
    rw [abs_mul, mul_comm]
    exact mul_le_mul_of_nonneg_left (by linarith) g0
  have gw : 0 ≤ g * w := mul_nonneg g0 hm
  have f1 := Is.mul hp hc (fits_real (hqg.trans (by norm_num at hbig ⊢; linarith)))
  have r1 := rnd_err (q * γ)
  have u1 : (2 ^ 24 : ℝ)⁻¹ * |((q * γ : ℚ) : ℝ)| ≤ (2 ^ 24)⁻¹ * (g * w) := by gcongr
  have s1 : |((b32.rnd (q * γ) : ℚ) : ℝ)| ≤ g * w + ((2 ^ 24)⁻¹ * (g * w) + (2 ^ 150)⁻¹) := by
    have := abs_sub_abs_le_abs_sub ((b32.rnd (q * γ) : ℚ) : ℝ) ((q * γ : ℚ) : ℝ)
    linarith
  have s2 : |((r + b32.rnd (q * γ) : ℚ) : ℝ)| ≤ G + (g * w + ((2 ^ 24)⁻¹ * (g * w) + (2 ^ 150)⁻¹)) := by
    push_cast
    exact (abs_add_le _ _).trans (add_le_add (by linarith) s1)
  have f2 := Is.add ha f1 (fits_real (s2.trans (by norm_num at hbig ⊢; linarith)))
  refine ⟨_, f2, ?_⟩
  have r2 := rnd_err (r + b32.rnd (q * γ))
  have u2 : (2 ^ 24 : ℝ)⁻¹ * |((r + b32.rnd (q * γ) : ℚ) : ℝ)| ≤ (2 ^ 24)⁻¹ * (G + (g * w + ((2 ^ 24)⁻¹ * (g * w) + (2 ^ 150)⁻¹))) := by gcongr
  have t1 : |(q : ℝ) * γ - q' * γ| ≤ g * (w - m) := by
    rw [← sub_mul, abs_mul, mul_comm]
    exact mul_le_mul_of_nonneg_left hqq g0
  push_cast at r1 r2 t1 u1 u2 ⊢
  set A1 := ((b32.rnd (q * γ) : ℚ) : ℝ)
  set A2 := ((b32.rnd (r + b32.rnd (q * γ)) : ℚ) : ℝ)
  have tri : |A2 - (r' + q' * γ)| ≤ |A2 - (r + A1)| + |A1 - (q : ℝ) * γ| + |(q : ℝ) * γ - q' * γ| + |(r : ℝ) - r'| := by
    rw [show A2 - (r' + q' * γ) = (A2 - (r + A1)) + (A1 - (q : ℝ) * γ) + ((q : ℝ) * γ - q' * γ) + ((r : ℝ) - r') by ring]
    exact (abs_add_le _ _).trans (add_le_add ((abs_add_le _ _).trans (add_le_add (abs_add_le _ _) le_rfl)) le_rfl)
  have e1 : (2 ^ 150 : ℝ)⁻¹ ≤ (2 ^ 148)⁻¹ / 4 := by norm_num
  have e2 : (2 ^ 22 : ℝ)⁻¹ = 4 * (2 ^ 24)⁻¹ := by norm_num
  have e3 : (2 ^ 24 : ℝ)⁻¹ * ((2 ^ 24)⁻¹ * (g * w)) ≤ (2 ^ 24)⁻¹ * (g * w) :=
    mul_le_mul_of_nonneg_left (mul_le_of_le_one_left gw (by norm_num)) (by positivity)
  have e4 : (2 ^ 24 : ℝ)⁻¹ * (2 ^ 150)⁻¹ ≤ (2 ^ 148)⁻¹ / 4 := by norm_num
  have e5 : (0 : ℝ) < (2 ^ 148)⁻¹ := by positivity
  have e6 : (0 : ℝ) ≤ (2 ^ 24)⁻¹ * (g * w) := by positivity
  have e7 : (0 : ℝ) ≤ (2 ^ 24)⁻¹ * G := by positivity
  rw [e2]
  linarith

/-- The taps of a list, one after the other. -/
private theorem taps_near (l : List (ℕ × F32)) {past : ℕ → F32} {past' : ℕ → ℝ} {m w : ℝ} (hw : 0 ≤ w) (hfin : ∀ t ∈ l, ∃ c : ℚ, t.2.Is c)
    (hp : ∀ k, |past' k| ≤ m ∧ ∃ q : ℚ, (past k).Is q ∧ |(q : ℝ) - past' k| ≤ w - m) {a : F32} {a' G H : ℝ}
    (ha : |a'| ≤ H ∧ ∃ q : ℚ, a.Is q ∧ |(q : ℝ) - a'| ≤ G - H)
    (hbig : (G + tapsAbs l * w + l.length * (2 ^ 148)⁻¹) * (1 + (2 ^ 22)⁻¹) ^ l.length ≤ 2 ^ 85) :
    |tapSum past' (tapsR l) a'| ≤ H + tapsAbs l * m ∧ ∃ q : ℚ, (tapSum past l a).Is q ∧
      |(q : ℝ) - tapSum past' (tapsR l) a'| ≤ (G + tapsAbs l * w + l.length * (2 ^ 148)⁻¹) * (1 + (2 ^ 22)⁻¹) ^ l.length - (H + tapsAbs l * m) := by
  induction l generalizing a a' G H with
  | nil =>
    obtain ⟨h1, q, h2, h3⟩ := ha
    exact ⟨by simpa [tapSum, tapsR, tapsAbs] using h1, q, by simpa [tapSum] using h2, by simpa [tapSum, tapsR, tapsAbs] using h3⟩
  | cons t ts ih =>
    obtain ⟨h1, r, h2, h3⟩ := ha
    obtain ⟨γ, hγ⟩ := hfin t (List.mem_cons_self ..)
    obtain ⟨p1, q, p2, p3⟩ := hp t.1
    have hS := tapsAbs_nonneg ts
    have hG : 0 ≤ G := by linarith [abs_nonneg ((r : ℝ) - a'), abs_nonneg a']
    have g0 := abs_nonneg (γ : ℝ)
    have eS : tapsAbs (t :: ts) = |(γ : ℝ)| + tapsAbs ts := by
      simp only [tapsAbs, List.map_cons, List.sum_cons, rv_is hγ]
    set κ : ℝ := 1 + (2 ^ 22)⁻¹ with hκ
    have κ1 : 1 ≤ κ := by rw [hκ]; norm_num
    have κn : 1 ≤ κ ^ ts.length := one_le_pow₀ κ1
    have κn' : 1 ≤ κ ^ (t :: ts).length := one_le_pow₀ κ1
    have gw : 0 ≤ |(γ : ℝ)| * w := mul_nonneg g0 hw
    have sw : 0 ≤ tapsAbs ts * w := mul_nonneg hS hw
    have e0 : (0 : ℝ) < (2 ^ 148)⁻¹ := by positivity
    have l0 : (0 : ℝ) ≤ ts.length * (2 ^ 148)⁻¹ := by positivity
    rw [eS] at hbig ⊢
    have cmp : ((G + |(γ : ℝ)| * w) * κ + (2 ^ 148)⁻¹ + tapsAbs ts * w + ts.length * (2 ^ 148)⁻¹) * κ ^ ts.length ≤
        (G + (|(γ : ℝ)| + tapsAbs ts) * w + (t :: ts).length * (2 ^ 148)⁻¹) * κ ^ (t :: ts).length := by
      rw [List.length_cons, pow_succ κ, mul_comm (κ ^ _) κ, ← mul_assoc]
      refine mul_le_mul_of_nonneg_right ?_ (by linarith)
      push_cast
      nlinarith
    have pos : 0 ≤ (G + (|(γ : ℝ)| + tapsAbs ts) * w + (t :: ts).length * (2 ^ 148)⁻¹) := by
      have : (0 : ℝ) ≤ (t :: ts).length * (2 ^ 148)⁻¹ := by positivity
      nlinarith
    obtain ⟨s, s1, s2⟩ := tap_step p2 h2 hγ hw p1 p3 h1 h3 (by
      have : G + |(γ : ℝ)| * w ≤ (G + (|(γ : ℝ)| + tapsAbs ts) * w + (t :: ts).length * (2 ^ 148)⁻¹) := by
        have : (0 : ℝ) ≤ (t :: ts).length * (2 ^ 148)⁻¹ := by positivity
        nlinarith
      exact (this.trans (le_mul_of_one_le_right pos κn')).trans hbig)
    have := ih (a := a + past t.1 * t.2) (a' := a' + past' t.1 * γ) (G := (G + |(γ : ℝ)| * w) * κ + (2 ^ 148)⁻¹) (H := H + |(γ : ℝ)| * m)
      (fun t ht => hfin t (List.mem_cons_of_mem _ ht)) ⟨by
        refine (abs_add_le _ _).trans (add_le_add h1 ?_)
        rw [abs_mul, mul_comm]
        exact mul_le_mul_of_nonneg_left p1 g0, s, s1, s2⟩ (cmp.trans hbig)
    have e1 : tapSum past' (tapsR (t :: ts)) a' = tapSum past' (tapsR ts) (a' + past' t.1 * γ) := by
      simp only [tapSum, tapsR, List.map_cons, List.foldl_cons, rv_is hγ]
    have e2 : tapSum past (t :: ts) a = tapSum past ts (a + past t.1 * t.2) := rfl
    rw [e1, e2]
    obtain ⟨i1, q', i2, i3⟩ := this
    refine ⟨i1.trans (le_of_eq (by ring)), q', i2, i3.trans ?_⟩
    have : H + |(γ : ℝ)| * m + tapsAbs ts * m = H + (|(γ : ℝ)| + tapsAbs ts) * m := by ring
    rw [this]
    linarith

private theorem kappa_le (k : ℕ) (hk : k ≤ 2 ^ 21) : (1 + (2 ^ 22 : ℝ)⁻¹) ^ k ≤ 1 + k * (2 ^ 21)⁻¹ := by
  induction k with
  | zero => simp
  | succ k ih =>
    have h1 := ih (by omega)
    have h2 : (k : ℝ) ≤ 2097152 := by exact_mod_cast (by omega : k ≤ 2097152)
    rw [pow_succ (1 + (2 ^ 22 : ℝ)⁻¹)]
    refine (mul_le_mul_of_nonneg_right h1 (by positivity)).trans ?_
    push_cast
    norm_num
    linarith

private theorem total_le {z c a b ε κ : ℝ} (hc : 0 ≤ c) (hb : 0 ≤ b * ε) (hκ : 1 ≤ κ) : (0 + z + a * ε) * κ + c + b * ε ≤ (z + c + (a + b) * ε) * κ := by
  nlinarith

private theorem gen_total {Z P B C K u e t : ℝ} (hZ : Z ≤ B * (1 - P)) (hC1 : 1 ≤ C) (K2 : K ≤ 2) (hu : 1 ≤ u)
    (hC : C = K * (P * C + B * (1 - P))) (hu2 : u ≤ 2) (ht : 0 ≤ t) (htu : t ≤ K - u) (he : e ≤ t / 4) : (Z + P * C + e) * u + (B - Z - P * B) ≤ C := by
  obtain ⟨b, hb⟩ : ∃ b, b = P * C + B * (1 - P) := ⟨_, rfl⟩
  rw [← hb] at hC
  have b2 : 1 / 2 ≤ b := by nlinarith
  have b4 : t * (1 / 2) ≤ (K - u) * b := mul_le_mul htu b2 (by norm_num) (by linarith)
  have b6 : e * u ≤ t / 4 * 2 := (mul_le_mul_of_nonneg_right he (by linarith)).trans (mul_le_mul_of_nonneg_left hu2 (by linarith))
  have b8 : Z * (u - 1) ≤ B * (1 - P) * (u - 1) := mul_le_mul_of_nonneg_right hZ (by linarith)
  have e1 : (Z + P * C + e) * u + (B - Z - P * B) = Z * (u - 1) - B * (1 - P) * (u - 1) + b * u + e * u := by rw [hb]; ring
  have e2 : (K - u) * b = K * b - b * u := by ring
  linarith

/-- The bounds on all taps together. -/
private theorem gen_sum {a b k : ℕ} (hk : k = a + b) (hk19 : k ≤ 2 ^ 19) {K Z P B C M W : ℝ} (hK : K = 1 + k * (2 ^ 20)⁻¹) (P0 : 0 ≤ P)
    (hB : Z ≤ B * (1 - P)) (hC1 : 1 ≤ C) (hC : C = K * (P * C + B * (1 - P))) (hM : (2 ^ 80)⁻¹ ≤ M) (hWM : M ≤ W) :
    ((0 + Z * W + a * (2 ^ 148)⁻¹) * (1 + (2 ^ 22)⁻¹) ^ a + P * (C * W) + b * (2 ^ 148)⁻¹) * (1 + (2 ^ 22)⁻¹) ^ b + (B - Z - P * B) * M ≤ C * W := by
  have κk := kappa_le k (hk19.trans (by norm_num))
  have κ1 : (1 : ℝ) ≤ 1 + (2 ^ 22)⁻¹ := by norm_num
  generalize (1 + (2 ^ 22)⁻¹ : ℝ) = κ at κk κ1 ⊢
  have k0 : (0 : ℝ) ≤ k := Nat.cast_nonneg _
  have k19 : (k : ℝ) ≤ 524288 := by exact_mod_cast hk19
  have K2 : K ≤ 2 := by rw [hK]; norm_num; linarith
  have W0 : 0 < W := lt_of_lt_of_le (lt_of_lt_of_le (by positivity) hM) hWM
  have PC : 0 ≤ P * (C * W) := mul_nonneg P0 (mul_nonneg (by linarith) W0.le)
  have l1 : (0 : ℝ) ≤ b * (2 ^ 148)⁻¹ := by positivity
  have h1 : ((0 + Z * W + a * (2 ^ 148)⁻¹) * κ ^ a + P * (C * W) + b * (2 ^ 148)⁻¹) * κ ^ b ≤ (Z * W + P * (C * W) + k * (2 ^ 148)⁻¹) * κ ^ k := by
    have ek : κ ^ k = κ ^ a * κ ^ b := by rw [hk, pow_add]
    have ek' : (k : ℝ) = a + b := by rw [hk]; push_cast; ring
    rw [ek, ek', show ∀ c : ℝ, c * (κ ^ a * κ ^ b) = c * κ ^ a * κ ^ b from fun a => by ring]
    exact mul_le_mul_of_nonneg_right (total_le PC l1 (one_le_pow₀ κ1)) (zero_le_one.trans (one_le_pow₀ κ1))
  have h2 : (2 ^ 148 : ℝ)⁻¹ ≤ (2 ^ 68)⁻¹ * W := by
    have : (2 ^ 148 : ℝ)⁻¹ = (2 ^ 68)⁻¹ * (2 ^ 80)⁻¹ := by norm_num
    rw [this]
    exact mul_le_mul_of_nonneg_left (hM.trans hWM) (by positivity)
  have h3 : (Z * W + P * (C * W) + k * (2 ^ 148)⁻¹) * κ ^ k ≤ ((Z + P * C + k * (2 ^ 68)⁻¹) * κ ^ k) * W := by
    have h4 := mul_le_mul_of_nonneg_left h2 k0
    have h5 : Z * W + P * (C * W) + k * (2 ^ 148)⁻¹ ≤ (Z + P * C + k * (2 ^ 68)⁻¹) * W := by
      rw [add_mul, add_mul, mul_assoc P, mul_assoc (k : ℝ)]
      exact add_le_add le_rfl h4
    rw [mul_right_comm]
    exact mul_le_mul_of_nonneg_right h5 (zero_le_one.trans (one_le_pow₀ κ1))
  have h4 : (B - Z - P * B) * M ≤ (B - Z - P * B) * W := mul_le_mul_of_nonneg_left hWM (by linarith)
  have h5 : (Z + P * C + k * (2 ^ 68)⁻¹) * κ ^ k + (B - Z - P * B) ≤ C := by
    refine gen_total hB hC1 K2 (one_le_pow₀ κ1) hC (κk.trans (by norm_num; linarith)) (t := k * (2 ^ 21)⁻¹) (by positivity) ?_ ?_
    · rw [hK]
      have : (k : ℝ) * (2 ^ 20)⁻¹ = k * (2 ^ 21)⁻¹ + k * (2 ^ 21)⁻¹ := by norm_num; ring
      linarith only [this, κk]
    · rw [mul_div_assoc]
      exact mul_le_mul_of_nonneg_left (by norm_num) k0
  have h6 := mul_le_mul_of_nonneg_right h5 W0.le
  rw [add_mul] at h6
  exact (add_le_add (h1.trans h3) h4).trans h6

private theorem lastLargest_tapsR {l : List (ℕ × F32)} (h : LastLargest l) : LastLargest (tapsR l) := by
  intro t ht l hl
  simp only [tapsR, List.getLast?_map, Option.mem_def, Option.map_eq_some_iff] at hl
  obtain ⟨l', hl', rfl⟩ := hl
  obtain ⟨t', ht', rfl⟩ := List.mem_map.mp ht
  exact h t' ht' l' hl'

/-- One output of the filter. -/
private theorem gen_step {zeros poles : List (ℕ × F32)} (fz : ∀ t ∈ zeros, ∃ c : ℚ, t.2.Is c) (fp : ∀ t ∈ poles, ∃ c : ℚ, t.2.Is c)
    {B C M W : ℝ} (hM : 0 ≤ M) (hWM : M ≤ W) (hBM : 0 ≤ B * M) (hCW : B * M ≤ C * W) (hB : tapsAbs zeros ≤ B * (1 - tapsAbs poles)) (hCW2 : C * W ≤ 2 ^ 80)
    (ht : ((0 + tapsAbs zeros * W + zeros.length * (2 ^ 148)⁻¹) * (1 + (2 ^ 22)⁻¹) ^ zeros.length + tapsAbs poles * (C * W) + poles.length * (2 ^ 148)⁻¹) *
      (1 + (2 ^ 22)⁻¹) ^ poles.length + (B - tapsAbs zeros - tapsAbs poles * B) * M ≤ C * W)
    {x y : ℕ → F32} {v z : ℕ → ℝ} (hx : ∀ k, |v k| ≤ M ∧ ∃ q : ℚ, (x k).Is q ∧ |(q : ℝ) - v k| ≤ W - M)
    (hy : ∀ k, |z k| ≤ B * M ∧ ∃ q : ℚ, (y k).Is q ∧ |(q : ℝ) - z k| ≤ C * W - B * M) :
    |tapSum z (tapsR poles) (tapSum v (tapsR zeros) (lit 0))| ≤ B * M ∧ ∃ q : ℚ, (tapSum y poles (tapSum x zeros (lit 0))).Is q ∧
      |(q : ℝ) - tapSum z (tapsR poles) (tapSum v (tapsR zeros) (lit 0))| ≤ C * W - B * M := by
  have eR : (lit 0 : ℝ) = 0 := by real_simp
  have eF : (lit 0 : F32).Is 0 := by decide +kernel
  have Z0 := tapsAbs_nonneg zeros
  have P0 := tapsAbs_nonneg poles
  have κ1 : (1 : ℝ) ≤ 1 + (2 ^ 22)⁻¹ := by norm_num
  have κz := one_le_pow₀ (n := zeros.length) κ1
  have κp := one_le_pow₀ (n := poles.length) κ1
  have slack : 0 ≤ (B - tapsAbs zeros - tapsAbs poles * B) * M := mul_nonneg (by linarith) hM
  have big := le_trans (le_trans (le_add_of_nonneg_right slack) ht) (hCW2.trans (show (2 : ℝ) ^ 80 ≤ 2 ^ 85 by norm_num))
  have zl : (0 : ℝ) ≤ zeros.length * (2 ^ 148)⁻¹ := by positivity
  have pl : (0 : ℝ) ≤ poles.length * (2 ^ 148)⁻¹ := by positivity
  have n1 : 0 ≤ (0 + tapsAbs zeros * W + zeros.length * (2 ^ 148)⁻¹) * (1 + (2 ^ 22)⁻¹) ^ zeros.length :=
    mul_nonneg (add_nonneg (add_nonneg le_rfl (mul_nonneg Z0 (hM.trans hWM))) zl) (zero_le_one.trans κz)
  have n2 : 0 ≤ tapsAbs poles * (C * W) := mul_nonneg P0 (hBM.trans hCW)
  have s1 := taps_near zeros (hM.trans hWM) fz hx (a := lit 0) (a' := lit 0) (G := 0) (H := 0) ⟨by rw [eR]; simp, 0, eF, by rw [eR]; simp⟩ (by
    refine le_trans ?_ big
    refine le_trans ?_ (le_mul_of_one_le_right (add_nonneg (add_nonneg n1 n2) pl) κp)
    exact le_trans (le_add_of_nonneg_right n2) (le_add_of_nonneg_right pl))
  obtain ⟨t1, q, t2, t3⟩ := taps_near poles (hBM.trans hCW) fp hy s1 big
  have e : B * M = 0 + tapsAbs zeros * M + tapsAbs poles * (B * M) + (B - tapsAbs zeros - tapsAbs poles * B) * M := by ring
  refine ⟨t1.trans (by linarith only [e, slack]), q, t2, t3.trans ?_⟩
  generalize ((0 + tapsAbs zeros * W + zeros.length * (2 ^ 148)⁻¹) * (1 + (2 ^ 22)⁻¹) ^ zeros.length + tapsAbs poles * (C * W) + poles.length * (2 ^ 148)⁻¹) *
      (1 + (2 ^ 22)⁻¹) ^ poles.length = T at ht ⊢
  linarith only [ht, e]

/-- IEEE: Generic with the largest tap last in both lists, finite coefficients, at most `2^19` taps `k`, and feedback coefficients of
magnitudes summing to `P` with `K P < 1`, where `K = 1 + k 2^-20`. `B` bounds the exact filter: at least 1 and at least
`(sum of the magnitudes of the input coefficients) / (1 - P)`. -/
theorem C129_generic {zeros poles : List (ℕ × F32)} (hz : LastLargest zeros) (hp : LastLargest poles)
    (fz : ∀ t ∈ zeros, ∃ c : ℚ, t.2.Is c) (fp : ∀ t ∈ poles, ∃ c : ℚ, t.2.Is c) {k : ℕ} (hk : k = zeros.length + poles.length) (hk19 : k ≤ 2 ^ 19)
    {K : ℝ} (hK : K = 1 + k * (2 ^ 20)⁻¹) (hKP : K * tapsAbs poles < 1) {B : ℝ} (hB1 : 1 ≤ B) (hB : tapsAbs zeros ≤ B * (1 - tapsAbs poles)) :
    Tracks Generic.process (Generic.new zeros poles) Generic.process (Generic.new (tapsR zeros) (tapsR poles)) B
      (K * B * (1 - tapsAbs poles) / (1 - K * tapsAbs poles)) := by
  have P0 := tapsAbs_nonneg poles
  have K1 : 1 ≤ K := by
    rw [hK]
    have : (0 : ℝ) ≤ k * (2 ^ 20)⁻¹ := by positivity
    linarith
  have P1 : tapsAbs poles < 1 := lt_of_le_of_lt (le_mul_of_one_le_left P0 K1) hKP
  obtain ⟨C, hC⟩ : ∃ C, C = K * B * (1 - tapsAbs poles) / (1 - K * tapsAbs poles) := ⟨_, rfl⟩
  rw [← hC]
  have hCd : C * (1 - K * tapsAbs poles) = K * B * (1 - tapsAbs poles) := by rw [hC]; rw [div_mul_cancel₀]; linarith
  have hBC : B ≤ C := by
    rw [hC, le_div_iff₀ (by linarith)]
    nlinarith
  refine ⟨hB1, hBC, fun x v M d a1 a2 a3 a4 a5 => ?_⟩
  obtain ⟨y, hy⟩ := C56_generic zeros poles hz hp x
  obtain ⟨z, hz'⟩ := C56_generic (tapsR zeros) (tapsR poles) (lastLargest_tapsR hz) (lastLargest_tapsR hp) v
  have hM : 0 < M := lt_of_lt_of_le (by positivity) a1
  have hWM : M ≤ M + d := by linarith
  have BM : 0 ≤ B * M := mul_nonneg (by linarith) hM.le
  have BMCW : B * M ≤ C * (M + d) := mul_le_mul hBC hWM hM.le (by linarith)
  have ht := gen_sum hk hk19 hK P0 hB (hB1.trans hBC) (by linear_combination hCd) a1 hWM
  have eR : (lit 0 : ℝ) = 0 := by real_simp
  have eF : (lit 0 : F32).Is 0 := by decide +kernel
  have key : ∀ n, |z n| ≤ B * M ∧ ∃ q : ℚ, (y n).Is q ∧ |(q : ℝ) - z n| ≤ C * (M + d) - B * M := by
    intro n
    induction n using Nat.strong_induction_on with
    | _ n ih =>
      rw [(hy n).2, (hz' n).2]
      refine gen_step fz fp hM.le hWM BM BMCW hB a3 ht (fun k => ?_) (fun k => ?_)
      · by_cases h : n < k
        · simp only [if_pos h, eR]
          exact ⟨by rw [abs_zero]; exact hM.le, 0, eF, by simp; linarith⟩
        · simp only [if_neg h]
          obtain ⟨q, q1, q2⟩ := a4 (n - k)
          exact ⟨a5 _, q, q1, by linarith⟩
      · by_cases h : n < k + 1
        · simp only [if_pos h, eR]
          exact ⟨by rw [abs_zero]; exact BM, 0, eF, by simp; linarith⟩
        · simp only [if_neg h]
          exact ih _ (by omega)
  exact ⟨y, z, fun n => (hy n).1, fun n => (hz' n).1, fun n => (key n).1, fun n => (key n).2⟩

/-! ## chains -/

/-- A modifier in a block tracks as it does alone. -/
theorem C129_block {X Y : Type} [Modifier X ℝ] [Modifier Y F32] {k : Y} {m : X} {B C : ℝ} (h : Tracks Modifier.process k Modifier.process m B C) :
    Tracks blockStep (StandardBlock.fromModifier k : StandardBlock Zero Y StdInter F32) blockStep (StandardBlock.fromModifier m : StandardBlock Zero X StdInter ℝ) B C := by
  obtain ⟨h1, h2, h⟩ := h
  refine ⟨h1, h2, fun x v M d a1 a2 a3 a4 a5 => ?_⟩
  have e : (fun n => (dflt : ℝ) + v n) = v := funext fun n => by unfold dflt; real_simp; ring
  have hM : 0 < M := lt_of_lt_of_le (by positivity) a1
  have near : Follows (fun n => (dflt : F32) + x n) v d := fun n => by
    obtain ⟨q, b1, b2⟩ := a4 n
    have hd : (dflt : F32).Is 0 := by decide +kernel
    have hq : |(q : ℝ)| ≤ 2 ^ 90 := by
      have := near_le b2 (a5 n)
      have : M + d ≤ C * (M + d) := le_mul_of_one_le_left (by linarith) (by linarith)
      norm_num at a3 ⊢
      linarith
    have b3 := Is.add hd b1 (by rw [zero_add]; exact fits_real hq)
    rw [zero_add, b1.rnd] at b3
    exact ⟨q, b3, b2⟩
  obtain ⟨y, z, c1, c2, c3, c4⟩ := h _ v M d a1 a2 a3 near a5
  refine ⟨y, z, fun n => (modOut_block k x n).trans (c1 n), fun n => ?_, c3, c4⟩
  rw [modOut_block m v n, e]
  exact c2 n

/-- Blocks of two types in one chain track as they do alone. -/
theorem C129_sum {A C A' C' : Type} [Block A F32] [Block C F32] [Block A' ℝ] [Block C' ℝ] :
    (∀ (a : A) (a' : A') (B K : ℝ), Tracks blockStep a blockStep a' B K → Tracks blockStep (.inl a : A ⊕ C) blockStep (.inl a' : A' ⊕ C') B K) ∧
    (∀ (c : C) (c' : C') (B K : ℝ), Tracks blockStep c blockStep c' B K → Tracks blockStep (.inr c : A ⊕ C) blockStep (.inr c' : A' ⊕ C') B K) :=
  ⟨fun a a' _ _ h => h.congr (modOut_inl a) (modOut_inl a'), fun c c' _ _ h => h.congr (modOut_inr c) (modOut_inr c')⟩

/-- Specification: two lists of blocks track one another, with the products of the gain bounds. -/
inductive TracksAll {K K' : Type} [Block K F32] [Block K' ℝ] : List K → List K' → ℝ → ℝ → Prop
  | nil : TracksAll [] [] 1 1
  | cons {k : K} {k' : K'} {ks : List K} {ks' : List K'} {B C B' C' : ℝ} (h : Tracks blockStep k blockStep k' B C) (hs : TracksAll ks ks' B' C') :
      TracksAll (k :: ks) (k' :: ks') (B * B') (C * C')

section
variable {K K' : Type} [Block K F32] [Block K' ℝ]

/-- Blocks in series: the gain bounds multiply. -/
theorem C129_series {ks : List K} {ks' : List K'} {B C : ℝ} (h : TracksAll ks ks' B C) : Tracks series ks series ks' B C := by
  induction h with
  | nil =>
    refine ⟨le_rfl, le_rfl, fun x v M d a1 a2 a3 a4 a5 => ⟨x, v, modOut_series_nil x, modOut_series_nil v, fun n => by rw [one_mul]; exact a5 n, ?_⟩⟩
    rw [one_mul, one_mul, add_sub_cancel_left]
    exact a4
  | cons h _ ih => exact (h.andThen ih).congr (fun x n => modOut_series_cons _ _ x n) (fun x n => modOut_series_cons _ _ x n)

/-- A sound in `f32` next to the same sound in exact arithmetic, its gains being numbers of magnitude at most 1: the sample it
returns is never further from the exact one than the product of the gain bounds allows. -/
theorem C129_sound (h : Heap K) (h' : Heap K') (s : SimpleSound F32) (s' : SimpleSound ℝ) {ks : List K} {ks' : List K'} {B C : ℝ}
    (ho : Owns h (s.generator :: s.modifierList) ks) (ho' : Owns h' (s'.generator :: s'.modifierList) ks')
    (hp : s.paused = false) (hm : s.muted = false) (hp' : s'.paused = false) (hm' : s'.muted = false)
    {a b : ℚ} (ha : s.inputGain.Is a) (hb : s.outputGain.Is b) (ha' : s'.inputGain = a) (hb' : s'.outputGain = b) (ha1 : |a| ≤ 1) (hb1 : |b| ≤ 1)
    (hk : TracksAll ks ks' B C) :
    Tracks (fun h x => SimpleSound.process h s x) h (fun h x => SimpleSound.process h s' x) h' B (C * (1 + (2 ^ 21)⁻¹)) := by
  have ga := C129_gain ha le_rfl (by exact_mod_cast ha1 : |(a : ℝ)| ≤ 1)
  have gb := C129_gain hb le_rfl (by exact_mod_cast hb1 : |(b : ℝ)| ≤ 1)
  rw [← ha'] at ga
  rw [← hb'] at gb
  have h1 := ((ga.andThen (C129_series hk)).andThen gb).congr (fun x n => modOut_sound h s ho hp hm x n) (fun x n => modOut_sound h' s' ho' hp' hm' x n)
  have hC : 1 ≤ C := (C129_series hk).1.trans (C129_series hk).2.1
  have h2 := h1.mono (C' := C * (1 + (2 ^ 21)⁻¹)) (by
    have : (1 + (2 ^ 23 : ℝ)⁻¹) * (1 + (2 ^ 23)⁻¹) ≤ 1 + (2 ^ 21)⁻¹ := by norm_num
    nlinarith)
  simpa only [one_mul, mul_one] using h2
end

/-! ## tones -/

/-- What something that tracks does to a tone that is only nearly a sinusoid: the output ends up within the error bound (plus any `ε`)
of the sinusoid at the level and phase of the exact response. -/
theorem C129_level {X Y E : Type} {P : Y → F32 → Except E (F32 × Y)} {k : Y} {p : X → ℝ → Except E (ℝ × X)} {m : X} {B C ν g : ℝ}
    (h : Tracks P k p m B C) (hg : SteadyGain p m ν g) : ∃ ψ : ℝ, ∀ (x : ℕ → F32) (A φ d ε : ℝ), (2 ^ 80)⁻¹ ≤ A → 0 ≤ d → C * (A + d) ≤ 2 ^ 80 → 0 < ε →
      Follows x (fun n => A * Real.cos (2 * Real.pi * ν / 48000 * n + φ)) d →
      ∃ N, ∀ n ≥ N, ∃ (y : F32) (q : ℚ), modOut P x k n = .ok y ∧ y.Is q ∧
        |(q : ℝ) - g * A * Real.cos (2 * Real.pi * ν / 48000 * n + φ + ψ)| ≤ C * (A + d) - B * A + ε := by
  obtain ⟨-, -, h⟩ := h
  obtain ⟨-, ψ, hg⟩ := hg
  refine ⟨ψ, fun x A φ d ε a1 a2 a3 hε a4 => ?_⟩
  have hA : 0 < A := lt_of_lt_of_le (by positivity) a1
  obtain ⟨y, z, b1, b2, -, b4⟩ := h x _ A d a1 a2 a3 a4 (fun n => by
    rw [abs_mul, abs_of_pos hA]
    exact mul_le_of_le_one_right hA.le (Real.abs_cos_le_one _))
  obtain ⟨w, c1, c2⟩ := hg A φ
  obtain ⟨N, hN⟩ := (Metric.tendsto_atTop.mp c2) ε hε
  refine ⟨N, fun n hn => ?_⟩
  obtain ⟨q, d1, d2⟩ := b4 n
  refine ⟨y n, q, b1 n, d1, ?_⟩
  have h5 := hN n hn
  rw [Real.dist_eq, sub_zero] at h5
  have e : w n = z n := Except.ok.inj ((c1 n).symm.trans (b2 n))
  rw [e] at h5
  rw [abs_le] at d2 ⊢
  rw [abs_lt] at h5
  constructor <;> linarith [d2.1, d2.2, h5.1, h5.2]

/-- IEEE: a sine generator that does not drift (C101) into something that tracks, such as a sound full of effects. -/
theorem C129_sine [Libm F64] (hl : SinAccurate) {fs : F64} {s : ℚ} (hs : fs.Is s) (h1 : s ≤ 48000) {j : ℕ} (hj : s / 10 = j / 2 ^ 39)
    {X Y E : Type} {P : Y → F32 → Except E (F32 × Y)} {k : Y} {p : X → ℝ → Except E (ℝ × X)} {m : X} {B C g : ℝ}
    (h : Tracks P k p m B C) (hg : SteadyGain p m s g) (hC : C ≤ 2 ^ 79) : ∃ (x : ℕ → F32) (ψ : ℝ) (N : ℕ), (∀ n, nthR Sine.process (Sine.new fs) n = .ok (x n)) ∧
      ∀ n ≥ N, ∃ (y : F32) (q : ℚ), modOut P x k n = .ok y ∧ y.Is q ∧
        |(q : ℝ) - g * Real.sin (2 * Real.pi * s * n / 48000 + ψ)| ≤ C * (1 + 132 / 100000) - B := by
  obtain ⟨x, u, h2, h3, h4, h5⟩ := sine_samples hl hs h1 hj
  obtain ⟨ψ, hψ⟩ := C129_level h hg
  have hC1 := h.1.trans h.2.1
  obtain ⟨N, hN⟩ := hψ x 1 (-(Real.pi / 2)) (131 / 100000) (1 / 100000) (by norm_num) (by norm_num) (by norm_num at hC ⊢; linarith) (by norm_num)
    (fun n => ⟨u n, h3 n, h5 n⟩)
  refine ⟨x, ψ, N, h2, fun n hn => ?_⟩
  obtain ⟨y, q, e1, e2, e3⟩ := hN n hn
  refine ⟨y, q, e1, e2, ?_⟩
  rw [mul_one, show 2 * Real.pi * (s : ℝ) / 48000 * n + -(Real.pi / 2) + ψ = (2 * Real.pi * s * n / 48000 + ψ) - Real.pi / 2 by ring,
    Real.cos_sub_pi_div_two] at e3
  refine e3.trans ?_
  linarith

/-- A sound with a 1 kHz low pass and a quarter-gain echo, fed by a 440 Hz sine: the hypotheses are met, and the output ends up
within 0.08 of the sinusoid that the frequency response of the exact sound predicts. -/
example [Libm F64] (ha : LibmAccurate) (hl : SinAccurate) :
    ∃ (h : Heap (StandardBlock Zero (LowPass F32 F64) StdInter F32 ⊕ StandardBlock Zero (Echo F32) StdInter F32)) (x : ℕ → F32) (ψ : ℝ) (N : ℕ),
    (∀ n, nthR Sine.process (Sine.new (lit 440 : F64)) n = .ok (x n)) ∧
    ∀ n ≥ N, ∃ (y : F32) (q : ℚ),
      modOut (fun h x => SimpleSound.process h ((SimpleSound.new (lit 1 : F64) (lit (1 / 2) : F64) 0 : SimpleSound F32).addModifier 1) x) x h n = .ok y ∧ y.Is q ∧
        |(q : ℝ) - 1 / 2 * (lowGain 1000 0 440 * combGain 3 (1 / 4) 440) * Real.sin (2 * Real.pi * 440 * n / 48000 + ψ)| ≤ 8 / 100 := by
  set lp : StandardBlock Zero (LowPass F32 F64) StdInter F32 ⊕ StandardBlock Zero (Echo F32) StdInter F32 :=
    .inl (StandardBlock.fromModifier (LowPass.new (lit 1000) (lit 0))) with hlp
  set ec : StandardBlock Zero (LowPass F32 F64) StdInter F32 ⊕ StandardBlock Zero (Echo F32) StdInter F32 :=
    .inr (StandardBlock.fromModifier ⟨List.replicate 3 (lit 0), lit (1 / 4)⟩) with hec
  set lp' : StandardBlock Zero (LowPass ℝ ℝ) StdInter ℝ ⊕ StandardBlock Zero (Echo ℝ) StdInter ℝ := .inl (StandardBlock.fromModifier (LowPass.new ((1000 : ℚ) : ℝ) ((0 : ℚ) : ℝ))) with hlp'
  set ec' : StandardBlock Zero (LowPass ℝ ℝ) StdInter ℝ ⊕ StandardBlock Zero (Echo ℝ) StdInter ℝ := .inr (StandardBlock.fromModifier ⟨[0, 0, 0], 1 / 4⟩) with hec'
  refine ⟨[⟨lp, 1⟩, ⟨ec, 1⟩], ?_⟩
  -- the exact sound
  have h1 := C127_block (LowPass.new ((1000 : ℚ) : ℝ) ((0 : ℚ) : ℝ) : LowPass ℝ ℝ) (C123_lowpass _ _ (by norm_num) ((440 : ℚ) : ℝ))
    (C126_filters_settle _ _ (by norm_num) (l := 1) (h := 2) (by norm_num) (by norm_num) (by norm_num)).1
  obtain ⟨e1, e2, -⟩ := C126_echo (⟨[0, 0, 0], 1 / 4⟩ : Echo ℝ) 3 (by norm_num) rfl (by norm_num [abs_of_pos])
  have h2 := C127_block (⟨[0, 0, 0], 1 / 4⟩ : Echo ℝ) (e1 ((440 : ℚ) : ℝ)) e2
  obtain ⟨c1, c2⟩ := C127_sum _ _ h1 h2
  have h3 := (C127_sound (bs := [lp', ec']) [⟨lp', 1⟩, ⟨ec', 1⟩] ((SimpleSound.new (1 : ℝ) (1 / 2 : ℝ) 0 : SimpleSound ℝ).addModifier 1)
    ⟨by simp [SimpleSound.new, SimpleSound.addModifier], by simp [SimpleSound.new, SimpleSound.addModifier]⟩ rfl rfl (.cons c1 (.cons c2 .nil))).1
  -- the rounding
  have t1 := C129_block (C129_lowpass ha (fc := lit 1000) (r := lit 0) (f := 1000) (ρ := 0) (by decide +kernel) (by decide +kernel) (.inr ⟨le_rfl, by norm_num⟩))
  have t2 := C129_block (C129_echo ⟨List.replicate 3 (lit 0), lit (1 / 4)⟩ ⟨[0, 0, 0], 1 / 4⟩ 3 (by norm_num) rfl rfl (γ := 1 / 4) (by decide +kernel) (by norm_num)
    (by norm_num [abs_of_pos]))
  have t3 := C129_sound (ks := [lp, ec]) (ks' := [lp', ec']) [⟨lp, 1⟩, ⟨ec, 1⟩] [⟨lp', 1⟩, ⟨ec', 1⟩]
    ((SimpleSound.new (lit 1 : F64) (lit (1 / 2) : F64) 0 : SimpleSound F32).addModifier 1) ((SimpleSound.new (1 : ℝ) (1 / 2 : ℝ) 0 : SimpleSound ℝ).addModifier 1)
    ⟨by simp [SimpleSound.new, SimpleSound.addModifier], by simp [SimpleSound.new, SimpleSound.addModifier]⟩
    ⟨by simp [SimpleSound.new, SimpleSound.addModifier], by simp [SimpleSound.new, SimpleSound.addModifier]⟩ rfl rfl rfl rfl
    (a := 1) (b := 1 / 2) (by decide +kernel) (by decide +kernel) (by simp [SimpleSound.new, SimpleSound.addModifier, SM.down])
    (by simp [SimpleSound.new, SimpleSound.addModifier, SM.down]) (by norm_num) (by norm_num [abs_of_pos])
    (.cons (C129_sum.1 _ _ _ _ t1) (.cons (C129_sum.2 _ _ _ _ t2) .nil))
  have g : |((1 / 4 : ℚ) : ℝ)| = 1 / 4 := by norm_num [abs_of_pos]
  rw [g] at t3
  obtain ⟨x, ψ, N, h4, h5⟩ := C129_sine hl (fs := lit 440) (s := 440) (by decide +kernel) (by norm_num) (j := 44 * 2 ^ 39) (by norm_num) t3 h3 (by norm_num)
  refine ⟨x, ψ, N, h4, fun n hn => ?_⟩
  obtain ⟨y, q, e1, e2, e3⟩ := h5 n hn
  refine ⟨y, q, e1, e2, ?_⟩
  have e : (|((SimpleSound.new (1 : ℝ) (1 / 2 : ℝ) 0 : SimpleSound ℝ).addModifier 1).inputGain| *
      [lowGain ((1000 : ℚ) : ℝ) ((0 : ℚ) : ℝ) ((440 : ℚ) : ℝ), combGain 3 (1 / 4) ((440 : ℚ) : ℝ)].prod *
      |((SimpleSound.new (1 : ℝ) (1 / 2 : ℝ) 0 : SimpleSound ℝ).addModifier 1).outputGain|) = 1 / 2 * (lowGain 1000 0 440 * combGain 3 (1 / 4) 440) := by
    simp [SimpleSound.new, SimpleSound.addModifier, SM.down]
    ring
  rw [e] at e3
  push_cast at e3
  refine e3.trans ?_
  norm_num

/-- A filter with feedback meets the conditions of `C129_generic`. -/
example : LastLargest [((0 : ℕ), (lit 1 : F32)), (2, lit (1 / 2))] ∧ LastLargest [((0 : ℕ), (lit (1 / 2) : F32))] ∧
    (∀ t ∈ [((0 : ℕ), (lit 1 : F32)), (2, lit (1 / 2))], ∃ c : ℚ, t.2.Is c) ∧ (∀ t ∈ [((0 : ℕ), (lit (1 / 2) : F32))], ∃ c : ℚ, t.2.Is c) ∧
    (1 + (3 : ℕ) * (2 ^ 20 : ℝ)⁻¹) * tapsAbs [(0, lit (1 / 2))] < 1 ∧ tapsAbs [((0 : ℕ), (lit 1 : F32)), (2, lit (1 / 2))] ≤ 3 * (1 - tapsAbs [(0, lit (1 / 2))]) := by
  have a1 : (lit 1 : F32).Is 1 := by decide +kernel
  have a2 : (lit (1 / 2) : F32).Is (1 / 2) := by decide +kernel
  have g : |(1 / 2 : ℝ)| = 1 / 2 := by norm_num [abs_of_pos]
  refine ⟨by simp [LastLargest], by simp [LastLargest], ?_, ?_, ?_, ?_⟩
  · intro t ht
    rcases List.mem_cons.mp ht with rfl | ht
    · exact ⟨_, a1⟩
    · rw [List.mem_singleton.mp ht]; exact ⟨_, a2⟩
  · intro t ht
    rw [List.mem_singleton.mp ht]
    exact ⟨_, a2⟩
  · simp only [tapsAbs, List.map_cons, List.map_nil, List.sum_cons, List.sum_nil, rv_is a2]
    push_cast
    rw [g]
    norm_num
  · simp only [tapsAbs, List.map_cons, List.map_nil, List.sum_cons, List.sum_nil, rv_is a1, rv_is a2]
    push_cast
    rw [g]
    norm_num

end Verif
