import Verif.Props.ResamplerF32
import Mathlib.Analysis.Convex.Deriv
import Mathlib.Analysis.SpecialFunctions.Trigonometric.Deriv
import Mathlib.Analysis.Calculus.MeanValue
import Mathlib.Analysis.Real.Pi.Bounds

/-! # A recorded tone plays as a tone of the right pitch: C145 -/

namespace Verif
open MonoResampler

/-- `s` has slope at most `L` and curvature at most `M`. -/
structure Smooth (s : ℝ → ℝ) (L M : ℝ) : Prop where
  d1 : Differentiable ℝ s
  d2 : Differentiable ℝ (deriv s)
  slope : ∀ x, |deriv s x| ≤ L
  curv : ∀ x, |deriv (deriv s) x| ≤ M

private theorem half_interp {s : ℝ → ℝ} {M : ℝ} (h1 : Differentiable ℝ s) (h2 : Differentiable ℝ (deriv s)) (h : ∀ x, -M ≤ deriv (deriv s) x) (a : ℝ) {t : ℝ}
    (t0 : 0 ≤ t) (t1 : t ≤ 1) : s (a + t) - ((1 - t) * s a + t * s (a + 1)) ≤ M / 8 * (4 * t * (1 - t)) := by
  have e1 : deriv (fun x => s x + M / 2 * x ^ 2) = fun x => deriv s x + M * x := by
    funext x
    rw [deriv_fun_add (h1 x) (by fun_prop), deriv_const_mul _ (by fun_prop), deriv_pow_field]
    ring
  have c : ConvexOn ℝ Set.univ (fun x => s x + M / 2 * x ^ 2) := by
    refine convexOn_univ_of_deriv2_nonneg (by fun_prop) (by rw [e1]; fun_prop) fun x => ?_
    show 0 ≤ deriv (deriv (fun x => s x + M / 2 * x ^ 2)) x
    rw [e1, deriv_fun_add (h2 x) (by fun_prop), deriv_const_mul _ (by fun_prop), deriv_id'']
    linarith [h x]
  have := c.2 (Set.mem_univ a) (Set.mem_univ (a + 1)) (sub_nonneg.mpr t1) t0 (by ring)
  simp only [smul_eq_mul] at this
  rw [show (1 - t) * a + t * (a + 1) = a + t by ring] at this
  nlinarith

/-- The error of linear interpolation. -/
private theorem interp_err {s : ℝ → ℝ} {L M : ℝ} (h : Smooth s L M) (a : ℝ) {t : ℝ} (t0 : 0 ≤ t) (t1 : t ≤ 1) :
    |(1 - t) * s a + t * s (a + 1) - s (a + t)| ≤ M / 8 := by
  have M0 : 0 ≤ M := (abs_nonneg _).trans (h.curv 0)
  have u1 := half_interp h.d1 h.d2 (fun x => (abs_le.mp (h.curv x)).1) a t0 t1
  have n1 : deriv (fun x => -s x) = fun x => -deriv s x := by funext x; exact deriv.fun_neg
  have u2 := half_interp (s := fun x => -s x) (M := M) h.d1.fun_neg (by rw [n1]; exact h.d2.fun_neg) (fun x => by
    rw [n1, deriv.fun_neg]; linarith [(abs_le.mp (h.curv x)).2]) a t0 t1
  have q : 4 * t * (1 - t) ≤ 1 := by nlinarith [sq_nonneg (2 * t - 1)]
  have := mul_le_mul_of_nonneg_left q (by positivity : (0 : ℝ) ≤ M / 8)
  rw [abs_le]
  constructor <;> linarith

/-- Exact arithmetic: the samples of a smooth signal, played at any speed from any sample rate, give the signal at the right times up to an
eighth of its curvature, until the last sample of the track. -/
theorem C145_smooth {s : ℝ → ℝ} {L M : ℝ} (hs : Smooth s L M) (t : List (Mono ℝ)) (hlen : t.length < 2 ^ 63) (ht : ∀ i (h : i < t.length), (t[i]).mono = s i)
    (rate v : ℝ) (hr : 0 ≤ rate) (hv : 0 ≤ v) (n : ℕ) (hn : n * (rate * v / 48000) + 1 < t.length) :
    ∃ y, nthR process ((MonoResampler.new t rate 0 0).setPlaybackSpeed v) n = .ok y ∧ |y - s (n * (rate * v / 48000))| ≤ M / 8 := by
  obtain ⟨h1, -, -⟩ := C48_interpolates t hlen rate v hr hv n (by linarith)
  refine ⟨_, h1, ?_⟩
  have p0 : 0 ≤ n * (rate * v / 48000) := by positivity
  set p := n * (rate * v / 48000)
  have hf : ⌊p⌋₊ + 1 < t.length := by
    have := Nat.floor_le p0
    have : ((⌊p⌋₊ + 1 : ℕ) : ℝ) < t.length := by push_cast; linarith
    exact_mod_cast this
  have g : ∀ i (h : i < t.length), (t.map Mono.mono).getD i 0 = s i := fun i h => by
    rw [List.getD_eq_getElem?_getD, List.getElem?_map, List.getElem?_eq_getElem h, Option.map_some, Option.getD_some, ht]
  unfold lin
  rw [List.length_map, min_eq_left (by omega), g _ (by omega), g _ hf]
  have := interp_err hs (⌊p⌋₊ : ℝ) (Int.fract_nonneg p) (Int.fract_lt_one p).le
  have e : (⌊p⌋₊ : ℝ) + Int.fract p = p := by
    rw [natCast_floor_eq_intCast_floor p0]; exact Int.floor_add_fract p
  rw [e] at this
  push_cast
  rw [show s (⌊p⌋₊ : ℝ) + Int.fract p * (s (⌊p⌋₊ + 1 : ℝ) - s (⌊p⌋₊ : ℝ)) = (1 - Int.fract p) * s (⌊p⌋₊ : ℝ) + Int.fract p * s (⌊p⌋₊ + 1 : ℝ) by ring]
  exact this

private theorem tone_smooth {A w φ : ℝ} (hA : 0 ≤ A) (hw : 0 ≤ w) : Smooth (fun x => A * Real.cos (w * x + φ)) (A * w) (A * w ^ 2) := by
  have e1 : deriv (fun x => A * Real.cos (w * x + φ)) = fun x => -(A * w) * Real.sin (w * x + φ) := by
    funext x
    have := (((hasDerivAt_id x).const_mul w).add_const φ).cos.const_mul A
    simp only [id, mul_one] at this
    rw [this.deriv]; ring
  have e2 : deriv (fun x => -(A * w) * Real.sin (w * x + φ)) = fun x => -(A * w ^ 2) * Real.cos (w * x + φ) := by
    funext x
    have := (((hasDerivAt_id x).const_mul w).add_const φ).sin.const_mul (-(A * w))
    simp only [id, mul_one] at this
    rw [this.deriv]; ring
  refine ⟨by fun_prop, by rw [e1]; fun_prop, fun x => ?_, fun x => ?_⟩
  · rw [e1, abs_mul, abs_neg, abs_of_nonneg (by positivity)]
    exact mul_le_of_le_one_right (by positivity) (Real.abs_sin_le_one _)
  · rw [e1, e2, abs_mul, abs_neg, abs_of_nonneg (by positivity)]
    exact mul_le_of_le_one_right (by positivity) (Real.abs_cos_le_one _)

/-- Exact arithmetic: a recording of a tone of `f` Hz, played at speed `v`, is a tone of `f·v` Hz, with the phase of the recording and an error
of at most `(2πf/rate)²/8` of its amplitude. -/
theorem C145_tone {A f φ rate v : ℝ} (hA : 0 ≤ A) (hf : 0 ≤ f) (hr : 0 < rate) (hv : 0 ≤ v) (t : List (Mono ℝ)) (hlen : t.length < 2 ^ 63)
    (ht : ∀ i (h : i < t.length), (t[i]).mono = A * Real.cos (2 * Real.pi * f / rate * i + φ)) (n : ℕ) (hn : n * (rate * v / 48000) + 1 < t.length) :
    ∃ y, nthR process ((MonoResampler.new t rate 0 0).setPlaybackSpeed v) n = .ok y ∧
      |y - A * Real.cos (2 * Real.pi * (f * v) / 48000 * n + φ)| ≤ (2 * Real.pi * f / rate) ^ 2 / 8 * A := by
  obtain ⟨y, h1, h2⟩ := C145_smooth (tone_smooth (φ := φ) hA (by positivity : 0 ≤ 2 * Real.pi * f / rate)) t hlen ht rate v hr.le hv n hn
  refine ⟨y, h1, ?_⟩
  rw [show 2 * Real.pi * f / rate * (n * (rate * v / 48000)) = 2 * Real.pi * (f * v) / 48000 * n by field_simp] at h2
  linarith

/-- 440 Hz recorded at 44.1 kHz, played at twice the speed: sample 1000 is on an 880 Hz tone within 1/2000. -/
example : ∃ t : List (Mono ℝ), (∀ i (h : i < t.length), (t[i]).mono = 1 * Real.cos (2 * Real.pi * 440 / 44100 * i + 0)) ∧
    ∃ y, nthR process ((MonoResampler.new t 44100 0 0).setPlaybackSpeed (2 : ℝ)) 1000 = .ok y ∧
      |y - Real.cos (2 * Real.pi * 880 / 48000 * 1000)| ≤ 1 / 2000 := by
  refine ⟨(List.range 5000).map fun i : ℕ => ⟨1 * Real.cos (2 * Real.pi * 440 / 44100 * i + 0)⟩, fun i h => by simp, ?_⟩
  obtain ⟨y, h1, h2⟩ := C145_tone (A := 1) (f := 440) (φ := 0) (rate := 44100) (v := 2) (by norm_num) (by norm_num) (by norm_num) (by norm_num)
    ((List.range 5000).map fun i : ℕ => ⟨1 * Real.cos (2 * Real.pi * 440 / 44100 * i + 0)⟩) (by simp) (fun i h => by simp) 1000 (by norm_num)
  refine ⟨y, h1, ?_⟩
  rw [one_mul, add_zero, mul_one] at h2
  norm_num at h2 ⊢
  refine h2.trans ?_
  nlinarith [Real.pi_gt_three, Real.pi_lt_d2]

/-! ## IEEE -/

/-- IEEE: the same in `f32`, for a recording within `ε` of the signal and with peak `X`. The clock drifts by at most `δ` samples of the track
(see C107), and the claim is for times at which no power of two is next to the position (see C108). -/
theorem C145_float {s : ℝ → ℝ} {L M : ℝ} (hs : Smooth s L M) (t : List (Mono F32)) (hlen : t.length ≤ 2 ^ 24) {q : ℕ → ℚ} {ε : ℝ} {X : ℚ} (hX : X ≤ 2 ^ 90)
    (ht : ∀ i (h : i < t.length), (t[i]).mono.Is (q i) ∧ |q i| ≤ X ∧ |(q i : ℝ) - s i| ≤ ε)
    {rate v : F64} {R V : ℚ} (hR : rate.Is R) (hV : v.Is V) (hR0 : 1 ≤ R) (hR1 : R ≤ 2 ^ 30) (hV0 : (2 ^ 20)⁻¹ ≤ V) (hV1 : V ≤ 2 ^ 20) (k : ℕ) (hk : k ≤ 24) (n : ℕ)
    {p δ : ℚ} (hp : p = n * (R * V / 48000)) (hδ : δ = n * (2 ^ ((k : ℤ) - 25) + (2 ^ 22)⁻¹ * (R * V / 48000)))
    (h1 : p + δ ≤ 2 ^ k) (h2 : p + δ + 3 ≤ t.length) (hj : ∀ j : ℕ, (2 ^ j : ℚ) ≤ p - δ ∨ p + δ + 1 < 2 ^ j) :
    ∃ (y : F32) (z : ℚ), nthR process ((MonoResampler.new t rate 0 0).setPlaybackSpeed v) n = .ok y ∧ y.Is z ∧
      |(z : ℝ) - s p| ≤ M / 8 + L * δ + ε + ((2 ^ 21)⁻¹ * X + (2 ^ 140)⁻¹) := by
  have e : n * (R * V / 48000 * (1 + (2 ^ 22)⁻¹) + 2 ^ ((k : ℤ) - 25)) = p + δ := by rw [hp, hδ]; ring
  obtain ⟨r, x, a1, a2, a3, a4, a5, a6⟩ := resam_drift t hlen hR hV hR0 hR1 hV0 hV1 k hk n (by rw [e]; exact h1) (by rw [e]; exact h2)
  rw [← hp, ← hδ] at a6
  obtain ⟨b1, b2⟩ := abs_le.mp a6
  subst a2
  have x3 : x + 3 ≤ r.data.length := by linarith
  have fl := Nat.floor_le a5
  have lf := Nat.lt_floor_add_one x
  obtain ⟨y, z, r', c1, c2, c3⟩ := C108_output_partial r a3 hlen a4 a5 x3 (fun j hx => by
    have : ((⌊x⌋₊ : ℚ) + 1) = 2 ^ j := by exact_mod_cast hx
    rcases hj j with h | h <;> linarith) q hX fun i h => ⟨(ht i h).1, (ht i h).2.1⟩
  refine ⟨y, z, by unfold nthR; rw [a1]; simp only [c1, Except.map], c2, ?_⟩
  have hf : ⌊x⌋₊ + 1 < r.data.length := by
    have : ((⌊x⌋₊ + 1 : ℕ) : ℚ) < r.data.length := by push_cast; linarith
    exact_mod_cast this
  have d1 := (ht _ (by omega : ⌊x⌋₊ < r.data.length)).2.2
  have d2 := (ht _ hf).2.2
  have c3' := (Rat.cast_le (K := ℝ)).mpr c3
  push_cast at c3' d2
  set F : ℝ := Int.fract (x : ℝ)
  have F0 : 0 ≤ F := Int.fract_nonneg _
  have F1 : F ≤ 1 := (Int.fract_lt_one _).le
  have i1 := interp_err hs (⌊x⌋₊ : ℝ) F0 F1
  have ex : (⌊x⌋₊ : ℝ) + F = x := by
    have : ((⌊x⌋₊ : ℚ)) + Int.fract x = x := by rw [natCast_floor_eq_intCast_floor a5]; exact Int.floor_add_fract x
    have := congrArg (Rat.cast : ℚ → ℝ) this
    push_cast at this
    exact this
  rw [ex] at i1
  have lip : |s x - s p| ≤ L * δ := by
    have := Convex.norm_image_sub_le_of_norm_deriv_le (f := s) (s := Set.univ) (C := L) (fun x _ => (hs.d1 x)) (fun x _ => hs.slope x) convex_univ
      (Set.mem_univ (p : ℝ)) (Set.mem_univ (x : ℝ))
    rw [Real.norm_eq_abs, Real.norm_eq_abs] at this
    have a6' := (Rat.cast_le (K := ℝ)).mpr a6
    push_cast at a6'
    exact this.trans (mul_le_mul_of_nonneg_left a6' ((abs_nonneg _).trans (hs.slope 0)))
  have quant : |((1 - F) * q ⌊x⌋₊ + F * q (⌊x⌋₊ + 1)) - ((1 - F) * s ⌊x⌋₊ + F * s (⌊x⌋₊ + 1))| ≤ ε := by
    rw [abs_le] at d1 d2 ⊢
    constructor <;> nlinarith
  rw [abs_le] at c3' i1 lip quant ⊢
  constructor <;> linarith

/-- IEEE: a recording of a tone of `f` Hz, played at speed `V`, is a tone of `f·V` Hz, up to the interpolation error, the drift, the error of the
recording and rounding. -/
theorem C145_float_tone {A f φ : ℝ} (hA : 0 ≤ A) (hf : 0 ≤ f) (t : List (Mono F32)) (hlen : t.length ≤ 2 ^ 24) {q : ℕ → ℚ} {ε : ℝ} {X : ℚ} (hX : X ≤ 2 ^ 90)
    {rate v : F64} {R V : ℚ} (ht : ∀ i (h : i < t.length), (t[i]).mono.Is (q i) ∧ |q i| ≤ X ∧ |(q i : ℝ) - A * Real.cos (2 * Real.pi * f / R * i + φ)| ≤ ε)
    (hR : rate.Is R) (hV : v.Is V) (hR0 : 1 ≤ R) (hR1 : R ≤ 2 ^ 30) (hV0 : (2 ^ 20)⁻¹ ≤ V) (hV1 : V ≤ 2 ^ 20) (k : ℕ) (hk : k ≤ 24) (n : ℕ)
    {p δ : ℚ} (hp : p = n * (R * V / 48000)) (hδ : δ = n * (2 ^ ((k : ℤ) - 25) + (2 ^ 22)⁻¹ * (R * V / 48000)))
    (h1 : p + δ ≤ 2 ^ k) (h2 : p + δ + 3 ≤ t.length) (hj : ∀ j : ℕ, (2 ^ j : ℚ) ≤ p - δ ∨ p + δ + 1 < 2 ^ j) :
    ∃ (y : F32) (z : ℚ), nthR process ((MonoResampler.new t rate 0 0).setPlaybackSpeed v) n = .ok y ∧ y.Is z ∧
      |(z : ℝ) - A * Real.cos (2 * Real.pi * (f * V) / 48000 * n + φ)| ≤
        (2 * Real.pi * f / R) ^ 2 / 8 * A + 2 * Real.pi * f / R * δ * A + ε + ((2 ^ 21)⁻¹ * X + (2 ^ 140)⁻¹) := by
  have Rp : (0 : ℝ) < R := by exact_mod_cast lt_of_lt_of_le (by norm_num) hR0
  obtain ⟨y, z, a1, a2, a3⟩ := C145_float (tone_smooth (φ := φ) hA (by positivity : 0 ≤ 2 * Real.pi * f / R)) t hlen hX ht hR hV hR0 hR1 hV0 hV1 k hk n hp hδ h1 h2 hj
  refine ⟨y, z, a1, a2, ?_⟩
  rw [hp] at a3
  push_cast at a3
  rw [show 2 * Real.pi * f / (R : ℝ) * (n * (R * V / 48000)) = 2 * Real.pi * (f * V) / 48000 * n by field_simp] at a3
  linarith

/-- The same in `f32`, with the recording rounded to 21 bits: within 1/200 of the 880 Hz tone. -/
example : ∃ (t : List (Mono F32)) (q : ℕ → ℚ), (∀ i (h : i < t.length), (t[i]).mono.Is (q i) ∧ |(q i : ℝ) - Real.cos (2 * Real.pi * 440 / 44100 * i)| ≤ 1 / 2 ^ 20) ∧
    ∃ (y : F32) (z : ℚ), nthR process ((MonoResampler.new t (lit 44100 : F64) 0 0).setPlaybackSpeed (lit 2)) 1000 = .ok y ∧ y.Is z ∧
      |(z : ℝ) - Real.cos (2 * Real.pi * 880 / 48000 * 1000)| ≤ 1 / 200 := by
  have hrec : ∀ i : ℕ, ∃ q : ℚ, (lit q : F32).Is q ∧ |q| ≤ 1 ∧ |(q : ℝ) - 1 * Real.cos (2 * Real.pi * 440 / (44100 : ℚ) * i + 0)| ≤ 1 / 2 ^ 20 := by
    intro i
    set c := 1 * Real.cos (2 * Real.pi * 440 / (44100 : ℚ) * i + 0)
    have hc : |c| ≤ 1 := by rw [show c = Real.cos _ from one_mul _]; exact Real.abs_cos_le_one _
    rw [abs_le] at hc
    have f1 := Int.floor_le (c * 2 ^ 20)
    have f2 := Int.lt_floor_add_one (c * 2 ^ 20)
    have g1 : -2 ^ 20 ≤ ⌊c * 2 ^ 20⌋ := Int.le_floor.mpr (by push_cast; linarith)
    have g2 : ⌊c * 2 ^ 20⌋ ≤ 2 ^ 20 := by
      have : ((⌊c * 2 ^ 20⌋ : ℤ) : ℝ) ≤ ((2 ^ 20 : ℤ) : ℝ) := by push_cast; linarith
      exact_mod_cast this
    set m := ⌊c * 2 ^ 20⌋
    have hm : |m| ≤ 2 ^ 20 := abs_le.mpr ⟨g1, g2⟩
    have hq : |(m : ℚ) / 2 ^ 20| ≤ 1 := by
      rw [abs_div, div_le_one (by positivity), abs_of_pos (by positivity : (0 : ℚ) < 2 ^ 20)]
      exact_mod_cast hm
    have r : b32.Repr ((m : ℚ) / 2 ^ 20) := ⟨m, -20, by rw [show pow2 (-20) = (2 ^ 20)⁻¹ by decide +kernel]; rfl, hm.trans (by decide), by decide⟩
    refine ⟨(m : ℚ) / 2 ^ 20, Fl.lit_is_repr (fits32' 1 (by norm_num) (hq.trans (by norm_num))) r, hq, ?_⟩
    push_cast
    rw [abs_le]
    constructor <;> linarith
  choose q h1 h2 h3 using hrec
  refine ⟨(List.range 5000).map fun i => ⟨lit (q i)⟩, q, fun i h => ⟨by simpa using h1 i, by have := h3 i; push_cast at this; rwa [one_mul, add_zero] at this⟩, ?_⟩
  obtain ⟨y, z, a1, a2, a3⟩ := C145_float_tone (A := 1) (f := 440) (φ := 0) (by norm_num) (by norm_num) ((List.range 5000).map fun i => (⟨lit (q i)⟩ : Mono F32)) (by simp)
    (q := q) (ε := 1 / 2 ^ 20) (X := 1) (by norm_num) (rate := lit 44100) (v := lit 2) (R := 44100) (V := 2) (fun i h => ⟨by simpa using h1 i, h2 i, h3 i⟩)
    (by decide +kernel) (by decide +kernel) (by norm_num) (by norm_num) (by norm_num) (by norm_num) 11 (by norm_num) 1000 rfl rfl (by norm_num) (by simp; norm_num)
    (fun j => by
      rcases Nat.lt_or_ge j 11 with h | h
      · left
        have : (2 : ℚ) ^ j ≤ 2 ^ 10 := pow_le_pow_right₀ (by norm_num) (by omega)
        norm_num at this ⊢; linarith
      · right
        have : (2 : ℚ) ^ 11 ≤ 2 ^ j := pow_le_pow_right₀ (by norm_num) h
        norm_num at this ⊢; linarith)
  refine ⟨y, z, a1, a2, ?_⟩
  push_cast at a3
  rw [one_mul, add_zero, mul_one, mul_one] at a3
  norm_num at a3 ⊢
  refine a3.trans ?_
  nlinarith [Real.pi_gt_three, Real.pi_lt_d2]

end Verif
