import Verif.Proofs.Stability
import Mathlib.Analysis.SpecialFunctions.Trigonometric.Bounds

/-! # The filters in exact arithmetic -/

namespace Verif
open Filter Topology

/-- `2π fc / 48000`. -/
noncomputable def lpT (fc : ℝ) : ℝ := 2 * Real.pi * fc / 48000
/-- The damping `1 - 2 cos(π(4-r)/6)`. -/
noncomputable def lpK (r : ℝ) : ℝ := 1 - 2 * Real.cos (Real.pi * (4 - r) / 6)

theorem lpT_pos {fc : ℝ} (h : 0 < fc) : 0 < lpT fc := by unfold lpT; positivity

theorem lpK_mem {r : ℝ} (h0 : 0 ≤ r) (h1 : r ≤ 1) : 1 ≤ lpK r ∧ lpK r ≤ 2 := by
  have hp := Real.pi_pos
  have e1 : Real.cos (2 * Real.pi / 3) = -(1 / 2) := by
    rw [show 2 * Real.pi / 3 = Real.pi - Real.pi / 3 by ring, Real.cos_pi_sub, Real.cos_pi_div_three]
  have c1 : Real.cos (Real.pi * (4 - r) / 6) ≤ Real.cos (Real.pi / 2) :=
    Real.cos_le_cos_of_nonneg_of_le_pi (by positivity) (by nlinarith) (by nlinarith)
  have c2 : Real.cos (2 * Real.pi / 3) ≤ Real.cos (Real.pi * (4 - r) / 6) :=
    Real.cos_le_cos_of_nonneg_of_le_pi (by nlinarith) (by nlinarith) (by nlinarith)
  rw [Real.cos_pi_div_two] at c1
  rw [e1] at c2
  unfold lpK
  constructor <;> linarith

/-- The common denominator. -/
noncomputable def lpG (t k : ℝ) : ℝ := t ^ 3 + k * t ^ 2 + k * t + 1

theorem lpG_pos {t k : ℝ} (ht : 0 < t) (hk : 0 ≤ k) : 0 < lpG t k := by unfold lpG; positivity

theorem lowpass_new (fc r : ℝ) :
    let f := min fc 24000
    let q := max (min r 1) 0
    let t := lpT f
    let k := lpK q
    (LowPass.new fc r : LowPass ℝ ℝ) = ⟨f, q, t ^ 3 / lpG t k, (k * t ^ 2 + 2 * k * t + 3) / lpG t k, (-k * t - 3) / lpG t k,
      1 / lpG t k, 0, 0, 0⟩ := by
  intro f q t k
  have e1 : Real.pi / 6 * (4 - q) = Real.pi * (4 - q) / 6 := by ring
  have e2 : 2 * Real.pi * f * (1 / 48000) = t := by simp only [t, lpT]; ring
  unfold LowPass.new LowPass.reset
  real_simp
  rw [show (48000 : ℝ) / 2 = 24000 by norm_num]
  simp only [show min fc 24000 = f from rfl, show max (min r 1) 0 = q from rfl, e1, e2]
  simp only [show 1 - 2 * Real.cos (Real.pi * (4 - q) / 6) = k from rfl, Real.rpow_ofNat]
  simp only [lpG, show (dflt : ℝ) = 0 by unfold dflt; real_simp]

theorem highpass_new (fc r : ℝ) :
    let f := min fc 24000
    let q := max (min r 1) 0
    let t := lpT f
    let k := lpK q
    (HighPass.new fc r : HighPass ℝ ℝ) = ⟨1 / lpG t k, -3 / lpG t k, 3 / lpG t k, -1 / lpG t k,
      (k * t ^ 2 + 2 * k * t + 3) / lpG t k, (-k * t - 3) / lpG t k, 1 / lpG t k, 0, 0, 0, 0, 0, 0, f, q⟩ := by
  intro f q t k
  have e2 : 2 * Real.pi * f * (1 / 48000) = t := by simp only [t, lpT]; ring
  unfold HighPass.new HighPass.reset
  real_simp
  rw [show (48000 : ℝ) / 2 = 24000 by norm_num]
  simp only [show min fc 24000 = f from rfl, show max (min r 1) 0 = q from rfl, e2]
  simp only [show 1 - 2 * Real.cos (Real.pi * (4 - q) / 6) = k from rfl, Real.rpow_ofNat]
  simp only [lpG, show (dflt : ℝ) = 0 by unfold dflt; real_simp]

/-! ## Input/output equations -/

theorem delayed_zero' (x : ℕ → ℝ) (n : ℕ) : delayed 0 x 0 n = x n := by simp [delayed]
theorem delayed_succ (x : ℕ → ℝ) (k n : ℕ) : delayed 0 x (k + 1) (n + 1) = delayed 0 x k n := by
  unfold delayed
  by_cases h : n < k
  · rw [if_pos h, if_pos (by omega)]
  · rw [if_neg h, if_neg (by omega)]; congr 1; omega
theorem delayed_start (x : ℕ → ℝ) (k : ℕ) : delayed 0 x (k + 1) 0 = 0 := by simp [delayed]

/-- The output of a modifier that never panics, as a function of time. -/
theorem out_exists {X : Type} (p : X → ℝ → ℝ × X) (x : ℕ → ℝ) (m : X) :
    ∃ (y : ℕ → ℝ) (s : ℕ → X), s 0 = m ∧ (∀ n, modAfter (E := Panic) (fun m v => .ok (p m v)) x m n = .ok (s n)) ∧
      (∀ n, s (n + 1) = (p (s n) (x n)).2) ∧ (∀ n, y n = (p (s n) (x n)).1) ∧
      ∀ n, modOut (E := Panic) (fun m v => .ok (p m v)) x m n = .ok (y n) := by
  have h : ∀ n, ∃ s, modAfter (E := Panic) (fun m v => .ok (p m v)) x m n = .ok s := fun n => by
    obtain ⟨s, hs, -⟩ := modAfter_inv (p := fun m v => (.ok (p m v) : Except Panic (ℝ × X))) (x := x) (fun _ => True)
      (fun m v _ => ⟨(p m v).1, (p m v).2, rfl, trivial⟩) (m := m) trivial n
    exact ⟨s, hs⟩
  choose s hs using h
  refine ⟨fun n => (p (s n) (x n)).1, s, ?_, hs, ?_, fun n => rfl, fun n => ?_⟩
  · have := hs 0; simp only [modAfter] at this; exact (Except.ok.inj this).symm
  · intro n
    have h1 := modAfter_succ (p := fun m v => (.ok (p m v) : Except Panic (ℝ × X))) (y := (p (s n) (x n)).1) (m'' := (p (s n) (x n)).2) (hs n) rfl
    rw [hs (n + 1)] at h1
    exact Except.ok.inj h1
  · exact modOut_of (p := fun m v => (.ok (p m v) : Except Panic (ℝ × X))) (m'' := (p (s n) (x n)).2) (hs n) rfl

theorem lowpass_out (m : LowPass ℝ ℝ) (h0 : m.o0 = 0) (h1 : m.o1 = 0) (h2 : m.o2 = 0) (x : ℕ → ℝ) :
    ∃ y : ℕ → ℝ, ∀ n, modOut Modifier.process x m n = .ok (y n) ∧
      y n = m.c0 * x n + m.c1 * delayed 0 y 1 n + m.c2 * delayed 0 y 2 n + m.c3 * delayed 0 y 3 n := by
  obtain ⟨y, s, hs0, hs, hs1, hy, ho⟩ := out_exists LowPass.process x m
  have key : ∀ n, s n = { m with o0 := delayed 0 y 1 n, o1 := delayed 0 y 2 n, o2 := delayed 0 y 3 n } := by
    intro n
    induction n with
    | zero => rw [hs0]; simp only [delayed_start]; cases m; simp_all
    | succ n ih =>
      have e : (s (n + 1)) = { s n with o2 := (s n).o1, o1 := (s n).o0, o0 := y n } := by rw [hs1 n, hy n]; rfl
      rw [e, ih]
      simp only [delayed_succ, delayed_zero']
  refine ⟨y, fun n => ⟨ho n, ?_⟩⟩
  rw [hy n, key n]
  unfold LowPass.process
  real_simp

theorem highpass_out (m : HighPass ℝ ℝ) (h1 : m.x1 = 0) (h2 : m.x2 = 0) (h3 : m.x3 = 0) (h4 : m.y1 = 0) (h5 : m.y2 = 0)
    (h6 : m.y3 = 0) (x : ℕ → ℝ) :
    ∃ y : ℕ → ℝ, ∀ n, modOut Modifier.process x m n = .ok (y n) ∧
      y n = m.a0 * x n + m.a1 * delayed 0 x 1 n + m.a2 * delayed 0 x 2 n + m.a3 * delayed 0 x 3 n +
        m.b1 * delayed 0 y 1 n + m.b2 * delayed 0 y 2 n + m.b3 * delayed 0 y 3 n := by
  obtain ⟨y, s, hs0, hs, hs1, hy, ho⟩ := out_exists HighPass.process x m
  have key : ∀ n, s n = { m with x1 := delayed 0 x 1 n, x2 := delayed 0 x 2 n, x3 := delayed 0 x 3 n, y1 := delayed 0 y 1 n, y2 := delayed 0 y 2 n, y3 := delayed 0 y 3 n } := by
    intro n
    induction n with
    | zero => rw [hs0]; simp only [delayed_start]; cases m; simp_all
    | succ n ih =>
      have e : (s (n + 1)) = { s n with x3 := (s n).x2, x2 := (s n).x1, x1 := x n, y3 := (s n).y2, y2 := (s n).y1, y1 := y n } := by rw [hs1 n, hy n]; rfl
      rw [e, ih]
      simp only [delayed_succ, delayed_zero']
  refine ⟨y, fun n => ⟨ho n, ?_⟩⟩
  rw [hy n, key n]
  unfold HighPass.process
  real_simp

theorem bandpass_out (m : BandPass ℝ ℝ) (h1 : m.x1 = 0) (h2 : m.x2 = 0) (h3 : m.y1 = 0) (h4 : m.y2 = 0) (x : ℕ → ℝ) :
    ∃ y : ℕ → ℝ, ∀ n, modOut Modifier.process x m n = .ok (y n) ∧
      y n = m.a0 * (x n - delayed 0 x 2 n) + m.b1 * delayed 0 y 1 n - m.b2 * delayed 0 y 2 n := by
  obtain ⟨y, s, hs0, hs, hs1, hy, ho⟩ := out_exists BandPass.process x m
  have key : ∀ n, s n = { m with x1 := delayed 0 x 1 n, x2 := delayed 0 x 2 n, y1 := delayed 0 y 1 n, y2 := delayed 0 y 2 n } := by
    intro n
    induction n with
    | zero => rw [hs0]; simp only [delayed_start]; cases m; simp_all
    | succ n ih =>
      have e : (s (n + 1)) = { s n with x2 := (s n).x1, x1 := x n, y2 := (s n).y1, y1 := y n } := by rw [hs1 n, hy n]; rfl
      rw [e, ih]
      simp only [delayed_succ, delayed_zero']
  refine ⟨y, fun n => ⟨ho n, ?_⟩⟩
  rw [hy n, key n]
  unfold BandPass.process
  real_simp

/-! ## Corner frequencies -/

/-- Positive centre and quality: the corners are the two positive numbers with product `f²` and difference `f/q`. -/
theorem corners_eq {m : BandPass ℝ ℝ} {l h : ℝ} (hl : 0 < l) (hh : l < h) (hf : m.centralF = Real.sqrt (l * h))
    (hq : m.centralF / m.quality = h - l) : m.getCornerFrequencies = (l, h) := by
  have hsq : m.centralF * m.centralF = l * h := by rw [hf]; exact Real.mul_self_sqrt (by nlinarith)
  have hb : -m.centralF / m.quality = l - h := by rw [neg_div, hq]; ring
  have hs : Real.sqrt ((l - h) * (l - h) - 4 * 1 * (-m.centralF * m.centralF)) = l + h := by
    rw [show (l - h) * (l - h) - 4 * 1 * (-m.centralF * m.centralF) = (l + h) ^ 2 by
      rw [neg_mul, hsq]; ring]
    exact Real.sqrt_sq (by linarith)
  unfold BandPass.getCornerFrequencies BandPass.quadratic
  real_simp
  rw [hb, hs]
  have e : (-(l - h) + (l + h)) / (2 * 1) = h := by ring
  rw [e]
  simp only [if_pos (hl.trans hh)]
  rw [if_neg (by linarith)]
  ext <;> simp

theorem corners_exist {f q : ℝ} (hf : 0 < f) (hq : 0 < q) : ∃ l h, 0 < l ∧ l < h ∧ f = Real.sqrt (l * h) ∧ f / q = h - l ∧
    h = f / (2 * q) + Real.sqrt ((f / (2 * q)) ^ 2 + f ^ 2) := by
  have hw : 0 < f / (2 * q) := by positivity
  have hS : f / (2 * q) < Real.sqrt ((f / (2 * q)) ^ 2 + f ^ 2) := by
    rw [Real.lt_sqrt hw.le]; nlinarith
  have hS2 := Real.sq_sqrt (by positivity : 0 ≤ (f / (2 * q)) ^ 2 + f ^ 2)
  refine ⟨Real.sqrt ((f / (2 * q)) ^ 2 + f ^ 2) - f / (2 * q), f / (2 * q) + Real.sqrt ((f / (2 * q)) ^ 2 + f ^ 2),
    by linarith, by linarith, ?_, ?_, rfl⟩
  · rw [show (Real.sqrt ((f / (2 * q)) ^ 2 + f ^ 2) - f / (2 * q)) * (f / (2 * q) + Real.sqrt ((f / (2 * q)) ^ 2 + f ^ 2)) = f ^ 2 by
      nlinarith, Real.sqrt_sq hf.le]
  · field_simp; ring

/-- The pole `(1-τ)/(1+τ)`, `τ = tan(πf/48000)`. -/
noncomputable def bpPole (f : ℝ) : ℝ := (1 - Real.tan (Real.pi * f / 48000)) / (1 + Real.tan (Real.pi * f / 48000))

theorem tan_pos' {f : ℝ} (h0 : 0 < f) (h1 : f < 24000) : 0 < Real.tan (Real.pi * f / 48000) := by
  have hp := Real.pi_pos
  exact Real.tan_pos_of_pos_of_lt_pi_div_two (by positivity) (by nlinarith)

theorem bpPole_abs {f : ℝ} (h0 : 0 < f) (h1 : f < 24000) : |bpPole f| < 1 := by
  have := tan_pos' h0 h1
  unfold bpPole
  rw [abs_lt]
  constructor
  · rw [lt_div_iff₀ (by positivity)]; linarith
  · rw [div_lt_one (by positivity)]; linarith

/-- The coefficients computed by `reset`. -/
theorem bandpass_reset (m : BandPass ℝ ℝ) {l h : ℝ} (hc : m.getCornerFrequencies = (l, h)) :
    m.reset = { m with
      a0 := (1 - 1 / (1 + Real.tan (Real.pi * h / 48000))) * (1 / (1 + Real.tan (Real.pi * l / 48000)))
      b1 := bpPole h + bpPole l
      b2 := bpPole h * bpPole l } := by
  unfold BandPass.reset
  rw [hc]
  real_simp
  unfold bpPole
  simp only [mul_one_div]

end Verif
