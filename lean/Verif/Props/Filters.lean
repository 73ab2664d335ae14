import Verif.Proofs.Filters

/-! # LowPass, HighPass and BandPass in exact arithmetic: C59, C60, C61, C63, C64 -/

namespace Verif
open Filter Topology

/-- Backward difference of a signal that is 0 before time 0. -/
def bdiff (y : ℕ → ℝ) (n : ℕ) : ℝ := y n - if n = 0 then 0 else y (n - 1)

private theorem bdiff_eq (y : ℕ → ℝ) (n : ℕ) : bdiff y n = y n - delayed 0 y 1 n := by
  unfold bdiff delayed
  rcases n with - | n <;> simp

private theorem delayed_bdiff (y : ℕ → ℝ) (k n : ℕ) : delayed 0 (bdiff y) k n = delayed 0 y k n - delayed 0 y (k + 1) n := by
  induction k generalizing n with
  | zero => rw [delayed_zero', delayed_zero', bdiff_eq]
  | succ k ih =>
    cases n with
    | zero => simp [delayed_start]
    | succ n => rw [delayed_succ, delayed_succ, delayed_succ, ih]

private theorem bdiff2_eq (y : ℕ → ℝ) (n : ℕ) : bdiff (bdiff y) n = y n - 2 * delayed 0 y 1 n + delayed 0 y 2 n := by
  rw [bdiff_eq, bdiff_eq, delayed_bdiff]; ring

theorem bdiff3_eq (y : ℕ → ℝ) (n : ℕ) :
    bdiff (bdiff (bdiff y)) n = y n - 3 * delayed 0 y 1 n + 3 * delayed 0 y 2 n - delayed 0 y 3 n := by
  rw [bdiff_eq, bdiff2_eq, delayed_bdiff, delayed_bdiff, delayed_bdiff]; ring

/-- Angular cutoff in radians per sample, with the cutoff limited to 24 kHz. -/
noncomputable def omega (fc : ℝ) : ℝ := 2 * Real.pi * min fc 24000 / 48000
/-- Damping as a function of the resonance limited to `[0,1]`: 2 (Butterworth) at 0, 1 at 1. -/
noncomputable def damping (r : ℝ) : ℝ := 1 - 2 * Real.cos (Real.pi * (4 - max (min r 1) 0) / 6)

theorem omega_pos {fc : ℝ} (h : 0 < fc) : 0 < omega fc := lpT_pos (lt_min h (by norm_num))
theorem damping_mem (r : ℝ) : 1 ≤ damping r ∧ damping r ≤ 2 :=
  lpK_mem (le_max_right _ _) (max_le (min_le_right _ _) (by norm_num))

/-- `damping` at the two ends. -/
example : damping 0 = 2 ∧ damping 1 = 1 := by
  unfold damping
  constructor
  · rw [show Real.pi * (4 - max (min (0 : ℝ) 1) 0) / 6 = Real.pi - Real.pi / 3 by norm_num; ring, Real.cos_pi_sub, Real.cos_pi_div_three]
    norm_num
  · rw [show Real.pi * (4 - max (min (1 : ℝ) 1) 0) / 6 = Real.pi / 2 by norm_num; ring, Real.cos_pi_div_two]
    norm_num

section lowpass
variable (fc r : ℝ) (hfc : 0 < fc)
include hfc

/-- The coefficients sum to 1, so a settled filter maps a constant to itself and stays settled. -/
theorem C59_unit_gain (c : ℝ) :
    let m : LowPass ℝ ℝ := LowPass.new fc r
    m.c0 + m.c1 + m.c2 + m.c3 = 1 ∧
    ({ m with o0 := c, o1 := c, o2 := c } : LowPass ℝ ℝ).process c = (c, { m with o0 := c, o1 := c, o2 := c }) := by
  intro m
  have hs : m.c0 + m.c1 + m.c2 + m.c3 = 1 := by
    have e : m = _ := lowpass_new fc r
    rw [e]
    have := lpG_pos (omega_pos hfc) (by linarith [(damping_mem r).1] : 0 ≤ damping r)
    change 0 < lpG (lpT _) (lpK _) at this
    show _ / lpG (lpT _) (lpK _) + _ / lpG _ _ + _ / lpG _ _ + 1 / lpG _ _ = 1
    rw [← add_div, ← add_div, ← add_div, div_eq_one_iff_eq this.ne']
    unfold lpG
    ring
  refine ⟨hs, ?_⟩
  unfold LowPass.process
  real_simp
  have : m.c0 * c + m.c1 * c + m.c2 * c + m.c3 * c = c := by rw [← add_mul, ← add_mul, ← add_mul, hs, one_mul]
  rw [this]

/-- The output is the third order prototype `s³ + k ω s² + k ω² s + ω³ = ω³ x` under backward Euler. -/
theorem C59_prototype (x : ℕ → ℝ) : ∃ y : ℕ → ℝ, ∀ n,
    modOut Modifier.process x (LowPass.new fc r : LowPass ℝ ℝ) n = .ok (y n) ∧
    bdiff (bdiff (bdiff y)) n + damping r * omega fc * bdiff (bdiff y) n + damping r * omega fc ^ 2 * bdiff y n +
      omega fc ^ 3 * y n = omega fc ^ 3 * x n := by
  have e := lowpass_new fc r
  obtain ⟨y, hy⟩ := lowpass_out (LowPass.new fc r) (by rw [e]) (by rw [e]) (by rw [e]) x
  refine ⟨y, fun n => ⟨(hy n).1, ?_⟩⟩
  have h := (hy n).2
  have hg := lpG_pos (omega_pos hfc) (by linarith [(damping_mem r).1] : 0 ≤ damping r)
  have h' : y n = omega fc ^ 3 / lpG (omega fc) (damping r) * x n +
      (damping r * omega fc ^ 2 + 2 * damping r * omega fc + 3) / lpG (omega fc) (damping r) * delayed 0 y 1 n +
      (-damping r * omega fc - 3) / lpG (omega fc) (damping r) * delayed 0 y 2 n +
      1 / lpG (omega fc) (damping r) * delayed 0 y 3 n := by rw [e] at h; exact h
  rw [bdiff3_eq, bdiff2_eq, bdiff_eq]
  field_simp at h'
  unfold lpG at h'
  linarith

theorem lp_third (x : ℕ → ℝ) : ∃ y : ℕ → ℝ, (∀ n, modOut Modifier.process x (LowPass.new fc r : LowPass ℝ ℝ) n = .ok (y n)) ∧
    ThirdOrder (omega fc) (damping r - 1) (delayed 0 y 3) (fun n => omega fc ^ 3 * x n) := by
  obtain ⟨y, hy⟩ := C59_prototype fc r hfc x
  refine ⟨y, fun n => (hy n).1, fun n => ?_⟩
  have h := (hy n).2
  rw [bdiff3_eq, bdiff2_eq, bdiff_eq] at h
  simp only [delayed_succ, delayed_zero', sub_add_cancel]
  linarith

/-- A constant input is eventually passed through: the output converges to it. -/
theorem C59_settles (c : ℝ) : ∃ y : ℕ → ℝ,
    (∀ n, modOut Modifier.process (fun _ => c) (LowPass.new fc r : LowPass ℝ ℝ) n = .ok (y n)) ∧ Tendsto y atTop (𝓝 c) := by
  obtain ⟨y, h1, h2⟩ := lp_third fc r hfc (fun _ => c)
  refine ⟨y, h1, ?_⟩
  have h3 : ThirdOrder (omega fc) (damping r - 1) (fun n => delayed 0 y 3 n - c) (fun _ => 0) := by
    intro n
    have := h2 n
    simp only at this ⊢
    linarith
  have h4 := thirdOrder_tendsto (omega_pos hfc) (by linarith [(damping_mem r).1]) (by linarith [(damping_mem r).2]) h3 tendsto_const_nhds
  have h5 : Tendsto (fun n => y n - c) atTop (𝓝 0) := by
    have := (tendsto_add_atTop_iff_nat 3).mpr h4
    simpa only [delayed_succ, delayed_zero'] using this
  simpa using h5.add_const c

example : ∃ y : ℕ → ℝ, (∀ n, modOut Modifier.process (fun _ => 3) (LowPass.new 440 1 : LowPass ℝ ℝ) n = .ok (y n)) ∧ Tendsto y atTop (𝓝 3) :=
  C59_settles 440 1 (by norm_num) 3

/-- Bounded inputs give bounded outputs, with a constant that depends on the parameters only. -/
theorem C63_lowpass : ∃ K, ∀ (x : ℕ → ℝ) (B : ℝ), (∀ n, |x n| ≤ B) → ∀ n, ∃ y,
    modOut Modifier.process x (LowPass.new fc r : LowPass ℝ ℝ) n = .ok y ∧ |y| ≤ K * B := by
  obtain ⟨K, ⟨hK, -⟩, h⟩ := thirdOrder_bounded (omega_pos hfc) (by linarith [(damping_mem r).1] : 0 ≤ damping r - 1) (by linarith [(damping_mem r).2])
  refine ⟨K * omega fc ^ 3, fun x B hx n => ?_⟩
  obtain ⟨y, h1, h2⟩ := lp_third fc r hfc x
  refine ⟨y n, h1 n, ?_⟩
  have ho := omega_pos hfc
  have := h _ _ (omega fc ^ 3 * B) h2 (delayed_start y 2) (by rw [delayed_succ, delayed_start]) (by rw [delayed_succ, delayed_succ, delayed_start])
    (fun n => by rw [abs_mul, abs_of_pos (by positivity)]; exact mul_le_mul_of_nonneg_left (hx n) (by positivity)) (n + 3)
  rw [show delayed 0 y 3 (n + 3) = y n by rw [delayed_succ, delayed_succ, delayed_succ, delayed_zero']] at this
  linarith
end lowpass

section highpass
variable (fc r : ℝ) (hfc : 0 < fc)
include hfc

/-- The feed-forward coefficients sum to 0; a filter settled on a constant output for a constant input outputs 0. -/
theorem C60_blocks_dc (c Y : ℝ) :
    let m : HighPass ℝ ℝ := HighPass.new fc r
    let s : HighPass ℝ ℝ := { m with x1 := c, x2 := c, x3 := c, y1 := Y, y2 := Y, y3 := Y }
    m.a0 + m.a1 + m.a2 + m.a3 = 0 ∧ ((s.process c).1 = Y ↔ Y = 0) := by
  intro m s
  have e : m = _ := highpass_new fc r
  have hg := lpG_pos (omega_pos hfc) (by linarith [(damping_mem r).1] : 0 ≤ damping r)
  have ht := omega_pos hfc
  have ea : m.a0 = 1 / lpG (omega fc) (damping r) ∧ m.a1 = -3 / lpG (omega fc) (damping r) ∧
      m.a2 = 3 / lpG (omega fc) (damping r) ∧ m.a3 = -1 / lpG (omega fc) (damping r) ∧
      m.b1 = (damping r * omega fc ^ 2 + 2 * damping r * omega fc + 3) / lpG (omega fc) (damping r) ∧
      m.b2 = (-damping r * omega fc - 3) / lpG (omega fc) (damping r) ∧ m.b3 = 1 / lpG (omega fc) (damping r) := by
    rw [e]; exact ⟨rfl, rfl, rfl, rfl, rfl, rfl, rfl⟩
  obtain ⟨a0, a1, a2, a3, b1, b2, b3⟩ := ea
  refine ⟨by rw [a0, a1, a2, a3]; ring, ?_⟩
  unfold HighPass.process
  real_simp
  show m.a0 * c + m.a1 * c + m.a2 * c + m.a3 * c + m.b1 * Y + m.b2 * Y + m.b3 * Y = Y ↔ Y = 0
  have e2 : m.a0 * c + m.a1 * c + m.a2 * c + m.a3 * c + m.b1 * Y + m.b2 * Y + m.b3 * Y = Y - omega fc ^ 3 / lpG (omega fc) (damping r) * Y := by
    rw [a0, a1, a2, a3, b1, b2, b3]
    field_simp
    unfold lpG
    ring
  rw [e2]
  have h3 : omega fc ^ 3 / lpG (omega fc) (damping r) ≠ 0 := by positivity
  constructor
  · intro h
    have : omega fc ^ 3 / lpG (omega fc) (damping r) * Y = 0 := by linarith
    exact (mul_eq_zero.mp this).resolve_left h3
  · intro h; rw [h]; ring

/-- The output is the third order prototype `s³ + k ω s² + k ω² s + ω³ = s³ x` under backward Euler. -/
theorem C60_prototype (x : ℕ → ℝ) : ∃ y : ℕ → ℝ, ∀ n,
    modOut Modifier.process x (HighPass.new fc r : HighPass ℝ ℝ) n = .ok (y n) ∧
    bdiff (bdiff (bdiff y)) n + damping r * omega fc * bdiff (bdiff y) n + damping r * omega fc ^ 2 * bdiff y n +
      omega fc ^ 3 * y n = bdiff (bdiff (bdiff x)) n := by
  have e := highpass_new fc r
  obtain ⟨y, hy⟩ := highpass_out (HighPass.new fc r) (by rw [e]) (by rw [e]) (by rw [e]) (by rw [e]) (by rw [e]) (by rw [e]) x
  refine ⟨y, fun n => ⟨(hy n).1, ?_⟩⟩
  have h := (hy n).2
  have hg := lpG_pos (omega_pos hfc) (by linarith [(damping_mem r).1] : 0 ≤ damping r)
  have h' : y n = 1 / lpG (omega fc) (damping r) * x n + -3 / lpG (omega fc) (damping r) * delayed 0 x 1 n +
      3 / lpG (omega fc) (damping r) * delayed 0 x 2 n + -1 / lpG (omega fc) (damping r) * delayed 0 x 3 n +
      (damping r * omega fc ^ 2 + 2 * damping r * omega fc + 3) / lpG (omega fc) (damping r) * delayed 0 y 1 n +
      (-damping r * omega fc - 3) / lpG (omega fc) (damping r) * delayed 0 y 2 n +
      1 / lpG (omega fc) (damping r) * delayed 0 y 3 n := by rw [e] at h; exact h
  rw [bdiff3_eq, bdiff2_eq, bdiff_eq, bdiff3_eq]
  field_simp at h'
  unfold lpG at h'
  linarith

theorem hp_third (x : ℕ → ℝ) : ∃ y : ℕ → ℝ, (∀ n, modOut Modifier.process x (HighPass.new fc r : HighPass ℝ ℝ) n = .ok (y n)) ∧
    ThirdOrder (omega fc) (damping r - 1) (delayed 0 y 3) (bdiff (bdiff (bdiff x))) := by
  obtain ⟨y, hy⟩ := C60_prototype fc r hfc x
  refine ⟨y, fun n => (hy n).1, fun n => ?_⟩
  have h := (hy n).2
  rw [bdiff3_eq y, bdiff2_eq y, bdiff_eq y] at h
  simp only [delayed_succ, delayed_zero', sub_add_cancel]
  linarith

/-- The response to a constant dies out. -/
theorem C60_settles (c : ℝ) : ∃ y : ℕ → ℝ,
    (∀ n, modOut Modifier.process (fun _ => c) (HighPass.new fc r : HighPass ℝ ℝ) n = .ok (y n)) ∧ Tendsto y atTop (𝓝 0) := by
  obtain ⟨y, h1, h2⟩ := hp_third fc r hfc (fun _ => c)
  refine ⟨y, h1, ?_⟩
  have h4 := thirdOrder_tendsto (omega_pos hfc) (by linarith [(damping_mem r).1]) (by linarith [(damping_mem r).2]) h2 (by
    refine tendsto_const_nhds.congr' ?_
    filter_upwards [eventually_ge_atTop 3] with n hn
    rw [bdiff3_eq]
    unfold delayed
    rw [if_neg (by omega), if_neg (by omega), if_neg (by omega)]
    ring)
  have := (tendsto_add_atTop_iff_nat 3).mpr h4
  simpa only [delayed_succ, delayed_zero'] using this

example : ∃ y : ℕ → ℝ, (∀ n, modOut Modifier.process (fun _ => 3) (HighPass.new 440 1 : HighPass ℝ ℝ) n = .ok (y n)) ∧ Tendsto y atTop (𝓝 0) :=
  C60_settles 440 1 (by norm_num) 3

omit hfc in
theorem delayed_abs {x : ℕ → ℝ} {B : ℝ} (hx : ∀ n, |x n| ≤ B) (k n : ℕ) : |delayed 0 x k n| ≤ B := by
  unfold delayed
  split_ifs
  · rw [abs_zero]; exact (abs_nonneg _).trans (hx 0)
  · exact hx _

theorem C63_highpass : ∃ K, ∀ (x : ℕ → ℝ) (B : ℝ), (∀ n, |x n| ≤ B) → ∀ n, ∃ y,
    modOut Modifier.process x (HighPass.new fc r : HighPass ℝ ℝ) n = .ok y ∧ |y| ≤ K * B := by
  obtain ⟨K, ⟨hK, -⟩, h⟩ := thirdOrder_bounded (omega_pos hfc) (by linarith [(damping_mem r).1] : 0 ≤ damping r - 1) (by linarith [(damping_mem r).2])
  refine ⟨K * 8, fun x B hx n => ?_⟩
  obtain ⟨y, h1, h2⟩ := hp_third fc r hfc x
  refine ⟨y n, h1 n, ?_⟩
  have := h _ _ (8 * B) h2 (delayed_start y 2) (by rw [delayed_succ, delayed_start]) (by rw [delayed_succ, delayed_succ, delayed_start])
    (fun n => by
      rw [bdiff3_eq]
      have a0 := abs_le.mp (hx n)
      have a1 := abs_le.mp (delayed_abs hx 1 n)
      have a2 := abs_le.mp (delayed_abs hx 2 n)
      have a3 := abs_le.mp (delayed_abs hx 3 n)
      rw [abs_le]
      constructor <;> linarith) (n + 3)
  rw [show delayed 0 y 3 (n + 3) = y n by rw [delayed_succ, delayed_succ, delayed_succ, delayed_zero']] at this
  linarith
end highpass

example : (0 : ℝ) < 440 := by norm_num

/-! ## BandPass -/

/-- Whatever the parameters: with a settled (zero) output history, a constant and an alternating input give 0 and leave
the output history zero. -/
theorem C61_settled (m : BandPass ℝ ℝ) (c : ℝ) :
    ({ m with x1 := c, x2 := c, y1 := 0, y2 := 0 } : BandPass ℝ ℝ).process c = (0, { m with x1 := c, x2 := c, y1 := 0, y2 := 0 }) ∧
    ({ m with x1 := -c, x2 := c, y1 := 0, y2 := 0 } : BandPass ℝ ℝ).process c = (0, { m with x1 := c, x2 := -c, y1 := 0, y2 := 0 }) := by
  unfold BandPass.process
  real_simp
  simp

/-- A band pass with corners `l < h` in `(0, 24000)`, from its centre and quality. -/
theorem bp_new {f q l h : ℝ} (hl : 0 < l) (hh : l < h) (hf : f = Real.sqrt (l * h)) (hq : f / q = h - l) :
    (BandPass.new f q : BandPass ℝ ℝ) = ⟨f, q, (1 - 1 / (1 + Real.tan (Real.pi * h / 48000))) * (1 / (1 + Real.tan (Real.pi * l / 48000))),
      bpPole h + bpPole l, bpPole h * bpPole l, 0, 0, 0, 0⟩ := by
  unfold BandPass.new
  rw [bandpass_reset _ (corners_eq (l := l) (h := h) hl hh hf hq)]
  simp only [show (dflt : ℝ) = 0 by unfold dflt; real_simp]

private theorem bp_second (f q : ℝ) (hf : 0 < f) (hq : 0 < q) (hc : f / (2 * q) + Real.sqrt ((f / (2 * q)) ^ 2 + f ^ 2) < 24000)
    (x : ℕ → ℝ) : ∃ a b c, |b| < 1 ∧ |c| < 1 ∧ (BandPass.new f q : BandPass ℝ ℝ).a0 = a ∧
    (BandPass.new f q : BandPass ℝ ℝ).b1 = b + c ∧ (BandPass.new f q : BandPass ℝ ℝ).b2 = b * c ∧
    ∃ y : ℕ → ℝ, (∀ n, modOut Modifier.process x (BandPass.new f q : BandPass ℝ ℝ) n = .ok (y n)) ∧
    ∀ n, delayed 0 y 2 (n + 2) = (b + c) * delayed 0 y 2 (n + 1) - b * c * delayed 0 y 2 n + a * (x n - delayed 0 x 2 n) := by
  obtain ⟨l, h, hl, hlh, e1, e2, e3⟩ := corners_exist hf hq
  have e := bp_new hl hlh e1 e2
  rw [← e3] at hc
  refine ⟨_, bpPole h, bpPole l, bpPole_abs (hl.trans hlh) hc, bpPole_abs hl (hlh.trans hc), rfl, by rw [e], by rw [e], ?_⟩
  obtain ⟨y, hy⟩ := bandpass_out (BandPass.new f q) (by rw [e]) (by rw [e]) (by rw [e]) (by rw [e]) x
  refine ⟨y, fun n => (hy n).1, fun n => ?_⟩
  have h := (hy n).2
  rw [show (BandPass.new f q : BandPass ℝ ℝ).b1 = bpPole _ + bpPole l by rw [e],
    show (BandPass.new f q : BandPass ℝ ℝ).b2 = bpPole _ * bpPole l by rw [e]] at h
  rw [show delayed 0 y 2 (n + 2) = y n by rw [delayed_succ, delayed_succ, delayed_zero'],
    show delayed 0 y 2 (n + 1) = delayed 0 y 1 n by rw [delayed_succ]]
  linarith

/-- With the upper corner below 24 kHz, the responses to a constant and to an alternating input die out. -/
theorem C61_settles (f q : ℝ) (hf : 0 < f) (hq : 0 < q) (hc : f / (2 * q) + Real.sqrt ((f / (2 * q)) ^ 2 + f ^ 2) < 24000)
    (c : ℝ) (x : ℕ → ℝ) (hx : x = (fun _ => c) ∨ x = fun n => (-1) ^ n * c) : ∃ y : ℕ → ℝ,
    (∀ n, modOut Modifier.process x (BandPass.new f q : BandPass ℝ ℝ) n = .ok (y n)) ∧ Tendsto y atTop (𝓝 0) := by
  obtain ⟨a, b, d, hb, hd, -, -, -, y, h1, h2⟩ := bp_second f q hf hq hc x
  refine ⟨y, h1, ?_⟩
  have h4 := twoPole_tendsto hb hd h2 (by
    refine tendsto_const_nhds.congr' ?_
    filter_upwards [eventually_ge_atTop 2] with n hn
    obtain ⟨k, rfl⟩ : ∃ k, n = k + 2 := ⟨n - 2, by omega⟩
    rw [show delayed 0 x 2 (k + 2) = x k by rw [delayed_succ, delayed_succ, delayed_zero']]
    rcases hx with rfl | rfl
    · ring
    · ring)
  have := (tendsto_add_atTop_iff_nat 2).mpr h4
  simpa only [delayed_succ, delayed_zero'] using this

/-- A band pass at 1 kHz, quality 1. -/
example (c : ℝ) : ∃ y : ℕ → ℝ, (∀ n, modOut Modifier.process (fun _ => c) (BandPass.new 1000 1 : BandPass ℝ ℝ) n = .ok (y n)) ∧ Tendsto y atTop (𝓝 0) := by
  have : Real.sqrt ((1000 / (2 * 1)) ^ 2 + 1000 ^ 2 : ℝ) < 2000 := by
    rw [Real.sqrt_lt' (by norm_num)]; norm_num
  exact C61_settles 1000 1 (by norm_num) (by norm_num) (by linarith) c _ (.inl rfl)

/-- Bounded inputs give bounded outputs when the upper corner `f/2q + √((f/2q)² + f²)` is below 24 kHz. -/
theorem C63_bandpass (f q : ℝ) (hf : 0 < f) (hq : 0 < q) (hc : f / (2 * q) + Real.sqrt ((f / (2 * q)) ^ 2 + f ^ 2) < 24000) :
    ∃ K, ∀ (x : ℕ → ℝ) (B : ℝ), (∀ n, |x n| ≤ B) → ∀ n, ∃ y,
    modOut Modifier.process x (BandPass.new f q : BandPass ℝ ℝ) n = .ok y ∧ |y| ≤ K * B := by
  obtain ⟨a, b, d, hb, hd, ha, hb1, hb2, -⟩ := bp_second f q hf hq hc (fun _ => 0)
  refine ⟨|a| * 2 / (1 - |b|) / (1 - |d|), fun x B hx n => ?_⟩
  obtain ⟨l, h, hl, hlh, e1, e2, e3⟩ := corners_exist hf hq
  have e := bp_new hl hlh e1 e2
  obtain ⟨y, hy⟩ := bandpass_out (BandPass.new f q) (by rw [e]) (by rw [e]) (by rw [e]) (by rw [e]) x
  refine ⟨y n, (hy n).1, ?_⟩
  have h2 : ∀ n, delayed 0 y 2 (n + 2) = (b + d) * delayed 0 y 2 (n + 1) - b * d * delayed 0 y 2 n + a * (x n - delayed 0 x 2 n) := by
    intro n
    have h := (hy n).2
    rw [ha, hb1, hb2] at h
    rw [show delayed 0 y 2 (n + 2) = y n by rw [delayed_succ, delayed_succ, delayed_zero'],
      show delayed 0 y 2 (n + 1) = delayed 0 y 1 n by rw [delayed_succ]]
    linarith
  have := twoPole_bounded hb hd (F := |a| * (2 * B)) (delayed_start y 1) (by rw [delayed_succ, delayed_start]) h2 (fun n => by
    rw [abs_mul]
    refine mul_le_mul_of_nonneg_left ?_ (abs_nonneg _)
    have a0 := abs_le.mp (hx n)
    have a1 : |delayed 0 x 2 n| ≤ B := by
      unfold delayed
      split_ifs
      · rw [abs_zero]; exact (abs_nonneg _).trans (hx 0)
      · exact hx _
    have a2 := abs_le.mp a1
    rw [abs_le]
    constructor <;> linarith) (n + 2)
  rw [show delayed 0 y 2 (n + 2) = y n by rw [delayed_succ, delayed_succ, delayed_zero']] at this
  refine this.trans (le_of_eq ?_)
  ring

/-- 1 kHz with quality 1 meets the hypotheses. -/
example : (1000 : ℝ) / (2 * 1) + Real.sqrt ((1000 / (2 * 1)) ^ 2 + 1000 ^ 2) < 24000 := by
  have : Real.sqrt ((1000 / (2 * 1)) ^ 2 + 1000 ^ 2 : ℝ) < 2000 := by
    rw [Real.sqrt_lt' (by norm_num)]; norm_num
  linarith

/-! ## C64 -/

/-- For positive distinct corners both constructors give back the corners in increasing order; the centre is their
geometric mean and the quality centre over width. -/
theorem C64_corners (m : BandPass ℝ ℝ) (a b : ℝ) (ha : 0 < a) (hb : 0 < b) (hab : a ≠ b) :
    (BandPass.fromCorners (a, b) : BandPass ℝ ℝ).getCornerFrequencies = (min a b, max a b) ∧
    (m.setCornerFrequencies (a, b)).getCornerFrequencies = (min a b, max a b) ∧
    (BandPass.fromCorners (a, b) : BandPass ℝ ℝ).getCentralFrequency = Real.sqrt (a * b) ∧
    (m.setCornerFrequencies (a, b)).getCentralFrequency = Real.sqrt (a * b) ∧
    (BandPass.fromCorners (a, b) : BandPass ℝ ℝ).getQuality = Real.sqrt (a * b) / |b - a| ∧
    (m.setCornerFrequencies (a, b)).getQuality = Real.sqrt (a * b) / |b - a| := by
  have hP : 0 < a * b := by positivity
  have hmin : 0 < min a b := lt_min ha hb
  have hlt : min a b < max a b := min_lt_max.mpr hab
  have hprod : min a b * max a b = a * b := min_mul_max a b
  have hdiff : max a b - min a b = |b - a| := by rw [max_sub_min_eq_abs]
  have hS : 0 < Real.sqrt (a * b) := Real.sqrt_pos.mpr hP
  have hD : |b - a| ≠ 0 := abs_ne_zero.mpr (sub_ne_zero.mpr hab.symm)
  have hq : Real.sqrt (a * b) / (Real.sqrt (a * b) / |b - a|) = |b - a| := by
    field_simp
  have key : ∀ s : BandPass ℝ ℝ, s.centralF = Real.sqrt (a * b) → s.quality = Real.sqrt (a * b) / |b - a| →
      s.getCornerFrequencies = (min a b, max a b) := fun s h1 h2 =>
    corners_eq hmin hlt (by rw [h1, hprod]) (by rw [h1, h2, hq, hdiff])
  have c1 : (BandPass.fromCorners (a, b) : BandPass ℝ ℝ).centralF = Real.sqrt (a * b) := by
    show Real.sqrt |a * b| = _
    rw [abs_of_pos hP]
  have c2 : (BandPass.fromCorners (a, b) : BandPass ℝ ℝ).quality = Real.sqrt (a * b) / |b - a| := by
    show Real.sqrt |a * b| / |b - a| = _
    rw [abs_of_pos hP]
  have c3 : (m.setCornerFrequencies (a, b)).centralF = Real.sqrt (a * b) := rfl
  have c4 : (m.setCornerFrequencies (a, b)).quality = Real.sqrt (a * b) / |b - a| := by
    show Real.sqrt (a * b) / |a - b| = _
    rw [abs_sub_comm]
  exact ⟨key _ c1 c2, key _ c3 c4, c1, c3, c2, c4⟩

example : (BandPass.fromCorners (3600, 400) : BandPass ℝ ℝ).getCornerFrequencies = (400, 3600) := by
  rw [(C64_corners (BandPass.new 1 1) 3600 400 (by norm_num) (by norm_num) (by norm_num)).1]
  norm_num

/-- The same stability for a band pass made from corners in `(0, 24000)`. -/
theorem C63_bandpass_corners (a b : ℝ) (ha : 0 < a) (hb : 0 < b) (hab : a ≠ b) (ha' : a < 24000) (hb' : b < 24000) :
    ∃ K, ∀ (x : ℕ → ℝ) (B : ℝ), (∀ n, |x n| ≤ B) → ∀ n, ∃ y,
    modOut Modifier.process x (BandPass.fromCorners (a, b) : BandPass ℝ ℝ) n = .ok y ∧ |y| ≤ K * B := by
  have hP : 0 < a * b := by positivity
  have hS : 0 < Real.sqrt (a * b) := Real.sqrt_pos.mpr hP
  have hD : 0 < |b - a| := abs_pos.mpr (sub_ne_zero.mpr hab.symm)
  have e : (BandPass.fromCorners (a, b) : BandPass ℝ ℝ) = BandPass.new (Real.sqrt (a * b)) (Real.sqrt (a * b) / |b - a|) := by
    unfold BandPass.fromCorners BandPass.new
    real_simp
    rw [abs_of_pos hP]
  rw [e]
  refine C63_bandpass _ _ hS (by positivity) ?_
  have e1 : Real.sqrt (a * b) / (2 * (Real.sqrt (a * b) / |b - a|)) = |b - a| / 2 := by field_simp
  rw [e1, Real.sq_sqrt hP.le, show (|b - a| / 2) ^ 2 + a * b = ((a + b) / 2) ^ 2 by
    rw [div_pow, sq_abs]; ring, Real.sqrt_sq (by positivity)]
  rcases abs_cases (b - a) with ⟨h, -⟩ | ⟨h, -⟩ <;> rw [h] <;> linarith

example : ∃ K, ∀ (x : ℕ → ℝ) (B : ℝ), (∀ n, |x n| ≤ B) → ∀ n, ∃ y,
    modOut Modifier.process x (BandPass.fromCorners (3600, 400) : BandPass ℝ ℝ) n = .ok y ∧ |y| ≤ K * B :=
  C63_bandpass_corners 3600 400 (by norm_num) (by norm_num) (by norm_num) (by norm_num) (by norm_num)

end Verif
