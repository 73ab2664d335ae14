import Verif.Props.EnvelopeRate

/-! # The envelope follower as a level meter: C157

Exact arithmetic. -/

namespace Verif
open Filter Topology

/-- The coefficients, for a frequency below half the sample rate. -/
private theorem coef {f : ℝ} (h0 : 0 ≤ f) (h1 : f < 24000) :
    0 ≤ envT f / (1 + envT f) ∧ envT f / (1 + envT f) < 1 ∧ (1 - envT f) / (1 + envT f) = 1 - 2 * (envT f / (1 + envT f)) := by
  have t := envT_nonneg h0 h1
  have p : 0 < 1 + envT f := by linarith
  refine ⟨div_nonneg t p.le, by rw [div_lt_one p]; linarith, by field_simp; ring⟩

private theorem coef_pos {f : ℝ} (h0 : 0 < f) (h1 : f < 24000) : 0 < envT f / (1 + envT f) := by
  have hp := Real.pi_pos
  have t : 0 < envT f := Real.tan_pos_of_pos_of_lt_pi_div_two (by positivity) (by
    have := mul_lt_mul_of_pos_left h1 hp
    linarith)
  positivity

private theorem coef_half {f : ℝ} (h0 : 0 ≤ f) (h1 : f ≤ 12000) : envT f / (1 + envT f) ≤ 1 / 2 := by
  have t := envT_nonneg h0 (by linarith)
  have t1 := envT_le_one h0 h1
  rw [div_le_iff₀ (by linarith)]
  linarith

private theorem coef_lt {f g : ℝ} (h0 : 0 ≤ f) (h : f < g) (h1 : g < 24000) : envT f / (1 + envT f) < envT g / (1 + envT g) := by
  have hp := Real.pi_pos
  have t0 := envT_nonneg h0 (h.trans h1)
  have t1 := envT_nonneg (h0.trans h.le) h1
  have : envT f < envT g := by
    refine Real.tan_lt_tan_of_lt_of_lt_pi_div_two ?_ ?_ ?_
    · have : 0 ≤ Real.pi * f / 48000 := by positivity
      linarith
    · have := mul_lt_mul_of_pos_left h1 hp
      linarith
    · have := mul_lt_mul_of_pos_left h hp
      linarith
  rw [div_lt_div_iff₀ (by linarith) (by linarith)]
  nlinarith

/-- The reading is proportional to the level: an input `c` times as loud reads `|c|` times as much, for all frequencies. -/
theorem C157_scale (lower upper : ℝ) (x : ℕ → ℝ) (c : ℝ) (n : ℕ) :
    ∃ y, modOut Modifier.process x (Envelope.new ℝ lower upper) n = .ok y ∧
      modOut Modifier.process (fun i => c * x i) (Envelope.new ℝ lower upper) n = .ok (|c| * y) := by
  obtain ⟨y, hy⟩ := envelope_out lower upper x
  obtain ⟨z, hz⟩ := envelope_out lower upper (fun i => c * x i)
  have d : ∀ n, delayed 0 (fun i => c * x i) 1 n = c * delayed 0 x 1 n := fun n => by
    rcases n with _ | n
    · rw [delayed_start, delayed_start, mul_zero]
    · rw [delayed_succ, delayed_succ, delayed_zero', delayed_zero']
  have step : ∀ n, delayed 0 z 1 n = |c| * delayed 0 y 1 n → z n = |c| * y n := by
    intro n h
    rw [(hz n).2, (hy n).2, h, d]
    simp only [abs_mul]
    rcases (abs_nonneg c).eq_or_lt with h0 | h0
    · rw [← h0]; simp
    · simp only [mul_lt_mul_iff_right₀ h0]
      ring
  have key : ∀ n, z n = |c| * y n := by
    intro n
    induction n with
    | zero => exact step 0 (by rw [delayed_start, delayed_start, mul_zero])
    | succ n ih => exact step (n + 1) (by rw [delayed_succ, delayed_succ, delayed_zero', delayed_zero', ih])
  exact ⟨y n, (hy n).1, by rw [(hz n).1, key]⟩

example := C157_scale 20 1000 (fun n => if n % 2 = 0 then 1 else -(1 / 3)) (-(1 / 2)) 7

/-- The reading settles between the quietest and the loudest magnitude of the input: at most `P` always, and at least `m` up to a
part that dies out at the rate of the slower of the two frequencies. -/
theorem C157_between (lower upper : ℝ) (hl : 0 ≤ lower) (hl' : lower ≤ 12000) (hu : 0 ≤ upper) (hu' : upper ≤ 12000)
    (x : ℕ → ℝ) {m P : ℝ} (h0 : 0 ≤ m) (hx : ∀ n, m ≤ |x n| ∧ |x n| ≤ P) (n : ℕ) :
    ∃ y, modOut Modifier.process x (Envelope.new ℝ lower upper) n = .ok y ∧ y ≤ P ∧
      m * (1 - max (bpPole lower) (bpPole upper) ^ n) ≤ y := by
  obtain ⟨y, hy, st⟩ := C138_step lower upper hl (by linarith) hu (by linarith) x
  obtain ⟨w, hw, w0, wP⟩ := C71_peak lower upper hl hl' hu hu' x n P (fun i _ => (hx i).2)
  have e : w = y n := by
    have := (hw.symm.trans (hy n))
    injection this
  refine ⟨y n, hy n, e ▸ wP, ?_⟩
  obtain ⟨v, hv, v0, -⟩ := C71_peak lower upper hl hl' hu hu' x 0 P (fun i _ => (hx i).2)
  have e0 : v = y 0 := by
    have := (hv.symm.trans (hy 0))
    injection this
  have bp : ∀ {f : ℝ}, 0 ≤ f → f ≤ 12000 → 0 ≤ bpPole f ∧ bpPole f ≤ 1 := by
    intro f a b
    have t := envT_nonneg a (by linarith)
    have t1 := envT_le_one a b
    change 0 ≤ (1 - envT f) / (1 + envT f) ∧ (1 - envT f) / (1 + envT f) ≤ 1
    exact ⟨div_nonneg (by linarith) (by linarith), by rw [div_le_one (by linarith)]; linarith⟩
  clear hw hv e wP w0
  induction n with
  | zero => rw [pow_zero, sub_self, mul_zero, ← e0]; exact v0
  | succ n ih =>
    have s := st n
    set p := bpPole (if y n < |x (n + 1)| then upper else lower) with hp
    set q := max (bpPole lower) (bpPole upper) with hq
    have pq : 0 ≤ p ∧ p ≤ 1 ∧ p ≤ q := by
      rw [hp, hq]
      split_ifs
      · exact ⟨(bp hu hu').1, (bp hu hu').2, le_max_right _ _⟩
      · exact ⟨(bp hl hl').1, (bp hl hl').2, le_max_left _ _⟩
    have q0 : 0 ≤ q := pq.1.trans pq.2.2
    have mean : m ≤ (|x (n + 1)| + |x n|) / 2 := by linarith [(hx n).1, (hx (n + 1)).1]
    set M := (|x (n + 1)| + |x n|) / 2
    have : y (n + 1) = (1 - p) * M + p * y n := by linarith
    rw [this]
    have a : (1 - p) * m ≤ (1 - p) * M := mul_le_mul_of_nonneg_left mean (by linarith [pq.2.1])
    have b : p * (m * (1 - q ^ n)) ≤ p * y n := mul_le_mul_of_nonneg_left ih pq.1
    have c : p * (m * q ^ n) ≤ q * (m * q ^ n) := mul_le_mul_of_nonneg_right pq.2.2 (by positivity)
    rw [pow_succ]
    linarith

example := C157_between 20 1000 (by norm_num) (by norm_num) (by norm_num) (by norm_num) (fun n => if n % 2 = 0 then 1 else -(1 / 3)) (m := 1 / 3) (P := 1)
  (by norm_num) (fun n => by split_ifs <;> norm_num [abs_of_pos]) 100

/-- Violated: a louder input does not always read at least as much. Whenever the follower rises faster than it falls
(`lower < upper`), raising a single sample of some input lowers the reading at that sample. -/
theorem C157_louder_violated (lower upper : ℝ) (hl : 0 < lower) (h : lower < upper) (hu : upper < 24000) :
    ∃ x x' : ℕ → ℝ, (∀ n, 0 ≤ x n ∧ x n ≤ x' n) ∧ (∀ n, n ≠ 2 → x' n = x n) ∧
      ∃ y y' : ℝ, modOut Modifier.process x (Envelope.new ℝ lower upper) 2 = .ok y ∧
        modOut Modifier.process x' (Envelope.new ℝ lower upper) 2 = .ok y' ∧ y' < y := by
  obtain ⟨-, a1, ea⟩ := coef hl.le (h.trans hu)
  obtain ⟨-, b1, eb⟩ := coef (hl.trans h).le hu
  have a0 := coef_pos hl (h.trans hu)
  have b0 := coef_pos (hl.trans h) hu
  have ab := coef_lt hl.le h hu
  set a := envT lower / (1 + envT lower) with ha
  set b := envT upper / (1 + envT upper) with hb
  set v := a + (1 - 2 * a) * b with hv
  have v0 : 0 < v := by rw [hv]; nlinarith [mul_pos a0 (sub_pos.mpr b1), mul_pos b0 (sub_pos.mpr a1)]
  -- the reading at sample 2 for input 1, 0, w
  have out : ∀ x : ℕ → ℝ, x 0 = 1 → x 1 = 0 → 0 ≤ x 2 → modOut Modifier.process x (Envelope.new ℝ lower upper) 2 =
      .ok (if v < x 2 then b * x 2 + (1 - 2 * b) * v else a * x 2 + (1 - 2 * a) * v) := by
    intro x x0 x1 x2
    obtain ⟨y, hy⟩ := envelope_out lower upper x
    have y0 : y 0 = b := by
      have := (hy 0).2
      simp only [delayed_start, abs_zero, add_zero, mul_zero, x0, abs_one, zero_lt_one, if_true, mul_one] at this
      exact this
    have y1 : y 1 = v := by
      have := (hy 1).2
      simp only [delayed_succ, delayed_zero', x0, x1, abs_zero, abs_one, zero_add, mul_one, y0, if_neg (not_lt.mpr b0.le)] at this
      rw [this, ea]
    have y2 := (hy 2).2
    simp only [delayed_succ, delayed_zero', x1, abs_zero, add_zero, y1, abs_of_nonneg x2] at y2
    rw [(hy 2).1, y2]
    congr 1
    split_ifs
    · rw [eb]
    · rw [ea]
  have d : 0 < (b - a) * v / 2 := by
    have := sub_pos.mpr ab
    positivity
  refine ⟨fun n => if n = 0 then 1 else if n = 2 then v else 0, fun n => if n = 0 then 1 else if n = 2 then v + (b - a) * v / 2 else 0, ?_, ?_, ?_⟩
  · intro n
    dsimp only
    split_ifs <;> constructor <;> linarith
  · intro n hn
    simp only [hn, if_false]
  · refine ⟨_, _, out _ rfl rfl v0.le, out _ rfl rfl ?_, ?_⟩
    · exact (add_pos v0 d).le
    · have c : v < (if (2 : ℕ) = 0 then (1 : ℝ) else if (2 : ℕ) = 2 then v + (b - a) * v / 2 else 0) := by norm_num; linarith
      have c' : ¬ v < (if (2 : ℕ) = 0 then (1 : ℝ) else if (2 : ℕ) = 2 then v else 0) := by norm_num
      rw [if_pos c, if_neg c']
      norm_num
      have e : b * ((b - a) * v / 2) < (b - a) * v / 2 := by
        calc _ < 1 * ((b - a) * v / 2) := mul_lt_mul_of_pos_right b1 d
          _ = _ := one_mul _
      nlinarith

example := C157_louder_violated 20 1000 (by norm_num) (by norm_num) (by norm_num)

/-- With equal frequencies up to 12 kHz a louder input never reads less. (Missing for `lower < upper`: false, by the theorem above.) -/
theorem C157_louder_partial (f : ℝ) (h0 : 0 ≤ f) (h1 : f ≤ 12000) (x x' : ℕ → ℝ) (h : ∀ n, |x n| ≤ |x' n|) (n : ℕ) :
    ∃ y y', modOut Modifier.process x (Envelope.new ℝ f f) n = .ok y ∧ modOut Modifier.process x' (Envelope.new ℝ f f) n = .ok y' ∧ y ≤ y' := by
  obtain ⟨y, hy⟩ := envelope_out f f x
  obtain ⟨z, hz⟩ := envelope_out f f x'
  obtain ⟨a0, -, ea⟩ := coef h0 (by linarith : f < 24000)
  have ah := coef_half h0 h1
  have step : ∀ n, delayed 0 y 1 n ≤ delayed 0 z 1 n → y n ≤ z n := by
    intro n hd
    rw [(hz n).2, (hy n).2]
    simp only [ite_self, ea]
    have hx : |delayed 0 x 1 n| ≤ |delayed 0 x' 1 n| := by
      rcases n with _ | n
      · simp only [delayed_start, le_refl]
      · simp only [delayed_succ, delayed_zero']; exact h n
    have := mul_le_mul_of_nonneg_left (add_le_add (h n) hx) a0
    have := mul_le_mul_of_nonneg_left hd (by linarith : 0 ≤ 1 - 2 * (envT f / (1 + envT f)))
    linarith
  have key : ∀ n, y n ≤ z n := by
    intro n
    induction n with
    | zero => exact step 0 (by rw [delayed_start, delayed_start])
    | succ n ih => exact step (n + 1) (by simpa only [delayed_succ, delayed_zero'] using ih)
  exact ⟨_, _, (hy n).1, (hz n).1, key n⟩

example := C157_louder_partial 100 (by norm_num) (by norm_num) (fun n => if n % 2 = 0 then 1 else -(1 / 3)) (fun n => if n % 2 = 0 then -1 else 1 / 2)
  (fun n => by split_ifs <;> norm_num [abs_of_pos]) 5

/-- With equal frequencies the follower reads the average: for an input whose magnitudes repeat every `N` samples, the mean of the
reading over `N` samples tends to the mean magnitude, and the gap shrinks by exactly the pole at every sample. -/
theorem C157_average (f : ℝ) (h0 : 0 < f) (h1 : f < 24000) (x : ℕ → ℝ) {N : ℕ} (hx : ∀ n, |x (n + N)| = |x n|) :
    ∃ y : ℕ → ℝ, (∀ n, modOut Modifier.process x (Envelope.new ℝ f f) n = .ok (y n)) ∧
      (∀ m, (∑ i ∈ Finset.range N, y (m + i)) / N - (∑ i ∈ Finset.range N, |x i|) / N =
        bpPole f ^ m * ((∑ i ∈ Finset.range N, y i) / N - (∑ i ∈ Finset.range N, |x i|) / N)) ∧
      Tendsto (fun m => (∑ i ∈ Finset.range N, y (m + i)) / (N : ℝ)) atTop (𝓝 ((∑ i ∈ Finset.range N, |x i|) / N)) := by
  obtain ⟨y, hy, st⟩ := C138_step f f h0.le h1 h0.le h1 x
  simp only [ite_self] at st
  set p := bpPole f with hp
  have shift : ∀ m, ∑ i ∈ Finset.range N, |x (m + i)| = ∑ i ∈ Finset.range N, |x i| := by
    intro m
    induction m with
    | zero => simp
    | succ m ih =>
      rw [← ih]
      have a := Finset.sum_range_succ (fun i => |x (m + i)|) N
      have b := Finset.sum_range_succ' (fun i => |x (m + i)|) N
      rw [a, hx m, add_zero] at b
      rw [Finset.sum_congr rfl (fun i _ => by rw [show m + 1 + i = m + (i + 1) by ring])]
      linarith
  set X := ∑ i ∈ Finset.range N, |x i| with hX
  have rec_ : ∀ m, ∑ i ∈ Finset.range N, y (m + 1 + i) - X = p * (∑ i ∈ Finset.range N, y (m + i) - X) := by
    intro m
    have e : ∀ i, y (m + 1 + i) = (1 - p) / 2 * |x (m + 1 + i)| + (1 - p) / 2 * |x (m + i)| + p * y (m + i) := by
      intro i
      have := st (m + i)
      rw [show m + i + 1 = m + 1 + i by ring] at this
      linarith
    rw [Finset.sum_congr rfl (fun i _ => e i), Finset.sum_add_distrib, Finset.sum_add_distrib, ← Finset.mul_sum, ← Finset.mul_sum, ← Finset.mul_sum,
      shift, shift]
    ring
  have closed : ∀ m, ∑ i ∈ Finset.range N, y (m + i) - X = p ^ m * (∑ i ∈ Finset.range N, y i - X) := by
    intro m
    induction m with
    | zero => simp
    | succ m ih => rw [rec_, ih, pow_succ]; ring
  have closed' : ∀ m, (∑ i ∈ Finset.range N, y (m + i)) / N - X / N = p ^ m * ((∑ i ∈ Finset.range N, y i) / N - X / N) := by
    intro m
    rw [← sub_div, ← sub_div, closed m, mul_div_assoc]
  refine ⟨y, hy, closed', ?_⟩
  have pl : |p| < 1 := by
    obtain ⟨-, a1, ea⟩ := coef h0.le h1
    have a0 := coef_pos h0 h1
    change |(1 - envT f) / (1 + envT f)| < 1
    rw [ea, abs_lt]
    constructor <;> linarith
  have := (tendsto_pow_atTop_nhds_zero_of_abs_lt_one pl).mul_const ((∑ i ∈ Finset.range N, y i) / N - X / N)
  rw [zero_mul] at this
  have := this.add_const (X / N)
  rw [zero_add] at this
  refine this.congr (fun m => ?_)
  linarith [closed' m]

/-- A triangle-like input 0, 1, 0, -1, …: the mean reading tends to one half. -/
example : ∃ y : ℕ → ℝ, (∀ n, modOut Modifier.process (fun n => if n % 4 = 1 then 1 else if n % 4 = 3 then -1 else 0) (Envelope.new ℝ (20 : ℝ) 20) n = .ok (y n)) ∧
    Tendsto (fun m => (∑ i ∈ Finset.range 4, y (m + i)) / ((4 : ℕ) : ℝ)) atTop (𝓝 (1 / 2)) := by
  obtain ⟨y, h, -, t⟩ := C157_average 20 (by norm_num) (by norm_num) (fun n => if n % 4 = 1 then 1 else if n % 4 = 3 then -1 else 0) (N := 4)
    (fun n => by simp only [Nat.add_mod_right])
  refine ⟨y, h, ?_⟩
  norm_num [Finset.sum_range_succ] at t ⊢
  exact t

end Verif
