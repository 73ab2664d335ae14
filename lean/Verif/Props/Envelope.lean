import Verif.Proofs.Filters
import Mathlib.Analysis.SpecialFunctions.Trigonometric.ArctanDeriv

set_option linter.unusedSectionVars false

/-! # Envelope follower: C71 -/

namespace Verif
open Filter Topology

/-- `tan(πf/48000)`. -/
noncomputable def envT (f : ℝ) : ℝ := Real.tan (Real.pi * f / 48000)

theorem envT_nonneg {f : ℝ} (h0 : 0 ≤ f) (h1 : f < 24000) : 0 ≤ envT f := by
  have hp := Real.pi_pos
  exact Real.tan_nonneg_of_nonneg_of_le_pi_div_two (by positivity) (by nlinarith)

private theorem envT_12000 : envT 12000 = 1 := by
  unfold envT
  rw [show Real.pi * 12000 / 48000 = Real.pi / 4 by ring, Real.tan_pi_div_four]

private theorem envT_lt {f g : ℝ} (h0 : 0 ≤ f) (h : f < g) (h1 : g < 24000) : envT f < envT g := by
  have hp := Real.pi_pos
  refine Real.tan_lt_tan_of_lt_of_lt_pi_div_two ?_ ?_ ?_
  · have : 0 ≤ Real.pi * f / 48000 := by positivity
    linarith
  · nlinarith
  · have := mul_lt_mul_of_pos_left h hp
    linarith

theorem envT_le_one {f : ℝ} (h0 : 0 ≤ f) (h1 : f ≤ 12000) : envT f ≤ 1 := by
  rcases h1.eq_or_lt with rfl | h
  · exact envT_12000.le
  · exact (envT_lt h0 h (by norm_num)).le.trans envT_12000.le

/-- The output, as a recursion on the previous output and the magnitudes of the last two inputs. -/
theorem envelope_out (lower upper : ℝ) (x : ℕ → ℝ) :
    ∃ y : ℕ → ℝ, ∀ n, modOut Modifier.process x (Envelope.new ℝ lower upper) n = .ok (y n) ∧
      y n = (let t := if delayed 0 y 1 n < |x n| then envT upper else envT lower
        t / (1 + t) * (|x n| + |delayed 0 x 1 n|) + (1 - t) / (1 + t) * delayed 0 y 1 n) := by
  obtain ⟨y, s, hs0, hs, hs1, hy, ho⟩ := out_exists Envelope.process x (Envelope.new ℝ lower upper)
  have key : ∀ n, s n = { Envelope.new ℝ lower upper with x1 := delayed 0 x 1 n, y1 := delayed 0 y 1 n } := by
    intro n
    induction n with
    | zero =>
      rw [hs0]; simp only [delayed_start]
      unfold Envelope.new
      simp only [show (dflt : ℝ) = 0 by unfold dflt; real_simp]
    | succ n ih =>
      have e : (s (n + 1)) = { s n with x1 := x n, y1 := y n } := by rw [hs1 n, hy n]; rfl
      rw [e, ih]
      simp only [delayed_succ, delayed_zero']
  refine ⟨y, fun n => ⟨ho n, ?_⟩⟩
  rw [hy n, key n]
  unfold Envelope.process Envelope.new
  real_simp
  unfold envT
  by_cases h : delayed 0 y 1 n < |x n|
  · simp only [if_pos h, mul_one_div]
  · simp only [if_neg h, mul_one_div]

/-- For every `lower` above 12000 the output goes negative: third output for input 1, 0, 0. -/
theorem C71_nonneg_violated (lower upper : ℝ) (hl : 12000 < lower) (hl' : lower < 24000) (hu : 0 ≤ upper) (hu' : upper < 24000)
    (x : ℕ → ℝ) (h0 : x 0 = 1) (h1 : x 1 = 0) (h2 : x 2 = 0) :
    ∃ y, modOut Modifier.process x (Envelope.new ℝ lower upper) 2 = .ok y ∧ y < 0 := by
  obtain ⟨y, hy⟩ := envelope_out lower upper x
  have hu0 := envT_nonneg hu hu'
  have hl0 : 1 < envT lower := by
    have := envT_lt (by norm_num) hl hl'
    rwa [envT_12000] at this
  refine ⟨y 2, (hy 2).1, ?_⟩
  have e0 := (hy 0).2
  have e1 := (hy 1).2
  have e2 := (hy 2).2
  simp only [delayed_start, delayed_succ, delayed_zero', h0, h1, h2, abs_one, abs_zero, zero_lt_one, if_true, mul_zero, add_zero,
    mul_one, zero_add] at e0 e1 e2
  set t := envT lower
  set u := envT upper
  have y0 : 0 ≤ y 0 := by rw [e0]; positivity
  have y0' : y 0 ≤ 1 := by rw [e0, div_le_one (by positivity)]; linarith
  rw [if_neg (by linarith)] at e1
  have y1 : 0 < y 1 := by
    have : y 1 = (t - (t - 1) * y 0) / (1 + t) := by rw [e1]; field_simp; ring
    rw [this]
    refine div_pos ?_ (by positivity)
    nlinarith
  rw [if_neg (by linarith)] at e2
  have : (1 - t) / (1 + t) < 0 := div_neg_of_neg_of_pos (by linarith) (by positivity)
  rw [e2]
  exact mul_neg_of_neg_of_pos this y1

example : ∃ y, modOut Modifier.process (fun n => if n = 0 then (1 : ℝ) else 0) (Envelope.new ℝ (18000 : ℝ) 100) 2 = .ok y ∧ y < 0 :=
  C71_nonneg_violated 18000 100 (by norm_num) (by norm_num) (by norm_num) (by norm_num) _ rfl rfl rfl

/-- Never negative when `lower ≤ 12000`. -/
theorem C71_nonneg_partial (lower upper : ℝ) (hl : 0 ≤ lower) (hl' : lower ≤ 12000) (hu : 0 ≤ upper) (hu' : upper < 24000)
    (x : ℕ → ℝ) (n : ℕ) : ∃ y, modOut Modifier.process x (Envelope.new ℝ lower upper) n = .ok y ∧ 0 ≤ y := by
  obtain ⟨y, hy⟩ := envelope_out lower upper x
  have hu0 := envT_nonneg hu hu'
  have hl0 := envT_nonneg hl (by linarith)
  have hl1 := envT_le_one hl hl'
  have step : ∀ n, 0 ≤ delayed 0 y 1 n → 0 ≤ y n := by
    intro n h
    rw [(hy n).2]
    have ha := abs_nonneg (delayed 0 x 1 n)
    by_cases hc : delayed 0 y 1 n < |x n|
    · simp only [if_pos hc]
      rw [show ∀ t : ℝ, t / (1 + t) * (|x n| + |delayed 0 x 1 n|) + (1 - t) / (1 + t) * delayed 0 y 1 n =
        (t * (|x n| - delayed 0 y 1 n) + t * |delayed 0 x 1 n| + delayed 0 y 1 n) / (1 + t) by intro t; ring]
      have : 0 ≤ |x n| - delayed 0 y 1 n := by linarith
      positivity
    · simp only [if_neg hc]
      have : 0 ≤ 1 - envT lower := by linarith
      positivity
  refine ⟨y n, (hy n).1, ?_⟩
  induction n with
  | zero => exact step 0 (by rw [delayed_start])
  | succ n ih => exact step _ (by rw [delayed_succ, delayed_zero']; exact ih)

example (x : ℕ → ℝ) (n : ℕ) : ∃ y, modOut Modifier.process x (Envelope.new ℝ (100 : ℝ) 20000) n = .ok y ∧ 0 ≤ y :=
  C71_nonneg_partial 100 20000 (by norm_num) (by norm_num) (by norm_num) (by norm_num) x n

/-- With both frequencies at most 12000 the output stays within `[0, P]` for every `P` bounding the input so far. -/
theorem C71_peak (lower upper : ℝ) (hl : 0 ≤ lower) (hl' : lower ≤ 12000) (hu : 0 ≤ upper) (hu' : upper ≤ 12000)
    (x : ℕ → ℝ) (n : ℕ) (P : ℝ) (hP : ∀ i ≤ n, |x i| ≤ P) :
    ∃ y, modOut Modifier.process x (Envelope.new ℝ lower upper) n = .ok y ∧ 0 ≤ y ∧ y ≤ P := by
  obtain ⟨y, hy⟩ := envelope_out lower upper x
  obtain ⟨y', hy', h0⟩ := C71_nonneg_partial lower upper hl hl' hu (by linarith) x n
  refine ⟨y', hy', h0, ?_⟩
  have e : y' = y n := Except.ok.inj (hy'.symm.trans (hy n).1)
  rw [e]
  have hP0 : 0 ≤ P := (abs_nonneg _).trans (hP 0 (Nat.zero_le _))
  have step : ∀ k ≤ n, delayed 0 y 1 k ≤ P → y k ≤ P := by
    intro k hk h
    rw [(hy k).2]
    have h1 := hP k hk
    have h2 : |delayed 0 x 1 k| ≤ P := by
      unfold delayed
      split_ifs
      · simpa using hP0
      · exact hP _ (by omega)
    obtain ⟨t, ht, ht0, ht1⟩ : ∃ t, t = (if delayed 0 y 1 k < |x k| then envT upper else envT lower) ∧ 0 ≤ t ∧ t ≤ 1 := by
      refine ⟨_, rfl, ?_, ?_⟩
      · split_ifs
        · exact envT_nonneg hu (by linarith)
        · exact envT_nonneg hl (by linarith)
      · split_ifs
        · exact envT_le_one hu hu'
        · exact envT_le_one hl hl'
    simp only [← ht]
    rw [show t / (1 + t) * (|x k| + |delayed 0 x 1 k|) + (1 - t) / (1 + t) * delayed 0 y 1 k =
        (t * (|x k| + |delayed 0 x 1 k|) + (1 - t) * delayed 0 y 1 k) / (1 + t) by ring, div_le_iff₀ (by positivity)]
    have a1 := mul_le_mul_of_nonneg_left (add_le_add h1 h2) ht0
    have a2 := mul_le_mul_of_nonneg_left h (by linarith : 0 ≤ 1 - t)
    linarith
  clear hy' h0 e
  have all : ∀ k ≤ n, y k ≤ P := by
    intro k
    induction k with
    | zero => intro hk; exact step 0 hk (by rw [delayed_start]; exact hP0)
    | succ k ih => intro hk; exact step _ hk (by rw [delayed_succ, delayed_zero']; exact ih (by omega))
  exact all n (le_refl n)

example := C71_peak 100 1000 (by norm_num) (by norm_num) (by norm_num) (by norm_num) (fun n => if n = 3 then -1 else 1 / 2) 5 1
  (fun i _ => by split_ifs <;> norm_num [abs_of_pos])

/-- A constant input is tracked: the output tends to its magnitude. -/
theorem C71_tracks (lower upper : ℝ) (hl : 0 < lower) (hl' : lower < 24000) (hu : 0 < upper) (hu' : upper < 24000) (c : ℝ) :
    ∃ y : ℕ → ℝ, (∀ n, modOut Modifier.process (fun _ => c) (Envelope.new ℝ lower upper) n = .ok (y n)) ∧ Tendsto y atTop (𝓝 |c|) := by
  obtain ⟨y, hy⟩ := envelope_out lower upper (fun _ => c)
  refine ⟨y, fun n => (hy n).1, ?_⟩
  have h1 := bpPole_abs hl hl'
  have h2 := bpPole_abs hu hu'
  have hl0 := envT_nonneg hl.le hl'
  have hu0 := envT_nonneg hu.le hu'
  have step : ∀ n, |y (n + 1) - abs c| ≤ max |bpPole lower| |bpPole upper| * |y n - abs c| + (fun _ => (0 : ℝ)) n := by
    intro n
    have e := (hy (n + 1)).2
    simp only [delayed_succ, delayed_zero'] at e
    have key : ∀ t : ℝ, 0 ≤ t → t / (1 + t) * (|c| + |c|) + (1 - t) / (1 + t) * y n - |c| = (1 - t) / (1 + t) * (y n - |c|) := by
      intro t ht
      have : 0 < 1 + t := by positivity
      field_simp; ring
    rw [e, key _ (by split_ifs <;> assumption), abs_mul, add_zero]
    refine mul_le_mul_of_nonneg_right ?_ (abs_nonneg _)
    split_ifs
    · exact le_max_right _ _
    · exact le_max_left _ _
  have := contract_tendsto (a := fun n => |y n - abs c|) (le_max_of_le_left (abs_nonneg (bpPole lower))) (max_lt h1 h2) (fun n => abs_nonneg _)
    step tendsto_const_nhds
  have h3 := (tendsto_zero_iff_abs_tendsto_zero _).mpr this
  have h4 := h3.add_const |c|
  simpa using h4

example : ∃ y : ℕ → ℝ, (∀ n, modOut Modifier.process (fun _ => -3) (Envelope.new ℝ (100 : ℝ) 20000) n = .ok (y n)) ∧ Tendsto y atTop (𝓝 3) := by
  have := C71_tracks 100 20000 (by norm_num) (by norm_num) (by norm_num) (by norm_num) (-3)
  rwa [show |(-3 : ℝ)| = 3 by norm_num] at this

/-- In any arithmetic the output depends only on the magnitudes of the inputs. -/
theorem C71_magnitude {S M : Type} [Flt S] [Flt M] [SM S M] [Libm S] (lower upper : S) (x x' : ℕ → S)
    (h : ∀ n, Flt.abs (x n) = Flt.abs (x' n)) (n : ℕ) :
    modOut Modifier.process x (Envelope.new M lower upper) n = modOut Modifier.process x' (Envelope.new M lower upper) n := by
  have key : ∃ m m' : Envelope S, modAfter (E := Panic) Modifier.process x (Envelope.new M lower upper) n = .ok m ∧
      modAfter (E := Panic) Modifier.process x' (Envelope.new M lower upper) n = .ok m' ∧
      Flt.abs m.x1 = Flt.abs m'.x1 ∧ m'.y1 = m.y1 ∧ m'.au = m.au ∧ m'.bu = m.bu ∧ m'.ad = m.ad ∧ m'.bd = m.bd := by
    induction n with
    | zero => exact ⟨_, _, rfl, rfl, rfl, rfl, rfl, rfl, rfl, rfl⟩
    | succ n ih =>
      obtain ⟨m, m', h1, h2, h3, h4, h5, h6, h7, h8⟩ := ih
      refine ⟨_, _, modAfter_succ h1 (y := (m.process (x n)).1) rfl, modAfter_succ h2 (y := (m'.process (x' n)).1) rfl, h n, ?_, h5, h6, h7, h8⟩
      simp only [h3, h4, h5, h6, h7, h8, h n]
  obtain ⟨m, m', h1, h2, h3, h4, h5, h6, h7, h8⟩ := key
  rw [modOut_of h1 (y := (m.process (x n)).1) (m'' := (m.process (x n)).2) rfl, modOut_of h2 (y := (m'.process (x' n)).1) (m'' := (m'.process (x' n)).2) rfl]
  simp only [Envelope.process, h3, h4, h5, h6, h7, h8, h n]

example [Libm F32] (n : ℕ) : modOut Modifier.process (fun n => if n % 2 = 0 then (lit 1 : F32) else lit (-1)) (Envelope.new F64 (lit 100 : F32) (lit 1000)) n =
    modOut Modifier.process (fun _ => (lit 1 : F32)) (Envelope.new F64 (lit 100 : F32) (lit 1000)) n :=
  C71_magnitude _ _ _ _ (fun n => by split_ifs <;> decide +kernel) n

end Verif
