import Verif.Props.Osc
import Verif.Props.Sine
import Verif.Proofs.Resampler

/-! # Frequencies below zero and above half the sample rate: C156 -/

namespace Verif
open Fl

/-! ## What holds -/

private def TriInv (g : Triangle F64) : Prop := g.irate.In (-2) 2 ∧ g.inc.In (-1) 1

private theorem tri_step (g : Triangle F64) (h : TriInv g) : TriInv (g.process : F32 × _).2 := by
  obtain ⟨⟨r, hr, r0, r1⟩, ⟨i, hi, i0, i1⟩⟩ := h
  have hs := Is.add hi hr (fits64' 2 (by norm_num) (abs_le.mpr ⟨by norm_num; linarith, by norm_num; linarith⟩))
  have b := rnd_in (f := b64) (lo := -3) (hi := 3) (by linarith : (-3 : ℚ) ≤ i + r) (by linarith)
    (by exact_mod_cast Fmt.repr64_int (n := -3) (by norm_num)) (by exact_mod_cast Fmt.repr64_int (n := 3) (by norm_num))
  set s := b64.rnd (i + r)
  have hm1 : b64.Repr (-1) := by exact_mod_cast Fmt.repr64_int (n := -1) (by norm_num)
  have h1' : b64.Repr 1 := by exact_mod_cast Fmt.repr64_int (n := 1) (by norm_num)
  unfold Triangle.process
  simp only [Is.le lit64_1 hs, Is.le hs lit64_1.neg]
  by_cases h1 : 1 ≤ s
  · simp only [h1, decide_true, Bool.true_or, if_true]
    refine ⟨⟨-r, hr.neg, by linarith, by linarith⟩, ?_⟩
    have hd := Is.sub lit64_2 hs (fits64' 2 (by norm_num) (abs_le.mpr ⟨by norm_num; linarith, by norm_num; linarith⟩))
    have b' := rnd_in (f := b64) (lo := -1) (hi := 1) (by linarith : (-1 : ℚ) ≤ 2 - s) (by linarith) hm1 h1'
    exact ⟨_, hd, b'.1, b'.2⟩
  · by_cases h2 : s ≤ -1
    · simp only [h1, h2, decide_true, Bool.or_true, if_true, decide_false, Bool.false_eq_true, if_false]
      refine ⟨⟨-r, hr.neg, by linarith, by linarith⟩, ?_⟩
      have hd := Is.sub lit64_2.neg hs (fits64' 2 (by norm_num) (abs_le.mpr ⟨by norm_num; linarith, by norm_num; linarith⟩))
      have b' := rnd_in (f := b64) (lo := -1) (hi := 1) (by linarith : (-1 : ℚ) ≤ -2 - s) (by linarith) hm1 h1'
      exact ⟨_, hd, b'.1, b'.2⟩
    · simp only [h1, h2, decide_false, Bool.or_false, Bool.false_eq_true, if_false]
      exact ⟨⟨r, hr, r0, r1⟩, ⟨_, hs, (not_le.mp h2).le, (not_le.mp h1).le⟩⟩

private theorem tri_rate {f : F64} (hf : f.In (-24000) 24000) : (lit 4 * f * invSR).In (-2) 2 := by
  obtain ⟨q, hq, h0, h1⟩ := hf
  have hr : b64.Repr 96000 := by exact_mod_cast Fmt.repr64_int (n := 96000) (by norm_num)
  have hm := Is.mul lit64_4 hq (fits64' 20 (by norm_num) (abs_le.mpr ⟨by norm_num; linarith, by norm_num; linarith⟩))
  obtain ⟨g0, g1⟩ := rnd_in (lo := -96000) (hi := 96000) (by linarith : (-96000 : ℚ) ≤ 4 * q) (by linarith) (b64.repr_neg hr) hr
  set p := b64.rnd (4 * q)
  have i0 := isr64_bounds
  have hp1 : p * isr64 ≤ 96000 * isr64 := mul_le_mul_of_nonneg_right g1 i0.1.le
  have hp0 : -(96000 * isr64) ≤ p * isr64 := by nlinarith
  have hm2 := Is.mul hm invSR64 (fits64' 20 (by norm_num) (abs_le.mpr ⟨by norm_num; linarith [i0.2], by norm_num; linarith [i0.2]⟩))
  have top : b64.rnd (96000 * isr64) ≤ 2 := by decide +kernel
  refine ⟨_, hm2, ?_, (b64.rnd_mono hp1).trans top⟩
  have := b64.rnd_mono hp0
  rw [b64.rnd_neg] at this
  linarith

/-- IEEE: a Triangle may be modulated through zero: after any history with frequencies in `[-24000, 24000]` every sample is
in `[-1,1]`. Missing, because false: the other generators below zero, and all of them far enough above 24 kHz. -/
theorem C156_triangle_partial (f : F64) (hf : f.In (-24000) 24000) (cs : List (GenCall F64)) (hcs : FreqsOk (fun f => f.In (-24000) 24000) cs) :
    (((Triangle.new f).run F32 cs).process.1 : F32).In (-1) 1 := by
  have h := runCalls_inv (step := fun g : Triangle F64 => (g.process : F32 × _).2) (set := Triangle.setFrequency) TriInv
    tri_step (fun g f' hf' hg => ⟨tri_rate hf', hg.2⟩) cs hcs
    (Triangle.new f) ⟨tri_rate hf, ⟨0, lit64_0, by norm_num, by norm_num⟩⟩
  have := down_in (n := 1) (by norm_num) (by exact_mod_cast h.2)
  have e : (((Triangle.new f).run F32 cs).process.1 : F32) = SM.down ((Triangle.new f).run F32 cs).inc := by
    unfold Triangle.process; simp only; split_ifs <;> rfl
  rw [e]
  exact_mod_cast this

example : (((Triangle.new (lit 440 : F64)).run F32 [.process, .setFrequency (lit (-880)), .process]).process.1 : F32).In (-1) 1 := by
  refine C156_triangle_partial _ ⟨440, lit64_nat (n := 440) (by norm_num), by norm_num, by norm_num⟩ _ ?_
  intro f hf
  simp at hf
  subst hf
  exact ⟨-880, by decide +kernel, by norm_num, by norm_num⟩

/-! ## Sawtooth -/

private theorem saw_new (f : ℝ) : Sawtooth.new f = ⟨f / 24000, 0⟩ := by
  unfold Sawtooth.new
  real_simp
  congr 1
  ring

private theorem saw_down {r : ℝ} (hr : r ≤ 0) : ∀ (n : ℕ) (x : ℝ), x < 1 → after (S := ℝ) Sawtooth.process n ⟨r, x⟩ = ⟨r, x + n * r⟩ := by
  intro n
  induction n with
  | zero => intro x _; simp
  | succ n ih =>
    intro x hx
    rw [after_succ']
    have : (Sawtooth.process ⟨r, x⟩ : ℝ × Sawtooth ℝ).2 = ⟨r, x + r⟩ := by
      unfold Sawtooth.process
      real_simp
      rw [if_neg (by linarith)]
    rw [this, ih _ (by linarith)]
    congr 1
    push_cast
    ring

private theorem saw_back {r : ℝ} (hr : 0 ≤ r) : ∀ (n : ℕ) (x : ℝ), x + n * r < 1 → after (S := ℝ) Sawtooth.process n ⟨r, x⟩ = ⟨r, x + n * r⟩ := by
  intro n
  induction n with
  | zero => intro x _; simp
  | succ n ih =>
    intro x hx
    push_cast at hx
    rw [after_succ']
    have h0 : 0 ≤ n * r := by positivity
    have : (Sawtooth.process ⟨r, x⟩ : ℝ × Sawtooth ℝ).2 = ⟨r, x + r⟩ := by
      unfold Sawtooth.process
      real_simp
      rw [if_neg (by linarith)]
    rw [this, ih _ (by linarith)]
    congr 1
    push_cast
    ring

/-- The property fails (exact arithmetic): below zero, a sawtooth falls for ever; above the sample rate, it rises for ever. -/
theorem C156_sawtooth_violated (f : ℝ) (n : ℕ) :
    (f < 0 → nth (S := ℝ) Sawtooth.process (Sawtooth.new f) n = n * f / 24000) ∧
    (48000 < f → nth (S := ℝ) Sawtooth.process (Sawtooth.new f) n = n * (f / 24000 - 2)) := by
  rw [saw_new]
  constructor
  · intro hf
    unfold nth
    rw [saw_down (by linarith) n 0 (by norm_num)]
    unfold Sawtooth.process
    real_simp
    ring
  · intro hf
    have h : ∀ n : ℕ, after (S := ℝ) Sawtooth.process n ⟨f / 24000, 0⟩ = ⟨f / 24000, n * (f / 24000 - 2)⟩ := by
      intro n
      induction n with
      | zero => simp
      | succ n ih =>
        rw [after_succ, ih]
        unfold Sawtooth.process
        real_simp
        have : 0 ≤ (n : ℝ) * (f / 24000 - 2) := mul_nonneg (by positivity) (by linarith)
        rw [if_pos (by linarith)]
        congr 1
        push_cast
        ring
    unfold nth
    rw [h]
    unfold Sawtooth.process
    real_simp

/-- Exact arithmetic: after `n` samples below zero a sawtooth set back to a positive frequency is out of range for as long
as it has been below. -/
theorem C156_sawtooth_return_violated {f : ℝ} (hf : 0 < f) (n m : ℕ) (hm : m ≤ n) :
    nth (S := ℝ) Sawtooth.process ((after (S := ℝ) Sawtooth.process n (Sawtooth.new (-f))).setFrequency f) m = -((n - m) * f / 24000) := by
  rw [saw_new, saw_down (by linarith) n 0 (by norm_num)]
  have e : (⟨-f / 24000, 0 + n * (-f / 24000)⟩ : Sawtooth ℝ).setFrequency f = ⟨f / 24000, -(n * (f / 24000))⟩ := by
    unfold Sawtooth.setFrequency
    real_simp
    congr 1 <;> ring
  have hmn : (m : ℝ) ≤ n := by exact_mod_cast hm
  have : 0 ≤ (n - m : ℝ) * (f / 24000) := mul_nonneg (by linarith) (by positivity)
  unfold nth
  rw [e, saw_back (by positivity) m _ (by linarith)]
  unfold Sawtooth.process
  real_simp
  ring

/-- In `f32`: a sawtooth at -6000 Hz after 8 samples, at 60 kHz after 3, a Triangle at 30 kHz after 3. -/
theorem C156_f32_violated : (nth Sawtooth.process (Sawtooth.new (lit (-6000) : F64)) 8 : F32).Is (-2) ∧
    (nth Sawtooth.process (Sawtooth.new (lit 60000 : F64)) 3 : F32).Is (3 / 2) ∧
    (nth Triangle.process (Triangle.new (lit 30000 : F64)) 3 : F32).Is (-(3 / 2)) := by decide +kernel

/-! ## Triangle -/

/-- The property fails (exact arithmetic): above 24 kHz a Triangle swings further with every sample. -/
theorem C156_triangle_violated {f : ℝ} (hf : 24000 < f) (n : ℕ) :
    nth (S := ℝ) Triangle.process (Triangle.new f) n = (-1) ^ n * (n * (f / 12000 - 2)) := by
  have h : ∀ n : ℕ, after (S := ℝ) Triangle.process n (Triangle.new f) = ⟨(-1) ^ n * (f / 12000), (-1) ^ n * (n * (f / 12000 - 2))⟩ := by
    intro n
    induction n with
    | zero =>
      rw [after_zero]
      unfold Triangle.new
      real_simp
      congr 1
      · ring
      · simp
    | succ n ih =>
      rw [after_succ, ih]
      have h0 : 0 ≤ (n : ℝ) * (f / 12000 - 2) := mul_nonneg (by positivity) (by linarith)
      unfold Triangle.process
      real_simp
      rcases neg_one_pow_eq_or ℝ n with e | e
      · rw [e, pow_succ, e, if_pos (Or.inl (by linarith)), if_pos (by linarith)]
        push_cast
        congr 1 <;> ring
      · rw [e, pow_succ, e, if_pos (Or.inr (by linarith)), if_neg (by linarith)]
        push_cast
        congr 1 <;> ring
  unfold nth
  rw [h]
  unfold Triangle.process
  real_simp
  split_ifs <;> rfl

/-! ## Square -/

/-- The property fails (exact arithmetic): below zero and above the sample rate a Square stands still at 1. -/
theorem C156_square_violated {f : ℝ} (hf : f < 0 ∨ 48000 < f) (n : ℕ) : nth (S := ℝ) Square.process (Square.new f) n = 1 := by
  have hinv : (Square.new f).inv = 24000 / f := by
    have : f ≠ 0 := by rcases hf with h | h <;> intro e <;> rw [e] at h <;> norm_num at h
    unfold Square.new; real_simp; field_simp; norm_num
  have h2 : 2 * (24000 / f) < 1 := by
    rcases hf with h | h
    · have : 24000 / f < 0 := div_neg_of_pos_of_neg (by norm_num) h
      linarith
    · rw [← mul_div_assoc, div_lt_one (by linarith)]; linarith
  have h : ∀ n : ℕ, (after (S := ℝ) Square.process n (Square.new f)).inv = 24000 / f ∧
      (if n = 0 then (after (S := ℝ) Square.process n (Square.new f)).ind = 0 else 1 ≤ (after (S := ℝ) Square.process n (Square.new f)).ind) := by
    intro n
    induction n with
    | zero => exact ⟨hinv, by simp [Square.new, real_lit]⟩
    | succ n ih =>
      rw [after_succ]
      obtain ⟨i1, i2⟩ := ih
      generalize after (S := ℝ) Square.process n (Square.new f) = g at i1 i2
      refine ⟨i1, ?_⟩
      rw [if_neg (by omega)]
      unfold Square.process
      real_simp
      rw [i1]
      by_cases hn : n = 0
      · rw [if_pos hn] at i2
        rw [i2]
        split_ifs <;> linarith
      · rw [if_neg hn] at i2
        rw [if_pos (by linarith)]
        linarith
  obtain ⟨i1, i2⟩ := h n
  unfold nth
  generalize after (S := ℝ) Square.process n (Square.new f) = g at i1 i2
  unfold Square.process
  real_simp
  rw [i1, if_neg]
  rintro ⟨a, b⟩
  by_cases hn : n = 0
  · rw [if_pos hn] at i2
    rw [i2] at a b
    linarith
  · rw [if_neg hn] at i2
    linarith

/-! ## Sine -/

private theorem wt (i : ℕ) (h : i < 4800) : Sine.wavetable ℝ (M := ℝ) i = some (Real.sin (2 * Real.pi / 4800 * i)) := by
  unfold Sine.wavetable
  rw [if_pos (show i < WAVETABLE_SIZE from h)]
  real_simp
  congr 2
  simp only [WAVETABLE_FREQ]
  push_cast
  ring

private theorem wsize : (WAVETABLE_SIZE : ℝ) = 4800 := by norm_num [WAVETABLE_SIZE, SAMPLE_RATE, WAVETABLE_FREQ]

private theorem toUsize_nonpos {x : ℝ} (h : x ≤ 0) : toUsize x = 0 := by
  rcases h.lt_or_eq with h | h
  · exact real_toUsize_neg h
  · rw [h, real_toUsize_nonneg le_rfl (by norm_num)]; simp

/-- Left of the table the Sine reads its first entry, 0. -/
private theorem sine_left {x c : ℝ} (hx : x ≤ 0) (hc : x + c < 4799) : (Sine.process (⟨x, c⟩ : Sine ℝ) : Res (ℝ × _)) = .ok (0, ⟨x + c, c⟩) := by
  unfold Sine.process
  real_simp
  have f0 : ⌊x⌋ ≤ 0 := Int.floor_nonpos hx
  have f0' : (⌊x⌋ : ℝ) ≤ 0 := by exact_mod_cast f0
  rw [wsize, if_neg (by linarith), toUsize_nonpos f0', wt 0 (by norm_num), if_neg (by norm_num; linarith)]
  rcases hx.lt_or_eq with h | h
  · have f1 : (⌊x⌋ : ℝ) + 1 ≤ 0 := by
      have : ⌊x⌋ < 0 := Int.floor_lt.mpr (by simpa using h)
      exact_mod_cast this
    rw [toUsize_nonpos f1, wt 0 (by norm_num)]
    simp
  · subst h
    have : toUsize ((⌊(0 : ℝ)⌋ : ℝ) + 1) = 1 := by
      rw [Int.floor_zero, real_toUsize_nonneg (by norm_num) (by norm_num)]; norm_num
    rw [this, wt 1 (by norm_num)]
    simp

private theorem sine_new (f : ℝ) : Sine.new f = ⟨0, f / 10⟩ := by
  unfold Sine.new
  real_simp
  norm_num [WAVETABLE_FREQ]

private theorem sine_run {c : ℝ} : ∀ (n : ℕ) (x : ℝ), x ≤ 0 → x + n * c ≤ 0 → afterR (S := ℝ) Sine.process n (⟨x, c⟩ : Sine ℝ) = .ok ⟨x + n * c, c⟩ := by
  intro n
  induction n with
  | zero => intro x _ _; simp [afterR]
  | succ n ih =>
    intro x hx hn
    push_cast at hn
    have h1 : x + c ≤ 0 := by
      rcases le_total c 0 with h | h
      · linarith
      · have : 0 ≤ n * c := by positivity
        linarith
    rw [afterR, sine_left hx (by linarith)]
    simp only
    rw [ih _ h1 (by linarith)]
    congr 2
    push_cast
    ring

/-- The property fails (exact arithmetic): below zero a Sine is silent; and after `n` samples below zero it stays silent
for as long when set back to a positive frequency. -/
theorem C156_sine_violated {f : ℝ} (hf : 0 < f) (n : ℕ) : nthR (S := ℝ) Sine.process (Sine.new (-f)) n = .ok 0 ∧
    ∃ g, afterR (S := ℝ) Sine.process n (Sine.new (-f)) = .ok g ∧ ∀ m < n, nthR (S := ℝ) Sine.process (g.setFrequency f) m = .ok 0 := by
  have h0 : 0 ≤ (n : ℝ) * (f / 10) := by positivity
  have h := sine_run (c := -f / 10) n 0 le_rfl (by linarith [show (n : ℝ) * (-f / 10) = -(n * (f / 10)) by ring])
  rw [← sine_new] at h
  have e0 : (0 : ℝ) + n * (-f / 10) = -(n * (f / 10)) := by ring
  rw [e0] at h
  refine ⟨?_, _, h, fun m hm => ?_⟩
  · unfold nthR
    rw [h]
    simp only
    rw [sine_left (by linarith) (by linarith)]
    rfl
  · have e : (⟨-(n * (f / 10)), -f / 10⟩ : Sine ℝ).setFrequency f = ⟨-(n * (f / 10)), f / 10⟩ := by
      unfold Sine.setFrequency
      real_simp
      norm_num [WAVETABLE_FREQ]
    have hmn : (m : ℝ) + 1 ≤ n := by exact_mod_cast hm
    have h1 : (m : ℝ) * (f / 10) + f / 10 ≤ n * (f / 10) := by
      have := mul_le_mul_of_nonneg_right hmn (show 0 ≤ f / 10 by positivity)
      linarith
    have h2 : 0 < f / 10 := by positivity
    unfold nthR
    rw [e, sine_run m _ (by linarith) (by linarith)]
    simp only
    rw [sine_left (by linarith) (by linarith)]
    rfl

private theorem nthR_succ {G S E : Type} (p : G → Except E (S × G)) (g : G) (n : ℕ) :
    nthR p g (n + 1) = match p g with | .error e => .error e | .ok (_, g') => nthR p g' n := by
  unfold nthR
  rw [afterR]
  rcases p g with e | ⟨y, g'⟩ <;> rfl

/-- After a panic there is nothing. -/
private theorem nthR_error_succ {G S E : Type} {p : G → Except E (S × G)} {e : E} : ∀ {n : ℕ} {g : G}, nthR p g n = .error e → nthR p g (n + 1) = .error e := by
  intro n
  induction n with
  | zero =>
    intro g h
    rw [nthR_succ]
    have h' : (p g).map Prod.fst = .error e := h
    rcases hp : p g with e' | ⟨y, g'⟩
    · rw [hp] at h'; exact h'
    · rw [hp] at h'; cases h'
  | succ n ih =>
    intro g h
    rw [nthR_succ] at h ⊢
    rcases hp : p g with e' | ⟨y, g'⟩
    · rw [hp] at h; exact h
    · rw [hp] at h; exact ih h

/-- The property fails (exact arithmetic): above the sample rate every Sine panics, when `n` times the excess over
48 kHz reaches 48 kHz, and not before. -/
theorem C156_sine_panic_violated {f : ℝ} (hf : 48000 < f) (n : ℕ) :
    (n * (f - 48000) < 48000 → ∃ y, nthR (S := ℝ) Sine.process (Sine.new f) n = .ok y) ∧
    (48000 ≤ n * (f - 48000) → nthR (S := ℝ) Sine.process (Sine.new f) n = .error .index) := by
  have hc : 4800 < f / 10 := by linarith
  rw [sine_new]
  -- one step from within the table
  have step : ∀ x : ℝ, 0 ≤ x → x < 4800 → ∃ y, (Sine.process (⟨x, f / 10⟩ : Sine ℝ) : Res (ℝ × _)) = .ok (y, ⟨x + (f / 10 - 4800), f / 10⟩) := by
    intro x h0 h1
    have hf0 : (0 : ℤ) ≤ ⌊x⌋ := Int.floor_nonneg.mpr h0
    have hf1 : ⌊x⌋ < 4800 := Int.floor_lt.mpr (by exact_mod_cast h1)
    have hf0' : (0 : ℝ) ≤ ⌊x⌋ := by exact_mod_cast hf0
    have hf1' : (⌊x⌋ : ℝ) < 4800 := by exact_mod_cast hf1
    unfold Sine.process
    real_simp
    have e0 : toUsize (⌊x⌋ : ℝ) = ⌊x⌋.toNat := by
      rw [real_toUsize_nonneg hf0' (by norm_num; linarith), Int.floor_intCast]
    rw [wsize, e0, wt _ (by omega), if_pos (show (4800 : ℝ) - 1 ≤ x + f / 10 by linarith)]
    have e1 : ∃ k : ℕ, k < 4800 ∧ toUsize (if (4800 : ℝ) ≤ ⌊x⌋ + 1 then 0 else (⌊x⌋ + 1 : ℝ)) = k := by
      split_ifs with h
      · exact ⟨0, by norm_num, toUsize_nonpos le_rfl⟩
      · refine ⟨(⌊x⌋ + 1).toNat, ?_, ?_⟩
        · have : ⌊x⌋ + 1 < 4800 := by exact_mod_cast (not_le.mp h)
          omega
        · rw [show (⌊x⌋ + 1 : ℝ) = ((⌊x⌋ + 1 : ℤ) : ℝ) by push_cast; ring,
            real_toUsize_nonneg (by push_cast; linarith) (by push_cast; norm_num; linarith), Int.floor_intCast]
    obtain ⟨k, hk, ek⟩ := e1
    rw [ek, wt k hk]
    rw [show x + f / 10 - 4800 = x + (f / 10 - 4800) by ring]
    exact ⟨_, rfl⟩
  have run : ∀ n : ℕ, n * (f / 10 - 4800) < 4800 + (f / 10 - 4800) → afterR (S := ℝ) Sine.process n (⟨0, f / 10⟩ : Sine ℝ) = .ok ⟨n * (f / 10 - 4800), f / 10⟩ := by
    intro n
    induction n with
    | zero => intro _; simp [afterR]
    | succ n ih =>
      intro h
      push_cast at h
      obtain ⟨y, hy⟩ := step (n * (f / 10 - 4800)) (mul_nonneg (by positivity) (by linarith)) (by linarith)
      rw [afterR_succ (ih (by linarith)) hy]
      congr 2
      push_cast
      ring
  constructor
  · intro h
    obtain ⟨y, hy⟩ := step (n * (f / 10 - 4800)) (mul_nonneg (by positivity) (by linarith)) (by linarith)
    refine ⟨y, ?_⟩
    unfold nthR
    rw [run n (by linarith)]
    simp only [hy]
    rfl
  · -- the first sample outside the table panics, and so does every later one
    have out : ∀ x : ℝ, 4800 ≤ x → (Sine.process (⟨x, f / 10⟩ : Sine ℝ) : Res (ℝ × _)) = .error .index := by
      intro x hx
      have hk : ¬ toUsize (⌊x⌋ : ℝ) < WAVETABLE_SIZE := by
        have h1 : (4800 : ℤ) ≤ ⌊x⌋ := Int.le_floor.mpr (by exact_mod_cast hx)
        have h1' : (4800 : ℝ) ≤ ⌊x⌋ := by exact_mod_cast h1
        rw [real_toUsize_floor (by linarith), show WAVETABLE_SIZE = 4800 by decide]
        have : 4800 ≤ ⌊(⌊x⌋ : ℝ)⌋₊ := Nat.le_floor (by exact_mod_cast h1)
        omega
      unfold Sine.process
      real_simp
      simp only [Sine.wavetable, if_neg hk]
    have err : ∀ n : ℕ, 4800 ≤ n * (f / 10 - 4800) → nthR (S := ℝ) Sine.process (⟨0, f / 10⟩ : Sine ℝ) n = .error .index := by
      intro n
      induction n with
      | zero => intro h; norm_num at h
      | succ n ih =>
        intro h
        by_cases hn : n * (f / 10 - 4800) < 4800
        · unfold nthR
          rw [run (n + 1) (by push_cast; linarith)]
          simp only
          rw [out _ h]
          rfl
        · have := ih (not_lt.mp hn)
          exact nthR_error_succ this
    intro h
    exact err n (by linarith)

/-- In `f32`, whatever the math library: at 96 kHz the second sample of a Sine panics. -/
theorem C156_sine_f32_violated [Libm F64] : nthR (S := F32) Sine.process (Sine.new (lit 96000 : F64)) 1 = .error .index := by
  have h1 : ∃ y : F32, (Sine.new (lit 96000 : F64)).process = .ok (y, ⟨(lit 0 : F64) + lit 96000 / lit (WAVETABLE_FREQ : ℚ) - lit (WAVETABLE_SIZE : ℚ),
      lit 96000 / lit (WAVETABLE_FREQ : ℚ)⟩) := by
    have a : toUsize (Flt.floor (Sine.new (lit 96000 : F64)).ind) < WAVETABLE_SIZE := by decide +kernel
    have b : toUsize (if lit (WAVETABLE_SIZE : ℚ) ≤? Flt.floor (Sine.new (lit 96000 : F64)).ind + lit 1 then lit 0 else Flt.floor (Sine.new (lit 96000 : F64)).ind + lit 1) <
        WAVETABLE_SIZE := by decide +kernel
    have c : (lit (WAVETABLE_SIZE : ℚ) - lit 1 ≤? (Sine.new (lit 96000 : F64)).ind + (Sine.new (lit 96000 : F64)).inc) = true := by decide +kernel
    unfold Sine.process
    simp only [Sine.wavetable, if_pos a, if_pos b, if_pos c]
    exact ⟨_, rfl⟩
  obtain ⟨y, hy⟩ := h1
  unfold nthR
  rw [afterR, hy]
  simp only [afterR]
  have hk : ¬ toUsize (Flt.floor ((lit 0 : F64) + lit 96000 / lit (WAVETABLE_FREQ : ℚ) - lit (WAVETABLE_SIZE : ℚ))) < WAVETABLE_SIZE := by decide +kernel
  unfold Sine.process
  simp only [Sine.wavetable, if_neg hk]
  rfl

/-- Vibrato on a 100 Hz tone that dips to -50 Hz for a tenth of a second: silence for a fifth of a second. At 60 kHz the Sine panics at sample 4. -/
example : (∃ g, afterR (S := ℝ) Sine.process 4800 (Sine.new (-(50 : ℝ))) = .ok g ∧ ∀ m < 4800, nthR (S := ℝ) Sine.process (g.setFrequency 50) m = .ok 0) ∧
    nthR (S := ℝ) Sine.process (Sine.new (60000 : ℝ)) 4 = .error .index :=
  ⟨(C156_sine_violated (by norm_num) 4800).2, (C156_sine_panic_violated (f := 60000) (by norm_num) 4).2 (by norm_num)⟩

end Verif
