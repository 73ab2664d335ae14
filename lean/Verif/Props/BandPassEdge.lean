import Verif.Props.Retune
import Verif.Float.Fast

/-! # Settings at the edge of the band: C141 -/

namespace Verif
open Fl Filter Topology

/-! ## upper corner above half the sampling rate -/

private theorem tan_neg {h : ℝ} (h0 : 24000 < h) (h1 : h < 48000) : Real.tan (Real.pi * h / 48000) < 0 := by
  have hp := Real.pi_pos
  have e : Real.tan (Real.pi * h / 48000) = Real.tan (Real.pi * h / 48000 - Real.pi) := (Real.tan_sub_pi _).symm
  rw [e]
  exact Real.tan_neg_of_neg_of_pi_div_two_lt (by nlinarith) (by nlinarith)

private theorem pole_large {h : ℝ} (h0 : 24000 < h) (h1 : h < 48000) (hne : 1 + Real.tan (Real.pi * h / 48000) ≠ 0) : 1 < |bpPole h| := by
  have ht := tan_neg h0 h1
  unfold bpPole
  rw [abs_div, one_lt_div (abs_pos.mpr hne), ← sq_lt_sq]
  nlinarith

private theorem tan_ne {h : ℝ} (h0 : 24000 < h) (h1 : h < 48000) (h36 : h ≠ 36000) : 1 + Real.tan (Real.pi * h / 48000) ≠ 0 := by
  intro hc
  have hp := Real.pi_pos
  have e : Real.tan (Real.pi * h / 48000 - Real.pi) = Real.tan (-(Real.pi / 4)) := by
    rw [Real.tan_sub_pi, Real.tan_neg, Real.tan_pi_div_four]; linarith
  have := Real.injOn_tan (x₁ := Real.pi * h / 48000 - Real.pi) ⟨by nlinarith, by nlinarith⟩ (x₂ := -(Real.pi / 4)) ⟨by linarith, by linarith⟩ e
  apply h36
  have : Real.pi * (h - 36000) = 0 := by linarith
  rcases mul_eq_zero.mp this with h | h
  · linarith
  · linarith

/-- The property fails (exact arithmetic): every band pass with a centre up to 24 kHz that is so wide that its upper corner lies
between 24 and 48 kHz (other than 36 kHz, where the code divides by zero) turns a single pulse into an output that grows without bound. -/
theorem C141_wide_violated (f q : ℝ) (hf : 0 < f) (hf' : f ≤ 24000) (hq : 0 < q)
    (h0 : 24000 < f / (2 * q) + Real.sqrt ((f / (2 * q)) ^ 2 + f ^ 2)) (h1 : f / (2 * q) + Real.sqrt ((f / (2 * q)) ^ 2 + f ^ 2) < 48000)
    (h36 : f / (2 * q) + Real.sqrt ((f / (2 * q)) ^ 2 + f ^ 2) ≠ 36000) : ∃ y : ℕ → ℝ,
    (∀ n, modOut Modifier.process (fun n => if n = 0 then 1 else 0) (BandPass.new f q : BandPass ℝ ℝ) n = .ok (y n)) ∧ ∀ B, ∃ n, B < |y n| := by
  obtain ⟨l, h, hl, hlh, e1, e2, e3⟩ := corners_exist hf hq
  rw [← e3] at h0 h1 h36
  have e := bp_new hl hlh e1 e2
  set x : ℕ → ℝ := fun n => if n = 0 then 1 else 0 with hx
  obtain ⟨y, hy⟩ := bandpass_out (BandPass.new f q) (by rw [e]) (by rw [e]) (by rw [e]) (by rw [e]) x
  refine ⟨y, fun n => (hy n).1, ?_⟩
  have hlf : l < 24000 := by
    refine lt_of_lt_of_le ?_ hf'
    rw [e1, Real.lt_sqrt hl.le]
    nlinarith
  have hne := tan_ne h0 h1 h36
  have hb := pole_large h0 h1 hne
  have hc := bpPole_abs hl hlf
  have ht := tan_neg h0 h1
  have htl := tan_pos' hl hlf
  set A := (BandPass.new f q : BandPass ℝ ℝ).a0 with hA
  have hA0 : A ≠ 0 := by
    rw [hA, e]
    refine mul_ne_zero ?_ (one_div_ne_zero (by linarith))
    rw [show 1 - 1 / (1 + Real.tan (Real.pi * h / 48000)) = Real.tan (Real.pi * h / 48000) / (1 + Real.tan (Real.pi * h / 48000)) by field_simp; ring]
    exact div_ne_zero ht.ne hne
  have hb1 : (BandPass.new f q : BandPass ℝ ℝ).b1 = bpPole h + bpPole l := by rw [e]
  have hb2 : (BandPass.new f q : BandPass ℝ ℝ).b2 = bpPole h * bpPole l := by rw [e]
  set b := bpPole h
  set c := bpPole l
  have hr : ∀ n, y n = A * (x n - delayed 0 x 2 n) + (b + c) * delayed 0 y 1 n - b * c * delayed 0 y 2 n := by
    intro n; rw [← hb1, ← hb2]; exact (hy n).2
  -- the part of the output that belongs to the outer pole
  have y0 : y 0 = A := by have := hr 0; simpa [delayed, hx] using this
  have y1 : y 1 = (b + c) * A := by have := hr 1; simpa [delayed, hx, y0] using this
  have y2 : y 2 - c * y 1 = A * (b ^ 2 - 1) := by
    have := hr 2
    simp only [delayed, hx] at this
    norm_num at this
    rw [this, y1, y0]; ring
  have w : ∀ n, y (n + 2) - c * y (n + 1) = A * (b ^ 2 - 1) * b ^ n := by
    intro n
    induction n with
    | zero => rw [pow_zero, mul_one]; exact y2
    | succ n ih =>
      have := hr (n + 3)
      simp only [delayed, hx] at this
      rw [if_neg (by omega), if_neg (by omega), if_neg (by omega), if_neg (by omega), if_neg (by omega)] at this
      rw [show n + 3 - 1 = n + 2 by omega, show n + 3 - 2 = n + 1 by omega] at this
      show y (n + 3) - c * y (n + 2) = _
      rw [this, pow_succ b n, ← mul_assoc, ← ih]; ring
  intro B
  by_contra hcon
  push Not at hcon
  have hB : 0 ≤ B := (abs_nonneg _).trans (hcon 0)
  have hb2' : 0 < |A * (b ^ 2 - 1)| := by
    refine abs_pos.mpr (mul_ne_zero hA0 ?_)
    have : 1 < b ^ 2 := by rw [← sq_abs]; nlinarith
    linarith
  obtain ⟨n, hn⟩ := pow_unbounded_of_one_lt (2 * B / |A * (b ^ 2 - 1)|) hb
  have h5 : |y (n + 2) - c * y (n + 1)| ≤ 2 * B := by
    refine (abs_sub _ _).trans ?_
    rw [abs_mul]
    have h6 := hcon (n + 2)
    have h7 : |c| * |y (n + 1)| ≤ 1 * B := mul_le_mul hc.le (hcon (n + 1)) (abs_nonneg _) (by norm_num)
    linarith
  rw [w n, abs_mul, abs_pow] at h5
  rw [div_lt_iff₀ hb2'] at hn
  linarith

/-- 1 kHz with quality 1/26 has its upper corner at `13000 + √(13000² + 1000²)`, about 26 kHz. -/
example : ∃ y : ℕ → ℝ, (∀ n, modOut Modifier.process (fun n => if n = 0 then 1 else 0) (BandPass.new 1000 (1 / 26) : BandPass ℝ ℝ) n = .ok (y n)) ∧
    ∀ B, ∃ n, B < |y n| := by
  have e : (1000 : ℝ) / (2 * (1 / 26)) = 13000 := by norm_num
  have h0 : (13000 : ℝ) < Real.sqrt (13000 ^ 2 + 1000 ^ 2) := by rw [Real.lt_sqrt (by norm_num)]; norm_num
  have h1 : Real.sqrt (13000 ^ 2 + 1000 ^ 2 : ℝ) < 14000 := by rw [Real.sqrt_lt' (by norm_num)]; norm_num
  exact C141_wide_violated 1000 (1 / 26) (by norm_num) (by norm_num) (by norm_num) (by rw [e]; linarith) (by rw [e]; linarith)
    (by rw [e]; intro h; linarith)

/-! ## centre at zero -/

/-- The property fails (exact arithmetic): setting the centre of a playing band pass to 0 turns its tail into a straight line, which
grows without bound unless the last two outputs happened to be equal. -/
theorem C141_zero_centre_violated (m : BandPass ℝ ℝ) (hne : m.y1 ≠ m.y2) : ∃ y : ℕ → ℝ,
    (∀ n, modOut Modifier.process (fun _ => 0) (m.setCentralFrequency 0 : BandPass ℝ ℝ) n = .ok (y n)) ∧ ∀ B, ∃ n, B < |y n| := by
  have hc : ({ m with centralF := 0 } : BandPass ℝ ℝ).getCornerFrequencies = (0, 0) := by
    unfold BandPass.getCornerFrequencies BandPass.quadratic
    real_simp
    simp
  have e : m.setCentralFrequency 0 = { m with centralF := 0, a0 := 0, b1 := 2, b2 := 1 } := by
    unfold BandPass.setCentralFrequency
    rw [bandpass_reset _ hc]
    simp [bpPole]
    norm_num
  rw [e]
  set d := m.y1 - m.y2 with hd
  have d0 : d ≠ 0 := sub_ne_zero.mpr hne
  have key : ∀ n, ∃ u v, modAfter (E := Panic) Modifier.process (fun _ => (0 : ℝ)) ({ m with centralF := 0, a0 := 0, b1 := 2, b2 := 1 } : BandPass ℝ ℝ) n =
      .ok { m with centralF := 0, a0 := 0, b1 := 2, b2 := 1, x1 := u, x2 := v, y1 := m.y1 + n * d, y2 := m.y2 + n * d } := by
    intro n
    induction n with
    | zero => exact ⟨m.x1, m.x2, by simp [modAfter]⟩
    | succ n ih =>
      obtain ⟨u, v, h⟩ := ih
      refine ⟨0, u, ?_⟩
      rw [modAfter, h]
      show Except.ok (BandPass.process _ (0 : ℝ)).2 = _
      congr 1
      unfold BandPass.process
      real_simp
      congr 1
      · push_cast; rw [hd]; ring
      · push_cast; rw [hd]; ring
  refine ⟨fun n => m.y1 + (n + 1) * d, fun n => ?_, fun B => ?_⟩
  · obtain ⟨u, v, h⟩ := key n
    refine modOut_of (m'' := (BandPass.process { m with centralF := 0, a0 := 0, b1 := 2, b2 := 1, x1 := u, x2 := v, y1 := m.y1 + n * d, y2 := m.y2 + n * d } (0 : ℝ)).2) h ?_
    show Except.ok _ = Except.ok _
    congr 1
    refine Prod.ext ?_ rfl
    unfold BandPass.process
    real_simp
    rw [hd]; ring
  · obtain ⟨n, hn⟩ := exists_nat_gt ((B + |m.y1|) / |d|)
    refine ⟨n, ?_⟩
    have dp : 0 < |d| := abs_pos.mpr d0
    rw [div_lt_iff₀ dp] at hn
    have h1 : |((n : ℝ) + 1) * d| ≤ |m.y1 + (n + 1) * d| + |m.y1| := by
      have := abs_sub (m.y1 + (n + 1) * d) m.y1
      rwa [add_sub_cancel_left] at this
    rw [abs_mul, abs_of_pos (by positivity : (0 : ℝ) < n + 1)] at h1
    show B < |m.y1 + (n + 1) * d|
    linarith

/-- A band pass at 1 kHz that has put out 1/2 and then 1. -/
example := C141_zero_centre_violated { (BandPass.new 1000 1 : BandPass ℝ ℝ) with y1 := 1, y2 := 1 / 2 } (by norm_num)

/-! ## a corner at zero -/


private theorem div_nan {f : Fmt} (x : Fl f) : x / (.nan : Fl f) = .nan := by cases x <;> rfl
private theorem sub_nan {f : Fmt} (x : Fl f) : x - (.nan : Fl f) = .nan := by cases x <;> rfl
private theorem nan_div {f : Fmt} (x : Fl f) : (.nan : Fl f) / x = .nan := rfl

private theorem zero_div {x y : F64} (hx : x.Is 0) (hy : y.Is 0 ∨ y = .nan) : x / y = .nan := by
  rcases hy with hy | rfl
  · obtain ⟨s, h, rfl⟩ := is_iff.mp hx
    obtain ⟨t, h', rfl⟩ := is_iff.mp hy
    show (if (0 : ℚ) = 0 then (if (0 : ℚ) = 0 then (.nan : F64) else .inf (xor s t)) else ofQ (xor s t) (0 / 0)) = _
    rw [if_pos rfl, if_pos rfl]
  · exact div_nan x

section Nan
variable [Libm F64]

/-- Centre and quality zero: the gain becomes NaN. -/
private theorem reset_nan (htan : Libm.tan (.nan : F64) = .nan) {m : BandPass F32 F64} (hc : m.centralF.Is 0)
    (hq : m.quality.Is 0 ∨ m.quality = .nan) : m.reset.a0 = .nan := by
  have hb : -m.centralF / m.quality = .nan := zero_div (by simpa using hc.neg) hq
  have e : m.getCornerFrequencies = (.nan, .nan) := by
    unfold BandPass.getCornerFrequencies BandPass.quadratic
    simp only [hb]
    have h1 : (-(.nan : F64)) = .nan := rfl
    have h2 : ∀ y : F64, (.nan : F64) - y = .nan := fun y => rfl
    simp only [h1, h2, nan_add, nan_div, lt_nan_right, Bool.false_eq_true, if_false]
  unfold BandPass.reset
  simp only [e, mul_nan, nan_mul, htan, add_nan, div_nan, sub_nan]

omit [Libm F64] in
private theorem process_nan {m : BandPass F32 F64} (h : m.a0 = .nan) (x : F32) : (m.process x).1 = .nan := by
  unfold BandPass.process
  simp only [h, nan_mul, nan_add]
  rfl

omit [Libm F64] in
private theorem abs_zero_mul {f : F64} {q : ℚ} (hf : f.Is q) : (Flt.sqrt (Flt.abs (lit 0 * f)) : F64).Is 0 ∧ (Flt.sqrt (Flt.abs (f * lit 0)) : F64).Is 0 ∧
    (Flt.sqrt (lit 0 * f) : F64).Is 0 ∧ (Flt.sqrt (f * lit 0) : F64).Is 0 := by
  have r0 : b64.rnd 0 = 0 := by decide +kernel
  have f0 : b64.Fits 0 := fits64' 0 (by norm_num) (by norm_num)
  have h1 := Is.mul lit64_0 hf (by rw [zero_mul]; exact f0)
  have h2 := Is.mul hf lit64_0 (by rw [mul_zero]; exact f0)
  rw [zero_mul, r0] at h1
  rw [mul_zero, r0] at h2
  have hs : ∀ z : F64, z.Is 0 → (Flt.sqrt z : F64).Is 0 := by
    intro z hz
    obtain ⟨s, h, rfl⟩ := is_iff.mp hz
    show Fl.Is (if (0 : ℚ) < 0 then Fl.nan else if (0 : ℚ) = 0 then Fl.fin s 0 h else ofQ false (sqrtQ b64 0)) 0
    rw [if_neg (lt_irrefl _), if_pos rfl]
    rfl
  exact ⟨hs _ (by simpa using h1.abs), hs _ (by simpa using h2.abs), hs _ h1, hs _ h2⟩

omit [Libm F64] in
private theorem zero_div_any {x y : F64} {q : ℚ} (hx : x.Is 0) (hy : y.Is q) : (x / y).Is 0 ∨ x / y = .nan := by
  by_cases h : q = 0
  · subst h; exact .inr (zero_div hx (.inl hy))
  · have := Is.div hx hy h (by rw [_root_.zero_div]; exact fits64' 0 (by norm_num) (by norm_num))
    rw [_root_.zero_div, show b64.rnd 0 = 0 by decide +kernel] at this
    exact .inl this

/-- IEEE: a band pass whose lower corner is set to 0 (a natural way to ask for a low pass) puts out nothing but NaN from then on,
and setting other corners later does not help. The only thing assumed of the math library is that the tangent of NaN is NaN. -/
theorem C141_zero_corner_violated (htan : Libm.tan (.nan : F64) = .nan) {f : F64} {v : ℚ} (hf : f.Is v) (x : ℕ → F32) :
    (∀ n, modOut Modifier.process x (BandPass.fromCorners (lit 0, f) : BandPass F32 F64) n = .ok .nan) ∧
    (∀ n, modOut Modifier.process x (BandPass.fromCorners (f, lit 0) : BandPass F32 F64) n = .ok .nan) ∧
    ∀ (m : BandPass F32 F64) (q : ℕ → F64 × F64) (k n : ℕ), q k = (lit 0, f) → k ≤ n →
      ∃ y, tunedOut BandPass.setCornerFrequencies Modifier.process q x m n = (.ok y : Res F32) ∧ ¬ y.Finite := by
  obtain ⟨s1, s2, s3, -⟩ := abs_zero_mul hf
  have sub1 : (Flt.abs (f - lit 0) : F64).Is |b64.rnd (v - 0)| :=
    (Is.sub hf lit64_0 (by rw [sub_zero]; exact hf.fits)).abs
  have sub2 : (Flt.abs (lit 0 - f) : F64).Is |b64.rnd (0 - v)| :=
    (Is.sub lit64_0 hf (by rw [zero_sub]; exact hf.fits.neg)).abs
  have run : ∀ m : BandPass F32 F64, m.a0 = .nan → ∀ n, modOut Modifier.process x m n = (.ok .nan : Res F32) := by
    intro m hm n
    obtain ⟨s, h1, h2⟩ := modAfter_inv (E := Panic) (p := Modifier.process) (x := x) (fun s : BandPass F32 F64 => s.a0 = .nan)
      (fun s z h => ⟨(s.process z).1, (s.process z).2, rfl, h⟩) hm n
    refine modOut_of (m'' := (s.process (x n)).2) h1 ?_
    show Except.ok (s.process (x n)) = _
    rw [← process_nan h2 (x n)]
  refine ⟨run _ (reset_nan htan s1 (zero_div_any s1 sub1)), run _ (reset_nan htan s2 (zero_div_any s2 sub2)), fun m q k n hk hn => ?_⟩
  obtain ⟨s, -, hs, -, ho⟩ := tuned_exists (E := Panic) BandPass.setCornerFrequencies BandPass.process q x m
  refine ⟨_, ho n, ?_⟩
  have start : (((s k).setCornerFrequencies (q k)).process (x k)).1 = .nan := by
    rw [hk]
    exact process_nan (reset_nan htan (m := { (s k) with centralF := _, quality := _ }) s3 (zero_div_any s3 sub2)) _
  have y1 : ∀ j, (s (j + 1)).y1 = (((s j).setCornerFrequencies (q j)).process (x j)).1 := fun j => by rw [hs]; rfl
  have step : ∀ j, (s j).y1 = .nan → (((s j).setCornerFrequencies (q j)).process (x j)).1 = .nan := by
    intro j h
    have : ((s j).setCornerFrequencies (q j)).y1 = .nan := h
    unfold BandPass.process
    simp only [this]
    rw [show (SM.up (.nan : F32) : F64) = .nan from rfl, mul_nan, add_nan]
    rfl
  suffices h : ∀ n, k ≤ n → (((s n).setCornerFrequencies (q n)).process (x n)).1 = .nan by
    rw [h n hn]; exact not_finite_iff.mpr (.inl rfl)
  intro n hn
  induction n, hn using Nat.le_induction with
  | base => exact start
  | succ n _ ih => exact step _ (by rw [y1]; exact ih)

end Nan

/-- A library with that property, and corners 0 and 200 Hz. -/
example (x : ℕ → F32) (n : ℕ) : modOut Modifier.process x (@BandPass.fromCorners F32 F64 _ _ _ ⟨id, id, id, id, fun x _ => x⟩ (lit 0, lit 200)) n =
    (.ok .nan : Res F32) :=
  let _ : Libm F64 := ⟨id, id, id, id, fun x _ => x⟩
  (C141_zero_corner_violated rfl (f := lit 200) (v := 200) (by decide +kernel) x).1 n

/-! ## corners inside the band -/

/-- What holds (exact arithmetic): setting any two different corners between 0 and 24 kHz is safe at any time: whatever state the
filter is in, the output for a bounded input stays bounded. Missing: corners outside, where it is false. -/
theorem C141_partial {a b : ℝ} (ha : 0 < a) (hb : 0 < b) (hab : a ≠ b) (ha' : a < 24000) (hb' : b < 24000) (m : BandPass ℝ ℝ) (x : ℕ → ℝ) {B : ℝ}
    (hx : ∀ n, |x n| ≤ B) : ∃ K, ∀ n, ∃ y, tunedOut BandPass.setCornerFrequencies Modifier.process (fun _ => (a, b)) x m n = (.ok y : Res ℝ) ∧ |y| ≤ K := by
  obtain ⟨y, u, h1, h2, h3⟩ := C135_bandpass_partial ha hb hab ha' hb' (q := fun _ => (a, b)) (N := 0) (fun _ _ => rfl) x m
  obtain ⟨K, hK⟩ := C63_bandpass_corners a b ha hb hab ha' hb'
  have hbd : ∃ C, ∀ n, |y n - u n| ≤ C := by
    obtain ⟨C, hC⟩ := (Metric.isBounded_range_of_tendsto _ h3).exists_norm_le
    exact ⟨C, fun n => hC _ ⟨n, rfl⟩⟩
  obtain ⟨C, hC⟩ := hbd
  refine ⟨C + K * B, fun n => ⟨y n, h1 n, ?_⟩⟩
  obtain ⟨v, hv, hvK⟩ := hK x B hx n
  have : v = u n := by have := hv.symm.trans (h2 n); injection this
  subst this
  have := abs_add_le (y n - u n) (u n)
  rw [sub_add_cancel] at this
  linarith [hC n]

example (m : BandPass ℝ ℝ) := C141_partial (a := 400) (b := 3600) (by norm_num) (by norm_num) (by norm_num) (by norm_num) (by norm_num) m
  (fun n => if n % 2 = 0 then 1 else -1) (B := 1) (fun n => by split_ifs <;> norm_num)

end Verif
