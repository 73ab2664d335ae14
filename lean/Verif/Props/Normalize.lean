import Verif.Proofs.Mean
import Verif.Model.ArithReal

/-! # normalize: C23, C24 -/

namespace Verif
open Fl

/-! ## C23 exact arithmetic -/

/-- Mean of a track. -/
noncomputable def mean (t : List ℝ) : ℝ := t.sum / t.length

private theorem foldl_add (t : List ℝ) (a : ℝ) : t.foldl (fun x s => x + s) a = a + t.sum := by
  induction t generalizing a with
  | nil => simp
  | cons x t ih => rw [List.foldl_cons, ih, List.sum_cons]; ring

private theorem foldl_max (f : ℝ → ℝ) (t : List ℝ) (a : ℝ) :
    let r := t.foldl (fun mx s => if mx < f s then f s else mx) a
    a ≤ r ∧ (∀ s ∈ t, f s ≤ r) ∧ (r = a ∨ ∃ s ∈ t, r = f s) := by
  induction t generalizing a with
  | nil => simp
  | cons x t ih =>
    intro r
    obtain ⟨h1, h2, h3⟩ := ih (if a < f x then f x else a)
    have hr : r = t.foldl (fun mx s => if mx < f s then f s else mx) (if a < f x then f x else a) := rfl
    rw [← hr] at h1 h2 h3
    have ha : a ≤ r := by
      refine le_trans ?_ h1
      split_ifs with h
      · exact h.le
      · exact le_refl _
    have hx : f x ≤ r := by
      refine le_trans ?_ h1
      split_ifs with h
      · exact le_refl _
      · exact not_lt.mp h
    refine ⟨ha, ?_, ?_⟩
    · intro s hs
      rcases List.mem_cons.mp hs with rfl | hs
      · exact hx
      · exact h2 s hs
    · rcases h3 with h3 | ⟨s, hs, h3⟩
      · split_ifs at h3
        · exact .inr ⟨x, List.mem_cons_self .., h3⟩
        · exact .inl h3
      · exact .inr ⟨s, List.mem_cons_of_mem _ hs, h3⟩

private theorem normalize_real (db : ℝ) (t : List ℝ) :
    normalize db t = t.map fun s => (s - mean t) *
      (dbToLinear db / t.foldl (fun mx s => if mx < |s - mean t| then |s - mean t| else mx) 0) := by
  unfold normalize
  real_simp
  rw [foldl_add, zero_add]
  rfl

/-- After `normalize` on a track with two different samples: same length, each sample is the
de-meaned input times one positive constant, the mean is 0 and the peak is exactly the requested gain. -/
theorem C23_normalize (db : ℝ) (t : List ℝ) (h : ∃ a ∈ t, ∃ b ∈ t, a ≠ b) :
    (normalize db t).length = t.length ∧
    (∃ c > 0, normalize db t = t.map fun s => (s - mean t) * c) ∧
    (normalize db t).sum = 0 ∧
    (∀ y ∈ normalize db t, |y| ≤ dbToLinear db) ∧ (∃ y ∈ normalize db t, |y| = dbToLinear db) := by
  have hG : 0 < dbToLinear db := by
    unfold dbToLinear; real_simp; exact Real.rpow_pos_of_pos (by norm_num) _
  rw [normalize_real]
  obtain ⟨h1, h2, h3⟩ := foldl_max (fun s => |s - mean t|) t 0
  generalize t.foldl (fun mx s => if mx < |s - mean t| then |s - mean t| else mx) 0 = m at *
  have hm : 0 < m := by
    rcases h1.lt_or_eq with h0 | h0
    · exact h0
    · exfalso
      obtain ⟨a, ha, b, hb, hab⟩ := h
      have e1 := h2 a ha
      have e2 := h2 b hb
      rw [← h0] at e1 e2
      have e1' := abs_eq_zero.mp (le_antisymm e1 (abs_nonneg _))
      have e2' := abs_eq_zero.mp (le_antisymm e2 (abs_nonneg _))
      exact hab (by linarith)
  have hc : 0 < dbToLinear db / m := div_pos hG hm
  refine ⟨by simp, ⟨_, hc, rfl⟩, ?_, ?_, ?_⟩
  · have hlen : (t.length : ℝ) ≠ 0 := by
      obtain ⟨a, ha, -⟩ := h
      have := List.length_pos_of_mem ha
      positivity
    have key : ∀ (l : List ℝ) (μ c : ℝ), (l.map fun s => (s - μ) * c).sum = (l.sum - l.length * μ) * c := by
      intro l μ c
      induction l with
      | nil => simp
      | cons x l ih => simp only [List.map_cons, List.sum_cons, ih, List.length_cons]; push_cast; ring
    rw [key, mean, mul_div_cancel₀ _ hlen, sub_self, zero_mul]
  · intro y hy
    obtain ⟨s, hs, rfl⟩ := List.mem_map.mp hy
    rw [abs_mul, abs_of_pos hc, mul_div_assoc', div_le_iff₀ hm, mul_comm]
    exact mul_le_mul_of_nonneg_left (h2 s hs) hG.le
  · rcases h3 with h3 | ⟨s, hs, h3⟩
    · exact absurd h3 hm.ne'
    · refine ⟨_, List.mem_map_of_mem hs, ?_⟩
      rw [abs_mul, abs_of_pos hc, ← h3]
      field_simp

example : ∃ a ∈ [(1 : ℝ), 2, 5], ∃ b ∈ [(1 : ℝ), 2, 5], a ≠ b := ⟨1, by simp, 2, by simp, by norm_num⟩

/-! ## C24 IEEE -/

private theorem zero_mul_div_zero (x : F32) : (lit 0 : F32) * (x / lit 0) = .nan := by
  have h0 : ∃ h, (lit 0 : F32) = .fin false 0 h := ⟨by
    refine ⟨b32.repr_zero, ?_, ?_, ?_⟩ <;> simp [pow2_pos], by decide +kernel⟩
  obtain ⟨h, e⟩ := h0
  rw [e]
  cases x with
  | nan => rfl
  | inf s => 
    show Fl.mul _ (Fl.inf (xor s false)) = _
    simp [Fl.mul]
  | fin s q hq =>
    show Fl.mul _ (if (0 : ℚ) = 0 then (if q = 0 then (.nan : F32) else .inf (xor s false)) else ofQ (xor s false) (q / 0)) = _
    rw [if_pos rfl]
    split_ifs
    · rfl
    · simp [Fl.mul]

/-- A silent track of any positive length (up to 2^64 samples) becomes all NaN, whatever the level and
the math library. -/
theorem C24_silent_violated [Libm F64] (db : F64) (n : ℕ) (h1 : 1 ≤ n) (h2 : n < 2 ^ 64) :
    normalize db (List.replicate n (lit 0 : F32)) = List.replicate n .nan := by
  have e1 : ∀ k, (List.replicate k (lit 0 : F32)).foldl (fun dc s => dc + s) (lit 0) = lit 0 := by
    intro k
    induction k with
    | zero => rfl
    | succ k ih =>
      rw [List.replicate_succ, List.foldl_cons, show (lit 0 : F32) + lit 0 = lit 0 by decide +kernel, ih]
  have e2 : (lit 0 : F32) / lit (n : ℚ) = lit 0 := by
    obtain ⟨r, hr, r0, -⟩ := len32 n (by omega) h2
    obtain ⟨s, h', e⟩ := is_iff.mp hr
    have hs : s = false := h'.2.2.2 r0
    subst hs
    have h0 : ∃ h, (lit 0 : F32) = .fin false 0 h := ⟨by
      refine ⟨b32.repr_zero, ?_, ?_, ?_⟩ <;> simp [pow2_pos], by decide +kernel⟩
    obtain ⟨h, e'⟩ := h0
    rw [e]
    nth_rw 1 [e']
    show (if r = 0 then _ else (ofQ (xor false false) (0 / r) : F32)) = _
    rw [if_neg r0.ne', zero_div]
    rfl
  have e3 : ∀ k, (List.replicate k (lit 0 : F32)).foldl (fun mx s =>
      if mx <? Flt.abs (s - lit 0) then Flt.abs (s - lit 0) else mx) (lit 0) = lit 0 := by
    intro k
    induction k with
    | zero => rfl
    | succ k ih =>
      rw [List.replicate_succ, List.foldl_cons,
        show (if (lit 0 : F32) <? Flt.abs ((lit 0 : F32) - lit 0) then Flt.abs ((lit 0 : F32) - lit 0) else lit 0)
          = lit 0 by decide +kernel, ih]
  unfold normalize
  simp only [e1, List.length_replicate, e2, e3, List.map_replicate]
  rw [show (lit 0 : F32) - lit 0 = lit 0 by decide +kernel, zero_mul_div_zero]

/-- Hence the property fails. -/
theorem C24_normalize_violated [Libm F64] (db : F64) :
    ¬ ∀ t : List F32, (∀ s ∈ t, s.Finite) → ∀ y ∈ normalize db t, y ≠ .nan := by
  intro h
  have := C24_silent_violated db 2 (by norm_num) (by norm_num)
  refine h (List.replicate 2 (lit 0)) ?_ .nan (by rw [this]; simp) rfl
  intro s hs
  rw [List.eq_of_mem_replicate hs]
  exact ⟨0, lit32_0⟩

private theorem max_bound (t : List F32) (dc acc : F32) (d a : ℚ) (hdc : dc.Is d) (hd : |d| ≤ 1)
    (hacc : acc.Is a) (ha0 : 0 ≤ a) (ha : a ≤ 2) (ht : ∀ s ∈ t, ∃ q, s.Is q ∧ |q| ≤ 1) :
    ∃ m, (t.foldl (fun mx s => if mx <? Flt.abs (s - dc) then Flt.abs (s - dc) else mx) acc).Is m ∧
      a ≤ m ∧ m ≤ 2 ∧ (∀ s ∈ t, ∀ q, s.Is q → b32.rnd |q - d| ≤ m) ∧
      (m = a ∨ ∃ s ∈ t, ∃ q, s.Is q ∧ m = b32.rnd |q - d|) := by
  induction t generalizing acc a with
  | nil => exact ⟨a, hacc, le_refl _, ha, by simp, .inl rfl⟩
  | cons x t ih =>
    obtain ⟨q, hq, hq1⟩ := ht x (List.mem_cons_self ..)
    have hb : |q - d| ≤ 2 := (abs_sub _ _).trans (by linarith)
    have hs := (Is.sub hq hdc (fits32' 1 (by norm_num) (by simpa using hb))).abs
    rw [b32.abs_rnd] at hs
    have h2 : b32.rnd |q - d| ≤ 2 := by
      exact_mod_cast b32.rnd_le_repr (Fmt.repr32_int (n := 2) (by norm_num)) (by exact_mod_cast hb)
    have h0 : 0 ≤ b32.rnd |q - d| := b32.rnd_nonneg (abs_nonneg _)
    have hstep : ∃ a', (if acc <? Flt.abs (x - dc) then Flt.abs (x - dc) else acc).Is a' ∧ a ≤ a' ∧ a' ≤ 2 ∧
        b32.rnd |q - d| ≤ a' ∧ (a' = a ∨ a' = b32.rnd |q - d|) := by
      rw [hacc.lt hs]
      by_cases hlt : a < b32.rnd |q - d|
      · simp only [hlt, decide_true, if_true]
        exact ⟨_, hs, hlt.le, h2, le_refl _, .inr rfl⟩
      · simp only [hlt, decide_false, Bool.false_eq_true, if_false]
        exact ⟨_, hacc, le_refl _, ha, not_lt.mp hlt, .inl rfl⟩
    obtain ⟨a', g1, g2, g3, g4, g5⟩ := hstep
    obtain ⟨m, i1, i2, i3, i4, i5⟩ := ih _ a' g1 (ha0.trans g2) g3 (fun s hs => ht s (List.mem_cons_of_mem _ hs))
    refine ⟨m, i1, g2.trans i2, i3, ?_, ?_⟩
    · intro s hs' r hr
      rcases List.mem_cons.mp hs' with rfl | hs'
      · rw [hr.unique hq]; exact g4.trans i2
      · exact i4 s hs' r hr
    · rcases i5 with rfl | ⟨s, hs', r, hr, e⟩
      · rcases g5 with rfl | rfl
        · exact .inl rfl
        · exact .inr ⟨x, List.mem_cons_self .., q, hq, rfl⟩
      · exact .inr ⟨s, List.mem_cons_of_mem _ hs', r, hr, e⟩

/-- Mean and maximum as the code computes them. -/
private def dcOf (t : List F32) : F32 := t.foldl (fun dc s => dc + s) (lit 0) / lit (t.length : ℚ)
private def mxOf (t : List F32) : F32 :=
  t.foldl (fun mx s => if mx <? Flt.abs (s - dcOf t) then Flt.abs (s - dcOf t) else mx) (lit 0)

private theorem norm_state (t : List F32) (hlen : t.length < 2 ^ 64) (ht : ∀ s ∈ t, ∃ q, s.Is q ∧ |q| ≤ 1)
    (hd : ∃ x ∈ t, ∃ y ∈ t, ∃ p q, x.Is p ∧ y.Is q ∧ 2 ^ (-38 : ℤ) ≤ |p - q|) :
    ∃ d m : ℚ, (dcOf t).Is d ∧ |d| ≤ 1 ∧ (mxOf t).Is m ∧ (2 : ℚ) ^ (-39 : ℤ) ≤ m ∧ m ≤ 2 ∧
      (∀ s ∈ t, ∀ q, s.Is q → b32.rnd |q - d| ≤ m) ∧ ∃ s ∈ t, ∃ q, s.Is q ∧ m = b32.rnd |q - d| := by
  obtain ⟨x, hx, y, hy, p, q, hp, hq, hpq⟩ := hd
  obtain ⟨d, hdc, hdc1⟩ := mean32 t 0 (by norm_num) (List.ne_nil_of_mem hx) hlen (fun s hs => by simpa using ht s hs)
  rw [pow_zero] at hdc1
  obtain ⟨m, hm, hm0, hm2, hmall, hatt⟩ := max_bound t _ (lit 0) d 0 hdc hdc1 lit32_0 (le_refl _) (by norm_num) ht
  have hmlow : (2 : ℚ) ^ (-39 : ℤ) ≤ m := by
    have hr : b32.Repr ((2 : ℚ) ^ (-39 : ℤ)) := by rw [← pow2_eq]; exact b32.repr_pow2 (by decide)
    by_cases h1 : (2 : ℚ) ^ (-39 : ℤ) ≤ |p - d|
    · exact (b32.repr_le_rnd hr h1).trans (hmall x hx p hp)
    · have h2 : (2 : ℚ) ^ (-39 : ℤ) ≤ |q - d| := by
        have h3 : |p - q| ≤ |p - d| + |q - d| := by
          rw [show p - q = (p - d) - (q - d) by ring]; exact abs_sub _ _
        have h4 : (2 : ℚ) ^ (-38 : ℤ) = 2 ^ (-39 : ℤ) + 2 ^ (-39 : ℤ) := by norm_num
        linarith [not_le.mp h1]
      exact (b32.repr_le_rnd hr h2).trans (hmall y hy q hq)
  refine ⟨d, m, hdc, hdc1, hm, hmlow, hm2, hmall, hatt.resolve_left ?_⟩
  intro h
  rw [h] at hmlow
  norm_num at hmlow

/-- What holds (IEEE): for fewer than `2^64` samples within `[-1,1]`, two of which differ by at least
`2^-38`, and a gain of at most `2^40` (240 dB), every output sample is finite. Missing: constant and
nearly constant tracks (where the claim is false), and tracks with samples beyond `[-1,1]`. -/
theorem C24_normalize_partial [Libm F64] (db : F64) (g : ℚ) (t : List F32)
    (hg : (SM.down (dbToLinear db) : F32).Is g) (hg1 : |g| ≤ 2 ^ 40) (hlen : t.length < 2 ^ 64)
    (ht : ∀ s ∈ t, ∃ q, s.Is q ∧ |q| ≤ 1)
    (hd : ∃ x ∈ t, ∃ y ∈ t, ∃ p q, x.Is p ∧ y.Is q ∧ 2 ^ (-38 : ℤ) ≤ |p - q|) :
    ∀ y ∈ normalize db t, ∃ q, y.Is q ∧ |q| ≤ 2 ^ 80 := by
  obtain ⟨d, m, hdc, hdc1, hm, hmlow, -⟩ := norm_state t hlen ht hd
  have hmpos : 0 < m := lt_of_lt_of_le (by positivity) hmlow
  have hfac : |g / m| ≤ 2 ^ 79 := by
    rw [abs_div, abs_of_pos hmpos, div_le_iff₀ hmpos]
    calc |g| ≤ 2 ^ 40 := hg1
      _ = 2 ^ 79 * 2 ^ (-39 : ℤ) := by norm_num
      _ ≤ _ := mul_le_mul_of_nonneg_left hmlow (by positivity)
  have hf := Is.div hg hm hmpos.ne' (fits32' 79 (by norm_num) hfac)
  have hfac' := rnd32_pow2_le 79 hfac
  intro z hz
  unfold normalize at hz
  obtain ⟨s, hs, rfl⟩ := List.mem_map.mp hz
  obtain ⟨r, hr, hr1⟩ := ht s hs
  have hsub : |r - d| ≤ 2 := (abs_sub _ _).trans (by linarith)
  have hs' := Is.sub hr hdc (fits32' 1 (by norm_num) (by simpa using hsub))
  have hsub' : |b32.rnd (r - d)| ≤ 2 := by simpa using rnd32_pow2_le 1 (by simpa using hsub)
  have hprod : |b32.rnd (r - d) * b32.rnd (g / m)| ≤ 2 ^ 80 := by
    rw [abs_mul]
    calc _ ≤ 2 * 2 ^ 79 := mul_le_mul hsub' hfac' (abs_nonneg _) (by norm_num)
      _ = _ := by norm_num
  exact ⟨_, Is.mul hs' hf (fits32' 80 (by norm_num) hprod), rnd32_pow2_le 80 hprod⟩

example : (∀ s ∈ [(lit (1 / 4) : F32), lit (-1 / 2)], ∃ q, s.Is q ∧ |q| ≤ 1) ∧
    (∃ p q, (lit (1 / 4) : F32).Is p ∧ (lit (-1 / 2) : F32).Is q ∧ (2 : ℚ) ^ (-38 : ℤ) ≤ |p - q|) := by
  have h1 : (lit (1 / 4) : F32).Is (1 / 4) := by decide +kernel
  have h2 : (lit (-1 / 2) : F32).Is (-1 / 2) := by decide +kernel
  refine ⟨?_, _, _, h1, h2, ?_⟩
  · intro s hs
    rcases List.mem_cons.mp hs with rfl | hs
    · exact ⟨_, h1, by norm_num⟩
    · rw [List.mem_singleton.mp hs]
      exact ⟨_, h2, by rw [abs_le]; norm_num⟩
  · rw [show (1 / 4 : ℚ) - (-1 / 2) = 3 / 4 by norm_num, abs_of_pos (by norm_num)]; norm_num

/-! ## C105 the peak in IEEE -/

/-- IEEE: for fewer than `2^64` samples within `[-1,1]`, two of which differ by at least `2^-38`, and a gain `g` in
`[2^-60, 2^40]`, the largest output magnitude is the gain up to relative error `2^-22`. -/
theorem C105_normalize_peak [Libm F64] (db : F64) (g : ℚ) (t : List F32)
    (hg : (SM.down (dbToLinear db) : F32).Is g) (hg0 : (2 ^ 60)⁻¹ ≤ g) (hg1 : g ≤ 2 ^ 40) (hlen : t.length < 2 ^ 64)
    (ht : ∀ s ∈ t, ∃ q, s.Is q ∧ |q| ≤ 1)
    (hd : ∃ x ∈ t, ∃ y ∈ t, ∃ p q, x.Is p ∧ y.Is q ∧ 2 ^ (-38 : ℤ) ≤ |p - q|) :
    (∀ y ∈ normalize db t, ∃ q, y.Is q ∧ |q| ≤ g * (1 + (2 ^ 22)⁻¹)) ∧
    (∃ y ∈ normalize db t, ∃ q, y.Is q ∧ g * (1 - (2 ^ 22)⁻¹) ≤ |q|) := by
  obtain ⟨d, m, hdc, hdc1, hm, hmlow, hm2, hmall, s₀, hs₀, q₀, hq₀, em⟩ := norm_state t hlen ht hd
  have hmpos : 0 < m := lt_of_lt_of_le (by positivity) hmlow
  have gp : 0 < g := lt_of_lt_of_le (by positivity) hg0
  have hfac : |g / m| ≤ 2 ^ 79 := by
    rw [abs_div, abs_of_pos hmpos, div_le_iff₀ hmpos, abs_of_pos gp]
    calc g ≤ 2 ^ 40 := hg1
      _ = 2 ^ 79 * 2 ^ (-39 : ℤ) := by norm_num
      _ ≤ _ := mul_le_mul_of_nonneg_left hmlow (by positivity)
  have hf := Is.div hg hm hmpos.ne' (fits32' 79 (by norm_num) hfac)
  have gm : (2 ^ 61)⁻¹ ≤ g / m := by
    rw [le_div_iff₀ hmpos]
    calc (2 ^ 61)⁻¹ * m ≤ (2 ^ 61 : ℚ)⁻¹ * 2 := by gcongr
      _ = (2 ^ 60)⁻¹ := by norm_num
      _ ≤ g := hg0
  have ef := b32.abs_rnd_sub_le_rel (q := g / m) (by
    rw [abs_of_pos (by positivity)]
    exact le_trans (by decide +kernel) gm)
  have u24 : pow2 (-(b32.p : ℤ)) = (2 ^ 24)⁻¹ := by decide +kernel
  rw [u24, abs_of_pos (by positivity : 0 < g / m)] at ef
  have f0 : 0 ≤ b32.rnd (g / m) := b32.rnd_nonneg (by positivity)
  have hfac' := rnd32_pow2_le 79 hfac
  set φ := b32.rnd (g / m)
  -- the peak
  have emφ : |m * φ - g| ≤ (2 ^ 24)⁻¹ * g := by
    have : m * φ - g = m * (φ - g / m) := by field_simp
    rw [this, abs_mul, abs_of_pos hmpos]
    calc m * |φ - g / m| ≤ m * ((2 ^ 24)⁻¹ * (g / m)) := mul_le_mul_of_nonneg_left ef hmpos.le
      _ = _ := by field_simp
  obtain ⟨e1, e2⟩ := abs_le.mp emφ
  have mφ : (2 ^ 61)⁻¹ ≤ m * φ := by
    norm_num at e1 hg0 ⊢; linarith
  have ep := b32.abs_rnd_sub_le_rel (q := m * φ) (by
    rw [abs_of_pos (lt_of_lt_of_le (by positivity) mφ)]
    exact le_trans (by decide +kernel) mφ)
  rw [u24, abs_of_pos (lt_of_lt_of_le (by positivity) mφ), abs_le] at ep
  -- one sample
  have one : ∀ s ∈ t, ∀ r, s.Is r → ((s - dcOf t) * ((SM.down (dbToLinear db) : F32) / mxOf t)).Is (b32.rnd (b32.rnd (r - d) * φ)) ∧
      |b32.rnd (b32.rnd (r - d) * φ)| = b32.rnd (b32.rnd |r - d| * φ) := by
    intro s hs r hr
    have hr1 : |r| ≤ 1 := by
      obtain ⟨r', hr', h⟩ := ht s hs
      rwa [hr.unique hr']
    have hsub : |r - d| ≤ 2 := (abs_sub _ _).trans (by linarith)
    have hs' := Is.sub hr hdc (fits32' 1 (by norm_num) (by simpa using hsub))
    have hsub' : |b32.rnd (r - d)| ≤ 2 := by simpa using rnd32_pow2_le 1 (by simpa using hsub)
    have hprod : |b32.rnd (r - d) * φ| ≤ 2 ^ 80 := by
      rw [abs_mul]
      calc _ ≤ 2 * 2 ^ 79 := mul_le_mul hsub' hfac' (abs_nonneg _) (by norm_num)
        _ = _ := by norm_num
    refine ⟨Is.mul hs' hf (fits32' 80 (by norm_num) hprod), ?_⟩
    rw [b32.abs_rnd, abs_mul, b32.abs_rnd, abs_of_nonneg f0]
  constructor
  · intro z hz
    unfold normalize at hz
    obtain ⟨s, hs, rfl⟩ := List.mem_map.mp hz
    obtain ⟨r, hr, -⟩ := ht s hs
    obtain ⟨h1, h2⟩ := one s hs r hr
    refine ⟨_, h1, ?_⟩
    rw [h2]
    have : b32.rnd (b32.rnd |r - d| * φ) ≤ b32.rnd (m * φ) := b32.rnd_mono (mul_le_mul_of_nonneg_right (hmall s hs r hr) f0)
    norm_num at ep e2 ⊢
    linarith
  · obtain ⟨h1, h2⟩ := one s₀ hs₀ q₀ hq₀
    refine ⟨_, List.mem_map.mpr ⟨s₀, hs₀, rfl⟩, _, h1, ?_⟩
    rw [h2, ← em]
    norm_num at ep e1 ⊢
    linarith

/-- Two samples a quarter and minus a half, brought to a gain of one (by a library whose `pow` answers 1). -/
example : ∃ (_ : Libm F64) (db : F64) (g : ℚ) (t : List F32), (SM.down (dbToLinear db) : F32).Is g ∧ (2 ^ 60)⁻¹ ≤ g ∧
    g ≤ 2 ^ 40 ∧ t.length < 2 ^ 64 ∧ (∀ s ∈ t, ∃ q, s.Is q ∧ |q| ≤ 1) ∧
    ∃ x ∈ t, ∃ y ∈ t, ∃ p q, x.Is p ∧ y.Is q ∧ 2 ^ (-38 : ℤ) ≤ |p - q| := by
  have h1 : (lit (1 / 4) : F32).Is (1 / 4) := by decide +kernel
  have h2 : (lit (-1 / 2) : F32).Is (-1 / 2) := by decide +kernel
  refine ⟨⟨id, id, id, id, fun _ _ => lit 1⟩, lit 0, 1, [lit (1 / 4), lit (-1 / 2)], ?_, by norm_num, by norm_num, by simp, ?_,
    _, by simp, _, by simp, _, _, h1, h2, ?_⟩
  · show (SM.down (lit 1 : F64) : F32).Is 1
    decide +kernel
  · intro s hs
    rcases List.mem_cons.mp hs with rfl | hs
    · exact ⟨_, h1, by norm_num⟩
    · rw [List.mem_singleton.mp hs]
      exact ⟨_, h2, by rw [abs_le]; norm_num⟩
  · rw [show (1 / 4 : ℚ) - (-1 / 2) = 3 / 4 by norm_num, abs_of_pos (by norm_num)]; norm_num

end Verif
