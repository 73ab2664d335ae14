import Verif.Props.Normalize

/-! # normalize in `f32`: C24 for loud, quiet and constant tracks, C113, C159 -/

namespace Verif
open Fl

/-- The floats of a track have the given values. -/
def Vals {f : Fmt} (t : List (Fl f)) (v : List ℚ) : Prop := List.Forall₂ (fun x q => x.Is q) t v

private theorem mixed32q (q : ℚ) : |b32.rnd q - q| ≤ (2 ^ 24)⁻¹ * |q| + (2 ^ 150)⁻¹ := by
  have := b32.abs_rnd_sub_le_mixed q
  rwa [show pow2 (-(b32.p : ℤ)) = (2 ^ 24)⁻¹ by decide +kernel, show pow2 (b32.emin - 1) = (2 ^ 150)⁻¹ by decide +kernel] at this

/-! ## the mean and the maximum, with room above full scale -/

private theorem max_big (t : List F32) (e : ℕ) (he : e ≤ 100) (dc acc : F32) (d a : ℚ) (hdc : dc.Is d) (hd : |d| ≤ 2 ^ e)
    (hacc : acc.Is a) (ha0 : 0 ≤ a) (ha : a ≤ 2 ^ (e + 1)) (ht : ∀ s ∈ t, ∃ q, s.Is q ∧ |q| ≤ 2 ^ e) :
    ∃ m, (t.foldl (fun mx s => if mx <? Flt.abs (s - dc) then Flt.abs (s - dc) else mx) acc).Is m ∧
      a ≤ m ∧ m ≤ 2 ^ (e + 1) ∧ (∀ s ∈ t, ∀ q, s.Is q → b32.rnd |q - d| ≤ m) ∧
      (m = a ∨ ∃ s ∈ t, ∃ q, s.Is q ∧ m = b32.rnd |q - d|) := by
  induction t generalizing acc a with
  | nil => exact ⟨a, hacc, le_refl _, ha, by simp, .inl rfl⟩
  | cons x t ih =>
    obtain ⟨q, hq, hq1⟩ := ht x (List.mem_cons_self ..)
    have hb : |q - d| ≤ pow2 (e + 1 : ℕ) := by
      rw [pow2_nat]; push_cast; rw [pow_succ]
      exact (abs_sub _ _).trans (by linarith)
    have hfit : b32.Fits (q - d) := Fmt.fits_of_le_pow2 (k := (e + 1 : ℕ)) (le_trans (by decide) (Int.natCast_nonneg _))
      (by show ((e + 1 : ℕ) : ℤ) ≤ 127; omega) hb
    have hs := (Is.sub hq hdc hfit).abs
    rw [b32.abs_rnd] at hs
    have h2 : b32.rnd |q - d| ≤ 2 ^ (e + 1) := by
      have := b32.rnd_le_pow2 (k := (e + 1 : ℕ)) (le_trans (by decide) (Int.natCast_nonneg _)) hb
      rw [pow2_nat] at this; exact_mod_cast this
    have h0 : 0 ≤ b32.rnd |q - d| := b32.rnd_nonneg (abs_nonneg _)
    have hstep : ∃ a', (if acc <? Flt.abs (x - dc) then Flt.abs (x - dc) else acc).Is a' ∧ a ≤ a' ∧ a' ≤ 2 ^ (e + 1) ∧
        b32.rnd |q - d| ≤ a' ∧ (a' = a ∨ a' = b32.rnd |q - d|) := by
      rw [hacc.lt hs]
      by_cases hlt : a < b32.rnd |q - d|
      · simp only [hlt, decide_true, if_true]
        exact ⟨_, hs, hlt.le, h2, le_refl _, .inr rfl⟩
      · simp only [hlt, decide_false, Bool.false_eq_true, if_false]
        exact ⟨_, hacc, le_refl _, ha, not_lt.mp hlt, .inl rfl⟩
    obtain ⟨a', g1, g2, g3, g4, g5⟩ := hstep
    obtain ⟨m, i1, i2, i3, i4, i5⟩ := ih _ a' g1 (ha0.trans g2) g3 (fun s hs => ht s (List.mem_cons_of_mem _ hs))
    refine ⟨m, i1, g2.trans i2, i3, ?_, ?_⟩
    · intro s hs' r hr
      rcases List.mem_cons.mp hs' with rfl | hs'
      · rw [hr.unique hq]; exact g4.trans i2
      · exact i4 s hs' r hr
    · rcases i5 with rfl | ⟨s, hs', r, hr, e⟩
      · rcases g5 with rfl | rfl
        · exact .inl rfl
        · exact .inr ⟨x, List.mem_cons_self .., q, hq, rfl⟩
      · exact .inr ⟨s, List.mem_cons_of_mem _ hs', r, hr, e⟩

private def dc' (t : List F32) : F32 := t.foldl (fun dc s => dc + s) (lit 0) / lit (t.length : ℚ)
private def mx' (t : List F32) : F32 :=
  t.foldl (fun mx s => if mx <? Flt.abs (s - dc' t) then Flt.abs (s - dc' t) else mx) (lit 0)

private theorem normalize_eq [Libm F64] (db : F64) (t : List F32) :
    normalize db t = t.map fun s => (s - dc' t) * ((SM.down (dbToLinear db) : F32) / mx' t) := rfl

private theorem state_big (t : List F32) (e : ℕ) (he : e ≤ 100) (h0 : t ≠ []) (hlen : t.length < 2 ^ 64)
    (ht : ∀ s ∈ t, ∃ q, s.Is q ∧ |q| ≤ 2 ^ e) :
    ∃ d m : ℚ, (dc' t).Is d ∧ |d| ≤ 2 ^ e ∧ (mx' t).Is m ∧ 0 ≤ m ∧ m ≤ 2 ^ (e + 1) ∧
      (∀ s ∈ t, ∀ q, s.Is q → b32.rnd |q - d| ≤ m) ∧ (m = 0 ∨ ∃ s ∈ t, ∃ q, s.Is q ∧ m = b32.rnd |q - d|) := by
  obtain ⟨d, hdc, hdc1⟩ := mean32 t e he h0 hlen ht
  obtain ⟨m, hm, hm0, hm2, hmall, hatt⟩ := max_big t e he _ (lit 0) d 0 hdc hdc1 lit32_0 (le_refl _) (by positivity) ht
  exact ⟨d, m, hdc, hdc1, hm, hm0, hm2, hmall, hatt⟩

/-- One output sample: within the gain, up to rounding. -/
private theorem one_out {G mx s dc : F32} {g m r d : ℚ} (hG : G.Is g) (hm : mx.Is m) (hs : s.Is r) (hdc : dc.Is d)
    (m0 : 0 < m) (m2 : m ≤ 2 ^ 101) (hgm : |g| ≤ m * 2 ^ 127) (hg : |g| ≤ 2 ^ 126) (hr : b32.rnd |r - d| ≤ m) (hf : b32.Fits (r - d)) :
    ((s - dc) * (G / mx)).Is (b32.rnd (b32.rnd (r - d) * b32.rnd (g / m))) ∧
    |b32.rnd (b32.rnd (r - d) * b32.rnd (g / m))| ≤ 2 * |g| + (2 ^ 40)⁻¹ := by
  have hq : |g / m| ≤ pow2 127 := by
    rw [abs_div, abs_of_pos m0, div_le_iff₀ m0]
    calc |g| ≤ m * 2 ^ 127 := hgm
      _ = _ := by rw [mul_comm]; congr 1
  have h1 := Is.div hG hm m0.ne' (Fmt.fits_of_le_pow2 (k := 127) (by decide) (by decide) hq)
  have h2 := Is.sub hs hdc hf
  have e1 : |b32.rnd (g / m)| ≤ (1 + (2 ^ 24)⁻¹) * |g / m| + (2 ^ 150)⁻¹ := by
    have := mixed32q (g / m)
    have h := abs_sub_abs_le_abs_sub (b32.rnd (g / m)) (g / m)
    linarith
  have hp : |b32.rnd (r - d) * b32.rnd (g / m)| ≤ (1 + (2 ^ 24)⁻¹) * |g| + (2 ^ 49)⁻¹ := by
    rw [abs_mul]
    have hr' : |b32.rnd (r - d)| ≤ m := by rw [b32.abs_rnd]; exact hr
    calc |b32.rnd (r - d)| * |b32.rnd (g / m)| ≤ m * ((1 + (2 ^ 24)⁻¹) * |g / m| + (2 ^ 150)⁻¹) :=
          mul_le_mul hr' e1 (abs_nonneg _) m0.le
      _ = (1 + (2 ^ 24)⁻¹) * |g| + m * (2 ^ 150)⁻¹ := by
        rw [abs_div, abs_of_pos m0]; field_simp
      _ ≤ (1 + (2 ^ 24)⁻¹) * |g| + 2 ^ 101 * (2 ^ 150)⁻¹ := by gcongr
      _ = _ := by norm_num
  have hfit : b32.Fits (b32.rnd (r - d) * b32.rnd (g / m)) := by
    refine Fmt.fits_of_le_pow2 (k := 127) (by decide) (by decide) (hp.trans ?_)
    rw [pow2_eq]
    norm_num at hg ⊢
    linarith
  refine ⟨Is.mul h2 h1 hfit, ?_⟩
  have := mixed32q (b32.rnd (r - d) * b32.rnd (g / m))
  have h := abs_sub_abs_le_abs_sub (b32.rnd (b32.rnd (r - d) * b32.rnd (g / m))) (b32.rnd (r - d) * b32.rnd (g / m))
  have hg0 := abs_nonneg g
  norm_num at this h hp ⊢
  linarith

/-- What holds of C24 beyond `[-1,1]` and for quiet tracks (IEEE): fewer than `2^64` samples of magnitude at most `2^100`,
two of which differ by at least `2^j`, and a gain of at most `2^(j+126)` (and `2^126`): every output sample is finite
and at most twice the gain. Missing: constant tracks, and tracks too quiet for the gain (both false, below), louder
tracks. -/
theorem C24_finite_partial [Libm F64] (db : F64) (g : ℚ) (t : List F32) (j : ℤ) (hj : -148 ≤ j)
    (hg : (SM.down (dbToLinear db) : F32).Is g) (hg1 : |g| ≤ pow2 (j + 126)) (hg2 : |g| ≤ 2 ^ 126) (hlen : t.length < 2 ^ 64)
    (ht : ∀ s ∈ t, ∃ q, s.Is q ∧ |q| ≤ 2 ^ 100)
    (hd : ∃ x ∈ t, ∃ y ∈ t, ∃ p q, x.Is p ∧ y.Is q ∧ pow2 j ≤ |p - q|) :
    ∀ y ∈ normalize db t, ∃ q, y.Is q ∧ |q| ≤ 2 * |g| + (2 ^ 40)⁻¹ := by
  obtain ⟨x, hx, y, hy, p, q, hp, hq, hpq⟩ := hd
  obtain ⟨d, m, hdc, hd1, hm, m0, m2, hall, -⟩ := state_big t 100 (le_refl _) (List.ne_nil_of_mem hx) hlen ht
  have hlow : pow2 (j - 1) ≤ m := by
    by_cases h1 : pow2 (j - 1) ≤ |p - d|
    · exact (b32.pow2_le_rnd (by show (-149 : ℤ) ≤ j - 1; omega) h1).trans (hall x hx p hp)
    · have h2 : pow2 (j - 1) ≤ |q - d| := by
        have h3 : |p - q| ≤ |p - d| + |q - d| := by
          rw [show p - q = (p - d) - (q - d) by ring]; exact abs_sub _ _
        have h4 : pow2 j = pow2 (j - 1) + pow2 (j - 1) := by
          rw [show j = (j - 1) + 1 by ring, pow2_add, pow2_one, show j - 1 + 1 - 1 = j - 1 by ring]; ring
        linarith [not_le.mp h1]
      exact (b32.pow2_le_rnd (by show (-149 : ℤ) ≤ j - 1; omega) h2).trans (hall y hy q hq)
  have mp : 0 < m := lt_of_lt_of_le (pow2_pos _) hlow
  intro z hz
  rw [normalize_eq] at hz
  obtain ⟨s, hs, rfl⟩ := List.mem_map.mp hz
  obtain ⟨r, hr, hr1⟩ := ht s hs
  have hf : b32.Fits (r - d) := by
    refine Fmt.fits_of_le_pow2 (k := 101) (by decide) (by decide) ((abs_sub _ _).trans ?_)
    rw [pow2_eq]; norm_num at hr1 hd1 ⊢; linarith
  have hgm : |g| ≤ m * 2 ^ 127 := by
    calc |g| ≤ pow2 (j + 126) := hg1
      _ = pow2 (j - 1) * 2 ^ 127 := by
        rw [show j + 126 = (j - 1) + 127 by ring, pow2_add]; congr 1
      _ ≤ _ := mul_le_mul_of_nonneg_right hlow (by positivity)
  obtain ⟨h1, h2⟩ := one_out hg hm hr hdc mp (by exact_mod_cast m2) hgm hg2 (hall s hs r hr) hf
  exact ⟨_, h1, h2⟩

/-- A loud track (samples 1000 and -3) and a quiet one (`2^-100` and 0). -/
example : (∀ s ∈ [(lit 1000 : F32), lit (-3)], ∃ q, s.Is q ∧ |q| ≤ 2 ^ 100) ∧
    (∃ x ∈ [(lit (pow2 (-100)) : F32), lit 0], ∃ y ∈ [(lit (pow2 (-100)) : F32), lit 0], ∃ p q, x.Is p ∧ y.Is q ∧ pow2 (-100) ≤ |p - q|) ∧
    |(1 : ℚ)| ≤ pow2 (-100 + 126) := by
  refine ⟨?_, ⟨lit (pow2 (-100)), List.mem_cons_self .., lit 0, List.mem_cons_of_mem _ (List.mem_cons_self ..), pow2 (-100), 0, by decide +kernel, by decide +kernel, ?_⟩, by decide +kernel⟩
  · intro s hs
    rcases List.mem_cons.mp hs with rfl | hs
    · exact ⟨1000, by decide +kernel, by norm_num⟩
    · rw [List.mem_singleton.mp hs]
      exact ⟨-3, by decide +kernel, by norm_num⟩
  · rw [sub_zero]; exact le_abs_self _

/-- Full scale is never exceeded when the gain is at most 1, not even by rounding. -/
private theorem one_out_le {g m r d : ℚ} (g0 : 0 ≤ g) (g1 : g ≤ 1) (m0 : 0 < m) (m2 : m ≤ 2 ^ 101) (hr : b32.rnd |r - d| ≤ m) :
    |b32.rnd (b32.rnd (r - d) * b32.rnd (g / m))| ≤ 1 := by
  have gm0 : 0 ≤ g / m := div_nonneg g0 m0.le
  have hp : |b32.rnd (r - d) * b32.rnd (g / m)| ≤ 1 + (2 ^ 24)⁻¹ := by
    rw [abs_mul, b32.abs_rnd, abs_of_nonneg (b32.rnd_nonneg gm0)]
    refine (mul_le_mul_of_nonneg_right hr (b32.rnd_nonneg gm0)).trans ?_
    by_cases h : (2 ^ 120)⁻¹ ≤ g / m
    · have h1 := b32.abs_rnd_sub_le_rel (q := g / m) (by
        rw [abs_of_nonneg gm0]
        exact le_trans (by decide +kernel) h)
      rw [show pow2 (-(b32.p : ℤ)) = (2 ^ 24)⁻¹ by decide +kernel, abs_of_nonneg gm0] at h1
      have h2 : b32.rnd (g / m) ≤ (1 + (2 ^ 24)⁻¹) * (g / m) := by linarith [(abs_le.mp h1).2]
      calc m * b32.rnd (g / m) ≤ m * ((1 + (2 ^ 24)⁻¹) * (g / m)) := mul_le_mul_of_nonneg_left h2 m0.le
        _ = (1 + (2 ^ 24)⁻¹) * g := by field_simp
        _ ≤ (1 + (2 ^ 24)⁻¹) * 1 := mul_le_mul_of_nonneg_left g1 (by norm_num)
        _ = _ := mul_one _
    · have h1 : b32.rnd (g / m) ≤ pow2 (-120) :=
        b32.rnd_le_pow2 (by decide) ((not_le.mp h).le.trans (by decide +kernel))
      calc m * b32.rnd (g / m) ≤ 2 ^ 101 * pow2 (-120) := mul_le_mul m2 h1 (b32.rnd_nonneg gm0) (by positivity)
        _ ≤ _ := by decide +kernel
  rw [b32.abs_rnd]
  exact (b32.rnd_mono hp).trans (by decide +kernel)

/-- What holds of C159 (IEEE): fewer than `2^64` samples of magnitude at most `2^100`, two of which differ by at least
`2^-126`, normalised with a gain of at most 1, come out within `[-1, 1]` exactly. Missing: constant tracks, quieter ones
(both false), louder ones. -/
theorem C159_peak_partial [Libm F64] (db : F64) (g : ℚ) (t : List F32) (hg : (SM.down (dbToLinear db) : F32).Is g)
    (g0 : 0 ≤ g) (g1 : g ≤ 1) (hlen : t.length < 2 ^ 64) (ht : ∀ s ∈ t, ∃ q, s.Is q ∧ |q| ≤ 2 ^ 100)
    (hd : ∃ x ∈ t, ∃ y ∈ t, ∃ p q, x.Is p ∧ y.Is q ∧ (2 ^ 126)⁻¹ ≤ |p - q|) :
    ∀ y ∈ normalize db t, ∃ q, y.Is q ∧ |q| ≤ 1 := by
  obtain ⟨x, hx, y, hy, p, q, hp, hq, hpq⟩ := hd
  obtain ⟨d, m, hdc, hd1, hm, m0, m2, hall, -⟩ := state_big t 100 (le_refl _) (List.ne_nil_of_mem hx) hlen ht
  have hlow : pow2 (-127) ≤ m := by
    by_cases h1 : pow2 (-127) ≤ |p - d|
    · exact (b32.pow2_le_rnd (by decide) h1).trans (hall x hx p hp)
    · have h2 : pow2 (-127) ≤ |q - d| := by
        have h3 : |p - q| ≤ |p - d| + |q - d| := by
          rw [show p - q = (p - d) - (q - d) by ring]; exact abs_sub _ _
        have h4 : (2 ^ 126)⁻¹ = pow2 (-127) + pow2 (-127) := by decide +kernel
        linarith [not_le.mp h1]
      exact (b32.pow2_le_rnd (by decide) h2).trans (hall y hy q hq)
  have mp : 0 < m := lt_of_lt_of_le (pow2_pos _) hlow
  intro z hz
  rw [normalize_eq] at hz
  obtain ⟨s, hs, rfl⟩ := List.mem_map.mp hz
  obtain ⟨r, hr, hr1⟩ := ht s hs
  have hf : b32.Fits (r - d) := by
    refine Fmt.fits_of_le_pow2 (k := 101) (by decide) (by decide) ((abs_sub _ _).trans ?_)
    rw [pow2_eq]; norm_num at hr1 hd1 ⊢; linarith
  have hgm : |g| ≤ m * 2 ^ 127 := by
    rw [abs_of_nonneg g0]
    calc g ≤ 1 := g1
      _ = pow2 (-127) * 2 ^ 127 := by decide +kernel
      _ ≤ _ := mul_le_mul_of_nonneg_right hlow (by positivity)
  have m2' : m ≤ 2 ^ 101 := by exact_mod_cast m2
  obtain ⟨h1, -⟩ := one_out hg hm hr hdc mp m2' hgm (by rw [abs_of_nonneg g0]; exact g1.trans (by norm_num)) (hall s hs r hr) hf
  exact ⟨_, h1, one_out_le g0 g1 mp m2' (hall s hs r hr)⟩

/-- The samples 1000 and -3, and a gain of 1. -/
example [Libm F64] (h : Libm.pow (lit 10 : F64) (lit 0) = lit 1) :
    ∀ y ∈ normalize (lit 0 : F64) [(lit 1000 : F32), lit (-3)], ∃ q, y.Is q ∧ |q| ≤ 1 := by
  refine C159_peak_partial _ 1 _ ?_ (by norm_num) (by norm_num) (by norm_num) ?_
    ⟨lit 1000, List.mem_cons_self .., lit (-3), List.mem_cons_of_mem _ (List.mem_cons_self ..), 1000, -3, by decide +kernel, by decide +kernel, by norm_num⟩
  · unfold dbToLinear
    rw [show (lit 0 : F64) / lit 20 = lit 0 by decide +kernel, h]
    decide +kernel
  · intro s hs
    rcases List.mem_cons.mp hs with rfl | hs
    · exact ⟨1000, by decide +kernel, by norm_num⟩
    · rw [List.mem_singleton.mp hs]
      exact ⟨-3, by decide +kernel, by norm_num⟩

/-- A track too quiet for its gain: 0 and `2^-140` normalised to 0 dB become infinite. -/
theorem C24_quiet_violated [Libm F64] (h : Libm.pow (lit 10 : F64) (lit 0) = lit 1) :
    normalize (lit 0 : F64) [(lit 0 : F32), lit (pow2 (-140))] = [.inf true, .inf false] := by
  have e : (SM.down (dbToLinear (lit 0 : F64)) : F32) = lit 1 := by
    unfold dbToLinear
    rw [show (lit 0 : F64) / lit 20 = lit 0 by decide +kernel, h]
    decide +kernel
  rw [normalize_eq, e]
  decide +kernel

/-! ## constant tracks -/

private theorem nan_of_zero {x m : F32} (g : F32) (hx : x.Is 0) (hm : m.Is 0) : x * (g / m) = .nan := by
  obtain ⟨s1, h1, rfl⟩ := is_iff.mp hx
  obtain ⟨s2, h2, rfl⟩ := is_iff.mp hm
  cases g with
  | nan => rfl
  | inf s =>
    show Fl.mul _ (Fl.inf (xor s s2)) = _
    simp [Fl.mul]
  | fin s q hq =>
    show Fl.mul _ (if (0 : ℚ) = 0 then (if q = 0 then (.nan : F32) else .inf (xor s s2)) else ofQ (xor s s2) (q / 0)) = _
    rw [if_pos rfl]
    split_ifs
    · rfl
    · simp [Fl.mul]

/-- A representable number not below `2^k` is a multiple of `2^(k-23)`. -/
private theorem grid {q : ℚ} {k : ℤ} (h : b32.Repr q) (hk : pow2 k ≤ |q|) : ∃ n : ℤ, q = n * pow2 (k - 23) := by
  have q0 : q ≠ 0 := by
    rintro rfl
    rw [abs_zero] at hk
    exact absurd (pow2_pos k) (not_lt.mpr hk)
  have e := b32.rnd_of_repr h
  have hu : k - 23 ≤ b32.ue q := by
    have : k ≤ ilog2 q := le_ilog2_of q0 hk
    refine le_trans ?_ (le_max_left _ _)
    show k - 23 ≤ ilog2 q - (24 - 1)
    omega
  obtain ⟨c, hc, -⟩ := pow2_nonneg_int (e := b32.ue q - (k - 23)) (by omega)
  refine ⟨rne (q * pow2 (-(b32.ue q))) * c, ?_⟩
  conv_lhs => rw [← e]
  unfold Fmt.rnd
  push_cast
  rw [← hc, mul_assoc, ← pow2_add]
  congr 2
  omega

private theorem apart {c d : ℚ} (hc : b32.Repr c) (hd : b32.Repr d) (h : c ≠ d) (hk : pow2 (-60) ≤ |c|) : pow2 (-85) ≤ |c - d| := by
  by_cases h1 : pow2 (-61) ≤ |d|
  · obtain ⟨n1, e1⟩ := grid hc (k := -61) (le_trans (pow2_le (by norm_num)) hk)
    obtain ⟨n2, e2⟩ := grid hd h1
    have hn : n1 ≠ n2 := by rintro rfl; exact h (by rw [e1, e2])
    have : (1 : ℚ) ≤ |((n1 - n2 : ℤ) : ℚ)| := by
      exact_mod_cast Int.one_le_abs (sub_ne_zero.mpr hn)
    rw [e1, e2, ← sub_mul, abs_mul, abs_of_pos (pow2_pos _)]
    push_cast at this
    calc pow2 (-85) ≤ 1 * pow2 (-61 - 23) := by rw [one_mul]; exact pow2_le (by norm_num)
      _ ≤ _ := mul_le_mul_of_nonneg_right this (pow2_pos _).le
  · have := abs_sub_abs_le_abs_sub c d
    have e : pow2 (-60) = pow2 (-61) + pow2 (-61) := by decide +kernel
    have : pow2 (-85) ≤ pow2 (-61) := pow2_le (by norm_num)
    linarith [not_le.mp h1]

/-- The rounded quotient and product give the gain back. -/
private theorem gain_core {g m : ℚ} (g1 : (2 ^ 30)⁻¹ ≤ g) (m1 : pow2 (-86) ≤ m) (m2 : m ≤ 2) :
    |b32.rnd (m * b32.rnd (g / m)) - g| ≤ (2 ^ 22)⁻¹ * g ∧ 0 ≤ b32.rnd (g / m) := by
  have mp : 0 < m := lt_of_lt_of_le (pow2_pos _) m1
  have gp : 0 < g := lt_of_lt_of_le (by positivity) g1
  have gm : (2 ^ 31)⁻¹ ≤ g / m := by
    rw [le_div_iff₀ mp]
    calc (2 ^ 31)⁻¹ * m ≤ (2 ^ 31 : ℚ)⁻¹ * 2 := by gcongr
      _ = (2 ^ 30)⁻¹ := by norm_num
      _ ≤ g := g1
  have u24 : pow2 (-(b32.p : ℤ)) = (2 ^ 24)⁻¹ := by decide +kernel
  have ef := b32.abs_rnd_sub_le_rel (q := g / m) (by
    rw [abs_of_pos (by positivity)]
    exact le_trans (by decide +kernel) gm)
  rw [u24, abs_of_pos (by positivity : 0 < g / m)] at ef
  have emφ : |m * b32.rnd (g / m) - g| ≤ (2 ^ 24)⁻¹ * g := by
    have : m * b32.rnd (g / m) - g = m * (b32.rnd (g / m) - g / m) := by field_simp
    rw [this, abs_mul, abs_of_pos mp]
    calc m * |b32.rnd (g / m) - g / m| ≤ m * ((2 ^ 24)⁻¹ * (g / m)) := mul_le_mul_of_nonneg_left ef mp.le
      _ = _ := by field_simp
  obtain ⟨e1, e2⟩ := abs_le.mp emφ
  have mφ : (2 ^ 31)⁻¹ ≤ m * b32.rnd (g / m) := by
    norm_num at e1 g1 ⊢; linarith
  have ep := b32.abs_rnd_sub_le_rel (q := m * b32.rnd (g / m)) (by
    rw [abs_of_pos (lt_of_lt_of_le (by positivity) mφ)]
    exact le_trans (by decide +kernel) mφ)
  rw [u24, abs_of_pos (lt_of_lt_of_le (by positivity) mφ), abs_le] at ep
  refine ⟨?_, b32.rnd_nonneg (by positivity)⟩
  rw [abs_le]
  norm_num at ep e1 e2 ⊢
  constructor <;> linarith

/-- A constant track is never silenced: it turns into NaN throughout, or into a constant of full gain. -/
theorem C24_constant_violated [Libm F64] (db : F64) (g c : ℚ) (C : F32) (n : ℕ) (n0 : 1 ≤ n) (n1 : n < 2 ^ 64) (hC : C.Is c)
    (c1 : pow2 (-60) ≤ |c|) (c2 : |c| ≤ 1) (hg : (SM.down (dbToLinear db) : F32).Is g) (g1 : (2 ^ 30)⁻¹ ≤ g) (g2 : g ≤ 2 ^ 40) :
    ∃ y : F32, normalize db (List.replicate n C) = List.replicate n y ∧ (y = .nan ∨ ∃ q, y.Is q ∧ |(|q| - g)| ≤ (2 ^ 22)⁻¹ * g) := by
  set t := List.replicate n C with ht
  have hmem : C ∈ t := List.mem_replicate.mpr ⟨by omega, rfl⟩
  have hall' : ∀ s ∈ t, ∃ q, s.Is q ∧ |q| ≤ 2 ^ 0 := fun s hs => ⟨c, by rw [List.eq_of_mem_replicate hs]; exact hC, by simpa using c2⟩
  obtain ⟨d, m, hdc, hd1, hm, m0, m2, hall, hatt⟩ := state_big t 0 (by norm_num) (List.ne_nil_of_mem hmem) (by rw [ht, List.length_replicate]; exact n1) hall'
  have hf : b32.Fits (c - d) := by
    refine Fmt.fits_of_le_pow2 (k := 1) (by decide) (by decide) ((abs_sub _ _).trans ?_)
    rw [pow2_one]; norm_num at hd1; linarith
  have hm' : m = b32.rnd |c - d| := by
    rcases hatt with h | ⟨s, hs, q, hq, h⟩
    · exact le_antisymm (h ▸ b32.rnd_nonneg (abs_nonneg _)) (hall C hmem c hC)
    · rw [List.eq_of_mem_replicate hs] at hq
      rw [h, hq.unique hC]
  refine ⟨(C - dc' t) * ((SM.down (dbToLinear db) : F32) / mx' t), ?_, ?_⟩
  · rw [normalize_eq, ht, List.map_replicate]
  · have hs := Is.sub hC hdc hf
    by_cases hcd : c = d
    · left
      have z : b32.rnd (c - d) = 0 := by rw [hcd, sub_self]; exact b32.rnd_of_repr b32.repr_zero
      rw [z] at hs
      have z' : m = 0 := by rw [hm', ← b32.abs_rnd, z, abs_zero]
      rw [z'] at hm
      exact nan_of_zero _ hs hm
    · right
      have h85 := apart hC.repr hdc.repr hcd c1
      have m1 : pow2 (-86) ≤ m := by
        rw [hm']
        exact le_trans (pow2_le (by norm_num)) (b32.pow2_le_rnd (k := -85) (by decide) h85)
      have m2' : m ≤ 2 := by simpa using m2
      have mp : 0 < m := lt_of_lt_of_le (pow2_pos _) m1
      have gp : 0 < g := lt_of_lt_of_le (by positivity) g1
      obtain ⟨k1, k2⟩ := gain_core g1 m1 m2'
      obtain ⟨o1, -⟩ := one_out hg hm hC hdc mp (m2'.trans (by norm_num)) (by
        rw [abs_of_pos gp]
        calc g ≤ 2 ^ 40 := g2
          _ ≤ pow2 (-86) * 2 ^ 127 := by decide +kernel
          _ ≤ _ := mul_le_mul_of_nonneg_right m1 (by positivity)) (by rw [abs_of_pos gp]; exact g2.trans (by norm_num)) hm'.ge hf
      refine ⟨_, o1, ?_⟩
      rw [b32.abs_rnd, abs_mul, b32.abs_rnd, ← hm', abs_of_nonneg k2]
      exact k1

example : (lit (1 / 2) : F32).Is (1 / 2) ∧ pow2 (-60) ≤ |(1 / 2 : ℚ)| ∧ |(1 / 2 : ℚ)| ≤ 1 ∧ ((2 ^ 30)⁻¹ : ℚ) ≤ 1 ∧ (1 : ℚ) ≤ 2 ^ 40 := by
  refine ⟨by decide +kernel, by decide +kernel, ?_, by norm_num, by norm_num⟩
  rw [abs_of_pos (by norm_num)]; norm_num

/-! ## C113 the DC offset -/

/-- Three samples of 0.9 normalised to 0 dB come out as three samples at full scale: the offset is not removed
but amplified to the peak. -/
theorem C113_dc_violated [Libm F64] (h : Libm.pow (lit 10 : F64) (lit 0) = lit 1) :
    normalize (lit 0 : F64) [(lit (9 / 10) : F32), lit (9 / 10), lit (9 / 10)] = [lit 1, lit 1, lit 1] := by
  have e : (SM.down (dbToLinear (lit 0 : F64)) : F32) = lit 1 := by
    unfold dbToLinear
    rw [show (lit 0 : F64) / lit 20 = lit 0 by decide +kernel, h]
    decide +kernel
  rw [normalize_eq, e]
  decide +kernel

private theorem sum_err (t : List F32) (v : List ℚ) (acc : F32) (a A : ℚ) (k : ℕ) (hv : Vals t v) (hacc : acc.Is a) (ha : |a| ≤ k)
    (hA : |a - A| ≤ k * (k + 3) * (2 ^ 25)⁻¹) (hq : ∀ q ∈ v, |q| ≤ 1) (hk : k + t.length ≤ 2 ^ 24) :
    ∃ b, (t.foldl (fun dc s => dc + s) acc).Is b ∧ |b| ≤ (k + t.length : ℕ) ∧
      |b - (A + v.sum)| ≤ ((k + t.length : ℕ) : ℚ) * ((k + t.length : ℕ) + 3) * (2 ^ 25)⁻¹ := by
  induction hv generalizing acc a A k with
  | nil => exact ⟨a, hacc, by simpa using ha, by simpa using hA⟩
  | @cons x q t v hx hv ih =>
    have hq1 := hq q (List.mem_cons_self ..)
    have hb : |a + q| ≤ ((k + 1 : ℕ) : ℚ) := by
      push_cast
      exact (abs_add_le _ _).trans (add_le_add ha hq1)
    have hk1 : k + 1 ≤ 2 ^ 24 := by simp only [List.length_cons] at hk; omega
    have hr : b32.Repr (((k + 1 : ℕ) : ℤ) : ℚ) := Fmt.repr32_int (n := ((k + 1 : ℕ) : ℤ)) (by rw [abs_of_nonneg (by positivity)]; omega)
    have hadd := Is.add hacc hx (fits32' 24 (by norm_num) (hb.trans (by exact_mod_cast hk1)))
    have hle : |b32.rnd (a + q)| ≤ ((k + 1 : ℕ) : ℚ) := by
      rw [b32.abs_rnd]; exact_mod_cast b32.rnd_le_repr hr (by exact_mod_cast hb)
    have herr : |b32.rnd (a + q) - (A + q)| ≤ ((k + 1 : ℕ) : ℚ) * ((k + 1 : ℕ) + 3) * (2 ^ 25)⁻¹ := by
      have h1 := mixed32q (a + q)
      have h2 := abs_sub_le (b32.rnd (a + q)) (a + q) (A + q)
      rw [show a + q - (A + q) = a - A by ring] at h2
      push_cast at hb ⊢
      have h3 : (2 ^ 24 : ℚ)⁻¹ * |a + q| ≤ (2 ^ 24)⁻¹ * (k + 1) := mul_le_mul_of_nonneg_left hb (by norm_num)
      have hk0 : (0 : ℚ) ≤ k := by positivity
      norm_num at h1 h2 h3 hA ⊢
      nlinarith
    obtain ⟨b, h1, h2, h3⟩ := ih _ _ (A + q) (k + 1) hadd hle herr (fun s hs => hq s (List.mem_cons_of_mem _ hs))
      (by simp only [List.length_cons] at hk; omega)
    have el : k + 1 + t.length = k + (x :: t).length := by simp only [List.length_cons]; omega
    rw [el] at h2 h3
    exact ⟨b, h1, h2, by rw [List.sum_cons, ← add_assoc]; exact h3⟩

private theorem vals_mem {t : List F32} {v : List ℚ} (h : Vals t v) : (∀ s ∈ t, ∃ q ∈ v, s.Is q) ∧ (∀ q ∈ v, ∃ s ∈ t, s.Is q) ∧ t.length = v.length := by
  induction h with
  | nil => simp
  | cons hx _ ih =>
    refine ⟨?_, ?_, by simp [ih.2.2]⟩
    · intro s hs
      rcases List.mem_cons.mp hs with rfl | hs
      · exact ⟨_, List.mem_cons_self .., hx⟩
      · obtain ⟨q, h1, h2⟩ := ih.1 s hs
        exact ⟨q, List.mem_cons_of_mem _ h1, h2⟩
    · intro s hs
      rcases List.mem_cons.mp hs with rfl | hs
      · exact ⟨_, List.mem_cons_self .., hx⟩
      · obtain ⟨q, h1, h2⟩ := ih.2.1 s hs
        exact ⟨q, List.mem_cons_of_mem _ h1, h2⟩

private theorem collect {κ N g γ a b c d : ℚ} (κ0 : 0 < κ) (gP : g ≤ 13 / 5 * κ) (gm2 : γ ≤ 2 * κ) (N0 : 0 ≤ N) (tiny : (2 ^ 40)⁻¹ ≤ κ)
    (t1 : a ≤ (2 ^ 24)⁻¹ * (9 / 8 * g) + (2 ^ 150)⁻¹) (t2 : b ≤ (2 ^ 24)⁻¹ * g) (t3 : c ≤ ((2 ^ 23)⁻¹ + (2 ^ 150)⁻¹) * γ)
    (t4 : d ≤ (N + 6) * (2 ^ 25)⁻¹ * γ) : a + b + c + d ≤ (N + 16) * (2 ^ 24)⁻¹ * κ := by
  have t3' : ((2 ^ 23)⁻¹ + (2 ^ 150)⁻¹) * γ ≤ ((2 ^ 23)⁻¹ + (2 ^ 150)⁻¹) * (2 * κ) := mul_le_mul_of_nonneg_left gm2 (by norm_num)
  have t4' : (N + 6) * (2 ^ 25)⁻¹ * γ ≤ (N + 6) * (2 ^ 25)⁻¹ * (2 * κ) := mul_le_mul_of_nonneg_left gm2 (by positivity)
  have e : (N + 6) * (2 ^ 25)⁻¹ * (2 * κ) = (2 ^ 24)⁻¹ * (N * κ) + 6 * (2 ^ 24)⁻¹ * κ := by ring
  have e' : (N + 16) * (2 ^ 24)⁻¹ * κ = (2 ^ 24)⁻¹ * (N * κ) + 16 * (2 ^ 24)⁻¹ * κ := by ring
  have : 0 ≤ N * κ := by positivity
  rw [e] at t4'
  rw [e']
  norm_num at t1 t2 t3 t4 t3' t4' tiny ⊢
  linarith

/-- What holds (IEEE): for `n ≤ 2^24` samples in `[-1,1]`, some sample of which is at least `P` from the mean with
`P ≥ (n+16)·2^-24`, and a gain `g` in `[2^-30, 2^40]`: every output sample is a constant times the distance of the input
from the mean, up to `g·(n+16)·2^-24/P`; the mean of the output is at most that. Missing: tracks that move less than that
around their mean (false, above). -/
theorem C113_dc_partial [Libm F64] (db : F64) (g P : ℚ) (t : List F32) (v : List ℚ) (hv : Vals t v) (hq : ∀ q ∈ v, |q| ≤ 1)
    (hlen : t.length ≤ 2 ^ 24) (hg : (SM.down (dbToLinear db) : F32).Is g) (g1 : (2 ^ 30)⁻¹ ≤ g) (g2 : g ≤ 2 ^ 40)
    (hP : ∃ q ∈ v, P ≤ |q - v.sum / v.length|) (hP1 : ((t.length : ℚ) + 16) * (2 ^ 24)⁻¹ ≤ P) :
    ∃ c > 0, ∃ w : List ℚ, Vals (normalize db t) w ∧
      List.Forall₂ (fun y q => |y - c * (q - v.sum / v.length)| ≤ g * (((t.length : ℚ) + 16) * (2 ^ 24)⁻¹ / P)) w v ∧
      |w.sum / w.length| ≤ g * (((t.length : ℚ) + 16) * (2 ^ 24)⁻¹ / P) := by
  obtain ⟨mem1, mem2, hl⟩ := vals_mem hv
  obtain ⟨q₀, hq₀, hP₀⟩ := hP
  obtain ⟨s₀, hs₀, is₀⟩ := mem2 q₀ hq₀
  have ht0 : t ≠ [] := List.ne_nil_of_mem hs₀
  have hn1 : 1 ≤ t.length := List.length_pos_of_ne_nil ht0
  have hn0 : (0 : ℚ) < t.length := by exact_mod_cast hn1
  have hn1' : (1 : ℚ) ≤ t.length := by exact_mod_cast hn1
  set N : ℚ := (t.length : ℚ) with hN
  set μ : ℚ := v.sum / (v.length : ℚ) with hμ
  have Pp : 0 < P := lt_of_lt_of_le (by positivity) hP1
  have gp : 0 < g := lt_of_lt_of_le (by positivity) g1
  -- the mean as computed
  obtain ⟨b, hb, hb1, hb2⟩ := sum_err t v (lit 0) 0 0 0 hv lit32_0 (by simp) (by simp) hq (by simpa using hlen)
  simp only [zero_add] at hb1 hb2
  rw [← hN] at hb1 hb2
  have hbn : |b / N| ≤ 1 := by rw [abs_div, abs_of_pos hn0, div_le_one hn0]; exact hb1
  have hdc : (dc' t).Is (b32.rnd (b / N)) := Is.div hb (lit32_nat (n := t.length) (by omega)) hn0.ne' (fits32' 0 (by norm_num) (by simpa using hbn))
  have hdm : |b32.rnd (b / N) - μ| ≤ (N + 6) * (2 ^ 25)⁻¹ := by
    have h1 := mixed32q (b / N)
    have h2 : |b / N - μ| ≤ (N + 3) * (2 ^ 25)⁻¹ := by
      rw [hμ, ← hl, ← hN, ← sub_div, abs_div, abs_of_pos hn0, div_le_iff₀ hn0]
      linarith
    have h3 := abs_sub_le (b32.rnd (b / N)) (b / N) μ
    norm_num at h1 h2 h3 ⊢
    linarith
  have hall1 : ∀ s ∈ t, ∃ q, s.Is q ∧ |q| ≤ 2 ^ 0 := fun s hs => by
    obtain ⟨q, h1, h2⟩ := mem1 s hs
    exact ⟨q, h2, by simpa using hq q h1⟩
  obtain ⟨d, m, hdc', hd1, hm, m0, m2, hall, -⟩ := state_big t 0 (by norm_num) ht0 (hlen.trans_lt (by norm_num)) hall1
  rw [hdc.unique hdc'] at hdm
  have hd1' : |d| ≤ 1 := by simpa using hd1
  have m2' : m ≤ 2 := by simpa using m2
  have h2d : ∀ q ∈ v, |q - d| ≤ 2 := fun q h => (abs_sub _ _).trans (by linarith [hq q h])
  -- the peak
  have hmP : P / 2 ≤ m := by
    have h1 := hall s₀ hs₀ q₀ is₀
    have h2 := mixed32q |q₀ - d|
    rw [abs_abs] at h2
    have h3 := h2d q₀ hq₀
    have h4 : |q₀ - μ| ≤ |q₀ - d| + |d - μ| := abs_sub_le _ _ _
    obtain ⟨h5, -⟩ := abs_le.mp h2
    norm_num at h5 hdm hP1 ⊢
    linarith
  have mp : 0 < m := lt_of_lt_of_le (by positivity) hmP
  have hP2 : P ≤ 2 * m := by linarith
  have Plow : (2 ^ 20)⁻¹ ≤ P := by norm_num at hP1 ⊢; linarith
  have m1 : pow2 (-86) ≤ m := le_trans (by
    calc pow2 (-86) ≤ (2 ^ 20 : ℚ)⁻¹ / 2 := by decide +kernel
      _ ≤ P / 2 := by linarith) hmP
  -- the factor
  set φ := b32.rnd (g / m) with hφ
  obtain ⟨-, φ0⟩ := gain_core g1 m1 m2'
  have gm0 : 0 < g / m := by positivity
  have gmP : g / m ≤ 2 * g / P := by
    rw [div_le_div_iff₀ mp Pp]; nlinarith
  have eφ : |φ - g / m| ≤ (2 ^ 24)⁻¹ * (g / m) := by
    have := b32.abs_rnd_sub_le_rel (q := g / m) (by
      rw [abs_of_pos gm0]
      refine le_trans (by decide +kernel : _ ≤ ((2 ^ 31)⁻¹ : ℚ)) ?_
      rw [le_div_iff₀ mp]
      calc (2 ^ 31)⁻¹ * m ≤ (2 ^ 31 : ℚ)⁻¹ * 2 := by gcongr
        _ = (2 ^ 30)⁻¹ := by norm_num
        _ ≤ g := g1)
    rwa [show pow2 (-(b32.p : ℤ)) = (2 ^ 24)⁻¹ by decide +kernel, abs_of_pos gm0] at this
  have emφ : |m * φ - g| ≤ (2 ^ 24)⁻¹ * g := by
    have : m * φ - g = m * (φ - g / m) := by field_simp
    rw [this, abs_mul, abs_of_pos mp]
    calc m * |φ - g / m| ≤ m * ((2 ^ 24)⁻¹ * (g / m)) := mul_le_mul_of_nonneg_left eφ mp.le
      _ = _ := by field_simp
  set E := g * ((N + 16) * (2 ^ 24)⁻¹ / P) with hE
  have one : ∀ s r, s ∈ t → r ∈ v → s.Is r → ((s - dc' t) * ((SM.down (dbToLinear db) : F32) / mx' t)).Is (b32.rnd (b32.rnd (r - d) * φ)) ∧
      |b32.rnd (b32.rnd (r - d) * φ) - g / m * (r - μ)| ≤ E := by
    intro s r hs hr hsr
    have hrd := h2d r hr
    have hf : b32.Fits (r - d) := Fmt.fits_of_le_pow2 (k := 1) (by decide) (by decide) (by rw [pow2_one]; exact hrd)
    have hrm := hall s hs r hsr
    obtain ⟨o1, -⟩ := one_out hg hm hsr hdc' mp (m2'.trans (by norm_num)) (by
      rw [abs_of_pos gp]
      calc g ≤ 2 ^ 40 := g2
        _ ≤ pow2 (-86) * 2 ^ 127 := by decide +kernel
        _ ≤ _ := mul_le_mul_of_nonneg_right m1 (by positivity)) (by rw [abs_of_pos gp]; exact g2.trans (by norm_num)) hrm hf
    refine ⟨o1, ?_⟩
    set X := b32.rnd (r - d) with hX
    have hXm : |X| ≤ m := by rw [hX, b32.abs_rnd]; exact hrm
    -- four errors
    have t1 : |b32.rnd (X * φ) - X * φ| ≤ (2 ^ 24)⁻¹ * (9 / 8 * g) + (2 ^ 150)⁻¹ := by
      refine (mixed32q (X * φ)).trans ?_
      have : |X * φ| ≤ 9 / 8 * g := by
        rw [abs_mul, abs_of_nonneg φ0]
        have h1 : |X| * φ ≤ m * φ := mul_le_mul_of_nonneg_right hXm φ0
        obtain ⟨-, h2⟩ := abs_le.mp emφ
        norm_num at h2
        linarith
      gcongr
    have t2 : |X * φ - X * (g / m)| ≤ (2 ^ 24)⁻¹ * g := by
      rw [← mul_sub, abs_mul]
      calc |X| * |φ - g / m| ≤ m * ((2 ^ 24)⁻¹ * (g / m)) := mul_le_mul hXm eφ (abs_nonneg _) mp.le
        _ = _ := by field_simp
    have t3 : |X * (g / m) - (r - d) * (g / m)| ≤ ((2 ^ 23)⁻¹ + (2 ^ 150)⁻¹) * (g / m) := by
      rw [← sub_mul, abs_mul, abs_of_pos gm0]
      refine mul_le_mul_of_nonneg_right ((mixed32q (r - d)).trans ?_) gm0.le
      have : (2 ^ 24 : ℚ)⁻¹ * |r - d| ≤ (2 ^ 24)⁻¹ * 2 := mul_le_mul_of_nonneg_left hrd (by norm_num)
      norm_num at this ⊢
      linarith
    have t4 : |(r - d) * (g / m) - g / m * (r - μ)| ≤ (N + 6) * (2 ^ 25)⁻¹ * (g / m) := by
      rw [show (r - d) * (g / m) - g / m * (r - μ) = (μ - d) * (g / m) by ring, abs_mul, abs_of_pos gm0, abs_sub_comm]
      exact mul_le_mul_of_nonneg_right hdm gm0.le
    have tri := abs_sub_le (b32.rnd (X * φ)) (X * φ) (g / m * (r - μ))
    have tri2 := abs_sub_le (X * φ) (X * (g / m)) (g / m * (r - μ))
    have tri3 := abs_sub_le (X * (g / m)) ((r - d) * (g / m)) (g / m * (r - μ))
    -- collect
    set κ := g / P with hκ
    have κ0 : 0 < κ := by positivity
    have gP : g ≤ 13 / 5 * κ := by
      have hP3 : P ≤ 13 / 5 := by
        have h1 := abs_sub_le q₀ d μ
        have h2 := h2d q₀ hq₀
        have h3 : (N + 6) * (2 ^ 25)⁻¹ ≤ 1 / 2 + 6 * (2 ^ 25)⁻¹ := by
          have : N ≤ 2 ^ 24 := by rw [hN]; exact_mod_cast hlen
          norm_num at this ⊢
          linarith
        norm_num at h3 hdm
        linarith
      rw [hκ, mul_div_assoc', le_div_iff₀ Pp]
      nlinarith
    have gm2 : g / m ≤ 2 * κ := by rw [hκ, ← mul_div_assoc]; exact gmP
    have hE' : E = (N + 16) * (2 ^ 24)⁻¹ * κ := by rw [hE, hκ]; ring
    rw [hE']
    have := collect κ0 gP gm2 hn0.le (by norm_num at g1 ⊢; linarith) t1 t2 t3 t4
    linarith
  obtain ⟨w, hw1, hw2⟩ : ∃ w : List ℚ, Vals (normalize db t) w ∧ List.Forall₂ (fun y q => |y - g / m * (q - μ)| ≤ E) w v := by
    rw [normalize_eq]
    generalize dc' t = D at one
    generalize ((SM.down (dbToLinear db) : F32) / mx' t) = F at one
    have key : ∀ (l : List F32) (u : List ℚ), Vals l u → (∀ s ∈ l, s ∈ t) → (∀ q ∈ u, q ∈ v) →
        ∃ w : List ℚ, Vals (l.map fun s => (s - D) * F) w ∧ List.Forall₂ (fun y q => |y - g / m * (q - μ)| ≤ E) w u := by
      intro l u h
      induction h with
      | nil => exact fun _ _ => ⟨[], .nil, .nil⟩
      | @cons x q l u hx _ ih =>
        intro a1 a2
        obtain ⟨w, i1, i2⟩ := ih (fun s hs => a1 s (List.mem_cons_of_mem _ hs)) (fun s hs => a2 s (List.mem_cons_of_mem _ hs))
        obtain ⟨o1, o2⟩ := one x q (a1 x (List.mem_cons_self ..)) (a2 q (List.mem_cons_self ..)) hx
        exact ⟨_ :: w, .cons o1 i1, .cons o2 i2⟩
    exact key t v hv (fun _ h => h) (fun _ h => h)
  refine ⟨g / m, gm0, w, hw1, hw2, ?_⟩
  have hwl : w.length = v.length := hw2.length_eq
  have hsum : ∀ (w v : List ℚ) (c μ : ℚ), List.Forall₂ (fun y q => |y - c * (q - μ)| ≤ E) w v →
      |w.sum - c * (v.sum - v.length * μ)| ≤ v.length * E := by
    intro w v c μ h
    induction h with
    | nil => simp
    | @cons y q w v h _ ih =>
      rw [List.sum_cons, List.sum_cons, List.length_cons]
      push_cast
      rw [show y + w.sum - c * (q + v.sum - (v.length + 1) * μ) = (y - c * (q - μ)) + (w.sum - c * (v.sum - v.length * μ)) by ring]
      exact (abs_add_le _ _).trans (by linarith)
  have h := hsum w v _ _ hw2
  have hvl : (v.length : ℚ) = N := by rw [hN, hl]
  rw [hμ, hvl, mul_div_cancel₀ _ hn0.ne', sub_self, mul_zero, sub_zero] at h
  rw [hwl, hvl, abs_div, abs_of_pos hn0, div_le_iff₀ hn0]
  linarith

/-- Samples a half, a half and minus a quarter, brought to a gain of one. -/
example : ∃ (_ : Libm F64), Libm.pow (lit 10 : F64) (lit 0) = lit 1 ∧ ∃ (db : F64) (g P : ℚ) (t : List F32) (v : List ℚ),
    Vals t v ∧ (∀ q ∈ v, |q| ≤ 1) ∧ t.length ≤ 2 ^ 24 ∧ (SM.down (dbToLinear db) : F32).Is g ∧ (2 ^ 30)⁻¹ ≤ g ∧ g ≤ 2 ^ 40 ∧
    (∃ q ∈ v, P ≤ |q - v.sum / v.length|) ∧ ((t.length : ℚ) + 16) * (2 ^ 24)⁻¹ ≤ P := by
  have h1 : (lit (1 / 2) : F32).Is (1 / 2) := by decide +kernel
  have h2 : (lit (-1 / 4) : F32).Is (-1 / 4) := by decide +kernel
  refine ⟨⟨id, id, id, id, fun _ _ => lit 1⟩, rfl, lit 0, 1, 1 / 2, [lit (1 / 2), lit (1 / 2), lit (-1 / 4)], [1 / 2, 1 / 2, -1 / 4],
    .cons h1 (.cons h1 (.cons h2 .nil)), ?_, by simp, ?_, by norm_num, by norm_num, ⟨-1 / 4, by simp, ?_⟩, by norm_num⟩
  · intro q hq
    rcases List.mem_cons.mp hq with rfl | hq
    · rw [abs_of_pos (by norm_num)]; norm_num
    · rcases List.mem_cons.mp hq with rfl | hq
      · rw [abs_of_pos (by norm_num)]; norm_num
      · rw [List.mem_singleton.mp hq, abs_le]; norm_num
  · show (SM.down (lit 1 : F64) : F32).Is 1
    decide +kernel
  · norm_num [abs_div]

end Verif
