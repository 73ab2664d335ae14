import Verif.Props.NormalizeF32

/-! # Property theorems: C161 (normalize depends on the shape of a track only) -/

namespace Verif
open Fl

/-! ## exact arithmetic -/

private theorem mean_affine (t : List ℝ) (a b : ℝ) (h : t ≠ []) : mean (t.map fun s => a * s + b) = a * mean t + b := by
  have hl : (t.length : ℝ) ≠ 0 := by exact_mod_cast (List.length_pos_of_ne_nil h).ne'
  have key : ∀ l : List ℝ, (l.map fun s => a * s + b).sum = a * l.sum + l.length * b := by
    intro l
    induction l with
    | nil => simp
    | cons x l ih => simp only [List.map_cons, List.sum_cons, ih, List.length_cons]; push_cast; ring
  unfold mean
  rw [key, List.length_map]
  field_simp

/-- Two positive multiples of a list that have the same peak are the same. -/
private theorem same_peak (l : List ℝ) (c d G : ℝ) (c0 : 0 < c) (d0 : 0 < d) (hG : 0 < G)
    (h1 : ∀ y ∈ l, |y * c| ≤ G) (h2 : ∃ y ∈ l, |y * c| = G) (h3 : ∀ y ∈ l, |y * d| ≤ G) (h4 : ∃ y ∈ l, |y * d| = G) : c = d := by
  obtain ⟨y, hy, e⟩ := h2
  obtain ⟨z, hz, e'⟩ := h4
  have k1 := h3 y hy
  have k2 := h1 z hz
  rw [abs_mul, abs_of_pos c0] at e k2
  rw [abs_mul, abs_of_pos d0] at e' k1
  have y0 : 0 < |y| := by
    by_contra h
    have : |y| = 0 := le_antisymm (not_lt.mp h) (abs_nonneg _)
    rw [this, zero_mul] at e; exact hG.ne e
  have z0 : 0 < |z| := by
    by_contra h
    have : |z| = 0 := le_antisymm (not_lt.mp h) (abs_nonneg _)
    rw [this, zero_mul] at e'; exact hG.ne e'
  apply le_antisymm
  · exact le_of_mul_le_mul_left (by rw [e']; exact k2) z0
  · exact le_of_mul_le_mul_left (by rw [e]; exact k1) y0

private theorem gain_pos (db : ℝ) : 0 < dbToLinear db := by
  unfold dbToLinear; real_simp; exact Real.rpow_pos_of_pos (by norm_num) _

/-- A track with another volume and another offset is normalised to the same track (exact reals; two different samples);
turned upside down, to the track turned upside down. -/
theorem C161_shape (db a b : ℝ) (t : List ℝ) (h : ∃ x ∈ t, ∃ y ∈ t, x ≠ y) :
    (0 < a → normalize db (t.map fun s => a * s + b) = normalize db t) ∧
    (a < 0 → normalize db (t.map fun s => a * s + b) = (normalize db t).map fun y => -y) := by
  have hne : t ≠ [] := by obtain ⟨x, hx, -⟩ := h; exact List.ne_nil_of_mem hx
  have key : ∀ a : ℝ, a ≠ 0 → normalize db (t.map fun s => a * s + b) = (normalize db t).map fun y => (a / |a|) * y := by
    intro a ha
    have ha' : 0 < |a| := abs_pos.mpr ha
    have h' : ∃ x ∈ t.map (fun s => a * s + b), ∃ y ∈ t.map (fun s => a * s + b), x ≠ y := by
      obtain ⟨x, hx, y, hy, hxy⟩ := h
      exact ⟨_, List.mem_map_of_mem hx, _, List.mem_map_of_mem hy, fun e => hxy (mul_left_cancel₀ ha (by linarith))⟩
    obtain ⟨-, ⟨c, c0, e⟩, -, p1, p2⟩ := C23_normalize db t h
    obtain ⟨-, ⟨d, d0, e'⟩, -, p3, p4⟩ := C23_normalize db _ h'
    rw [e] at p1 p2
    rw [e', List.map_map, mean_affine t a b hne] at p3 p4
    have hcd : c = |a| * d := by
      refine same_peak (t.map fun s => s - mean t) c (|a| * d) (dbToLinear db) c0 (by positivity) (gain_pos db) ?_ ?_ ?_ ?_
      · intro y hy
        obtain ⟨s, hs, rfl⟩ := List.mem_map.mp hy
        exact p1 _ (List.mem_map.mpr ⟨s, hs, rfl⟩)
      · obtain ⟨y, hy, hy'⟩ := p2
        obtain ⟨s, hs, rfl⟩ := List.mem_map.mp hy
        exact ⟨_, List.mem_map_of_mem hs, hy'⟩
      · intro y hy
        obtain ⟨s, hs, rfl⟩ := List.mem_map.mp hy
        have := p3 _ (List.mem_map.mpr ⟨s, hs, rfl⟩)
        simp only [Function.comp] at this
        rw [show a * s + b - (a * mean t + b) = a * (s - mean t) by ring] at this
        rw [abs_mul, abs_mul] at this
        rw [abs_mul, abs_mul, abs_abs]
        calc _ = |a| * |s - mean t| * |d| := by ring
          _ ≤ _ := this
      · obtain ⟨y, hy, hy'⟩ := p4
        obtain ⟨s, hs, rfl⟩ := List.mem_map.mp hy
        simp only [Function.comp] at hy'
        rw [show a * s + b - (a * mean t + b) = a * (s - mean t) by ring, abs_mul, abs_mul] at hy'
        refine ⟨_, List.mem_map_of_mem hs, ?_⟩
        rw [abs_mul, abs_mul, abs_abs, ← hy']; ring
    rw [e, e', List.map_map, List.map_map, mean_affine t a b hne]
    apply List.map_congr_left
    intro s _
    simp only [Function.comp]
    rw [hcd]
    field_simp
    ring
  refine ⟨fun ha => ?_, fun ha => ?_⟩
  · rw [key a ha.ne', abs_of_pos ha, div_self ha.ne']; simp
  · rw [key a ha.ne, abs_of_neg ha, div_neg, div_self ha.ne]; simp

/-- Normalising again changes nothing, and to another level gives what normalising once to that level gives; the level
of the result is the only thing the argument decides. -/
theorem C161_twice (db db' : ℝ) (t : List ℝ) (h : ∃ x ∈ t, ∃ y ∈ t, x ≠ y) :
    normalize db' (normalize db t) = normalize db' t ∧
    normalize db' t = (normalize db t).map fun y => y * dbToLinear (db' - db) := by
  obtain ⟨-, ⟨c, c0, e⟩, -, p1, p2⟩ := C23_normalize db t h
  obtain ⟨-, ⟨d, d0, e'⟩, -, p3, p4⟩ := C23_normalize db' t h
  constructor
  · rw [show normalize db t = t.map fun s => c * s + -(mean t * c) by
      rw [e]; apply List.map_congr_left; intro s _; ring]
    exact (C161_shape db' c _ t h).1 c0
  · have hk : 0 < dbToLinear (db' - db) := gain_pos _
    have hG : dbToLinear db * dbToLinear (db' - db) = dbToLinear db' := by
      unfold dbToLinear; real_simp
      rw [← Real.rpow_add (by norm_num)]
      congr 1; ring
    have hcd : c * dbToLinear (db' - db) = d := by
      rw [e] at p1 p2
      rw [e'] at p3 p4
      refine same_peak (t.map fun s => s - mean t) _ _ (dbToLinear db') (mul_pos c0 hk) d0 (gain_pos db') ?_ ?_ ?_ ?_
      · intro y hy
        obtain ⟨s, hs, rfl⟩ := List.mem_map.mp hy
        have := p1 _ (List.mem_map.mpr ⟨s, hs, rfl⟩)
        rw [← mul_assoc, abs_mul, abs_of_pos hk, ← hG]
        exact mul_le_mul_of_nonneg_right this hk.le
      · obtain ⟨y, hy, hy'⟩ := p2
        obtain ⟨s, hs, rfl⟩ := List.mem_map.mp hy
        refine ⟨_, List.mem_map_of_mem hs, ?_⟩
        rw [← mul_assoc, abs_mul, abs_of_pos hk, ← hG, hy']
      · intro y hy
        obtain ⟨s, hs, rfl⟩ := List.mem_map.mp hy
        exact p3 _ (List.mem_map.mpr ⟨s, hs, rfl⟩)
      · obtain ⟨y, hy, hy'⟩ := p4
        obtain ⟨s, hs, rfl⟩ := List.mem_map.mp hy
        exact ⟨_, List.mem_map_of_mem hs, hy'⟩
    rw [e, e', List.map_map]
    apply List.map_congr_left
    intro s _
    simp only [Function.comp]
    rw [← hcd]; ring

example : ∃ x ∈ [(1 : ℝ), 2, 5], ∃ y ∈ [(1 : ℝ), 2, 5], x ≠ y := ⟨1, by simp, 2, by simp, by norm_num⟩

/-! ## IEEE -/

/-- In `f32` the second pass does change samples: 1, 0, 0. -/
theorem C161_twice_violated [Libm F64] (h : Libm.pow (lit 10 : F64) (lit 0) = lit 1) :
    normalize (lit 0 : F64) [(lit 1 : F32), lit 0, lit 0] = [lit 1, lit (-8388609 / 16777216), lit (-8388609 / 16777216)] ∧
    normalize (lit 0 : F64) [(lit 1 : F32), lit (-8388609 / 16777216), lit (-8388609 / 16777216)] = [lit 1, lit (-1 / 2), lit (-1 / 2)] ∧
    (lit (-8388609 / 16777216) : F32) ≠ lit (-1 / 2) := by
  have e : (SM.down (dbToLinear (lit 0 : F64)) : F32) = lit 1 := by
    unfold dbToLinear
    rw [show (lit 0 : F64) / lit 20 = lit 0 by decide +kernel, h]
    decide +kernel
  unfold normalize
  rw [e]
  decide +kernel

private theorem far (v : List ℚ) (q P : ℚ) (hq : q ∈ v) (hP : 0 < P) (h : P ≤ |q - v.sum / v.length|) : ∃ x ∈ v, P / 2 ≤ |q - x| := by
  by_contra hc
  push Not at hc
  have hl : (0 : ℚ) < v.length := by exact_mod_cast List.length_pos_of_mem hq
  have key : ∀ l : List ℚ, (∀ x ∈ l, |q - x| < P / 2) → |l.length * q - l.sum| ≤ l.length * (P / 2) := by
    intro l hl
    induction l with
    | nil => simp
    | cons x l ih =>
      have h1 := ih (fun y hy => hl y (List.mem_cons_of_mem _ hy))
      have h2 := hl x (List.mem_cons_self ..)
      simp only [List.length_cons, List.sum_cons]
      push_cast
      have h3 := abs_add_le ((l.length : ℚ) * q - l.sum) (q - x)
      rw [show (l.length : ℚ) * q - l.sum + (q - x) = (l.length + 1) * q - (x + l.sum) by ring] at h3
      linarith
  have := key v hc
  rw [show (v.length : ℚ) * q - v.sum = v.length * (q - v.sum / v.length) by field_simp, abs_mul, abs_of_pos hl] at this
  have := le_of_mul_le_mul_left this hl
  linarith

private theorem vals_all {t : List F32} {v : List ℚ} (h : Vals t v) : (∀ s ∈ t, ∃ q ∈ v, s.Is q) ∧ (∀ q ∈ v, ∃ s ∈ t, s.Is q) ∧ t.length = v.length := by
  induction h with
  | nil => simp
  | cons hx _ ih =>
    refine ⟨?_, ?_, by simp [ih.2.2]⟩
    · intro s hs
      rcases List.mem_cons.mp hs with rfl | hs
      · exact ⟨_, List.mem_cons_self .., hx⟩
      · obtain ⟨q, h1, h2⟩ := ih.1 s hs
        exact ⟨q, List.mem_cons_of_mem _ h1, h2⟩
    · intro s hs
      rcases List.mem_cons.mp hs with rfl | hs
      · exact ⟨_, List.mem_cons_self .., hx⟩
      · obtain ⟨q, h1, h2⟩ := ih.2.1 s hs
        exact ⟨q, List.mem_cons_of_mem _ h1, h2⟩

/-- Bounds of one pass: every value within the gain and within 1, and one at the gain. -/
private theorem pass [Libm F64] (db : F64) (g P : ℚ) (t : List F32) (v : List ℚ) (hv : Vals t v) (hq : ∀ q ∈ v, |q| ≤ 1)
    (hlen : t.length ≤ 2 ^ 24) (hg : (SM.down (dbToLinear db) : F32).Is g) (g1 : (2 ^ 30)⁻¹ ≤ g) (g2 : g ≤ 1)
    (hP : ∃ q ∈ v, P ≤ |q - v.sum / v.length|) (hP1 : (2 ^ 20)⁻¹ ≤ P) (w : List ℚ) (hw : Vals (normalize db t) w) :
    (∀ y ∈ w, |y| ≤ 1 ∧ |y| ≤ g * (1 + (2 ^ 22)⁻¹)) ∧ ∃ y ∈ w, g * (1 - (2 ^ 22)⁻¹) ≤ |y| := by
  obtain ⟨m1, m2, ml⟩ := vals_all hv
  obtain ⟨w1, w2, -⟩ := vals_all hw
  obtain ⟨q, hqv, hqP⟩ := hP
  have P0 : 0 < P := lt_of_lt_of_le (by norm_num) hP1
  obtain ⟨x, hx, hxq⟩ := far v q P hqv P0 hqP
  obtain ⟨s, hs, is⟩ := m2 q hqv
  obtain ⟨r, hr, ir⟩ := m2 x hx
  have g0 : 0 ≤ g := le_trans (by norm_num) g1
  have hall : ∀ s ∈ t, ∃ q, s.Is q ∧ |q| ≤ 1 := fun s hs => by
    obtain ⟨q, h1, h2⟩ := m1 s hs; exact ⟨q, h2, hq q h1⟩
  obtain ⟨p1, p2⟩ := C105_normalize_peak db g t hg (le_trans (by norm_num) g1) (g2.trans (by norm_num)) (hlen.trans_lt (by norm_num)) hall
    ⟨s, hs, r, hr, q, x, is, ir, le_trans (by norm_num at hP1 ⊢; linarith) hxq⟩
  have p3 := C159_peak_partial db g t hg g0 g2 (hlen.trans_lt (by norm_num))
    (fun s hs => by obtain ⟨q, h1, h2⟩ := hall s hs; exact ⟨q, h1, h2.trans (by norm_num)⟩)
    ⟨s, hs, r, hr, q, x, is, ir, le_trans (by norm_num at hP1 ⊢; linarith) hxq⟩
  constructor
  · intro y hy
    obtain ⟨s, hs, is⟩ := w2 y hy
    obtain ⟨a, ha, ha1⟩ := p1 s hs
    obtain ⟨b, hb, hb1⟩ := p3 s hs
    rw [is.unique ha] at *
    rw [ha.unique hb] at *
    exact ⟨hb1, ha1⟩
  · obtain ⟨y, hy, a, ha, ha1⟩ := p2
    obtain ⟨b, hb, ib⟩ := w1 y hy
    rw [ha.unique ib] at ha1
    exact ⟨b, hb, ha1⟩

/-- What holds of it (IEEE): for `n ≤ 2^24` samples in `[-1,1]`, a gain `g` in `[2^-30, 1]`, and a sample at least `P` from the
mean, with `N = (n+16)·2^-24` at most `P/16` and `g/4`: normalising again moves no sample by more than
`4N + g·(8N/P + 2^-19)`. Missing: tracks that move less around their mean, or longer. -/
theorem C161_twice_partial [Libm F64] (db : F64) (g P N : ℚ) (t : List F32) (v : List ℚ) (hv : Vals t v) (hq : ∀ q ∈ v, |q| ≤ 1)
    (hlen : t.length ≤ 2 ^ 24) (hg : (SM.down (dbToLinear db) : F32).Is g) (g1 : (2 ^ 30)⁻¹ ≤ g) (g2 : g ≤ 1)
    (hP : ∃ q ∈ v, P ≤ |q - v.sum / v.length|) (hN : N = ((t.length : ℚ) + 16) * (2 ^ 24)⁻¹) (hP1 : 16 * N ≤ P) (hg4 : 4 * N ≤ g) :
    ∃ w w' : List ℚ, Vals (normalize db t) w ∧ Vals (normalize db (normalize db t)) w' ∧
      List.Forall₂ (fun y' y => |y' - y| ≤ 4 * N + g * (8 * (N / P) + (2 ^ 19)⁻¹)) w' w := by
  have N0 : (2 ^ 20)⁻¹ ≤ N := by
    rw [hN]
    have : (0 : ℚ) ≤ t.length := by positivity
    norm_num; linarith
  have Np : 0 < N := lt_of_lt_of_le (by norm_num) N0
  have Pp : 0 < P := by linarith
  have g0 : 0 < g := lt_of_lt_of_le (by norm_num) g1
  set κ := N / P with hκ
  have κ0 : 0 < κ := div_pos Np Pp
  have κ1 : κ ≤ 1 / 16 := by rw [hκ, div_le_iff₀ Pp]; linarith
  obtain ⟨c, c0, w, hw, hF, hmean⟩ := C113_dc_partial db g P t v hv hq hlen hg g1 (g2.trans (by norm_num)) hP (by rw [← hN]; linarith)
  rw [← hN, ← hκ] at hF hmean
  obtain ⟨b1, y₀, hy₀, b2⟩ := pass db g P t v hv hq hlen hg g1 g2 hP (by linarith) w hw
  have hlen' : (normalize db t).length = t.length := by simp [normalize]
  set μ := w.sum / w.length with hμ
  -- a sample of the first pass far from its mean
  set P' := g * (1 - (2 ^ 22)⁻¹ - κ) with hP'
  have hPg : g / 2 ≤ P' := by rw [hP']; norm_num; nlinarith
  have hfar : ∃ q ∈ w, P' ≤ |q - μ| := by
    refine ⟨y₀, hy₀, ?_⟩
    have := abs_sub_abs_le_abs_sub y₀ μ
    rw [hP']; linarith
  obtain ⟨d, d0, w', hw', hF', -⟩ := C113_dc_partial db g P' (normalize db t) w hw (fun q h => (b1 q h).1) (by rw [hlen']; exact hlen) hg g1
    (g2.trans (by norm_num)) hfar (by rw [hlen', ← hN]; linarith)
  rw [hlen', ← hN] at hF'
  have hNP : g * (N / P') ≤ 2 * N := by
    have hP0 : 0 < P' := by linarith
    rw [mul_div_assoc', div_le_iff₀ hP0]; nlinarith
  obtain ⟨b3, y₁, hy₁, b4⟩ := pass db g P' (normalize db t) w hw (fun q h => (b1 q h).1) (by rw [hlen']; exact hlen) hg g1 g2 hfar (by linarith) w' hw'
  refine ⟨w, w', hw, hw', ?_⟩
  -- the factor of the second pass is near 1
  have memF : ∀ y' ∈ w', ∃ y ∈ w, |y' - d * (y - μ)| ≤ 2 * N := by
    intro y' hy'
    obtain ⟨i, hi, rfl⟩ := List.getElem_of_mem hy'
    have hl := hF'.length_eq
    exact ⟨w[i]'(by omega), List.getElem_mem _, (List.Forall₂.get hF' hi (by omega)).trans hNP⟩
  have memF' : ∀ y ∈ w, ∃ y' ∈ w', |y' - d * (y - μ)| ≤ 2 * N := by
    intro y hy
    obtain ⟨i, hi, rfl⟩ := List.getElem_of_mem hy
    have hl := hF'.length_eq
    exact ⟨w'[i]'(by omega), List.getElem_mem _, (List.Forall₂.get hF' (by omega) hi).trans hNP⟩
  have up : d * P' ≤ g * (1 + (2 ^ 22)⁻¹) + 2 * N := by
    obtain ⟨q, hqw, hqP⟩ := hfar
    obtain ⟨y', hy', e⟩ := memF' q hqw
    have h1 := (b3 y' hy').2
    have h2 := abs_sub_abs_le_abs_sub (d * (q - μ)) y'
    rw [abs_sub_comm] at e
    rw [abs_mul, abs_of_pos d0] at h2
    have := mul_le_mul_of_nonneg_left hqP d0.le
    linarith
  have ball : ∀ y ∈ w, |y - μ| ≤ g * (1 + (2 ^ 22)⁻¹ + κ) := by
    intro y hy
    have h1 := (b1 y hy).2
    have := abs_sub y μ
    nlinarith
  have down : g * (1 - (2 ^ 22)⁻¹) - 2 * N ≤ d * (g * (1 + (2 ^ 22)⁻¹ + κ)) := by
    obtain ⟨y, hy, e⟩ := memF y₁ hy₁
    have h2 := abs_sub_abs_le_abs_sub y₁ (d * (y - μ))
    rw [abs_mul, abs_of_pos d0] at h2
    have := mul_le_mul_of_nonneg_left (ball y hy) d0.le
    linarith
  have d3 : d ≤ 4 := by
    by_contra hc
    push Not at hc
    have : 4 * (g / 2) ≤ d * P' := mul_le_mul hc.le hPg (by linarith) d0.le
    norm_num at up
    linarith
  have near : |d - 1| * (g * (1 + (2 ^ 22)⁻¹ + κ)) ≤ 2 * N + g * (5 * κ + (2 ^ 20)⁻¹ * (3 / 2)) + g * (2 * κ + (2 ^ 20)⁻¹ / 2) := by
    rcases le_total 1 d with hd | hd
    · rw [abs_of_nonneg (by linarith)]
      have e1 : (d - 1) * (g * (1 + (2 ^ 22)⁻¹ + κ)) = (d * P' - P') + (d - 1) * (g * ((2 ^ 21)⁻¹ + 2 * κ)) := by rw [hP']; ring
      have e2 : (d - 1) * (g * ((2 ^ 21)⁻¹ + 2 * κ)) ≤ 3 * (g * ((2 ^ 21)⁻¹ + 2 * κ)) :=
        mul_le_mul_of_nonneg_right (by linarith) (by positivity)
      rw [e1]
      rw [hP'] at up ⊢
      norm_num at up e2 ⊢
      nlinarith
    · rw [abs_of_nonpos (by linarith)]
      norm_num at down ⊢
      nlinarith
  have hl := hF'.length_eq
  refine List.forall₂_iff_get.mpr ⟨hl, fun i hi hi' => ?_⟩
  have e := (List.Forall₂.get hF' hi hi').trans hNP
  have hb := ball _ (List.get_mem w ⟨i, hi'⟩)
  generalize w'.get ⟨i, hi⟩ = y' at *
  generalize w.get ⟨i, hi'⟩ = y at *
  rw [← hμ] at e
  have k1 : |(d - 1) * (y - μ)| ≤ |d - 1| * (g * (1 + (2 ^ 22)⁻¹ + κ)) := by
    rw [abs_mul]; exact mul_le_mul_of_nonneg_left hb (abs_nonneg _)
  have k2 : y' - y = (y' - d * (y - μ)) + (d - 1) * (y - μ) - μ := by ring
  have k3 := abs_sub ((y' - d * (y - μ)) + (d - 1) * (y - μ)) μ
  have k4 := abs_add_le (y' - d * (y - μ)) ((d - 1) * (y - μ))
  have k5 := k1.trans near
  rw [k2]
  generalize |(d - 1) * (y - μ)| = A at *
  norm_num at k5 ⊢
  linarith

/-- The hypotheses are met by 1, 0, 0 at 0 dB: `P = 1/2`, `N = 19·2^-24`. -/
example : Vals [(lit 1 : F32), lit 0, lit 0] [1, 0, 0] ∧ (∃ q ∈ [(1 : ℚ), 0, 0], 1 / 2 ≤ |q - [(1 : ℚ), 0, 0].sum / ([(1 : ℚ), 0, 0].length : ℚ)|) ∧
    16 * ((3 + 16) * (2 ^ 24)⁻¹ : ℚ) ≤ 1 / 2 ∧ 4 * ((3 + 16) * (2 ^ 24)⁻¹ : ℚ) ≤ 1 := by
  refine ⟨.cons lit32_1 (.cons lit32_0 (.cons lit32_0 .nil)), ⟨1, by simp, by norm_num [abs_of_pos]⟩, by norm_num, by norm_num⟩

end Verif
