import Verif.Proofs.ApproxSqrt
import Verif.Props.BandPassF32

/-! # BandPass corner frequencies in f64: C112 -/

namespace Verif
open Fl

/-- Two corner frequencies: positive, at most 2^20 Hz and at least 2^-20 Hz apart. -/
structure Corners (a b : F64) (p q : ℚ) : Prop where
  ha : a.Is p
  hb : b.Is q
  p0 : (2 ^ 20)⁻¹ ≤ p
  p1 : p ≤ 2 ^ 20
  q0 : (2 ^ 20)⁻¹ ≤ q
  q1 : q ≤ 2 ^ 20
  apart : (2 ^ 20)⁻¹ ≤ |p - q|

section
variable {p q : ℝ}

private theorem mid_sqrt {x : ℝ} (h0 : ((2 : ℝ) ^ 40)⁻¹ ≤ x) (h1 : x ≤ 2 ^ 42) : Mid (Real.sqrt x) ∧ 0 < Real.sqrt x ∧ (2 ^ 20)⁻¹ ≤ Real.sqrt x ∧ Real.sqrt x ≤ 2 ^ 21 := by
  have a : ((2 : ℝ) ^ 20)⁻¹ ≤ Real.sqrt x := by
    rw [Real.le_sqrt' (by positivity)]
    calc (((2 : ℝ) ^ 20)⁻¹) ^ 2 = (2 ^ 40)⁻¹ := by norm_num
      _ ≤ x := h0
  have b : Real.sqrt x ≤ 2 ^ 21 := by
    rw [Real.sqrt_le_left (by positivity)]
    calc x ≤ 2 ^ 42 := h1
      _ = (2 ^ 21) ^ 2 := by norm_num
  have pos : 0 < Real.sqrt x := lt_of_lt_of_le (by positivity) a
  refine ⟨?_, pos, a, b⟩
  unfold Mid
  rw [abs_of_pos pos]
  exact ⟨le_trans (by norm_num) a, b.trans (by norm_num)⟩

/-- From accurate centre frequency and quality to the reported corners. -/
theorem bp_report {m : BandPass F32 F64} (p0 : ((2 : ℝ) ^ 20)⁻¹ ≤ p) (p1 : p ≤ 2 ^ 20) (q0 : ((2 : ℝ) ^ 20)⁻¹ ≤ q) (q1 : q ≤ 2 ^ 20)
    (hpq : ((2 : ℝ) ^ 20)⁻¹ ≤ |p - q|) (hc : App m.centralF ((2 ^ 50)⁻¹) (Real.sqrt (p * q)))
    (hQ : App m.quality ((2 ^ 48)⁻¹) (Real.sqrt (p * q) / |p - q|)) :
    ∃ l h : ℚ, m.getCornerFrequencies.1.Is l ∧ m.getCornerFrequencies.2.Is h ∧
      |(l : ℝ) - min p q| ≤ (2 ^ 38)⁻¹ * max p q ∧ |(h : ℝ) - max p q| ≤ (2 ^ 38)⁻¹ * max p q := by
  have pp : 0 < p := lt_of_lt_of_le (by positivity) p0
  have qp : 0 < q := lt_of_lt_of_le (by positivity) q0
  set d := |p - q| with hd
  have dp : 0 < d := lt_of_lt_of_le (by positivity) hpq
  have d1 : d ≤ 2 ^ 20 := by rw [hd, abs_le]; constructor <;> linarith
  have pq0 : ((2 : ℝ) ^ 40)⁻¹ ≤ p * q := by
    calc ((2 : ℝ) ^ 40)⁻¹ = (2 ^ 20)⁻¹ * (2 ^ 20)⁻¹ := by norm_num
      _ ≤ p * q := mul_le_mul p0 q0 (by positivity) pp.le
  have pq1 : p * q ≤ 2 ^ 40 := by
    calc p * q ≤ 2 ^ 20 * 2 ^ 20 := mul_le_mul p1 q1 qp.le (by positivity)
      _ = 2 ^ 40 := by norm_num
  obtain ⟨mc, c0, cl, cu⟩ := mid_sqrt pq0 (pq1.trans (by norm_num))
  set c := Real.sqrt (p * q) with hcd
  have cc : c * c = p * q := Real.mul_self_sqrt (by positivity)
  -- b = -c / Q
  have eb : -c / (c / d) = -d := by field_simp
  have mid_d : Mid (-d) := by
    unfold Mid; rw [abs_neg, abs_of_pos dp]; exact ⟨le_trans (by norm_num) hpq, d1.trans (by norm_num)⟩
  have aB : App (-m.centralF / m.quality) ((2 ^ 46)⁻¹) (-d) := by
    have := App.div (δ := (2 ^ 46)⁻¹) hc.neg hQ (by positivity) (by rw [eb]; exact mid_d) (by norm_num) (by norm_num) (by norm_num)
    rwa [eb] at this
  set B := -m.centralF / m.quality with hB
  -- b·b
  have dd0 : ((2 : ℝ) ^ 40)⁻¹ ≤ d * d := by
    calc ((2 : ℝ) ^ 40)⁻¹ = (2 ^ 20)⁻¹ * (2 ^ 20)⁻¹ := by norm_num
      _ ≤ d * d := mul_le_mul hpq hpq (by positivity) dp.le
  have dd1 : d * d ≤ 2 ^ 40 := by
    calc d * d ≤ 2 ^ 20 * 2 ^ 20 := mul_le_mul d1 d1 dp.le (by positivity)
      _ = 2 ^ 40 := by norm_num
  have ddp : 0 < d * d := by positivity
  have aBB : App (B * B) ((2 ^ 44)⁻¹) (-d * -d) := App.mul aB aB (by
    rw [neg_mul_neg]; unfold Mid; rw [abs_of_pos ddp]; exact ⟨le_trans (by norm_num) dd0, dd1.trans (by norm_num)⟩) (by positivity) (by norm_num) (by norm_num)
  rw [neg_mul_neg] at aBB
  -- 4·a·c
  have pqp : 0 < p * q := by positivity
  have aCC : App (-m.centralF * m.centralF) ((2 ^ 48)⁻¹) (-c * c) := App.mul hc.neg hc (by
    unfold Mid; rw [neg_mul, abs_neg, cc, abs_of_pos pqp]; exact ⟨le_trans (by norm_num) pq0, pq1.trans (by norm_num)⟩) (by positivity) (by norm_num) (by norm_num)
  have a4 : App (lit 4 * lit 1 : F64) 0 4 := App.of_is (q := 4) (by decide +kernel) (by norm_num)
  have a4C : App (lit 4 * lit 1 * (-m.centralF * m.centralF)) ((2 ^ 44)⁻¹) (4 * (-c * c)) := App.mul a4 aCC (by
    unfold Mid; rw [abs_mul, neg_mul, abs_neg, cc, abs_of_pos pqp, abs_of_pos (by norm_num)]
    constructor <;> norm_num at * <;> linarith) le_rfl (by norm_num) (by norm_num)
  have hsum : d * d - 4 * (-c * c) = (p + q) * (p + q) := by
    have : d * d = (p - q) * (p - q) := by rw [hd]; exact abs_mul_abs_self _
    rw [this]
    linear_combination 4 * cc
  have s0 : ((2 : ℝ) ^ 40)⁻¹ ≤ (p + q) * (p + q) := by nlinarith
  have s1 : (p + q) * (p + q) ≤ 2 ^ 42 := by
    calc (p + q) * (p + q) ≤ 2 ^ 21 * 2 ^ 21 := mul_le_mul (by linarith) (by linarith) (by linarith) (by positivity)
      _ = 2 ^ 42 := by norm_num
  have sp : 0 < (p + q) * (p + q) := by positivity
  have mS : Mid ((p + q) * (p + q)) := by
    unfold Mid; rw [abs_of_pos sp]; exact ⟨le_trans (by norm_num) s0, s1.trans (by norm_num)⟩
  have aD : App (B * B - lit 4 * lit 1 * (-m.centralF * m.centralF)) ((2 ^ 43)⁻¹) ((p + q) * (p + q)) := by
    have := App.sub (δ := (2 ^ 43)⁻¹) aBB a4C (by
      rw [hsum, abs_of_pos ddp, abs_of_pos sp, abs_mul, neg_mul, abs_neg, cc, abs_of_pos pqp, abs_of_pos (show (0 : ℝ) < 4 by norm_num), ← hsum]
      linear_combination -4 * cc) (by rw [hsum]; exact mS) (by norm_num) (by norm_num)
    rwa [hsum] at this
  have aR : App (Flt.sqrt (B * B - lit 4 * lit 1 * (-m.centralF * m.centralF))) ((2 ^ 41)⁻¹) (p + q) := by
    have := App.sqrt (δ := (2 ^ 41)⁻¹) aD sp mS (by positivity) (by norm_num) (by norm_num)
    rwa [Real.sqrt_mul_self (by linarith)] at this
  -- the larger root
  have emax : d + (p + q) = 2 * max p q := by
    rcases le_total p q with h | h
    · rw [hd, max_eq_right h, abs_of_nonpos (by linarith)]; ring
    · rw [hd, max_eq_left h, abs_of_nonneg (by linarith)]; ring
  have emin : max p q - d = min p q := by
    rcases le_total p q with h | h
    · rw [hd, max_eq_right h, min_eq_left h, abs_of_nonpos (by linarith)]; ring
    · rw [hd, max_eq_left h, min_eq_right h, abs_of_nonneg (by linarith)]; ring
  set M := max p q with hM
  have Mp : p ≤ M := le_max_left _ _
  have Mq : q ≤ M := le_max_right _ _
  have M1 : M ≤ 2 ^ 20 := max_le p1 q1
  have M0 : 0 < M := lt_of_lt_of_le pp Mp
  have dM : d ≤ M := by
    have : 0 < min p q := lt_min pp qp
    linarith
  have aN : App (-B + Flt.sqrt (B * B - lit 4 * lit 1 * (-m.centralF * m.centralF))) ((2 ^ 40)⁻¹) (2 * M) := by
    have h := aB.neg
    rw [neg_neg] at h
    have := App.add (δ := (2 ^ 40)⁻¹) (h.mono (δ := (2 ^ 41)⁻¹) (by norm_num)) aR (by
      rw [abs_of_pos dp, abs_of_pos (by linarith : 0 < p + q), abs_of_pos (by linarith)]) (by
      rw [emax]; unfold Mid; rw [abs_of_pos (by linarith)]; constructor <;> norm_num at * <;> linarith) (by norm_num) (by norm_num)
    rwa [emax] at this
  have a2 : App (lit 2 * lit 1 : F64) 0 2 := App.of_is (q := 2) (by decide +kernel) (by norm_num)
  have aP : App ((-B + Flt.sqrt (B * B - lit 4 * lit 1 * (-m.centralF * m.centralF))) / (lit 2 * lit 1)) ((2 ^ 39)⁻¹ + (2 ^ 52)⁻¹) M := by
    have e : 2 * M / 2 = M := by ring
    have := App.div (δ := (2 ^ 39)⁻¹ + (2 ^ 52)⁻¹) aN a2 (by norm_num) (by
      rw [e]; unfold Mid; rw [abs_of_pos M0]; constructor <;> norm_num at * <;> linarith) (by norm_num) (by norm_num) (by norm_num)
    rwa [e] at this
  set P := (-B + Flt.sqrt (B * B - lit 4 * lit 1 * (-m.centralF * m.centralF))) / (lit 2 * lit 1) with hP
  obtain ⟨x, hx, xe⟩ := aP
  obtain ⟨b, hb, be⟩ := aB
  rw [abs_of_pos M0] at xe
  rw [abs_neg, abs_of_pos dp] at be
  obtain ⟨xl, xu⟩ := abs_le.mp xe
  obtain ⟨bl, bu⟩ := abs_le.mp be
  have x0 : (0 : ℝ) < x := by norm_num at xl; linarith
  have b0 : (b : ℝ) < 0 := by norm_num at bu; linarith
  have x0' : 0 < x := by exact_mod_cast x0
  have b0' : b < 0 := by exact_mod_cast b0
  have ab : |(x : ℝ) + b| ≤ 2 ^ 22 := by
    rw [abs_le]; constructor <;> norm_num at * <;> linarith
  have ab' : |x + b| ≤ 2 ^ 22 := by
    have : ((|x + b| : ℚ) : ℝ) ≤ ((2 ^ 22 : ℚ) : ℝ) := by push_cast; exact ab
    exact_mod_cast this
  have hF : (P + B).Is (b64.rnd (x + b)) := Is.add hx hb (fits64' 22 (by norm_num) ab')
  have hle : b64.rnd (x + b) ≤ x := b64.rnd_le_repr hx.repr (by linarith)
  -- the branch taken
  have hg : m.getCornerFrequencies = (P + B, P) := by
    have e1 : (lit 0 <? P) = true := by
      rw [Is.lt lit64_0 hx]; exact decide_eq_true x0'
    have e2 : (P <? P + B) = false := by
      rw [Is.lt hx hF]; exact decide_eq_false (not_lt.mpr hle)
    have shape : ∀ N : F64, (if (if lit 0 <? P then P else N) <? (if lit 0 <? P then P else N) + B
        then ((if lit 0 <? P then P else N), (if lit 0 <? P then P else N) + B)
        else ((if lit 0 <? P then P else N) + B, (if lit 0 <? P then P else N))) = (P + B, P) := by
      intro N
      rw [if_pos e1, e2, if_neg (by simp)]
    exact shape _
  rw [hg]
  refine ⟨_, _, hF, hx, ?_, xe.trans ?_⟩
  · have r := mixed64' (x + b)
    have rR : |((b64.rnd (x + b) : ℚ) : ℝ) - (x + b)| ≤ (2 ^ 53)⁻¹ * |(x : ℝ) + b| + (2 ^ 200)⁻¹ := by
      have := (Rat.cast_le (K := ℝ)).mpr r; push_cast at this; exact this
    have xb : |(x : ℝ) + b| ≤ 4 * M := by
      rw [abs_le]; constructor <;> norm_num at * <;> linarith
    have t : |((b64.rnd (x + b) : ℚ) : ℝ) - min p q| ≤ |((b64.rnd (x + b) : ℚ) : ℝ) - (x + b)| + (|(x : ℝ) - M| + |(b : ℝ) - -d|) := by
      rw [← emin, show ((b64.rnd (x + b) : ℚ) : ℝ) - (M - d) = (((b64.rnd (x + b) : ℚ) : ℝ) - (x + b)) + ((x - M) + (b - -d)) by ring]
      exact (abs_add_le _ _).trans (add_le_add le_rfl (abs_add_le _ _))
    have hM0 : ((2 : ℝ) ^ 20)⁻¹ ≤ M := p0.trans Mp
    norm_num at *
    linarith
  · exact mul_le_mul_of_nonneg_right (by norm_num) M0.le

end

/-- Centre frequency and quality from two corners, in either order of the subtraction and with or without the absolute value. -/
theorem bp_design {a b : F64} {p q : ℚ} (h : Corners a b p q) {P D : F64} (hP : P = a * b ∨ P = Flt.abs (a * b))
    (hD : D = Flt.abs (a - b) ∨ D = Flt.abs (b - a)) :
    App (Flt.sqrt P) ((2 ^ 50)⁻¹) (Real.sqrt (p * q)) ∧ App (Flt.sqrt P / D) ((2 ^ 48)⁻¹) (Real.sqrt (p * q) / |(p : ℝ) - q|) := by
  have cst : ∀ {x y : ℚ}, x ≤ y → (x : ℝ) ≤ y := fun h => Rat.cast_le.mpr h
  have p0 := cst h.p0
  have p1 := cst h.p1
  have q0 := cst h.q0
  have q1 := cst h.q1
  have d0 := cst h.apart
  push_cast at p0 p1 q0 q1 d0
  have pp : (0 : ℝ) < p := lt_of_lt_of_le (by positivity) p0
  have qp : (0 : ℝ) < q := lt_of_lt_of_le (by positivity) q0
  have dp : (0 : ℝ) < |(p : ℝ) - q| := lt_of_lt_of_le (by positivity) d0
  have d1 : |(p : ℝ) - q| ≤ 2 ^ 20 := by rw [abs_le]; constructor <;> linarith
  have pqp : (0 : ℝ) < p * q := by positivity
  have pq0 : ((2 : ℝ) ^ 40)⁻¹ ≤ p * q := by
    calc ((2 : ℝ) ^ 40)⁻¹ = (2 ^ 20)⁻¹ * (2 ^ 20)⁻¹ := by norm_num
      _ ≤ p * q := mul_le_mul p0 q0 (by positivity) pp.le
  have pq1 : (p : ℝ) * q ≤ 2 ^ 40 := by
    calc (p : ℝ) * q ≤ 2 ^ 20 * 2 ^ 20 := mul_le_mul p1 q1 qp.le (by positivity)
      _ = 2 ^ 40 := by norm_num
  have mpq : Mid ((p : ℝ) * q) := by
    unfold Mid; rw [abs_of_pos pqp]; exact ⟨le_trans (by norm_num) pq0, pq1.trans (by norm_num)⟩
  have aM : App (a * b) ((2 ^ 52)⁻¹) ((p : ℝ) * q) := App.mul (App.of_is h.ha rfl) (App.of_is h.hb rfl) mpq le_rfl (by norm_num) (by norm_num)
  have aP : App P ((2 ^ 52)⁻¹) ((p : ℝ) * q) := by
    rcases hP with rfl | rfl
    · exact aM
    · have := aM.abs; rwa [abs_of_pos pqp] at this
  have mD : ∀ x : ℝ, |x| = |(p : ℝ) - q| → Mid x := fun x hx => by
    unfold Mid; rw [hx]; exact ⟨le_trans (by norm_num) d0, d1.trans (by norm_num)⟩
  have aD : App D ((2 ^ 52)⁻¹) |(p : ℝ) - q| := by
    rcases hD with rfl | rfl
    · exact (App.sub_exact h.ha h.hb (mD _ rfl)).abs
    · rw [abs_sub_comm]; exact (App.sub_exact h.hb h.ha (mD _ (abs_sub_comm _ _))).abs
  obtain ⟨mc, c0, cl, cu⟩ := mid_sqrt pq0 (pq1.trans (by norm_num))
  have aC : App (Flt.sqrt P) ((2 ^ 52)⁻¹ + (2 ^ 51)⁻¹) (Real.sqrt (p * q)) := App.sqrt aP pqp mpq (by positivity) (by norm_num) (by norm_num)
  refine ⟨aC.mono (by norm_num), App.div aC aD dp.ne' ?_ (by norm_num) (by norm_num) (by norm_num)⟩
  unfold Mid
  rw [abs_div, abs_abs, abs_of_pos c0]
  constructor
  · rw [le_div_iff₀ dp]; norm_num at *; linarith
  · rw [div_le_iff₀ dp]; norm_num at *; linarith

/-- What a filter reports when its corners are `p` and `q`: the corners in ascending order to within 2^-38 of the larger, the
centre frequency to 2^-50 and the quality to 2^-48. -/
structure Reports (m : BandPass F32 F64) (p q : ℚ) : Prop where
  corners : ∃ l h : ℚ, m.getCornerFrequencies.1.Is l ∧ m.getCornerFrequencies.2.Is h ∧
    |l - min p q| ≤ (2 ^ 38)⁻¹ * max p q ∧ |h - max p q| ≤ (2 ^ 38)⁻¹ * max p q
  centre : ∃ c : ℚ, m.getCentralFrequency.Is c ∧ |(c : ℝ) - Real.sqrt (p * q)| ≤ (2 ^ 50)⁻¹ * Real.sqrt (p * q)
  quality : ∃ c : ℚ, m.getQuality.Is c ∧
    |(c : ℝ) - Real.sqrt (p * q) / (|(p : ℝ) - q|)| ≤ (2 ^ 48)⁻¹ * (Real.sqrt (p * q) / |(p : ℝ) - q|)

private theorem reports_of {a b : F64} {p q : ℚ} (h : Corners a b p q) {m : BandPass F32 F64}
    (hc : App m.centralF ((2 ^ 50)⁻¹) (Real.sqrt (p * q))) (hQ : App m.quality ((2 ^ 48)⁻¹) (Real.sqrt (p * q) / |(p : ℝ) - q|)) :
    Reports m p q := by
  have cst : ∀ {x y : ℚ}, x ≤ y → (x : ℝ) ≤ y := fun h => Rat.cast_le.mpr h
  have p0 := cst h.p0
  have p1 := cst h.p1
  have q0 := cst h.q0
  have q1 := cst h.q1
  have d0 := cst h.apart
  push_cast at p0 p1 q0 q1 d0
  have s0 : 0 ≤ Real.sqrt (p * q : ℝ) := Real.sqrt_nonneg _
  refine ⟨?_, ?_, ?_⟩
  · obtain ⟨l, u, h1, h2, h3, h4⟩ := bp_report p0 p1 q0 q1 d0 hc hQ
    refine ⟨l, u, h1, h2, ?_, ?_⟩
    · have : ((|l - min p q| : ℚ) : ℝ) ≤ (((2 ^ 38)⁻¹ * max p q : ℚ) : ℝ) := by push_cast; exact h3
      exact_mod_cast this
    · have : ((|u - max p q| : ℚ) : ℝ) ≤ (((2 ^ 38)⁻¹ * max p q : ℚ) : ℝ) := by push_cast; exact h4
      exact_mod_cast this
  · obtain ⟨c, h1, h2⟩ := hc
    exact ⟨c, h1, by rwa [abs_of_nonneg s0] at h2⟩
  · obtain ⟨c, h1, h2⟩ := hQ
    exact ⟨c, h1, by rwa [abs_of_nonneg (div_nonneg s0 (abs_nonneg _))] at h2⟩

/-- **C112**: in f64, `from_corners` and `set_corner_frequencies` make a filter that reports the given corners, in ascending
order, and the centre frequency and quality belonging to them. -/
theorem C112_corners [Libm F64] {a b : F64} {p q : ℚ} (h : Corners a b p q) (m : BandPass F32 F64) :
    Reports (BandPass.fromCorners (a, b)) p q ∧ Reports (m.setCornerFrequencies (a, b)) p q := by
  constructor
  · obtain ⟨h1, h2⟩ := bp_design h (.inr rfl) (.inr rfl)
    exact reports_of h h1 h2
  · obtain ⟨h1, h2⟩ := bp_design h (.inl rfl) (.inl rfl)
    exact reports_of h h1 h2

/-- The corners 2000 Hz and 500 Hz. -/
private theorem corners_2000_500 : Corners (lit 2000) (lit 500) 2000 500 where
  ha := lit64_nat (n := 2000) (by norm_num)
  hb := lit64_nat (n := 500) (by norm_num)
  p0 := by norm_num
  p1 := by norm_num
  q0 := by norm_num
  q1 := by norm_num
  apart := by norm_num

example [Libm F64] : Reports (BandPass.fromCorners (lit 2000, lit 500)) 2000 500 := (C112_corners corners_2000_500 ⟨lit 0, lit 0, lit 0, lit 0, lit 0, lit 0, lit 0, lit 0, lit 0⟩).1

/-- **C112**, consequence: C110 (bounded, blocking) holds for the filter made from any two corners between 9 Hz and 23991 Hz. -/
theorem C112_usable [Libm F64] {a b : F64} {p q : ℚ} (h : Corners a b p q) (p0 : 9 ≤ p) (p1 : p ≤ 23991) (q0 : 9 ≤ q) (q1 : q ≤ 23991) :
    (BandPass.fromCorners (a, b) : BandPass F32 F64).Usable := by
  obtain ⟨l, u, h1, h2, h3, h4⟩ := (C112_corners h ⟨lit 0, lit 0, lit 0, lit 0, lit 0, lit 0, lit 0, lit 0, lit 0⟩).1.corners
  have m0 : 9 ≤ min p q := le_min p0 q0
  have m1 : max p q ≤ 23991 := max_le p1 q1
  have m2 : min p q ≤ max p q := min_le_max
  obtain ⟨a1, a2⟩ := abs_le.mp h3
  obtain ⟨a3, a4⟩ := abs_le.mp h4
  generalize min p q = lo at *
  generalize max p q = hi at *
  refine ⟨.inr ⟨_, rfl⟩, l, u, h1, h2, ?_, ?_, ?_, ?_⟩ <;> norm_num at a1 a2 a3 a4 <;> linarith

example [Libm F64] : (BandPass.fromCorners (lit 2000, lit 500) : BandPass F32 F64).Usable :=
  C112_usable corners_2000_500 (by norm_num) (by norm_num) (by norm_num) (by norm_num)

end Verif
