import Verif.Proofs.Time
import Verif.Spec.Filter
import Verif.Spec.LibmTan
import Verif.Model.Modifiers

/-! # Envelope follower in floating point: C103 -/

namespace Verif
open Fl

private theorem pow2s : pow2 (-(b32.p : ℤ)) = (2 ^ 24)⁻¹ ∧ pow2 (b32.emin - 1) = (2 ^ 150)⁻¹ := by decide +kernel

private theorem mixed32 {q : ℚ} (h : 0 ≤ q) : b32.rnd q ≤ q * (1 + (2 ^ 24)⁻¹) + (2 ^ 150)⁻¹ := by
  have h1 := b32.abs_rnd_sub_le_mixed q
  rw [pow2s.1, pow2s.2, abs_of_nonneg h] at h1
  have := (abs_le.mp h1).2
  linarith

/-- A pair of stored coefficients that smooths: not negative and a weighted mean up to rounding. -/
private structure CoefOk (a b : F32) : Prop where
  out : ∃ p q : ℚ, a.Is p ∧ b.Is q ∧ (2 ^ 13)⁻¹ * (31 / 32) ≤ p ∧ p ≤ 1 ∧ 0 ≤ q ∧ q ≤ 1 ∧ 2 * p + q ≤ 1 + (2 ^ 21)⁻¹

private theorem coef {θ : F32} {t : ℚ} (h : θ.Is t) (t0 : (2 ^ 12)⁻¹ ≤ t) (t1 : t ≤ 1) :
    CoefOk (θ / (lit 1 + θ)) ((lit 1 - θ) / (lit 1 + θ)) := by
  have tp : 0 < t := lt_of_lt_of_le (by positivity) t0
  have b1 : |1 + t| ≤ 2 ^ 1 := abs_le.mpr ⟨by norm_num; linarith, by norm_num; linarith⟩
  have hp := Is.add lit32_1 h (fits32' 1 (by norm_num) b1)
  have ep := err32 (q := 1 + t) 1 (by norm_num) (by exact_mod_cast b1)
  have p1 : 1 ≤ b32.rnd (1 + t) := b32.repr_le_rnd (by exact_mod_cast Fmt.repr32_int (n := 1) (by norm_num)) (by linarith)
  set p := b32.rnd (1 + t)
  have b2 : |1 - t| ≤ 2 ^ 0 := abs_le.mpr ⟨by norm_num; linarith, by norm_num; linarith⟩
  have hm := Is.sub lit32_1 h (fits32' 0 (by norm_num) b2)
  have em := err32 (q := 1 - t) 0 (by norm_num) (by exact_mod_cast b2)
  have m0 : 0 ≤ b32.rnd (1 - t) := b32.rnd_nonneg (by linarith)
  have m1 : b32.rnd (1 - t) ≤ 1 := b32.rnd_le_repr (by exact_mod_cast Fmt.repr32_int (n := 1) (by norm_num)) (by linarith)
  set m := b32.rnd (1 - t)
  have pp : 0 < p := by linarith
  rw [abs_le] at ep em
  norm_num at ep em
  have b3 : |t / p| ≤ 2 ^ 0 := by
    rw [abs_of_pos (by positivity), div_le_iff₀ pp]; norm_num; linarith
  have ha := Is.div h hp (by linarith) (fits32' 0 (by norm_num) b3)
  have b4 : |m / p| ≤ 2 ^ 0 := by
    rw [abs_of_nonneg (by positivity), div_le_iff₀ pp]; norm_num; linarith
  have hb := Is.div hm hp (by linarith) (fits32' 0 (by norm_num) b4)
  have ea := b32.abs_rnd_sub_le_mixed (t / p)
  rw [pow2s.1, pow2s.2, abs_of_pos (by positivity : 0 < t / p), abs_le] at ea
  have eb := err32 (q := m / p) 0 (by norm_num) (by exact_mod_cast b4)
  rw [abs_le] at eb
  norm_num at ea eb
  have h1 : b32.rnd (m / p) ≤ 1 := b32.rnd_le_repr (by exact_mod_cast Fmt.repr32_int (n := 1) (by norm_num)) (by rw [div_le_iff₀ pp]; linarith)
  have h1a : b32.rnd (t / p) ≤ 1 := b32.rnd_le_repr (by exact_mod_cast Fmt.repr32_int (n := 1) (by norm_num)) (by rw [div_le_iff₀ pp]; linarith)
  have q0 : t / 2 * (63 / 64) ≤ t / p := by
    rw [le_div_iff₀ pp]
    nlinarith
  have tp1 : t / p ≤ 1 := by rw [div_le_iff₀ pp]; linarith
  have sum : 2 * (t / p) + m / p ≤ 1 + 1 / 2 ^ 23 := by
    rw [← mul_div_assoc, ← add_div, div_le_iff₀ pp]
    norm_num
    linarith
  refine ⟨_, _, ha, hb, ?_, h1a, b32.rnd_nonneg (by positivity), h1, ?_⟩
  · norm_num at t0 ⊢
    linarith
  · norm_num at sum ⊢
    linarith

/-- The bound kept by the follower for inputs up to `X`. -/
private def top (X : ℚ) : ℚ := (1 + (2 ^ 8)⁻¹) * X + (2 ^ 130)⁻¹

private theorem mix_step {a b x x1 y1 : F32} (h : CoefOk a b) {X : ℚ} (hX : X ≤ 2 ^ 90) (hx : x.In 0 X) (hx1 : x1.In 0 X)
    (hy : y1.In 0 (top X)) : (a * (x + x1) + b * y1).In 0 (top X) := by
  obtain ⟨p, q, hp, hq, p0, p1, q0, q1, hs⟩ := h.out
  obtain ⟨u, hu, u0, u1⟩ := hx
  obtain ⟨v, hv, v0, v1⟩ := hx1
  obtain ⟨w, hw, w0, w1⟩ := hy
  have X0 : 0 ≤ X := by linarith
  have pp : 0 ≤ p := le_trans (by positivity) p0
  have T0 : 0 ≤ top X := by unfold top; positivity
  have T1 : top X ≤ 2 ^ 91 := by
    unfold top
    have : (1 + (2 ^ 8)⁻¹) * X ≤ (1 + (2 ^ 8)⁻¹) * 2 ^ 90 := by gcongr
    refine (add_le_add this le_rfl).trans (by norm_num)
  have h1 := Is.add hu hv (fits32' 91 (by norm_num) (by
    rw [abs_of_nonneg (by positivity)]; norm_num at hX ⊢; linarith))
  have e1 := mixed32 (q := u + v) (by positivity)
  have n1 : 0 ≤ b32.rnd (u + v) := b32.rnd_nonneg (by positivity)
  set s := b32.rnd (u + v)
  have sX : s ≤ 2 * X * (1 + (2 ^ 24)⁻¹) + (2 ^ 150)⁻¹ := by
    refine e1.trans (add_le_add ?_ le_rfl)
    exact mul_le_mul_of_nonneg_right (by linarith) (by positivity)
  have s92 : s ≤ 2 ^ 92 := by norm_num at sX hX ⊢; linarith
  have m2 : p * s ≤ s := mul_le_of_le_one_left n1 p1
  have h2 := Is.mul hp h1 (fits32' 92 (by norm_num) (by rw [abs_of_nonneg (by positivity)]; linarith))
  have e2 := mixed32 (q := p * s) (by positivity)
  have n2 : 0 ≤ b32.rnd (p * s) := b32.rnd_nonneg (by positivity)
  set c := b32.rnd (p * s)
  have m3 : q * w ≤ w := mul_le_of_le_one_left w0 q1
  have h3 := Is.mul hq hw (fits32' 91 (by norm_num) (by rw [abs_of_nonneg (by positivity)]; linarith))
  have e3 := mixed32 (q := q * w) (by positivity)
  have n3 : 0 ≤ b32.rnd (q * w) := b32.rnd_nonneg (by positivity)
  set d := b32.rnd (q * w)
  have h4 := Is.add h2 h3 (fits32' 94 (by norm_num) (by
    rw [abs_of_nonneg (by positivity)]
    norm_num at e2 e3 s92 T1 ⊢
    linarith))
  have e4 := mixed32 (q := c + d) (by positivity)
  refine ⟨_, h4, b32.rnd_nonneg (by positivity), e4.trans ?_⟩
  -- the arithmetic
  have ps : p * s ≤ 2 * (p * X) * (1 + (2 ^ 24)⁻¹) + (2 ^ 150)⁻¹ := by
    calc p * s ≤ p * (2 * X * (1 + (2 ^ 24)⁻¹) + (2 ^ 150)⁻¹) := mul_le_mul_of_nonneg_left sX pp
      _ = 2 * (p * X) * (1 + (2 ^ 24)⁻¹) + p * (2 ^ 150)⁻¹ := by ring
      _ ≤ _ := by
        have : p * (2 ^ 150)⁻¹ ≤ 1 * (2 ^ 150 : ℚ)⁻¹ := mul_le_mul_of_nonneg_right p1 (by positivity)
        linarith
  have qw : q * w ≤ (1 + (2 ^ 21)⁻¹ - 2 * p) * top X :=
    mul_le_mul (by linarith) w1 w0 (by linarith)
  have pX : 0 ≤ p * X := by positivity
  have pT : p * top X = (1 + (2 ^ 8)⁻¹) * (p * X) + p * (2 ^ 130)⁻¹ := by unfold top; ring
  have pX2 : (2 ^ 13)⁻¹ * (31 / 32) * X ≤ p * X := mul_le_mul_of_nonneg_right p0 X0
  have cd : c + d ≤ (2 * (p * X) * (1 + (2 ^ 24)⁻¹) + (2 ^ 150)⁻¹) * (1 + (2 ^ 24)⁻¹) + (2 ^ 150)⁻¹ +
      ((1 + (2 ^ 21)⁻¹ - 2 * p) * top X * (1 + (2 ^ 24)⁻¹) + (2 ^ 150)⁻¹) := by
    refine add_le_add (e2.trans (add_le_add (mul_le_mul_of_nonneg_right ps (by positivity)) le_rfl))
      (e3.trans (add_le_add (mul_le_mul_of_nonneg_right qw (by positivity)) le_rfl))
  have exp : (1 + (2 ^ 21)⁻¹ - 2 * p) * top X = (1 + (2 ^ 21)⁻¹) * top X - 2 * (p * top X) := by ring
  rw [exp, pT] at cd
  have eT : top X = (1 + (2 ^ 8)⁻¹) * X + (2 ^ 130)⁻¹ := rfl
  rw [eT] at cd ⊢
  have p130 : (2 ^ 13 : ℚ)⁻¹ * (31 / 32) * (2 ^ 130)⁻¹ ≤ p * (2 ^ 130)⁻¹ := mul_le_mul_of_nonneg_right p0 (by positivity)
  have final := mul_le_mul_of_nonneg_right cd (show (0 : ℚ) ≤ 1 + (2 ^ 24)⁻¹ by positivity)
  refine (add_le_add final (le_refl _)).trans ?_
  generalize p * X = A at *
  generalize p * (2 ^ 130)⁻¹ = B at *
  norm_num at *
  linarith

/-- Below `π/4` the tangent is below 1 by at least half the distance. -/
private theorem tan_below {r : ℝ} (h0 : 0 ≤ r) (h1 : r ≤ Real.pi / 4) : Real.tan r ≤ 1 - (Real.pi / 4 - r) / 2 := by
  have hpi := Real.pi_pos
  have hpi4 := Real.pi_le_four
  have hc : 0 < Real.cos r := Real.cos_pos_of_mem_Ioo ⟨by linarith, by linarith⟩
  have hc1 := Real.cos_le_one r
  have hs : Real.sin (Real.pi / 4 - r) = √2 / 2 * (Real.cos r - Real.sin r) := by
    rw [Real.sin_sub, Real.cos_pi_div_four, Real.sin_pi_div_four]; ring
  have hj := Real.mul_le_sin (x := Real.pi / 4 - r) (by linarith) (by linarith)
  have hd : (Real.pi / 4 - r) / 2 ≤ Real.sin (Real.pi / 4 - r) := by
    refine le_trans ?_ hj
    rw [div_mul_eq_mul_div, le_div_iff₀ hpi]
    nlinarith
  have h2 : √2 / 2 ≤ 1 := by
    have : √2 ≤ 2 := by rw [Real.sqrt_le_left (by norm_num)]; norm_num
    linarith
  have h20 : 0 < √2 / 2 := by positivity
  have hcs : (Real.pi / 4 - r) / 2 ≤ Real.cos r - Real.sin r := by
    rw [hs] at hd
    by_contra hn
    rw [not_le] at hn
    have h5 : 0 ≤ (Real.pi / 4 - r) / 2 := by linarith
    nlinarith
  rw [Real.tan_eq_sin_div_cos, div_le_iff₀ hc]
  have : 0 ≤ (Real.pi / 4 - r) / 2 := by linarith
  nlinarith

/-- What an accurate `tan` returns for the arguments computed from frequencies in `[4, 11990]`. -/
theorem env_theta [Libm F32] (hl : TanAccurate) {f : F32} {q : ℚ} (hf : f.Is q) (h0 : 4 ≤ q) (h1 : q ≤ 11990) :
    ∃ t, (Libm.tan (SM.piS F64 * f * SM.down (invSR : F64)) : F32).Is t ∧ (2 ^ 12)⁻¹ ≤ t ∧ t ≤ 1 ∧ 65 / 1000000 * q ≤ t := by
  have hpi : (SM.piS F64 : F32).Is (13176795 / 4194304) := by decide +kernel
  have hsr : (SM.down (invSR : F64) : F32).Is (5726623 / 274877906944) := by decide +kernel
  have n1 : pow2 (b32.emin + b32.p - 1) ≤ 1 / 1000000 := by decide +kernel
  have b1 : |13176795 / 4194304 * q| ≤ 2 ^ 16 := by
    rw [abs_of_pos (by positivity)]; norm_num; linarith
  have hm := Is.mul hpi hf (fits32' 16 (by norm_num) b1)
  have e1 := b32.abs_rnd_sub_le_rel (q := 13176795 / 4194304 * q) (by
    rw [abs_of_pos (by positivity)]; refine n1.trans ?_; norm_num; linarith)
  rw [pow2s.1, abs_of_pos (by positivity : 0 < 13176795 / 4194304 * q), abs_le] at e1
  set a := b32.rnd (13176795 / 4194304 * q)
  norm_num at e1
  have b2 : |a * (5726623 / 274877906944)| ≤ 2 ^ 0 := by
    rw [abs_of_pos (mul_pos (by linarith) (by norm_num))]; norm_num; linarith
  have hr := Is.mul hm hsr (fits32' 0 (by norm_num) b2)
  have e2 := b32.abs_rnd_sub_le_rel (q := a * (5726623 / 274877906944)) (by
    rw [abs_of_pos (mul_pos (by linarith) (by norm_num))]; refine n1.trans ?_; norm_num; linarith)
  rw [pow2s.1, abs_of_pos (mul_pos (by linarith) (by norm_num) : 0 < a * (5726623 / 274877906944)), abs_le] at e2
  set r := b32.rnd (a * (5726623 / 274877906944))
  norm_num at e2
  have r0 : 26 / 100000 ≤ r := by linarith
  have r1 : r ≤ 7848 / 10000 := by linarith
  obtain ⟨c, hc, ec⟩ := hl.tan _ r hr (by norm_num; linarith) (by norm_num; linarith)
  have hq : 652 / 10000000 * q ≤ r := by linarith
  have hq' : (652 / 10000000 * q : ℝ) ≤ r := by
    have := (Rat.cast_le (K := ℝ)).mpr hq
    push_cast at this
    exact this
  refine ⟨c, hc, ?_⟩
  have r0' : (26 / 100000 : ℝ) ≤ r := by
    have := (Rat.cast_le (K := ℝ)).mpr r0
    push_cast at this
    exact this
  have r1' : (r : ℝ) ≤ 7848 / 10000 := by
    have := (Rat.cast_le (K := ℝ)).mpr r1
    push_cast at this
    exact this
  have hpi := Real.pi_gt_d4
  obtain ⟨t0, -⟩ := tan_bounds (q := r) (by linarith) (by linarith)
  have t1 := tan_below (r := r) (by linarith) (by linarith)
  rw [abs_le] at ec
  norm_num at ec hpi
  refine ⟨?_, ?_, ?_⟩
  · have : (((2 ^ 12)⁻¹ : ℚ) : ℝ) ≤ (c : ℝ) := by push_cast; norm_num; linarith
    exact Rat.cast_le.mp this
  · have : (c : ℝ) ≤ ((1 : ℚ) : ℝ) := by push_cast; linarith
    exact Rat.cast_le.mp this
  · have : ((65 / 1000000 * q : ℚ) : ℝ) ≤ (c : ℝ) := by push_cast; linarith
    exact Rat.cast_le.mp this

/-- IEEE: with both frequencies in `[4, 11990]` Hz the follower never produces a negative number, an infinity or a NaN,
and never exceeds the largest input magnitude `X` so far by more than `X/256` (plus `2^-130`). -/
theorem C103_envelope_f32 [Libm F32] (hl : TanAccurate) {lower upper : F32} (h0 : lower.In 4 11990) (h1 : upper.In 4 11990)
    (x : ℕ → F32) {X : ℚ} (hX : X ≤ 2 ^ 90) (n : ℕ) (hx : ∀ i ≤ n, (x i).In (-X) X) :
    ∃ y : F32, modOut Modifier.process x (Envelope.new F64 lower upper) n = .ok y ∧
      y.In 0 ((1 + (2 ^ 8)⁻¹) * X + (2 ^ 130)⁻¹) := by
  have X0 : 0 ≤ X := by
    obtain ⟨q, -, a, b⟩ := hx 0 (Nat.zero_le _)
    linarith
  obtain ⟨qu, iu, qu0, qu1⟩ := h1
  obtain ⟨qd, id, qd0, qd1⟩ := h0
  obtain ⟨tu, hu, u0, u1, -⟩ := env_theta hl iu qu0 qu1
  obtain ⟨td, hd, d0, d1, -⟩ := env_theta hl id qd0 qd1
  have cu := coef hu u0 u1
  have cd := coef hd d0 d1
  have habs : ∀ v : F32, v.In (-X) X → (Flt.abs v).In 0 X := by
    rintro v ⟨q, hq, q0, q1⟩
    exact ⟨_, hq.abs, abs_nonneg _, abs_le.mpr ⟨q0, q1⟩⟩
  have hz : (Flt.abs (dflt : F32)).In 0 X := ⟨0, by decide +kernel, le_refl _, X0⟩
  have T0 : 0 ≤ top X := by unfold top; positivity
  have hz' : (dflt : F32).In 0 (top X) := ⟨0, by decide +kernel, le_refl _, T0⟩
  -- one step
  have step : ∀ (m : Envelope F32) (v : F32), CoefOk m.au m.bu → CoefOk m.ad m.bd → (Flt.abs m.x1).In 0 X →
      m.y1.In 0 (top X) → v.In (-X) X → (m.process v).1.In 0 (top X) := by
    intro m v c1 c2 h1 h2 hv
    unfold Envelope.process
    simp only
    split_ifs
    · exact mix_step c1 hX (habs v hv) h1 h2
    · exact mix_step c2 hX (habs v hv) h1 h2
  have inv : ∀ k ≤ n, ∃ m : Envelope F32, modAfter Modifier.process x (Envelope.new F64 lower upper) k = .ok m ∧
      CoefOk m.au m.bu ∧ CoefOk m.ad m.bd ∧ (Flt.abs m.x1).In 0 X ∧ m.y1.In 0 (top X) := by
    intro k
    induction k with
    | zero => intro _; exact ⟨_, rfl, cu, cd, hz, hz'⟩
    | succ k ih =>
      intro hk
      obtain ⟨m, h, c1, c2, h1, h2⟩ := ih (by omega)
      have e : (Modifier.process m (x k) : Res (F32 × Envelope F32)) = .ok ((m.process (x k)).1, (m.process (x k)).2) := rfl
      refine ⟨_, modAfter_succ h e, c1, c2, habs _ (hx k (by omega)), ?_⟩
      exact step m (x k) c1 c2 h1 h2 (hx k (by omega))
  obtain ⟨m, h, c1, c2, h1, h2⟩ := inv n (le_refl _)
  have e : (Modifier.process m (x n) : Res (F32 × Envelope F32)) = .ok ((m.process (x n)).1, (m.process (x n)).2) := rfl
  exact ⟨_, modOut_of h e, step m (x n) c1 c2 h1 h2 (hx n (le_refl _))⟩

/-- A math library meeting the assumption exists, 20 Hz and 1 kHz are in range, full-scale noise is bounded by 1. -/
example : (∃ l : Libm F32, @TanAccurate l) ∧ (lit 20 : F32).In 4 11990 ∧ (lit 1000 : F32).In 4 11990 ∧
    ∀ i : ℕ, (if i % 3 = 0 then lit 1 else lit (-1 / 4) : F32).In (-1) 1 := by
  refine ⟨tanAccurate_exists, ⟨20, by decide +kernel, by norm_num, by norm_num⟩, ⟨1000, by decide +kernel, by norm_num, by norm_num⟩, fun i => ?_⟩
  split_ifs
  · exact ⟨1, by decide +kernel, by norm_num, by norm_num⟩
  · exact ⟨-1 / 4, by decide +kernel, by norm_num, by norm_num⟩

end Verif
