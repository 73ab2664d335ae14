import Verif.Float.Idem
import Verif.Proofs.Resampler
import Verif.Props.FilterState
import Verif.Props.OscState
import Verif.Proofs.Filters
import Verif.Proofs.Samples
import Verif.Model.Sounds

set_option linter.unusedSectionVars false

/-! # Writing back a control that was read: C177 -/

namespace Verif
open Fl

/-! ## Oscillators -/

/-- Powers of two around the frequencies of interest, scaled back and forth. -/
private def powersOk (c : ℚ) : Bool :=
  (List.range 600).all fun k => decide (b64.rnd (c * b64.rnd (pow2 ((k : ℤ) - 300) / c)) = pow2 ((k : ℤ) - 300))

private theorem forth_back {c : ℚ} (c0 : (2 ^ 20)⁻¹ ≤ c) (c1 : c ≤ 1) (hc : powersOk c = true) {x : ℚ} (hr : b64.Repr x)
    (h0 : (2 ^ 200)⁻¹ ≤ |x|) (h1 : |x| ≤ 2 ^ 200) :
    b64.rnd (c * b64.rnd (b64.rnd (c * x) / c)) = b64.rnd (c * x) := by
  have cpos : 0 < c := lt_of_lt_of_le (by positivity) c0
  suffices key : ∀ y : ℚ, 0 < y → b64.Repr y → (2 ^ 200)⁻¹ ≤ y → y ≤ 2 ^ 200 →
      b64.rnd (c * b64.rnd (b64.rnd (c * y) / c)) = b64.rnd (c * y) by
    rcases lt_trichotomy x 0 with hx | hx | hx
    · rw [abs_of_neg hx] at h0 h1
      have h := key (-x) (by linarith) (b64.repr_neg hr) h0 h1
      rw [mul_neg, b64.rnd_neg, neg_div, b64.rnd_neg, mul_neg, b64.rnd_neg, neg_inj] at h
      exact h
    · rw [hx, abs_zero] at h0
      exact absurd h0 (by norm_num)
    · rw [abs_of_pos hx] at h0 h1
      exact key x hx hr h0 h1
  intro y hy hr h0 h1
  refine b64.rnd_forth_back cpos hy hr fun e he => ?_
  have l : pow2 (-220) ≤ b64.rnd (c * y) := by
    refine b64.pow2_le_rnd (by decide) ?_
    rw [pow2_eq]
    calc (2 : ℚ) ^ (-220 : ℤ) = (2 ^ 20)⁻¹ * (2 ^ 200)⁻¹ := by norm_num
      _ ≤ c * y := mul_le_mul c0 h0 (by positivity) cpos.le
  have u : b64.rnd (c * y) ≤ pow2 200 := by
    refine b64.rnd_le_pow2 (by decide) ?_
    rw [pow2_eq]
    calc c * y ≤ 1 * 2 ^ 200 := mul_le_mul c1 h1 hy.le (by norm_num)
      _ = 2 ^ (200 : ℤ) := by norm_num
  rw [he, pow2_le_iff] at l u
  unfold powersOk at hc
  rw [List.all_eq_true] at hc
  have h := hc (e + 300).toNat (by rw [List.mem_range]; omega)
  rw [decide_eq_true_iff, show (((e + 300).toNat : ℕ) : ℤ) - 300 = e by omega] at h
  exact h

private theorem fits_of_range {x : ℚ} (h : |x| ≤ 2 ^ 240) : b64.Fits x :=
  Fmt.fits64 (h.trans (pow_le_pow_right₀ (by norm_num) (by norm_num)))

private theorem rnd_range {x : ℚ} {k : ℕ} (hk : k ≤ 240) (h : |x| ≤ 2 ^ k) : |b64.rnd x| ≤ 2 ^ k := by
  have e : pow2 (k : ℤ) = 2 ^ k := by rw [pow2_nat]; push_cast; rfl
  rw [b64.abs_rnd, ← e]
  refine b64.rnd_le_pow2 ?_ (by rw [e]; exact h)
  have : b64.emin = -1074 := rfl
  omega

private theorem rnd_ne {x : ℚ} (h : (2 ^ 230)⁻¹ ≤ |x|) : b64.rnd x ≠ 0 := by
  intro h0
  have : pow2 (-230) ≤ b64.rnd |x| := b64.pow2_le_rnd (by decide) (by rw [pow2_eq]; norm_num; norm_num at h; exact h)
  rw [← b64.abs_rnd, h0, abs_zero] at this
  exact absurd (pow2_pos (-230)) (not_lt.mpr this)

/-- IEEE: a Sine of any frequency of magnitude 2^-200 to 2^200, after any history, is left exactly as it is, bit for bit, by setting
the frequency it reports — even where that is not the frequency once set. -/
theorem C177_sine [Libm F64] (f : F64) (g : Sine F64) (hg : SineHist F32 f g) (q : ℚ) (hf : f.Is q) (h0 : (2 ^ 200)⁻¹ ≤ |q|)
    (h1 : |q| ≤ 2 ^ 200) : g.setFrequency g.getFrequency = g := by
  have hi : g.inc = (Sine.new f).inc := by
    induction hg with
    | new => rfl
    | process _ hp ih => rw [Sine.process_inc hp, ih hf]
    | setFrequency => rfl
  have h10 : (lit (WAVETABLE_FREQ : ℚ) : F64).Is 10 := lit64_10
  have hq : |q / 10| ≤ 2 ^ 200 := by rw [abs_div, abs_of_pos (show (0 : ℚ) < 10 by norm_num)]; linarith [abs_nonneg q]
  have a1 : g.inc.Is (b64.rnd (1 / 10 * q)) := by
    rw [hi, show (1 / 10 : ℚ) * q = q / 10 by ring]
    exact Is.div hf h10 (by norm_num) (fits_of_range (hq.trans (by norm_num)))
  have r1 : |b64.rnd (1 / 10 * q)| ≤ 2 ^ 200 := rnd_range (by norm_num) (by rw [show (1 / 10 : ℚ) * q = q / 10 by ring]; exact hq)
  have hq2 : |b64.rnd (1 / 10 * q) * 10| ≤ 2 ^ 210 := by
    rw [abs_mul, abs_of_pos (show (0 : ℚ) < 10 by norm_num)]; linarith [abs_nonneg q]
  have a2 : g.getFrequency.Is (b64.rnd (b64.rnd (1 / 10 * q) / (1 / 10))) := by
    have := Is.mul a1 h10 (fits_of_range (hq2.trans (by norm_num)))
    rw [show b64.rnd (1 / 10 * q) / (1 / 10) = b64.rnd (1 / 10 * q) * 10 by ring]
    exact this
  have r2 : |b64.rnd (b64.rnd (1 / 10 * q) / (1 / 10))| ≤ 2 ^ 210 :=
    rnd_range (by norm_num) (by rw [show b64.rnd (1 / 10 * q) / (1 / 10) = b64.rnd (1 / 10 * q) * 10 by ring]; exact hq2)
  have a3 : (g.getFrequency / lit (WAVETABLE_FREQ : ℚ) : F64).Is (b64.rnd (1 / 10 * q)) := by
    have := Is.div a2 h10 (by norm_num) (fits_of_range (by
      rw [abs_div, abs_of_pos (show (0 : ℚ) < 10 by norm_num)]
      linarith [abs_nonneg (b64.rnd (b64.rnd (1 / 10 * q) / (1 / 10)))]))
    rwa [div_eq_mul_one_div, mul_comm, forth_back (by norm_num) (by norm_num) (by decide +kernel) hf.repr h0 h1] at this
  have e : (g.getFrequency / lit (WAVETABLE_FREQ : ℚ) : F64) = g.inc := by
    refine Fl.Is.eq_of_ne a3 a1 (rnd_ne ?_)
    rw [abs_mul, abs_of_pos (show (0 : ℚ) < 1 / 10 by norm_num)]
    norm_num at h0 ⊢
    linarith
  unfold Sine.setFrequency
  rw [e]

/-- The factor `k/48000`. -/
private theorem factor {k : ℕ} (hk : k = 1 ∨ k = 2) : (2 ^ 20)⁻¹ ≤ 2 ^ k * isr64 ∧ 2 ^ k * isr64 ≤ 1 ∧ powersOk (2 ^ k * isr64) = true := by
  rcases hk with rfl | rfl <;> decide +kernel

/-- `k·x` and `k·x/48000` as Sawtooth and Triangle compute them. -/
private theorem rate_is {l : F64} {k : ℕ} (hk : k = 1 ∨ k = 2) (hl : l.Is (2 ^ k)) {x : F64} {a : ℚ} (hx : x.Is a) (ha : |a| ≤ 2 ^ 230) :
    (l * x : F64).Is (2 ^ k * a) ∧ (l * x * invSR : F64).Is (b64.rnd (2 ^ k * isr64 * a)) := by
  obtain ⟨c0, c1, -⟩ := factor hk
  have cpos : 0 < 2 ^ k * isr64 := lt_of_lt_of_le (by positivity) c0
  have k4 : (2 : ℚ) ^ k ≤ 4 := by rcases hk with rfl | rfl <;> norm_num
  have a0 := abs_nonneg a
  have hr : b64.Repr (2 ^ k * a) := by
    obtain ⟨m, e, h, hm, he⟩ := hx.repr
    refine ⟨m, e + k, ?_, hm, by omega⟩
    rw [h, pow2_add, pow2_nat]; push_cast; ring
  have f1 : |2 ^ k * a| ≤ 2 ^ 240 := by
    rw [abs_mul, abs_of_pos (by positivity)]
    calc (2 : ℚ) ^ k * |a| ≤ 4 * 2 ^ 230 := mul_le_mul k4 ha a0 (by norm_num)
      _ ≤ 2 ^ 240 := by norm_num
  have h1 := Is.mul hl hx (fits_of_range f1)
  rw [b64.rnd_of_repr hr] at h1
  refine ⟨h1, ?_⟩
  have f2 : |2 ^ k * isr64 * a| ≤ 2 ^ 240 := by
    rw [abs_mul, abs_of_pos cpos]
    calc 2 ^ k * isr64 * |a| ≤ 1 * 2 ^ 230 := mul_le_mul c1 ha a0 (by norm_num)
      _ ≤ 2 ^ 240 := by norm_num
  have h2 := Is.mul h1 invSR64 (fits_of_range (by rw [show 2 ^ k * a * isr64 = 2 ^ k * isr64 * a by ring]; exact f2))
  rwa [show 2 ^ k * a * isr64 = 2 ^ k * isr64 * a by ring] at h2

private theorem rate_ne {k : ℕ} (hk : k = 1 ∨ k = 2) {q : ℚ} (h0 : (2 ^ 200)⁻¹ ≤ |q|) : b64.rnd (2 ^ k * isr64 * q) ≠ 0 := by
  obtain ⟨c0, -, -⟩ := factor hk
  have cpos : 0 < 2 ^ k * isr64 := lt_of_lt_of_le (by positivity) c0
  refine rnd_ne ?_
  rw [abs_mul, abs_of_pos cpos]
  calc ((2 : ℚ) ^ 230)⁻¹ ≤ (2 ^ 20)⁻¹ * (2 ^ 200)⁻¹ := by norm_num
    _ ≤ 2 ^ k * isr64 * |q| := mul_le_mul c0 h0 (by positivity) cpos.le

/-- `k·f/48000`, read and written back. -/
private theorem rate_back {l f : F64} {k : ℕ} (hk : k = 1 ∨ k = 2) (hl : l.Is (2 ^ k)) {q : ℚ} (hf : f.Is q) (h0 : (2 ^ 200)⁻¹ ≤ |q|)
    (h1 : |q| ≤ 2 ^ 200) : l * (l * f * invSR / (l * invSR)) * invSR = l * f * invSR := by
  obtain ⟨c0, c1, ok⟩ := factor hk
  have ip : (0 : ℚ) < isr64 ∧ isr64 ≤ 1 := by decide +kernel
  have hC : (l * invSR : F64).Is (2 ^ k * isr64) := (rate_is hk hl invSR64 (by rw [abs_of_pos ip.1]; exact ip.2.trans (by norm_num))).1
  have a1 := (rate_is hk hl hf (h1.trans (by norm_num))).2
  have ne := rate_ne hk h0
  have st : ∀ {x : F64} {a : ℚ}, x.Is a → |a| ≤ 2 ^ 230 → (l * x * invSR : F64).Is (b64.rnd (2 ^ k * isr64 * a)) :=
    fun hx ha => (rate_is hk hl hx ha).2
  generalize (2 : ℚ) ^ k * isr64 = c at c0 c1 ok hC a1 ne st
  have cpos : 0 < c := lt_of_lt_of_le (by positivity) c0
  have r1 : |b64.rnd (c * q)| ≤ 2 ^ 200 := rnd_range (by norm_num) (by
    rw [abs_mul, abs_of_pos cpos]
    calc c * |q| ≤ 1 * 2 ^ 200 := mul_le_mul c1 h1 (abs_nonneg q) (by norm_num)
      _ = 2 ^ 200 := one_mul _)
  have q2 : |b64.rnd (c * q) / c| ≤ 2 ^ 220 := by
    rw [abs_div, abs_of_pos cpos, div_le_iff₀ cpos]
    calc |b64.rnd (c * q)| ≤ 2 ^ 200 := r1
      _ = 2 ^ 220 * (2 ^ 20)⁻¹ := by norm_num
      _ ≤ 2 ^ 220 * c := mul_le_mul_of_nonneg_left c0 (by positivity)
  have a2 := Is.div a1 hC cpos.ne' (fits_of_range (q2.trans (by norm_num)))
  have a3 := st a2 ((rnd_range (by norm_num) q2).trans (by norm_num))
  rw [forth_back c0 c1 ok hf.repr h0 h1] at a3
  exact Fl.Is.eq_of_ne a3 a1 ne

/-- IEEE: the same for Sawtooth. -/
theorem C177_sawtooth (f : F64) (cs : List (GenCall F64)) (q : ℚ) (hf : (lastFreq f cs).Is q) (h0 : (2 ^ 200)⁻¹ ≤ |q|)
    (h1 : |q| ≤ 2 ^ 200) :
    let g := runCalls (fun g => (g.process : F32 × _).2) Sawtooth.setFrequency cs (Sawtooth.new f)
    g.setFrequency g.getFrequency = g := by
  intro g
  have inv : ∀ (cs : List (GenCall F64)) (f : F64) (g : Sawtooth F64), g.irate = lit 2 * f * invSR →
      (runCalls (fun g => (g.process : F32 × _).2) Sawtooth.setFrequency cs g).irate = lit 2 * lastFreq f cs * invSR := by
    intro cs
    induction cs with
    | nil => exact fun f g h => h
    | cons c cs ih =>
      intro f g h
      cases c with
      | process => exact ih f _ h
      | setFrequency f' => exact ih f' _ rfl
  have hi : g.irate = lit 2 * lastFreq f cs * invSR := inv cs f _ rfl
  unfold Sawtooth.setFrequency Sawtooth.getFrequency
  rw [hi, rate_back (k := 1) (.inl rfl) lit64_2 hf h0 h1, ← hi]

/-- IEEE: the same for Triangle, on rising and on falling slopes. -/
theorem C177_triangle (f : F64) (cs : List (GenCall F64)) (q : ℚ) (hf : (lastFreq f cs).Is q) (h0 : (2 ^ 200)⁻¹ ≤ |q|)
    (h1 : |q| ≤ 2 ^ 200) :
    let g := runCalls (fun g => (g.process : F32 × _).2) Triangle.setFrequency cs (Triangle.new f)
    g.setFrequency g.getFrequency = g := by
  intro g
  have nn : ∀ x : F64, - -x = x := by
    intro x
    cases x with
    | nan => rfl
    | inf s => cases s <;> rfl
    | fin s a h =>
      show Fl.fin _ _ _ = Fl.fin _ _ _
      congr 1
      · simp
      · simp
  have inv : ∀ (cs : List (GenCall F64)) (f : F64) (g : Triangle F64),
      (g.irate = lit 4 * f * invSR ∨ g.irate = -(lit 4 * f * invSR)) →
      ((runCalls (fun g => (g.process : F32 × _).2) Triangle.setFrequency cs g).irate = lit 4 * lastFreq f cs * invSR ∨
        (runCalls (fun g => (g.process : F32 × _).2) Triangle.setFrequency cs g).irate = -(lit 4 * lastFreq f cs * invSR)) := by
    intro cs
    induction cs with
    | nil => exact fun f g h => h
    | cons c cs ih =>
      intro f g h
      cases c with
      | process =>
        refine ih f _ ?_
        have : ((g.process : F32 × _).2).irate = g.irate ∨ ((g.process : F32 × _).2).irate = -g.irate := by
          unfold Triangle.process
          simp only
          split_ifs
          · exact .inr rfl
          · exact .inr rfl
          · exact .inl rfl
        rcases this with e | e <;> rcases h with h | h <;> rw [e, h]
        · exact .inl rfl
        · exact .inr rfl
        · exact .inr rfl
        · exact .inl (nn _)
      | setFrequency f' => exact ih f' _ (.inl rfl)
  have l4 : (lit 4 : F64).Is (2 ^ 2) := by decide +kernel
  unfold Triangle.setFrequency Triangle.getFrequency
  rcases inv cs f (Triangle.new f) (.inl rfl) with hi | hi
  · have hi : g.irate = lit 4 * lastFreq f cs * invSR := hi
    rw [hi, rate_back (k := 2) (.inr rfl) l4 hf h0 h1, ← hi]
  · have hi : g.irate = -(lit 4 * lastFreq f cs * invSR) := hi
    have hm := (rate_is (.inr rfl) l4 hf (h1.trans (by norm_num))).2
    have hn := (rate_is (.inr rfl) l4 hf.neg (by rw [abs_neg]; exact h1.trans (by norm_num))).2
    have e : -(lit 4 * lastFreq f cs * invSR) = lit 4 * -lastFreq f cs * invSR := by
      rw [mul_neg, b64.rnd_neg] at hn
      exact Fl.Is.eq_of_ne hm.neg hn (neg_ne_zero.mpr (rate_ne (.inr rfl) h0))
    rw [hi, e, rate_back (k := 2) (.inr rfl) l4 hf.neg (by rw [abs_neg]; exact h0) (by rw [abs_neg]; exact h1), ← e, ← hi]

private theorem recip_back {x : ℚ} (hr : b64.Repr x) (h0 : (2 ^ 200)⁻¹ ≤ |x|) (h1 : |x| ≤ 2 ^ 200) :
    b64.rnd (24000 / b64.rnd (24000 / b64.rnd (24000 / x))) = b64.rnd (24000 / x) := by
  rcases lt_trichotomy x 0 with hx | hx | hx
  · rw [abs_of_neg hx] at h0 h1
    have h := rnd_recip_back (b64.repr_neg hr) h0 h1
    rw [div_neg, b64.rnd_neg, div_neg, b64.rnd_neg, div_neg, b64.rnd_neg, neg_inj] at h
    exact h
  · rw [hx, abs_zero] at h0
    exact absurd h0 (by norm_num)
  · rw [abs_of_pos hx] at h0 h1
    exact rnd_recip_back hr h0 h1

/-- `48000/(2x)` as Square computes it, and its size. -/
private theorem period_is {x : F64} {a : ℚ} {k : ℕ} (hk : k ≤ 215) (hx : x.Is a) (h0 : (2 ^ k)⁻¹ ≤ |a|) (h1 : |a| ≤ 2 ^ k) :
    ((srM : F64) / (lit 2 * x)).Is (b64.rnd (24000 / a)) ∧ (2 ^ k)⁻¹ ≤ |b64.rnd (24000 / a)| ∧ |b64.rnd (24000 / a)| ≤ 2 ^ (k + 15) := by
  have a0 : 0 < |a| := lt_of_lt_of_le (by positivity) h0
  have ane : a ≠ 0 := abs_pos.mp a0
  have hr : b64.Repr (2 * a) := by
    obtain ⟨m, e, h, hm, he⟩ := hx.repr
    refine ⟨m, e + 1, ?_, hm, by omega⟩
    rw [h, pow2_add, pow2_one]; ring
  have big : (2 : ℚ) ^ k ≤ 2 ^ 215 := pow_le_pow_right₀ (by norm_num) hk
  have d := Is.mul lit64_2 hx (fits_of_range (by rw [abs_mul, abs_of_pos (show (0 : ℚ) < 2 by norm_num)]; norm_num at big ⊢; linarith))
  rw [b64.rnd_of_repr hr] at d
  have up : |24000 / a| ≤ 2 ^ (k + 15) := by
    rw [abs_div, abs_of_pos (show (0 : ℚ) < 24000 by norm_num), div_le_iff₀ a0]
    calc (24000 : ℚ) ≤ 2 ^ 15 := by norm_num
      _ = 2 ^ (k + 15) * (2 ^ k)⁻¹ := by rw [pow_add]; field_simp
      _ ≤ 2 ^ (k + 15) * |a| := mul_le_mul_of_nonneg_left h0 (by positivity)
  have lo : (2 ^ k)⁻¹ ≤ |24000 / a| := by
    rw [abs_div, abs_of_pos (show (0 : ℚ) < 24000 by norm_num), le_div_iff₀ a0]
    calc (2 ^ k)⁻¹ * |a| ≤ (2 ^ k)⁻¹ * 2 ^ k := mul_le_mul_of_nonneg_left h1 (by positivity)
      _ = 1 := by field_simp
      _ ≤ (24000 : ℚ) := by norm_num
  have big' : (2 : ℚ) ^ (k + 15) ≤ 2 ^ 240 := pow_le_pow_right₀ (by norm_num) (by omega)
  have h := Is.div srM64 d (by positivity) (fits_of_range (by rw [show (48000 : ℚ) / (2 * a) = 24000 / a by field_simp; norm_num]; exact up.trans big'))
  rw [show (48000 : ℚ) / (2 * a) = 24000 / a by field_simp; norm_num] at h
  refine ⟨h, ?_, rnd_range (by omega) up⟩
  have e : pow2 (-(k : ℤ)) = (2 ^ k)⁻¹ := by rw [pow2_neg, pow2_nat]; push_cast; rfl
  rw [b64.abs_rnd, ← e]
  refine b64.pow2_le_rnd ?_ (by rw [e]; exact lo)
  have : b64.emin = -1074 := rfl
  omega

/-- IEEE: the same for Square. -/
theorem C177_square (f : F64) (cs : List (GenCall F64)) (q : ℚ) (hf : (lastFreq f cs).Is q) (h0 : (2 ^ 180)⁻¹ ≤ |q|)
    (h1 : |q| ≤ 2 ^ 180) :
    let g := runCalls (fun g => (g.process : F32 × _).2) Square.setFrequency cs (Square.new f)
    g.setFrequency g.getFrequency = g := by
  intro g
  have inv : ∀ (cs : List (GenCall F64)) (f : F64) (g : Square F64), g.inv = srM / (lit 2 * f) →
      (runCalls (fun g => (g.process : F32 × _).2) Square.setFrequency cs g).inv = srM / (lit 2 * lastFreq f cs) := by
    intro cs
    induction cs with
    | nil => exact fun f g h => h
    | cons c cs ih =>
      intro f g h
      cases c with
      | process => exact ih f _ h
      | setFrequency f' => exact ih f' _ rfl
  have hi : g.inv = srM / (lit 2 * lastFreq f cs) := inv cs f _ rfl
  have w : ∀ {j k : ℕ} {a : ℚ}, j ≤ k → (2 ^ j)⁻¹ ≤ a → (2 ^ k)⁻¹ ≤ a := by
    intro j k a h ha
    refine le_trans (inv_anti₀ (by positivity) (pow_le_pow_right₀ (by norm_num) h)) ha
  obtain ⟨a1, l1, u1⟩ := period_is (k := 180) (by norm_num) hf h0 h1
  obtain ⟨a2, l2, u2⟩ := period_is (k := 195) (by norm_num) a1 (w (by norm_num) l1) u1
  obtain ⟨a3, l3, u3⟩ := period_is (k := 210) (by norm_num) a2 (w (by norm_num) l2) u2
  rw [recip_back hf.repr (w (by norm_num) h0) (h1.trans (pow_le_pow_right₀ (by norm_num) (by norm_num)))] at a3
  have ne : b64.rnd (24000 / q) ≠ 0 := abs_pos.mp (lt_of_lt_of_le (by positivity) l1)
  have e := Fl.Is.eq_of_ne a3 a1 ne
  unfold Square.setFrequency Square.getFrequency
  rw [hi, e, ← hi]

/-- Getting and setting are not inverse the other way round: at 20.3 Hz the Sine reports another number, and still writing that
number back changes nothing. -/
example [Libm F64] : (Sine.new (lit (203 / 10) : F64)).getFrequency ≠ lit (203 / 10) ∧
    (Sine.new (lit (203 / 10) : F64)).setFrequency (Sine.new (lit (203 / 10) : F64)).getFrequency = Sine.new (lit (203 / 10)) := by
  refine ⟨C41_sine_violated, C177_sine _ _ (.new _) (b64.rnd (203 / 10)) (by decide +kernel) ?_ ?_⟩ <;> decide +kernel

/-- A Square whose period is no whole number of samples. -/
example : let g := runCalls (fun g => (g.process : F32 × _).2) Square.setFrequency [.process, .setFrequency (lit 441)] (Square.new (lit 7 : F64))
    g.setFrequency g.getFrequency = g :=
  C177_square _ _ 441 (by decide +kernel) (by norm_num [abs_of_pos]) (by norm_num [abs_of_pos])

/-- A Triangle on its falling slope. -/
example : let g := runCalls (fun g => (g.process : F32 × _).2) Triangle.setFrequency [.process, .process] (Triangle.new (lit 12000 : F64))
    g.setFrequency g.getFrequency = g :=
  C177_triangle _ _ 12000 (by decide +kernel) (by norm_num [abs_of_pos]) (by norm_num [abs_of_pos])

/-- In exact arithmetic: the same for all four oscillators, in any state (a Square that is not stuck at period 0). -/
theorem C177_oscillators_exact (a : Sine ℝ) (b : Sawtooth ℝ) (c : Triangle ℝ) (d : Square ℝ) (hd : d.inv ≠ 0) :
    a.setFrequency a.getFrequency = a ∧ b.setFrequency b.getFrequency = b ∧ c.setFrequency c.getFrequency = c ∧
    d.setFrequency d.getFrequency = d := by
  refine ⟨?_, ?_, ?_, ?_⟩
  · unfold Sine.setFrequency Sine.getFrequency
    real_simp
    norm_num [WAVETABLE_FREQ]
  · unfold Sawtooth.setFrequency Sawtooth.getFrequency
    real_simp
    norm_num
    congr 1
    ring
  · unfold Triangle.setFrequency Triangle.getFrequency
    real_simp
    norm_num
    congr 1
    ring
  · unfold Square.setFrequency Square.getFrequency
    real_simp
    congr 1
    field_simp

/-! ## Filters, gains and speed -/

private theorem fmin_fmin {f : Fmt} (x y : Fl f) : Fl.fmin (Fl.fmin x y) y = Fl.fmin x y := by
  have yy : Fl.fmin y y = y := by
    unfold Fl.fmin
    split_ifs <;> rfl
  by_cases h1 : x.isNaN = true
  · have e : Fl.fmin x y = y := by unfold Fl.fmin; rw [if_pos h1]
    rw [e, yy]
  · by_cases h2 : y.isNaN = true
    · have e : Fl.fmin x y = x := by unfold Fl.fmin; rw [if_neg h1, if_pos h2]
      rw [e, e]
    · by_cases h3 : Fl.lt x y = true
      · have e : Fl.fmin x y = x := by unfold Fl.fmin; rw [if_neg h1, if_neg h2, if_pos h3]
        rw [e, e]
      · have e : Fl.fmin x y = y := by unfold Fl.fmin; rw [if_neg h1, if_neg h2, if_neg h3]
        rw [e, yy]

/-- The limit on frequencies and on resonances keeps what it made. -/
private theorem limits (x : F64) :
    (Flt.fmin (Flt.fmin x ((srM : F64) / lit 2)) ((srM : F64) / lit 2) = Flt.fmin x ((srM : F64) / lit 2)) ∧
    (Flt.fmax (Flt.fmin (Flt.fmax (Flt.fmin x (lit 1)) (lit 0)) (lit 1)) (lit 0) : F64) = Flt.fmax (Flt.fmin x (lit 1)) (lit 0) := by
  refine ⟨fmin_fmin _ _, ?_⟩
  show (Fl.fmax (Fl.fmin (Fl.fmax (Fl.fmin x (lit 1)) (lit 0)) (lit 1)) (lit 0) : F64) = Fl.fmax (Fl.fmin x (lit 1)) (lit 0)
  have hm := fmin_fmin x (lit 1 : F64)
  have z : (Fl.fmax (Fl.fmin (lit 0 : F64) (lit 1)) (lit 0) : F64) = lit 0 := by decide +kernel
  have zn : (lit 0 : F64).isNaN = false := by decide +kernel
  have on : (Fl.fmin (Fl.nan : F64) (lit 1)) = lit 1 := rfl
  generalize Fl.fmin x (lit 1 : F64) = m at hm
  have h : (Fl.fmax m (lit 0) : F64) = m ∨ (Fl.fmax m (lit 0) : F64) = lit 0 := by
    unfold Fl.fmax
    rw [zn]
    split_ifs
    · exact .inr rfl
    · exact .inl rfl
    · exact .inl rfl
    · exact .inr rfl
  rcases h with h | h
  · rw [h, hm, h]
  · rw [h, z]

private theorem bp_reset {S M : Type} [Flt S] [Flt M] [SM S M] [Libm M] (bs : List (BpCall S M)) (m : BandPass S M) (h : m.reset = m) :
    (m.run bs).reset = m.run bs := by
  induction bs generalizing m with
  | nil => exact h
  | cons c bs ih =>
    cases c with
    | process x =>
      refine ih _ ?_
      have e : ∀ (b : BandPass S M) (y : S), ({ b with x1 := x, x2 := b.x1, y1 := y, y2 := b.y1 } : BandPass S M).reset =
          { b.reset with x1 := x, x2 := b.x1, y1 := y, y2 := b.y1 } := fun b y => rfl
      exact (e m _).trans (by rw [h]; rfl)
    | setFrequency f => exact ih _ rfl
    | setQuality q => exact ih _ rfl
    | setCorners c => exact ih _ rfl

section
variable [Libm F64]

/-- What a filter keeps through any history: coefficients that follow from the parameters, and parameters within the limits. -/
private theorem lp_inv (f r : F64) (cs : List (FiltCall F32 F64)) :
    let m : LowPass F32 F64 := (LowPass.new f r).run cs
    m.reset = m ∧ Flt.fmin m.fc ((srM : F64) / lit 2) = m.fc ∧ (Flt.fmax (Flt.fmin m.r (lit 1)) (lit 0) : F64) = m.r := by
  suffices h : ∀ (cs : List (FiltCall F32 F64)) (m : LowPass F32 F64),
      (m.reset = m ∧ Flt.fmin m.fc ((srM : F64) / lit 2) = m.fc ∧ (Flt.fmax (Flt.fmin m.r (lit 1)) (lit 0) : F64) = m.r) →
      ((m.run cs).reset = m.run cs ∧ Flt.fmin (m.run cs).fc ((srM : F64) / lit 2) = (m.run cs).fc ∧
        (Flt.fmax (Flt.fmin (m.run cs).r (lit 1)) (lit 0) : F64) = (m.run cs).r) from
    h cs _ ⟨rfl, (limits f).1, (limits r).2⟩
  intro cs
  induction cs with
  | nil => exact fun m h => h
  | cons c cs ih =>
    intro m h
    cases c with
    | process x =>
      refine ih (m.process x).2 ⟨?_, h.2⟩
      have e : ∀ (b : LowPass F32 F64) (y0 y1 y2 : F32), ({ b with o0 := y0, o1 := y1, o2 := y2 } : LowPass F32 F64).reset =
          { b.reset with o0 := y0, o1 := y1, o2 := y2 } := fun b _ _ _ => rfl
      exact (e m _ _ _).trans (by rw [h.1]; rfl)
    | setFrequency v => exact ih (m.setCentralFrequency v) ⟨rfl, (limits v).1, h.2.2⟩
    | setResonance v => exact ih (m.setResonance v) ⟨rfl, h.2.1, (limits v).2⟩

private theorem hp_inv (f r : F64) (cs : List (FiltCall F32 F64)) :
    let m : HighPass F32 F64 := (HighPass.new f r).run cs
    m.reset = m ∧ Flt.fmin m.fc ((srM : F64) / lit 2) = m.fc ∧ (Flt.fmax (Flt.fmin m.r (lit 1)) (lit 0) : F64) = m.r := by
  suffices h : ∀ (cs : List (FiltCall F32 F64)) (m : HighPass F32 F64),
      (m.reset = m ∧ Flt.fmin m.fc ((srM : F64) / lit 2) = m.fc ∧ (Flt.fmax (Flt.fmin m.r (lit 1)) (lit 0) : F64) = m.r) →
      ((m.run cs).reset = m.run cs ∧ Flt.fmin (m.run cs).fc ((srM : F64) / lit 2) = (m.run cs).fc ∧
        (Flt.fmax (Flt.fmin (m.run cs).r (lit 1)) (lit 0) : F64) = (m.run cs).r) from
    h cs _ ⟨rfl, (limits f).1, (limits r).2⟩
  intro cs
  induction cs with
  | nil => exact fun m h => h
  | cons c cs ih =>
    intro m h
    cases c with
    | process x =>
      refine ih (m.process x).2 ⟨?_, h.2⟩
      have e : ∀ (b : HighPass F32 F64) (x1 x2 x3 y1 y2 y3 : F32),
          ({ b with x1 := x1, x2 := x2, x3 := x3, y1 := y1, y2 := y2, y3 := y3 } : HighPass F32 F64).reset =
          { b.reset with x1 := x1, x2 := x2, x3 := x3, y1 := y1, y2 := y2, y3 := y3 } := fun b _ _ _ _ _ _ => rfl
      exact (e m _ _ _ _ _ _).trans (by rw [h.1]; rfl)
    | setFrequency v => exact ih (m.setCentralFrequency v) ⟨rfl, (limits v).1, h.2.2⟩
    | setResonance v => exact ih (m.setResonance v) ⟨rfl, h.2.1, (limits v).2⟩

/-- IEEE, any math library, any arguments (NaN and infinities included), after any history: writing back the frequency, resonance
or quality a filter reports changes no bit of it. -/
theorem C177_filters (f r : F64) (cs : List (FiltCall F32 F64)) (bs : List (BpCall F32 F64)) :
    (let m : LowPass F32 F64 := (LowPass.new f r).run cs;
      m.setCentralFrequency m.getCentralFrequency = m ∧ m.setResonance m.getResonance = m) ∧
    (let m : HighPass F32 F64 := (HighPass.new f r).run cs;
      m.setCentralFrequency m.getCentralFrequency = m ∧ m.setResonance m.getResonance = m) ∧
    (let m : BandPass F32 F64 := (BandPass.new f r).run bs;
      m.setCentralFrequency m.getCentralFrequency = m ∧ m.setQuality m.getQuality = m) := by
  refine ⟨?_, ?_, ?_⟩
  · obtain ⟨h1, h2, h3⟩ := lp_inv f r cs
    intro m
    constructor
    · show ({ m with fc := Flt.fmin m.fc ((srM : F64) / lit 2) } : LowPass F32 F64).reset = m
      rw [h2]; exact h1
    · show ({ m with r := Flt.fmax (Flt.fmin m.r (lit 1)) (lit 0) } : LowPass F32 F64).reset = m
      rw [h3]; exact h1
  · obtain ⟨h1, h2, h3⟩ := hp_inv f r cs
    intro m
    constructor
    · show ({ m with fc := Flt.fmin m.fc ((srM : F64) / lit 2) } : HighPass F32 F64).reset = m
      rw [h2]; exact h1
    · show ({ m with r := Flt.fmax (Flt.fmin m.r (lit 1)) (lit 0) } : HighPass F32 F64).reset = m
      rw [h3]; exact h1
  · intro m
    have h : m.reset = m := bp_reset bs _ rfl
    exact ⟨h, h⟩

/-- A resonance of NaN is taken as 1, and read and written back as 1. -/
example : let m : LowPass F32 F64 := LowPass.new (lit 1000) Fl.nan
    m.getResonance.Is 1 ∧ m.setResonance m.getResonance = m :=
  ⟨(by decide +kernel : (Flt.fmax (Flt.fmin (Fl.nan : F64) (lit 1)) (lit 0)).Is 1), (C177_filters (lit 1000) .nan [] []).1.2⟩

/-- The corner frequencies are the exception: a band-pass at 1000 Hz with quality 1 has its centre moved by writing them back. -/
theorem C177_corners_violated : let m : BandPass F32 F64 := BandPass.new (lit 1000) (lit 1)
    (m.setCornerFrequencies m.getCornerFrequencies).getCentralFrequency ≠ m.getCentralFrequency := by
  intro m
  have e : m.getCornerFrequencies =
      (⟨lit 1000, lit 1, lit 0, lit 0, lit 0, lit 0, lit 0, lit 0, lit 0⟩ : BandPass F32 F64).getCornerFrequencies := rfl
  show Flt.sqrt (m.getCornerFrequencies.1 * m.getCornerFrequencies.2) ≠ (lit 1000 : F64)
  rw [e]
  decide +kernel

end

/-- IEEE: writing back the gains of a sound changes no bit of it, whatever they are; nor does writing back the speed of a
resampler. -/
theorem C177_gains (s : SimpleSound F32) (r : MonoResampler F32 F64) :
    s.setInputGain (s.getInputGain : F64) = s ∧ s.setOutputGain (s.getOutputGain : F64) = s ∧
    r.setPlaybackSpeed r.getPlaybackSpeed = r := by
  have du : ∀ x : F32, (SM.down (SM.up x : F64) : F32) = x := by
    intro x
    cases x with
    | nan => rfl
    | inf s => rfl
    | fin s a h =>
      obtain ⟨h', e⟩ := up_fin s a h
      rw [e]
      show (ofQ s a : F32) = _
      obtain ⟨h2, e2⟩ := ofQ_repr (f := b32) s (Fmt.fits_of_repr h.1 h.2.1) h.1
      rw [e2]
      congr 1
      split_ifs with h3 h4
      · exact (h.2.2.1 h3).symm
      · exact (h.2.2.2 h4).symm
      · rfl
  unfold SimpleSound.setInputGain SimpleSound.setOutputGain SimpleSound.getInputGain SimpleSound.getOutputGain
  rw [du, du]
  exact ⟨rfl, rfl, rfl⟩

/-- In exact arithmetic the corner frequencies too can be written back. Missing: the same with rounding, which is false. -/
theorem C177_corners_partial (f q : ℝ) (bs : List (BpCall ℝ ℝ)) (m : BandPass ℝ ℝ) (hm : m = (BandPass.new f q).run bs)
    (hf : 0 < m.getCentralFrequency) (hq : 0 < m.getQuality) : m.setCornerFrequencies m.getCornerFrequencies = m := by
  have hr : m.reset = m := by rw [hm]; exact bp_reset bs _ rfl
  have hf : 0 < m.centralF := hf
  have hq : 0 < m.quality := hq
  set w := m.centralF / m.quality with hw
  have w0 : 0 < w := by positivity
  set s := Real.sqrt (w * w + 4 * (m.centralF * m.centralF)) with hs
  have ss : s * s = w * w + 4 * (m.centralF * m.centralF) := Real.mul_self_sqrt (by positivity)
  have sw : w < s := by
    rw [hs, Real.lt_sqrt w0.le]
    have : 0 < m.centralF * m.centralF := by positivity
    nlinarith
  have prod : (s - w) / 2 * ((s + w) / 2) = m.centralF * m.centralF := by nlinarith
  have sq : Real.sqrt ((s - w) / 2 * ((s + w) / 2)) = m.centralF := by
    rw [prod]; exact Real.sqrt_mul_self hf.le
  have wq : m.centralF / w = m.quality := by rw [hw]; field_simp
  have c := corners_eq (m := m) (l := (s - w) / 2) (h := (s + w) / 2) (by linarith) (by linarith) (by rw [sq]) (by rw [← hw]; ring)
  rw [c]
  have e : m.setCornerFrequencies ((s - w) / 2, (s + w) / 2) =
      ({ m with centralF := Real.sqrt ((s - w) / 2 * ((s + w) / 2)), quality := Real.sqrt ((s - w) / 2 * ((s + w) / 2)) / |(s - w) / 2 - (s + w) / 2| } : BandPass ℝ ℝ).reset := rfl
  rw [e, sq, show (s - w) / 2 - (s + w) / 2 = -w by ring, abs_neg, abs_of_pos w0, wq]
  exact hr

example : let m : BandPass ℝ ℝ := BandPass.new 1000 1
    m.setCornerFrequencies m.getCornerFrequencies = m :=
  C177_corners_partial 1000 1 [] _ rfl (show (0 : ℝ) < 1000 by norm_num) (show (0 : ℝ) < 1 by norm_num)

end Verif
