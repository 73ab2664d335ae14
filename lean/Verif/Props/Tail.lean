import Verif.Props.Ieee
import Verif.Props.Delay
import Verif.Props.Generic
import Verif.Props.EnvelopeF32

/-! # The tail of an effect: C140

What comes out after the input has become silent. -/

namespace Verif
open Fl

/-! ## rounding near zero -/

private theorem tiny : b32.rnd ((2 ^ 150)⁻¹) = 0 := by decide +kernel
private theorem pow2_149 : pow2 (-149) = (2 ^ 149)⁻¹ := by decide +kernel

/-- The smallest positive f32 value is `2^-149`. -/
private theorem repr_ge {v : ℚ} (h : b32.Repr v) (h0 : v ≠ 0) : (2 ^ 149)⁻¹ ≤ |v| := by
  obtain ⟨m, e, rfl, -, he⟩ := h
  have hm : m ≠ 0 := by rintro rfl; simp at h0
  have h1 : (1 : ℚ) ≤ |(m : ℚ)| := by exact_mod_cast Int.one_le_abs hm
  have h2 : pow2 (-149) ≤ pow2 e := pow2_le he
  rw [pow2_149] at h2
  rw [abs_mul, abs_of_pos (pow2_pos e)]
  calc (2 ^ 149 : ℚ)⁻¹ = 1 * (2 ^ 149)⁻¹ := by ring
    _ ≤ |(m : ℚ)| * pow2 e := mul_le_mul h1 h2 (by positivity) (abs_nonneg _)

/-- More than half of the smallest value does not round to zero. -/
private theorem rnd_ne_zero {q : ℚ} (h : (2 ^ 150)⁻¹ < |q|) : b32.rnd q ≠ 0 := by
  intro h0
  have h1 : b32.rnd |q| = 0 := by rw [← b32.abs_rnd, h0, abs_zero]
  have hr : b32.Repr ((2 ^ 149)⁻¹) := by rw [← pow2_149]; exact b32.repr_pow2 (by decide)
  rcases le_or_gt ((2 ^ 149)⁻¹) |q| with h2 | h2
  · have := b32.repr_le_rnd hr h2
    rw [h1] at this
    norm_num at this
  · have := (ieee_nearest b32 |q| hr).2
    have e : abs ((2 ^ 149 : ℚ)⁻¹ - |q|) = (2 ^ 149)⁻¹ - |q| := abs_of_pos (by linarith)
    have c : (2 ^ 149 : ℚ)⁻¹ = 2 * (2 ^ 150)⁻¹ := by norm_num
    rw [h1, zero_sub, abs_neg, abs_abs, e] at this
    linarith

private theorem mixed32 (q : ℚ) : |b32.rnd q| ≤ |q| * (1 + (2 ^ 24)⁻¹) + (2 ^ 150)⁻¹ := by
  have e : pow2 (-(b32.p : ℤ)) = (2 ^ 24)⁻¹ ∧ pow2 (b32.emin - 1) = (2 ^ 150)⁻¹ := by decide +kernel
  have h := b32.abs_rnd_sub_le_mixed q
  rw [e.1, e.2] at h
  have := abs_sub_abs_le_abs_sub (b32.rnd q) q
  linarith

/-! ## Delay and Generic -/

/-- In any arithmetic: when the input is silent from sample `N` on, a Delay of `D` samples is silent from sample `N + D` on. -/
theorem C140_delay {S : Type} [Flt S] (m : Delay S) (D : ℕ) (hm : m.delay = List.replicate D (lit 0)) (x : ℕ → S) (N : ℕ)
    (hx : ∀ i, N ≤ i → x i = lit 0) (n : ℕ) (hn : N + D ≤ n) : modOut Delay.process x m n = .ok (lit 0) := by
  rw [(C51_delay m D hm x n).1, if_neg (by omega), hx _ (by omega)]

example : ((List.range 6).map fun n => (modOut Delay.process (fun n => if n < 2 then (lit 1 : F32) else lit 0) ⟨[lit 0, lit 0]⟩ n).toOption) =
    [some (lit 0), some (lit 0), some (lit 1), some (lit 1), some (lit 0), some (lit 0)] := by decide +kernel

/-- IEEE: a Generic filter without feedback whose (finite) taps reach back `K` samples is silent from sample `N + K` on. -/
theorem C140_generic (zeros : List (ℕ × F32)) (hz : LastLargest zeros) (K : ℕ) (hK : ∀ t ∈ zeros, t.1 ≤ K ∧ t.2.Finite) (x : ℕ → F32) (N : ℕ)
    (hx : ∀ i, N ≤ i → (x i).Is 0) (n : ℕ) (hn : N + K ≤ n) :
    ∃ y, modOut Generic.process x (Generic.new zeros []) n = .ok y ∧ y.Is 0 := by
  obtain ⟨y, hy⟩ := C56_generic zeros [] hz (by intro t ht; simp at ht) x
  refine ⟨_, (hy n).1, ?_⟩
  rw [(hy n).2]
  simp only [tapSum, List.foldl_nil]
  have key : ∀ (l : List (ℕ × F32)) (a : F32), (∀ t ∈ l, t.1 ≤ K ∧ t.2.Finite) → a.Is 0 →
      (l.foldl (fun acc t => acc + (if n < t.1 then lit 0 else x (n - t.1)) * t.2) a).Is 0 := by
    intro l
    induction l with
    | nil => intro a _ ha; exact ha
    | cons t l ih =>
      intro a hl ha
      refine ih _ (fun t ht => hl t (List.mem_cons_of_mem _ ht)) ?_
      obtain ⟨h1, c, hc⟩ := hl t List.mem_cons_self
      show (a + (if n < t.1 then lit 0 else x (n - t.1)) * t.2).Is 0
      rw [if_neg (by omega)]
      have h2 := Is.mul (hx (n - t.1) (by omega)) hc (by rw [zero_mul]; exact fits32' 0 (by norm_num) (by norm_num))
      rw [zero_mul, show b32.rnd 0 = 0 by decide +kernel] at h2
      have h3 := Is.add ha h2 (by rw [add_zero]; exact fits32' 0 (by norm_num) (by norm_num))
      rwa [add_zero, show b32.rnd 0 = 0 by decide +kernel] at h3
  exact key zeros _ hK lit32_0

/-- A pulse into a two-tap filter with weights 1 and -1. -/
example : LastLargest [(0, (lit 1 : F32)), (1, lit (-1))] ∧ (∀ t ∈ [(0, (lit 1 : F32)), (1, lit (-1))], t.1 ≤ 1 ∧ t.2.Finite) ∧
    ∀ i : ℕ, 1 ≤ i → ((if i = 0 then lit 1 else lit 0 : F32)).Is 0 := by
  refine ⟨?_, ?_, fun i hi => ?_⟩
  · intro t ht l hl
    simp at ht hl
    rcases ht with rfl | rfl <;> subst hl <;> decide
  · intro t ht
    simp at ht
    rcases ht with rfl | rfl
    · exact ⟨by decide, 1, by decide +kernel⟩
    · exact ⟨by decide, -1, by decide +kernel⟩
  · rw [if_neg (by omega)]; decide +kernel

/-! ## Echo -/

section Echo
variable (m : Echo F32) (D : ℕ) (hD : 0 < D) (hm : m.delay = List.replicate D (lit 0)) {g : ℚ} (hg : m.gain.Is g) (x : ℕ → F32) (N : ℕ)
  (hx : ∀ i, N ≤ i → (x i).Is 0)
include hD hm hg hx

/-- Without input the output is the rounded product, one delay later. -/
private theorem echo_next (hg1 : |g| ≤ 1) : ∃ y : ℕ → F32, (∀ n, modOut Echo.process x m n = .ok (y n)) ∧
    ∀ n v, N ≤ n → (y n).Is v → (y (n + D)).Is (b32.rnd (v * g)) := by
  obtain ⟨y, hy⟩ := C54_echo m D hD hm x
  refine ⟨y, fun n => (hy n).1, fun n v hn hv => ?_⟩
  rw [(hy (n + D)).2, if_neg (by omega), Nat.add_sub_cancel]
  have h1 := Is.mul hv hg (hv.fits.of_abs_le (by rw [abs_mul]; exact mul_le_of_le_one_right (abs_nonneg _) hg1))
  have h2 := Is.add h1 (hx (n + D) (by omega)) (by rw [add_zero]; exact h1.fits)
  rwa [add_zero, b32.rnd_rnd] at h2

/-- The property fails: with any gain of magnitude above 1/2 (and at most 1) a sample that is not zero never becomes zero. -/
theorem C140_echo_violated (hg0 : 1 / 2 < |g|) (hg1 : |g| ≤ 1) {n : ℕ} (hn : N ≤ n) {y0 : F32} (h0 : modOut Echo.process x m n = .ok y0) {v0 : ℚ}
    (hv0 : y0.Is v0) (hne : v0 ≠ 0) (j : ℕ) : ∃ y v, modOut Echo.process x m (n + j * D) = .ok y ∧ y.Is v ∧ v ≠ 0 := by
  obtain ⟨y, hy, hs⟩ := echo_next m D hD hm hg x N hx hg1
  have e0 : y n = y0 := by have := (hy n).symm.trans h0; injection this
  suffices h : ∃ v, (y (n + j * D)).Is v ∧ v ≠ 0 by
    obtain ⟨v, h1, h2⟩ := h
    exact ⟨_, v, hy _, h1, h2⟩
  induction j with
  | zero => rw [zero_mul, add_zero, e0]; exact ⟨v0, hv0, hne⟩
  | succ j ih =>
    obtain ⟨v, h1, h2⟩ := ih
    have := hs _ v (by omega) h1
    rw [show n + j * D + D = n + (j + 1) * D by ring] at this
    refine ⟨_, this, rnd_ne_zero ?_⟩
    rw [abs_mul]
    have := repr_ge h1.repr h2
    calc (2 ^ 150 : ℚ)⁻¹ = (2 ^ 149)⁻¹ * (1 / 2) := by norm_num
      _ < (2 ^ 149)⁻¹ * |g| := by gcongr
      _ ≤ |v| * |g| := by gcongr

/-- What holds: with a gain of magnitude at most 1/2 every sample is exactly zero 278 repeats later, and stays so. Missing: larger
gains, where it is false. -/
theorem C140_echo_partial (hg1 : |g| ≤ 1 / 2) {n : ℕ} (hn : N ≤ n) {y0 : F32} (h0 : modOut Echo.process x m n = .ok y0) (hv0 : y0.Finite)
    (j : ℕ) (hj : 278 ≤ j) : ∃ y, modOut Echo.process x m (n + j * D) = .ok y ∧ y.Is 0 := by
  obtain ⟨y, hy, hs⟩ := echo_next m D hD hm hg x N hx (by linarith)
  have e0 : y n = y0 := by have := (hy n).symm.trans h0; injection this
  obtain ⟨v0, hv0⟩ := hv0
  have next : ∀ j v, (y (n + j * D)).Is v → (y (n + (j + 1) * D)).Is (b32.rnd (v * g)) := by
    intro j v hv
    have := hs _ v (by omega) hv
    rwa [show n + j * D + D = n + (j + 1) * D by ring] at this
  have half : ∀ v : ℚ, |v * g| ≤ |v| * (1 / 2) := fun v => by rw [abs_mul]; exact mul_le_mul_of_nonneg_left hg1 (abs_nonneg _)
  have shrink : ∀ j : ℕ, j ≤ 277 → ∃ v, (y (n + j * D)).Is v ∧ |v| ≤ pow2 (128 - j) := by
    intro j
    induction j with
    | zero => intro _; rw [zero_mul, add_zero, e0]; exact ⟨v0, hv0, hv0.abs_lt.le.trans (le_of_eq (by rfl))⟩
    | succ j ih =>
      intro hj
      obtain ⟨v, h1, h2⟩ := ih (by omega)
      refine ⟨_, next j v h1, ?_⟩
      rw [b32.abs_rnd]
      refine b32.rnd_le_pow2 (by show (-149 : ℤ) ≤ _; push_cast; omega) ((half v).trans ?_)
      have e : pow2 (128 - ((j : ℕ) : ℤ)) = pow2 (128 - ((j + 1 : ℕ) : ℤ)) * 2 := by
        rw [show (128 : ℤ) - (j : ℕ) = 128 - ((j + 1 : ℕ) : ℤ) + 1 by push_cast; ring, pow2_add, pow2_one]
      rw [e] at h2
      linarith
  refine ⟨_, hy _, ?_⟩
  induction j, hj using Nat.le_induction with
  | base =>
    obtain ⟨v, h1, h2⟩ := shrink 277 le_rfl
    have h3 := next 277 v h1
    have h4 : |b32.rnd (v * g)| ≤ 0 := by
      rw [b32.abs_rnd, ← tiny]
      refine b32.rnd_mono ((half v).trans ?_)
      rw [show (128 : ℤ) - ((277 : ℕ) : ℤ) = -149 by norm_num, pow2_149] at h2
      calc |v| * (1 / 2) ≤ (2 ^ 149)⁻¹ * (1 / 2) := by gcongr
        _ = (2 ^ 150)⁻¹ := by norm_num
    rwa [abs_nonpos_iff.mp h4] at h3
  | succ j _ ih =>
    have := next j 0 ih
    rwa [zero_mul, show b32.rnd 0 = 0 by decide +kernel] at this

/-- What holds for every gain of magnitude up to `1 - 2^-20`: the repeats shrink geometrically down to `2^-129`, which is below the
smallest normal number. -/
theorem C140_echo_fades_partial (hg1 : |g| ≤ 1 - (2 ^ 20)⁻¹) {n : ℕ} (hn : N ≤ n) {y0 : F32} (h0 : modOut Echo.process x m n = .ok y0) {v0 : ℚ}
    (hv0 : y0.Is v0) (j : ℕ) : ∃ y v, modOut Echo.process x m (n + j * D) = .ok y ∧ y.Is v ∧
      |v| ≤ (|g| * (1 + (2 ^ 24)⁻¹)) ^ j * |v0| + (2 ^ 129)⁻¹ ∧ |g| * (1 + (2 ^ 24)⁻¹) < 1 := by
  obtain ⟨y, hy, hs⟩ := echo_next m D hD hm hg x N hx (hg1.trans (by norm_num))
  have e0 : y n = y0 := by have := (hy n).symm.trans h0; injection this
  have g0 := abs_nonneg g
  set ρ := |g| * (1 + (2 ^ 24)⁻¹) with hρ
  have ρ0 : 0 ≤ ρ := by positivity
  have ρ1 : ρ ≤ 1 - (2 ^ 21)⁻¹ := by rw [hρ]; norm_num at hg1 ⊢; linarith
  suffices h : ∃ v, (y (n + j * D)).Is v ∧ |v| ≤ ρ ^ j * |v0| + (2 ^ 129)⁻¹ by
    obtain ⟨v, h1, h2⟩ := h
    exact ⟨_, v, hy _, h1, h2, lt_of_le_of_lt ρ1 (by norm_num)⟩
  induction j with
  | zero => rw [zero_mul, add_zero, e0]; exact ⟨v0, hv0, by rw [pow_zero, one_mul]; linarith [show (0 : ℚ) ≤ (2 ^ 129)⁻¹ by positivity]⟩
  | succ j ih =>
    obtain ⟨v, h1, h2⟩ := ih
    have h3 := hs _ v (by omega) h1
    rw [show n + j * D + D = n + (j + 1) * D by ring] at h3
    refine ⟨_, h3, (mixed32 _).trans ?_⟩
    rw [abs_mul, mul_assoc, ← hρ]
    have h4 : |v| * ρ ≤ (ρ ^ j * |v0| + (2 ^ 129)⁻¹) * ρ := mul_le_mul_of_nonneg_right h2 ρ0
    have h5 : (2 ^ 129 : ℚ)⁻¹ * ρ ≤ (2 ^ 129)⁻¹ * (1 - (2 ^ 21)⁻¹) := mul_le_mul_of_nonneg_left ρ1 (by positivity)
    have h6 : (2 ^ 129 : ℚ)⁻¹ * (1 - (2 ^ 21)⁻¹) + (2 ^ 150)⁻¹ = (2 ^ 129)⁻¹ := by norm_num
    rw [pow_succ ρ j, show ρ ^ j * ρ * |v0| = (ρ ^ j * |v0| + (2 ^ 129)⁻¹) * ρ - (2 ^ 129)⁻¹ * ρ by ring]
    linarith

end Echo

/-- One pulse of 1.0 into an echo with gain 0.7: after 400 repeats the output is still not zero; with gain 0.5 it is zero after 150. -/
example : (modOut Echo.process (fun n => if n = 0 then (lit 1 : F32) else lit 0) ⟨[lit 0], lit (7 / 10)⟩ 400).toOption = some (lit ((2 ^ 149)⁻¹)) ∧
    (modOut Echo.process (fun n => if n = 0 then (lit 1 : F32) else lit 0) ⟨[lit 0], lit (1 / 2)⟩ 150).toOption = some (lit 0) := by
  decide +kernel

/-- The hypotheses for that echo; `11744051/2^24` is the f32 nearest to 0.7. -/
example : (⟨[lit 0], lit (7 / 10)⟩ : Echo F32).gain.Is (11744051 / 16777216) ∧ (1 / 2 : ℚ) < |(11744051 / 16777216)| ∧
    |(11744051 / 16777216 : ℚ)| ≤ 1 - (2 ^ 20)⁻¹ := by
  refine ⟨by decide +kernel, ?_, ?_⟩ <;> rw [abs_of_pos (by norm_num)] <;> norm_num

/-! ## Envelope -/

/-- The property fails for the level of an envelope follower with a falling coefficient above 1/2: from any positive level, in
silence, it never comes back to zero. -/
theorem C140_envelope_violated (m : Envelope F32) {b v : ℚ} (ha : m.ad.Finite) (hb : m.bd.Is b) (hb0 : 1 / 2 < b) (hb1 : b ≤ 1)
    (hx1 : m.x1.Is 0) (hy1 : m.y1.Is v) (hv : 0 < v) (x : ℕ → F32) (hx : ∀ i, (x i).Is 0) (n : ℕ) :
    ∃ y w, modOut Modifier.process x m n = (.ok y : Res F32) ∧ y.Is w ∧ 0 < w := by
  have step : ∀ (s : Envelope F32) (z : F32), (s.ad = m.ad ∧ s.bd = m.bd ∧ s.x1.Is 0 ∧ ∃ v, s.y1.Is v ∧ 0 < v) → z.Is 0 →
      ((s.process z).2.ad = m.ad ∧ (s.process z).2.bd = m.bd ∧ (s.process z).2.x1.Is 0 ∧ ∃ v, (s.process z).2.y1.Is v ∧ 0 < v) ∧
      (s.process z).1 = (s.process z).2.y1 := by
    rintro s z ⟨h1, h2, h3, v, h4, h5⟩ hz
    refine ⟨⟨h1, h2, hz, ?_⟩, rfl⟩
    obtain ⟨a, ha⟩ := ha
    have hz' : (Flt.abs z).Is 0 := by simpa using hz.abs
    have hx' : (Flt.abs s.x1).Is 0 := by simpa using h3.abs
    have hlt : (s.y1 <? Flt.abs z) = false := by rw [Is.lt h4 hz']; simpa using h5.le
    have r0 : b32.rnd 0 = 0 := by decide +kernel
    have k1 := Is.add hz' hx' (by rw [add_zero]; exact fits32' 0 (by norm_num) (by norm_num))
    rw [add_zero, r0] at k1
    have k2 := Is.mul ha k1 (by rw [mul_zero]; exact fits32' 0 (by norm_num) (by norm_num))
    rw [mul_zero, r0] at k2
    have k3 := Is.mul hb h4 (h4.fits.of_abs_le (by
      rw [abs_mul, abs_of_pos (by linarith)]; exact mul_le_of_le_one_left (abs_nonneg _) hb1))
    have k4 := Is.add k2 k3 (by rw [zero_add]; exact k3.fits)
    rw [zero_add, b32.rnd_rnd] at k4
    have e : (s.process z).2.y1 = m.ad * (Flt.abs z + Flt.abs s.x1) + m.bd * s.y1 := by
      unfold Envelope.process
      simp only [hlt, Bool.false_eq_true, if_false, h1, h2]
    refine ⟨_, by rw [e]; exact k4, ?_⟩
    refine lt_of_le_of_ne (b32.rnd_nonneg (by have : 0 < b := by linarith
                                              positivity)) (Ne.symm (rnd_ne_zero ?_))
    have := repr_ge h4.repr h5.ne'
    rw [abs_mul, abs_of_pos (by linarith : 0 < b)]
    calc (2 ^ 150 : ℚ)⁻¹ = 1 / 2 * (2 ^ 149)⁻¹ := by norm_num
      _ < b * (2 ^ 149)⁻¹ := by gcongr
      _ ≤ b * |v| := by gcongr
  obtain ⟨s, hs, hI⟩ : ∃ s, modAfter (E := Panic) Modifier.process x m n = .ok s ∧ (s.ad = m.ad ∧ s.bd = m.bd ∧ s.x1.Is 0 ∧ ∃ v, s.y1.Is v ∧ 0 < v) := by
    induction n with
    | zero => exact ⟨m, rfl, rfl, rfl, hx1, v, hy1, hv⟩
    | succ n ih =>
      obtain ⟨s, h1, h2⟩ := ih
      exact ⟨_, modAfter_succ (y := (s.process (x n)).1) h1 rfl, (step s (x n) h2 (hx n)).1⟩
  obtain ⟨⟨-, -, -, w, hw, hw0⟩, e⟩ := step s (x n) hI (hx n)
  exact ⟨(s.process (x n)).1, w, modOut_of (m'' := (s.process (x n)).2) hs rfl, by rw [e]; exact hw, hw0⟩

/-- Any follower with `lower` between 4 and 3600 Hz has such a coefficient. -/
theorem C140_envelope_coef [Libm F32] (hl : TanAccurate) {lower : F32} (h : lower.In 4 3600) (upper : F32) :
    (Envelope.new F64 lower upper).ad.Finite ∧ ∃ b, (Envelope.new F64 lower upper).bd.Is b ∧ 1 / 2 < b ∧ b ≤ 1 := by
  obtain ⟨f, hf, f0, f1⟩ := h
  have hpi : (SM.piS F64 : F32).Is (13176795 / 4194304) := by decide +kernel
  have hsr : (SM.down (invSR : F64) : F32).Is (5726623 / 274877906944) := by decide +kernel
  have b1 : |13176795 / 4194304 * f| ≤ 2 ^ 14 := by
    rw [abs_of_pos (by positivity)]; norm_num; linarith
  have hm := Is.mul hpi hf (fits32' 14 (by norm_num) b1)
  have e1 := err32 (q := 13176795 / 4194304 * f) 14 (by norm_num) (by exact_mod_cast b1)
  rw [abs_le] at e1
  set a := b32.rnd (13176795 / 4194304 * f)
  norm_num at e1
  have b2 : |a * (5726623 / 274877906944)| ≤ 2 ^ 0 := by
    rw [abs_of_pos (mul_pos (by linarith) (by norm_num))]; norm_num; linarith
  have hr := Is.mul hm hsr (fits32' 0 (by norm_num) b2)
  have e2 := err32 (q := a * (5726623 / 274877906944)) 0 (by norm_num) (by exact_mod_cast b2)
  rw [abs_le] at e2
  set r := b32.rnd (a * (5726623 / 274877906944))
  norm_num at e2
  have r0 : 26 / 100000 ≤ r := by linarith
  have r1 : r ≤ 24 / 100 := by linarith
  obtain ⟨t, ht, et⟩ := hl.tan _ r hr (by norm_num; linarith) (by norm_num; linarith)
  have r0' : (26 / 100000 : ℝ) ≤ r := by
    have := (Rat.cast_le (K := ℝ)).mpr r0
    push_cast at this
    exact this
  have r1' : (r : ℝ) ≤ 24 / 100 := by
    have := (Rat.cast_le (K := ℝ)).mpr r1
    push_cast at this
    exact this
  have ht0 := (tan_bounds (q := r) (by linarith) (by linarith)).1
  have ht1 : Real.tan r ≤ 26 / 100 := by
    have hc := Real.one_sub_sq_div_two_le_cos (x := (r : ℝ))
    have hs := Real.sin_le (x := (r : ℝ)) (by linarith)
    have hc2 : (97 / 100 : ℝ) ≤ Real.cos r := by nlinarith
    rw [Real.tan_eq_sin_div_cos, div_le_iff₀ (by linarith)]
    linarith
  rw [abs_le] at et
  norm_num at et
  have t0 : 0 ≤ t := by
    have : ((0 : ℚ) : ℝ) ≤ (t : ℝ) := by push_cast; linarith
    exact Rat.cast_le.mp this
  have t1 : t ≤ 27 / 100 := by
    have : (t : ℝ) ≤ ((27 / 100 : ℚ) : ℝ) := by push_cast; linarith
    exact Rat.cast_le.mp this
  have b3 : |1 + t| ≤ 2 ^ 1 := abs_le.mpr ⟨by norm_num; linarith, by norm_num; linarith⟩
  have hp := Is.add lit32_1 ht (fits32' 1 (by norm_num) b3)
  have ep := err32 (q := 1 + t) 1 (by norm_num) (by exact_mod_cast b3)
  have p1 : 1 ≤ b32.rnd (1 + t) := b32.repr_le_rnd (by exact_mod_cast Fmt.repr32_int (n := 1) (by norm_num)) (by linarith)
  set P := b32.rnd (1 + t)
  have b4 : |1 - t| ≤ 2 ^ 0 := abs_le.mpr ⟨by norm_num; linarith, by norm_num; linarith⟩
  have hq := Is.sub lit32_1 ht (fits32' 0 (by norm_num) b4)
  have eq := err32 (q := 1 - t) 0 (by norm_num) (by exact_mod_cast b4)
  have q1 : b32.rnd (1 - t) ≤ 1 := b32.rnd_le_repr (by exact_mod_cast Fmt.repr32_int (n := 1) (by norm_num)) (by linarith)
  set Q := b32.rnd (1 - t)
  have pp : 0 < P := by linarith
  rw [abs_le] at ep eq
  norm_num at ep eq
  have b5 : |t / P| ≤ 2 ^ 0 := by
    rw [abs_of_nonneg (by positivity), div_le_iff₀ pp]; norm_num; linarith
  have b6 : |Q / P| ≤ 2 ^ 0 := by
    rw [abs_of_pos (div_pos (by linarith) pp), div_le_iff₀ pp]; norm_num; linarith
  refine ⟨⟨_, Is.div ht hp (by linarith) (fits32' 0 (by norm_num) b5)⟩, _, Is.div hq hp (by linarith) (fits32' 0 (by norm_num) b6), ?_, ?_⟩
  · have e := err32 (q := Q / P) 0 (by norm_num) (by exact_mod_cast b6)
    rw [abs_le] at e
    have : 51 / 100 ≤ Q / P := by rw [le_div_iff₀ pp]; linarith
    norm_num at e
    linarith
  · refine b32.rnd_le_repr (by exact_mod_cast Fmt.repr32_int (n := 1) (by norm_num)) ?_
    rw [div_le_iff₀ pp]; linarith

example : (∃ l : Libm F32, @TanAccurate l) ∧ (lit 20 : F32).In 4 3600 := ⟨tanAccurate_exists, 20, by decide +kernel, by norm_num, by norm_num⟩

end Verif
