import Verif.Props.Osc

/-! # Frequency getters, phase, noise and clones: C41-C44 -/

set_option linter.unusedSectionVars false

namespace Verif
open Fl

/-! ## C41, exact arithmetic -/

/-- Exact arithmetic: Sawtooth and Sine return the frequency last set after every history; Square does
for non-zero frequencies; Triangle right after it was set. -/
theorem C41_getters (f : ℝ) (cs : List (GenCall ℝ)) (g : Triangle ℝ) :
    ((Sawtooth.new f).run ℝ cs).getFrequency = lastFreq f cs ∧
    (lastFreq f cs ≠ 0 →
      (runCalls (fun g => (g.process : ℝ × _).2) Square.setFrequency cs (Square.new f)).getFrequency = lastFreq f cs) ∧
    (Triangle.new f).getFrequency = f ∧ (g.setFrequency f).getFrequency = f := by
  have hs : ∀ (cs : List (GenCall ℝ)) (f : ℝ) (g : Sawtooth ℝ), g.irate = 2 * f * (1 / 48000) →
      (g.run ℝ cs).irate = 2 * lastFreq f cs * (1 / 48000) := by
    intro cs
    induction cs with
    | nil => intro f g h; exact h
    | cons c cs ih =>
      intro f g h
      cases c with
      | process => exact ih f _ h
      | setFrequency f' => exact ih f' _ (by unfold Sawtooth.setFrequency; real_simp)
  have hq : ∀ (cs : List (GenCall ℝ)) (f : ℝ) (g : Square ℝ), g.inv = 48000 / (2 * f) →
      (runCalls (fun g => (g.process : ℝ × _).2) Square.setFrequency cs g).inv = 48000 / (2 * lastFreq f cs) := by
    intro cs
    induction cs with
    | nil => intro f g h; exact h
    | cons c cs ih =>
      intro f g h
      cases c with
      | process => exact ih f _ h
      | setFrequency f' => exact ih f' _ (by unfold Square.setFrequency; real_simp)
  refine ⟨?_, fun h0 => ?_, ?_, ?_⟩
  · have h := hs cs f (Sawtooth.new f) (by unfold Sawtooth.new; real_simp)
    unfold Sawtooth.getFrequency
    rw [h]
    real_simp
    field_simp
  · have h := hq cs f (Square.new f) (by unfold Square.new; real_simp)
    unfold Square.getFrequency
    rw [h]
    real_simp
    field_simp
  · unfold Triangle.getFrequency Triangle.new; real_simp; field_simp
  · unfold Triangle.getFrequency Triangle.setFrequency; real_simp; field_simp

example : lastFreq (440 : ℝ) [.process, .setFrequency 880, .process] = 880 := rfl

/-! ## C41, IEEE -/

section
variable {S M : Type} [Flt S] [Flt M] [SM S M] [Libm M]
theorem Sine.process_inc {c c' : Sine M} {y : S} (h : c.process = .ok (y, c')) : c'.inc = c.inc := by
  unfold Sine.process at h
  simp only at h
  split at h
  · cases h; rfl
  · cases h

/-- A history of a Sine that does not panic: the state and the frequency set last. -/
inductive SineHist (S : Type) {M : Type} [Flt S] [Flt M] [SM S M] [Libm M] : M → Sine M → Prop
  | new (f : M) : SineHist S f (Sine.new f)
  | process {f : M} {g g' : Sine M} {y : S} : SineHist S f g → g.process = .ok (y, g') → SineHist S f g'
  | setFrequency {f f' : M} {g : Sine M} : SineHist S f g → SineHist S f' (g.setFrequency f')

end


/-- The property fails bit-exactly for Sine: 20.3 Hz comes back as a different double. -/
theorem C41_sine_violated : (Sine.new (lit (203 / 10) : F64)).getFrequency ≠ lit (203 / 10) := by decide +kernel

/-- What holds in IEEE binary64: every positive frequency with at most 52 significant bits (all integers
below 2^52, all `f32` values), from `2^-1000` to `2^200`, is returned exactly, at any time. Missing: the doubles using
all 53 bits, some of which do come back changed. -/
theorem C41_sine_ieee_partial [Libm F64] (f : F64) (m : ℕ) (k : ℤ) (hf : f.Is (m * pow2 k)) (hm : m < 2 ^ 52)
    (h0 : pow2 (-1000) ≤ m * pow2 k) (h1 : m * pow2 k ≤ 2 ^ 200) (g : Sine F64) (hg : SineHist F32 f g) :
    g.getFrequency.Is (m * pow2 k) := by
  have hi : g.inc = (Sine.new f).inc := by
    induction hg with
    | new => rfl
    | process _ hp ih => rw [Sine.process_inc hp, ih hf]
    | setFrequency => rfl
  unfold Sine.getFrequency
  rw [hi]
  have h10 : (lit (WAVETABLE_FREQ : ℚ) : F64).Is 10 := lit64_10
  have hq0 : 0 < (m : ℚ) * pow2 k := lt_of_lt_of_le (pow2_pos _) h0
  have hq : |(m : ℚ) * pow2 k / 10| ≤ 2 ^ 200 := by
    rw [abs_of_pos (by positivity)]; linarith
  have hd := Is.div hf h10 (by norm_num) (fits64' 200 (by norm_num) hq)
  have hq' := rnd64_pow2_le 200 hq
  have hm' := Is.mul hd h10 (fits64' 204 (by norm_num) (by
    rw [abs_mul, abs_of_pos (by norm_num : (0 : ℚ) < 10)]
    calc _ ≤ (2 : ℚ) ^ 200 * 10 := mul_le_mul_of_nonneg_right hq' (by norm_num)
      _ ≤ 2 ^ 200 * 2 ^ 4 := mul_le_mul_of_nonneg_left (by norm_num) (by positivity)
      _ = 2 ^ 204 := by rw [← pow_add]))
  rw [rnd_div_ten_mul hq0 (m := m) (k := k) (by norm_cast) (by exact_mod_cast hm) h0] at hm'
  exact hm'

example : (lit 440 : F64).Is ((440 : ℕ) * pow2 0) ∧ pow2 (-1000) ≤ (440 : ℕ) * pow2 0 := by decide +kernel

/-! ## C42 -/

section
variable {S M : Type} [Flt S] [Flt M] [SM S M] [Libm M]

/-- In any arithmetic: setting a frequency does not change the next sample of Sawtooth, Triangle, Sine. -/
theorem C42_next_sample (a : Sawtooth M) (b : Triangle M) (c : Sine M) (f : M) :
    ((a.setFrequency f).process.1 : S) = a.process.1 ∧ ((b.setFrequency f).process.1 : S) = b.process.1 ∧
    ((c.setFrequency f).process : Res (S × _)).map Prod.fst = (c.process : Res (S × _)).map Prod.fst := by
  refine ⟨rfl, ?_, ?_⟩
  · have e : ∀ b : Triangle M, (b.process.1 : S) = SM.down b.inc := by
      intro b; unfold Triangle.process; simp only; split_ifs <;> rfl
    rw [e, e]; rfl
  · unfold Sine.process Sine.setFrequency
    simp only
    split <;> rfl

private theorem after_inv {G α : Type} (p : G → S × G) (F : G → α) (h : ∀ g, F (p g).2 = F g) (n : ℕ) (g : G) :
    F (after p n g) = F g := by
  induction n generalizing g with
  | zero => rfl
  | succ n ih => rw [after_succ, h, ih]

/-- In any arithmetic: at any time after `new(f)`, setting `f` again changes nothing at all. -/
theorem C42_same_frequency (f : M) (n : ℕ) :
    (after (S := S) Sawtooth.process n (Sawtooth.new f)).setFrequency f = after (S := S) Sawtooth.process n (Sawtooth.new f) ∧
    (after (S := S) Square.process n (Square.new f)).setFrequency f = after (S := S) Square.process n (Square.new f) := by
  constructor
  · have h := after_inv (S := S) Sawtooth.process Sawtooth.irate (fun _ => rfl) n (Sawtooth.new f)
    unfold Sawtooth.setFrequency
    rw [show lit 2 * f * invSR = (Sawtooth.new f).irate from rfl, ← h]
  · have h := after_inv (S := S) Square.process Square.inv (fun _ => rfl) n (Square.new f)
    unfold Square.setFrequency
    rw [show srM / (lit 2 * f) = (Square.new f).inv from rfl, ← h]

/-- States of a generator whose `process` may panic. -/
inductive Steps {G S : Type} (p : G → Res (S × G)) : G → G → Prop
  | refl (g : G) : Steps p g g
  | step {g h k : G} {y : S} : Steps p g h → p h = .ok (y, k) → Steps p g k

/-- The same for Sine. -/
theorem C42_same_frequency_sine (f : M) (g : Sine M) (h : Steps (S := S) Sine.process (Sine.new f) g) :
    g.setFrequency f = g := by
  have : g.inc = (Sine.new f).inc := by
    generalize Sine.new f = g0 at h
    induction h with
    | refl => rfl
    | step _ hp ih => rw [Sine.process_inc hp, ih]
  unfold Sine.setFrequency
  rw [show f / lit (WAVETABLE_FREQ : ℚ) = (Sine.new f).inc from rfl, ← this]

example [Libm F64] : (Sine.new (lit 440 : F64)).setFrequency (lit 440) = Sine.new (lit 440) := C42_same_frequency_sine (S := F32) _ _ (.refl _)

/-! ## C44 -/

/-- In any arithmetic: a clone of Sawtooth or Square after any history is the fresh generator with the
frequency set last. -/
theorem C44_clone (f : M) (cs : List (GenCall M)) :
    ((Sawtooth.new f).run S cs).clone = Sawtooth.new (lastFreq f cs) ∧
    (runCalls (fun g => (g.process : S × _).2) Square.setFrequency cs (Square.new f)).clone =
      Square.new (lastFreq f cs) := by
  constructor
  · suffices h : ∀ (cs : List (GenCall M)) (f : M) (g : Sawtooth M), g.irate = (Sawtooth.new f).irate →
        (g.run S cs).irate = (Sawtooth.new (lastFreq f cs)).irate by
      have := h cs f (Sawtooth.new f) rfl
      unfold Sawtooth.clone
      rw [this]; rfl
    intro cs
    induction cs with
    | nil => intro f g h; exact h
    | cons c cs ih =>
      intro f g h
      cases c with
      | process => exact ih f _ h
      | setFrequency f' => exact ih f' _ rfl
  · suffices h : ∀ (cs : List (GenCall M)) (f : M) (g : Square M), g.inv = (Square.new f).inv →
        (runCalls (fun g => (g.process : S × _).2) Square.setFrequency cs g).inv = (Square.new (lastFreq f cs)).inv by
      have := h cs f (Square.new f) rfl
      unfold Square.clone
      rw [this]; rfl
    intro cs
    induction cs with
    | nil => intro f g h; exact h
    | cons c cs ih =>
      intro f g h
      cases c with
      | process => exact ih f _ h
      | setFrequency f' => exact ih f' _ rfl

/-- The same for Sine. -/
theorem C44_clone_sine (f : M) (g : Sine M) (h : SineHist S f g) : g.clone = Sine.new f := by
  have : g.inc = (Sine.new f).inc := by
    induction h with
    | new => rfl
    | process _ hp ih => rw [Sine.process_inc hp, ih]
    | setFrequency => rfl
  unfold Sine.clone
  rw [this]; rfl
example [Libm F64] : ((Sine.new (lit 440 : F64)).setFrequency (lit 220)).clone = Sine.new (lit 220) := C44_clone_sine (S := F32) _ _ (.setFrequency (.new _))

end

/-- The property fails for Triangle: a clone taken after one sample at 12 kHz runs downwards. -/
theorem C44_clone_triangle_violated :
    (nth Triangle.process (Triangle.new (lit 12000 : F64)) 1 : F32) = lit 1 ∧
    (nth Triangle.process ((after (S := F32) Triangle.process 1 (Triangle.new (lit 12000 : F64))).clone) 1 : F32) = lit (-1) := by
  decide +kernel

/-- The mirrored triangle state. -/
private def Triangle.mirror (g : Triangle ℝ) : Triangle ℝ := ⟨-g.irate, -g.inc⟩

private theorem Triangle.mirror_step (g : Triangle ℝ) :
    (Triangle.process g.mirror : ℝ × _) = (-(g.process : ℝ × _).1, Triangle.mirror (g.process : ℝ × _).2) := by
  unfold Triangle.process Triangle.mirror
  real_simp
  by_cases h1 : 1 ≤ g.inc + g.irate
  · rw [if_pos (Or.inl h1), if_pos (Or.inr (by linarith)), if_pos h1, if_neg (by linarith)]
    simp only [Prod.mk.injEq, Triangle.mk.injEq, true_and]
    ring
  · by_cases h2 : g.inc + g.irate ≤ -1
    · rw [if_pos (Or.inr h2), if_pos (Or.inl (by linarith)), if_neg h1, if_pos (by linarith)]
      simp only [Prod.mk.injEq, Triangle.mk.injEq, true_and]
      ring
    · rw [if_neg (by rintro (h | h) <;> linarith), if_neg (by rintro (h | h) <;> linarith)]
      simp only [Prod.mk.injEq, Triangle.mk.injEq, true_and]
      ring

/-- What holds for Triangle (exact arithmetic): a clone taken at any time after `new(f)` plays either the
fresh wave or its exact negative. Missing: that it is always the fresh wave. -/
theorem C44_clone_triangle_partial (f : ℝ) (k : ℕ) :
    let c := (after (S := ℝ) Triangle.process k (Triangle.new f)).clone
    (∀ n, nth (S := ℝ) Triangle.process c n = nth (S := ℝ) Triangle.process (Triangle.new f) n) ∨
    (∀ n, nth (S := ℝ) Triangle.process c n = -nth (S := ℝ) Triangle.process (Triangle.new f) n) := by
  intro c
  have hir : ∀ k, (after (S := ℝ) Triangle.process k (Triangle.new f)).irate = (Triangle.new f).irate ∨
      (after (S := ℝ) Triangle.process k (Triangle.new f)).irate = -(Triangle.new f).irate := by
    intro k
    induction k with
    | zero => exact .inl rfl
    | succ k ih =>
      rw [after_succ]
      generalize after (S := ℝ) Triangle.process k (Triangle.new f) = g at *
      unfold Triangle.process
      real_simp
      split_ifs
      all_goals first | exact ih | (rcases ih with ih | ih <;> simp [ih])
  rcases hir k with h | h
  · left
    intro n
    have : c = Triangle.new f := by
      show Triangle.mk _ _ = _
      rw [h]; rfl
    rw [this]
  · right
    have hc : c = (Triangle.new f).mirror := by
      show Triangle.mk _ _ = Triangle.mk _ _
      rw [h]
      show Triangle.mk _ (((0 : ℚ) : ℝ)) = Triangle.mk _ (-(((0 : ℚ) : ℝ)))
      simp
    have key : ∀ n, after (S := ℝ) Triangle.process n (Triangle.mirror (Triangle.new f)) =
        Triangle.mirror (after (S := ℝ) Triangle.process n (Triangle.new f)) := by
      intro n
      induction n with
      | zero => rfl
      | succ n ih => rw [after_succ, after_succ, ih, Triangle.mirror_step]
    intro n
    unfold nth
    rw [hc, key, Triangle.mirror_step]

/-! ## C43 -/

/-- State of the random source after `n` draws. -/
def drawAfter {R : Type} (draw : R → F32 × R) : ℕ → R → R
  | 0, r => r
  | n + 1, r => drawAfter draw n (draw r).2

/-- IEEE: if the source delivers multiples `k/2^24` of `2^-24` in `[0,1)`, sample `n` is exactly
`2*(k/2^24) - 1` for its `n`-th draw, hence in `[-1,1)`. -/
theorem C43_noise {R : Type} (draw : R → F32 × R) (r : R)
    (hd : ∀ r, ∃ k : ℕ, k < 2 ^ 24 ∧ (draw r).1.Is (k / 2 ^ 24)) (n : ℕ) :
    ∃ k : ℕ, k < 2 ^ 24 ∧ (draw (drawAfter draw n r)).1.Is (k / 2 ^ 24) ∧
      (nth (Noise.process draw) ⟨r⟩ n).Is (2 * (k / 2 ^ 24) - 1) ∧
      (-1 : ℚ) ≤ 2 * (k / 2 ^ 24) - 1 ∧ (2 * (k / 2 ^ 24) - 1 : ℚ) < 1 := by
  have hst : ∀ (n : ℕ) (r : R), after (Noise.process draw) n ⟨r⟩ = ⟨drawAfter draw n r⟩ := by
    intro n
    induction n with
    | zero => intro r; rfl
    | succ n ih => intro r; rw [after_succ']; exact ih _
  unfold nth
  rw [hst]
  generalize drawAfter draw n r = r'
  obtain ⟨k, hk, hi⟩ := hd r'
  have hk' : (k : ℚ) < 2 ^ 24 := by exact_mod_cast hk
  have hk0 : (0 : ℚ) ≤ k := by positivity
  have h1 : (0 : ℚ) ≤ k / 2 ^ 24 ∧ (k / 2 ^ 24 : ℚ) < 1 := ⟨by positivity, by rw [div_lt_one (by positivity)]; exact hk'⟩
  refine ⟨k, hk, hi, ?_, by linarith, by linarith⟩
  have hm := Is.mul hi lit32_2 (fits32' 1 (by norm_num) (abs_le.mpr ⟨by linarith, by linarith⟩))
  have hr1 : b32.Repr (k / 2 ^ 24 * 2) := by
    refine Fmt.repr_dyadic (m := k) (e := -23) ?_ ?_ (by decide)
    · rw [pow2_eq]; norm_num; ring
    · rw [abs_of_nonneg (by positivity)]; show (k : ℤ) ≤ 2 ^ 24; exact_mod_cast hk.le
  rw [b32.rnd_of_repr hr1] at hm
  have hs := Is.sub hm lit32_1 (fits32' 1 (by norm_num) (abs_le.mpr ⟨by linarith, by linarith⟩))
  have hr2 : b32.Repr (k / 2 ^ 24 * 2 - 1) := by
    refine Fmt.repr_dyadic (m := (k : ℤ) - 2 ^ 23) (e := -23) ?_ ?_ (by decide)
    · rw [pow2_eq]; push_cast; norm_num; ring
    · rw [abs_le]; show -(2 ^ 24 : ℤ) ≤ _ ∧ _ ≤ (2 ^ 24 : ℤ); constructor <;> omega
  rw [b32.rnd_of_repr hr2] at hs
  rw [mul_comm 2]
  exact hs

/-- A source meeting the hypothesis: a counter. -/
example : ∀ r : ℕ, ∃ k : ℕ, k < 2 ^ 24 ∧ ((fun r : ℕ => ((lit ((r % 2 ^ 24 : ℕ) / 2 ^ 24) : F32), r + 1)) r).1.Is (k / 2 ^ 24) := by
  intro r
  have h : r % 2 ^ 24 < 2 ^ 24 := Nat.mod_lt _ (by norm_num)
  refine ⟨r % 2 ^ 24, h, lit_is_repr ?_ ?_⟩
  · refine fits32' 0 (by norm_num) ?_
    rw [abs_of_nonneg (by positivity), pow_zero, div_le_one (by positivity)]
    exact_mod_cast h.le
  · refine Fmt.repr_dyadic (m := (r % 2 ^ 24 : ℕ)) (e := -24) ?_ ?_ (by decide)
    · rw [pow2_eq, zpow_neg, div_eq_mul_inv, Int.cast_natCast]; rfl
    · rw [abs_of_nonneg (by positivity)]; show ((r % 2 ^ 24 : ℕ) : ℤ) ≤ 2 ^ 24; exact_mod_cast h.le

end Verif
