import Verif.Proofs.Adsr
import Verif.Proofs.Filters

set_option linter.unusedSectionVars false

/-! # ADSR: C66-C70 -/

namespace Verif
open Fl

/-! ## C67 -/

section
variable {S M : Type} [Flt S] [Flt M] [SM S M] [Libm M]

/-- The phase changes a sample may cause. -/
inductive PhaseStep : ADSRState → ADSRState → Prop where
  | stay (p) : PhaseStep p p
  | attackDone : PhaseStep .attack .decay
  | decayDone : PhaseStep .decay .sustain
  | releaseDone : PhaseStep .release .stopped

/-- In any arithmetic, from every state: a sample causes only these phase changes. -/
theorem C67_phases (m : ADSR S) (x : S) : PhaseStep m.state (m.process x).2.state := by
  unfold ADSR.process
  cases h : m.state <;> simp only []
  · split_ifs
    · exact .attackDone
    · exact .stay _
  · split_ifs
    · exact .decayDone
    · exact .stay _
  · rw [h]; exact .stay _
  · split_ifs
    · exact .releaseDone
    · exact .stay _
  · rw [h]; exact .stay _

/-- `release()` enters the release phase and changes nothing else. -/
theorem C67_release (m : ADSR S) : m.doRelease.state = .release ∧ m.doRelease.g = m.g ∧ m.doRelease.a = m.a ∧ m.doRelease.d = m.d ∧
    m.doRelease.s = m.s ∧ m.doRelease.r = m.r := ⟨rfl, rfl, rfl, rfl, rfl, rfl⟩

/-- Sustain and stopped are stationary: sustain multiplies by the gain, stopped outputs 0. -/
theorem C67_stationary (m : ADSR S) (x : S) :
    (m.state = .sustain → m.process x = (x * m.g, m)) ∧ (m.state = .stopped → m.process x = (lit 0, m)) := by
  constructor
  · intro h; unfold ADSR.process; rw [h]
  · intro h; unfold ADSR.process; rw [h]; rfl

/-- After any history of a new envelope: in sustain the gain is the sustain level, when stopped it is 0, and in the release
phase there has been a call of `release()`. -/
theorem C67_levels (a d : Duration) (s : M) (r : Duration) (cs : List (AdsrCall S)) :
    let m : ADSR S := (ADSR.new a d s r).run cs
    (m.state = .sustain → m.g = m.s ∧ m.s = SM.down (dbToLinear (Flt.fmin s (lit 0)))) ∧ (m.state = .stopped → m.g = lit 0) ∧
    (m.state = .release ∨ m.state = .stopped → .release ∈ cs) := by
  have key : ∀ (cs : List (AdsrCall S)) (m : ADSR S), (m.state = .sustain → m.g = m.s) → (m.state = .stopped → m.g = lit 0) →
      ((m.run cs).state = .sustain → (m.run cs).g = (m.run cs).s) ∧ ((m.run cs).state = .stopped → (m.run cs).g = lit 0) ∧
      (m.run cs).s = m.s ∧ (m.state ≠ .release → m.state ≠ .stopped → (m.run cs).state = .release ∨ (m.run cs).state = .stopped → .release ∈ cs) := by
    intro cs
    induction cs with
    | nil => intro m h1 h2; exact ⟨h1, h2, rfl, fun h3 h4 h => absurd h (by simp [ADSR.run, h3, h4])⟩
    | cons c cs ih =>
      intro m h1 h2
      cases c with
      | process x =>
        have hs : (m.process x).2.s = m.s := by
          unfold ADSR.process
          cases m.state <;> simp only [] <;> split_ifs <;> rfl
        have h1' : (m.process x).2.state = .sustain → (m.process x).2.g = (m.process x).2.s := by
          unfold ADSR.process
          cases h : m.state <;> simp only []
          · split_ifs <;> simp
          · split_ifs <;> simp
          · exact h1
          · split_ifs <;> simp
          · simp [h]
        have h2' : (m.process x).2.state = .stopped → (m.process x).2.g = lit 0 := by
          unfold ADSR.process
          cases h : m.state <;> simp only []
          · split_ifs <;> simp
          · split_ifs <;> simp
          · simp [h]
          · split_ifs <;> simp
          · exact h2
        obtain ⟨i1, i2, i3, i4⟩ := ih _ h1' h2'
        refine ⟨i1, i2, i3.trans hs, fun h3 h4 h => List.mem_cons_of_mem _ (i4 ?_ ?_ h)⟩
        · have := C67_phases m x
          intro hc
          rw [hc] at this
          generalize m.state = p at this h3 h4
          cases this
          exact h3 rfl
        · have := C67_phases m x
          intro hc
          rw [hc] at this
          generalize m.state = p at this h3 h4
          cases this
          · exact h4 rfl
          · exact h3 rfl
      | release =>
        obtain ⟨i1, i2, i3, -⟩ := ih m.doRelease (by simp [ADSR.doRelease]) (by simp [ADSR.doRelease])
        exact ⟨i1, i2, i3, fun _ _ _ => List.mem_cons_self⟩
  intro m
  obtain ⟨h1, h2, h3, h4⟩ := key cs (ADSR.new a d s r : ADSR S) (by simp [ADSR.new]) (by simp [ADSR.new])
  exact ⟨fun h => ⟨h1 h, h3⟩, h2, h4 (by simp [ADSR.new]) (by simp [ADSR.new])⟩
end

/-! ## C66 -/

section
variable [Libm F64] (a d : Duration) (s : F64) (r : Duration) {L : ℚ}

/-- IEEE: after any history the gain is a number in `[0,1]`. `L` is the sustain level as `f64`, which the math library
must place in `[0,1]`; a decay (release) of zero length is excluded only at level 1 (0), where the rate is `0/0`. -/
theorem C66_gain (hL : (dbToLinear (Flt.fmin s (lit 0)) : F64).Is L) (h0 : 0 ≤ L) (h1 : L ≤ 1) (hd : d.total ≠ 0 ∨ L ≠ 1)
    (hr : r.total ≠ 0 ∨ L ≠ 0) (cs : List (AdsrCall F32)) : ((ADSR.new a d s r : ADSR F32).run cs).g.In 0 1 :=
  ((adsr_new_ok a d s r hL h0 h1 hd hr).run cs).g

private theorem out_le {m : ADSR F32} (h : AdsrOk m) (x : F32) {q : ℚ} (hx : x.Is q) : ∃ y, (m.process x).1.Is y ∧ |y| ≤ |q| := by
  have hm := (h.process x).g
  have key : (m.process x).1 = lit 0 ∨ (m.process x).1 = x * (m.process x).2.g := by
    unfold ADSR.process
    cases m.state
    · exact Or.inr rfl
    · exact Or.inr rfl
    · exact Or.inr rfl
    · exact Or.inr rfl
    · exact Or.inl rfl
  rcases key with e | e
  · rw [e]; exact ⟨0, lit32_0', by simp⟩
  · rw [e]
    obtain ⟨g, hg, g0, g1⟩ := hm
    have hle : |q * g| ≤ |q| := by
      rw [abs_mul, abs_of_nonneg g0]
      exact mul_le_of_le_one_right (abs_nonneg q) g1
    refine ⟨_, Is.mul hx hg (hx.fits.of_abs_le hle), ?_⟩
    rw [b32.abs_rnd]
    exact b32.rnd_le_repr (b32.repr_abs hx.repr) hle

/-- IEEE: after any history the output for a finite input is finite and no larger in magnitude. -/
theorem C66_output (hL : (dbToLinear (Flt.fmin s (lit 0)) : F64).Is L) (h0 : 0 ≤ L) (h1 : L ≤ 1) (hd : d.total ≠ 0 ∨ L ≠ 1)
    (hr : r.total ≠ 0 ∨ L ≠ 0) (cs : List (AdsrCall F32)) (x : F32) {q : ℚ} (hx : x.Is q) :
    ∃ y, (((ADSR.new a d s r : ADSR F32).run cs).process x).1.Is y ∧ |y| ≤ |q| :=
  out_le ((adsr_new_ok a d s r hL h0 h1 hd hr).run cs) x hx

/-- A math library for examples: `10^0 = 1`, otherwise `1/2`. -/
@[reducible] def libmHalf : Libm F64 := ⟨id, id, id, id, fun _ y => if y = lit 0 then lit 1 else if y = .inf true then lit 0 else lit (1 / 2)⟩

example : @Fl.Is b64 (@dbToLinear F64 _ libmHalf (Flt.fmin (lit (-6)) (lit 0))) (1 / 2) := by decide +kernel

/-! ## C70 -/

/-- A duration of zero. -/
def Duration.zero : Duration := ⟨0, 0, by decide, by decide⟩

private theorem run_nan (cs : List (AdsrCall F32)) (m : ADSR F32) (hg : m.g = .nan) (hs : m.state = .decay ∨ m.state = .release) :
    (m.run cs).g = .nan ∧ ((m.run cs).state = .decay ∨ (m.run cs).state = .release) := by
  induction cs generalizing m with
  | nil => exact ⟨hg, hs⟩
  | cons c cs ih =>
    cases c with
    | release => exact ih _ hg (Or.inr rfl)
    | process x =>
      refine ih _ ?_ ?_
      · unfold ADSR.process
        rcases hs with hs | hs <;> rw [hs] <;> simp only [hg, nan_add, le_nan_left, Bool.false_eq_true, if_false]
      · unfold ADSR.process
        rcases hs with hs | hs <;> rw [hs] <;> simp only [hg, nan_add, le_nan_left, Bool.false_eq_true, if_false] <;> simp

/-- Decay time 0 and sustain level 0 dB: from the second sample on every output is NaN, whatever is called. -/
theorem C70_decay_violated (h10 : (Libm.pow (lit 10) (lit 0) : F64) = lit 1) (x0 x1 x : F32) (cs : List (AdsrCall F32)) :
    ((ADSR.new Duration.zero Duration.zero (lit 0 : F64) r : ADSR F32).run (.process x0 :: .process x1 :: cs)).g = .nan ∧
    (((ADSR.new Duration.zero Duration.zero (lit 0 : F64) r : ADSR F32).run (.process x0 :: .process x1 :: cs)).process x).1 = .nan := by
  have hL : (dbToLinear (Flt.fmin (lit 0) (lit 0)) : F64) = lit 1 := by
    unfold dbToLinear
    rw [show (Flt.fmin (lit 0) (lit 0) : F64) / lit 20 = lit 0 by decide +kernel, h10]
  have hd : (ADSR.new Duration.zero Duration.zero (lit 0 : F64) r : ADSR F32).d = .nan := by
    show SM.down ((dbToLinear (Flt.fmin (lit 0) (lit 0)) - lit 1) / ((Duration.zero.asSecs : F64) * srM)) = _
    rw [hL, Duration.zero_secs rfl]
    decide +kernel
  have ha := adsr_a_zero (a := Duration.zero) rfl Duration.zero (lit 0) r
  set m : ADSR F32 := ADSR.new Duration.zero Duration.zero (lit 0 : F64) r with hm
  have h1 : (m.process x0).2 = { m with state := .decay, g := lit 1 } := by
    have e : m.state = .attack := rfl
    have eg : m.g = lit 0 := rfl
    unfold ADSR.process
    rw [e]
    simp only [ha, eg]
    rw [show ((lit 1 : F32) ≤? lit 0 + .inf false) = true by decide +kernel]
    simp
  have h2 : ((m.process x0).2.process x1).2 = { m with state := .decay, g := .nan } := by
    rw [h1]
    unfold ADSR.process
    simp only [hd, add_nan, le_nan_left, Bool.false_eq_true, if_false]
  have h3 := run_nan cs ((m.process x0).2.process x1).2 (by rw [h2]) (by rw [h2]; exact Or.inl rfl)
  refine ⟨h3.1, ?_⟩
  show (((((m.process x0).2.process x1).2).run cs).process x).1 = .nan
  generalize ((m.process x0).2.process x1).2.run cs = k at h3
  obtain ⟨h4, h5⟩ := h3
  unfold ADSR.process
  rcases h5 with h5 | h5 <;> rw [h5] <;> simp only [h4, nan_add, le_nan_left, Bool.false_eq_true, if_false, mul_nan]

/-- Release time 0 and sustain level -∞ dB: the first sample after `release()` is NaN. -/
theorem C70_release_violated (h10 : (Libm.pow (lit 10) (.inf true) : F64) = lit 0) (x : F32) :
    (((ADSR.new a d (.inf true : F64) Duration.zero : ADSR F32).doRelease).process x).1 = .nan := by
  have hL : (dbToLinear (Flt.fmin (.inf true) (lit 0)) : F64) = lit 0 := by
    unfold dbToLinear
    rw [show (Flt.fmin (.inf true) (lit 0) : F64) / lit 20 = .inf true by decide +kernel, h10]
  have hr : (ADSR.new a d (.inf true : F64) Duration.zero : ADSR F32).r = .nan := by
    show SM.down (-dbToLinear (Flt.fmin (.inf true) (lit 0)) / ((Duration.zero.asSecs : F64) * srM)) = _
    rw [hL, Duration.zero_secs rfl]
    decide +kernel
  unfold ADSR.process ADSR.doRelease
  simp only [hr, add_nan, le_nan_left, Bool.false_eq_true, if_false, mul_nan]

example : @Libm.pow F64 libmHalf (lit 10) (lit 0) = lit 1 ∧ @Libm.pow F64 libmHalf (lit 10) (.inf true) = lit 0 := by decide +kernel

/-- Outside those two combinations no output for a finite input is NaN. -/
theorem C70_partial (hL : (dbToLinear (Flt.fmin s (lit 0)) : F64).Is L) (h0 : 0 ≤ L) (h1 : L ≤ 1) (hd : d.total ≠ 0 ∨ L ≠ 1)
    (hr : r.total ≠ 0 ∨ L ≠ 0) (cs : List (AdsrCall F32)) (x : F32) (hx : x.Finite) :
    (((ADSR.new a d s r : ADSR F32).run cs).process x).1 ≠ .nan := by
  obtain ⟨q, hq⟩ := hx
  obtain ⟨y, hy, -⟩ := C66_output a d s r hL h0 h1 hd hr cs x hq
  intro hc
  rw [hc] at hy
  cases hy

/-- An instant attack and decay to 1/2 never give NaN. -/
example (cs : List (AdsrCall F32)) :
    (((@ADSR.new F32 F64 _ _ _ libmHalf Duration.zero Duration.zero (lit (-6) : F64) Duration.zero).run cs).process (lit 1)).1 ≠ .nan :=
  let _ := libmHalf
  C70_partial _ _ _ _ (L := 1 / 2) (by decide +kernel) (by norm_num) (by norm_num) (.inr (by norm_num)) (.inr (by norm_num)) cs _ ⟨1, by decide +kernel⟩

/-! ## C69 -/

/-- Longest attack that finishes: 699.050645833 s. -/
def attackLimit : Duration := ⟨699, 50645833, by decide, by decide⟩
private def attackLimit' : Duration := ⟨699, 50645834, by decide, by decide⟩

/-- An attack of 699.050645834 s or more never leaves the attack phase: the gain stays at or below 1/2. -/
theorem C69_violated (ha : attackLimit.total < a.total) (x : ℕ → F32) (n : ℕ) :
    ∃ m : ADSR F32, modAfter Modifier.process x (ADSR.new a d s r) n = .ok m ∧ m.state = .attack ∧ m.g.In 0 (1 / 2) := by
  have hne : a.total ≠ 0 := by omega
  obtain ⟨e, p0, p1⟩ := adsr_a hne d s r
  have hle : attackLimit'.samp32 ≤ a.samp32 := Duration.samp32_mono (by
    have : attackLimit'.total = attackLimit.total + 1 := by decide
    omega)
  have hval : b32.rnd (1 / a.samp32) ≤ 1 / 33554432 := by
    refine b32.rnd_le_repr ⟨1, -25, by decide +kernel, by decide, by decide⟩ ?_
    have h1 : (33554432 : ℚ) ≤ attackLimit'.samp32 := by decide +kernel
    exact one_div_le_one_div_of_le (by norm_num) (h1.trans hle)
  obtain ⟨m, hm, h1, h2, -⟩ := modAfter_inv (E := Panic) (p := Modifier.process) (x := x)
    (fun m : ADSR F32 => m.state = .attack ∧ m.g.In 0 (1 / 2) ∧ m.a = (ADSR.new a d s r : ADSR F32).a) (by
      rintro m v ⟨hs, ⟨q, hq, q0, q1⟩, hma⟩
      refine ⟨(m.process v).1, (m.process v).2, rfl, ?_⟩
      rw [← hma] at e
      have hn : 0 ≤ b32.rnd (1 / a.samp32) := b32.rnd_nonneg p0
      have hsum := Is.add hq e (fits32' 1 (by norm_num) (by rw [abs_of_nonneg (by linarith)]; linarith))
      have hhalf : b32.rnd (q + b32.rnd (1 / a.samp32)) ≤ 1 / 2 :=
        (b32.rnd_mono (by linarith : q + b32.rnd (1 / a.samp32) ≤ 1 / 2 + 1 / 33554432)).trans (by decide +kernel)
      unfold ADSR.process
      rw [hs]
      have hc : (lit 1 ≤? m.g + m.a) = false := by
        rw [Is.le lit32_1' hsum, decide_eq_false_iff_not]; linarith
      simp only [hc, Bool.false_eq_true, if_false]
      exact ⟨trivial, ⟨_, hsum, b32.rnd_nonneg (by linarith), hhalf⟩, hma⟩) (m := ADSR.new a d s r)
    ⟨rfl, ⟨0, lit32_0', le_refl _, by norm_num⟩, rfl⟩ n
  exact ⟨m, hm, h1, h2⟩

/-- Adding more than half an ulp of `[1/2,1)` moves every gain below 1 up by at least `2^-25`. -/
private theorem progress {g q : ℚ} (hg : b32.Repr g) (h1 : g < 1) (hq : 1 / 33554432 < q) {k : ℕ} (hk : (k : ℚ) / 33554432 ≤ g) :
    ((k + 1 : ℕ) : ℚ) / 33554432 ≤ b32.rnd (g + q) := by
  push_cast
  have hk' : (k : ℚ) ≤ g * 33554432 := by rwa [div_le_iff₀ (by norm_num)] at hk
  rcases lt_or_ge g (1 / 2) with hh | hh
  · refine b32.repr_le_rnd ⟨k + 1, -25, ?_, ?_, by decide⟩ ?_
    · push_cast; rw [show pow2 (-25) = 1 / 33554432 by decide +kernel]; ring
    · have : (k : ℚ) < 16777216 := by linarith
      have : k < 16777216 := by exact_mod_cast this
      show |(k : ℤ) + 1| ≤ 2 ^ 24
      rw [abs_of_nonneg (by positivity)]
      omega
    · rw [add_div]; linarith
  · have hpos : 0 < g := by linarith
    have hi : ilog2 g = -1 := by
      apply le_antisymm
      · have := ilog2_lt_of hpos.ne' (k := 0) (by rw [abs_of_pos hpos]; simpa using h1)
        omega
      · exact le_ilog2_of hpos.ne' (by rw [abs_of_pos hpos]; exact le_trans (by decide +kernel) hh)
    have hu : b32.ue g = -24 := by unfold Fmt.ue; rw [hi]; decide
    have hge : g = rne (g * pow2 (-(b32.ue g))) * pow2 (b32.ue g) := (b32.rnd_of_repr hg).symm
    rw [hu, show pow2 (-24) = 1 / 16777216 by decide +kernel] at hge
    generalize rne (g * pow2 (-(-24))) = j at hge
    have hgj : g = j / 16777216 := by rw [hge]; ring
    have hj1 : (j : ℚ) < 16777216 := by rw [hgj, div_lt_one (by norm_num)] at h1; exact h1
    have hj0 : (8388608 : ℚ) ≤ j := by rw [hgj, le_div_iff₀ (by norm_num)] at hh; linarith
    have hj1' : j < 16777216 := by exact_mod_cast hj1
    have hj0' : 8388608 ≤ j := by exact_mod_cast hj0
    have hrep : b32.Repr (((j + 1 : ℤ) : ℚ) / 16777216) := by
      refine ⟨j + 1, -24, by rw [show pow2 (-24) = 1 / 16777216 by decide +kernel]; ring, ?_, by decide⟩
      show |j + 1| ≤ 2 ^ 24
      rw [abs_of_nonneg (by omega)]; omega
    have key : ((j + 1 : ℤ) : ℚ) / 16777216 ≤ b32.rnd (g + q) := by
      rcases le_or_gt (((j + 1 : ℤ) : ℚ) / 16777216) (g + q) with hz | hz
      · exact b32.repr_le_rnd hrep hz
      · have hzp : 0 < g + q := by linarith
        have hz1 : g + q < 1 := lt_of_lt_of_le hz (by
          rw [div_le_one (by norm_num)]; exact_mod_cast (by omega : j + 1 ≤ 16777216))
        have hi' : ilog2 (g + q) = -1 := by
          apply le_antisymm
          · have := ilog2_lt_of hzp.ne' (k := 0) (by rw [abs_of_pos hzp]; simpa using hz1)
            omega
          · exact le_ilog2_of hzp.ne' (by
              rw [abs_of_pos hzp]; exact le_trans (b := (1 / 2 : ℚ)) (by decide +kernel) (by linarith))
        have hu' : b32.ue (g + q) = -24 := by unfold Fmt.ue; rw [hi']; decide
        have hr : rne ((g + q) * pow2 24) = j + 1 := by
          apply rne_eq_of_abs_lt
          rw [show pow2 24 = 16777216 by decide +kernel]
          rw [lt_div_iff₀ (by norm_num)] at hz
          push_cast at hz ⊢
          rw [hgj] at hz ⊢
          rw [abs_lt]
          constructor <;> linarith
        unfold Fmt.rnd
        rw [hu', show -(-24 : ℤ) = 24 by norm_num, hr, show pow2 (-24) = 1 / 16777216 by decide +kernel]
        apply le_of_eq; ring
    refine le_trans ?_ key
    rw [div_le_div_iff₀ (by norm_num) (by norm_num)]
    have : (k : ℚ) ≤ 2 * j := by rw [hgj] at hk'; linarith
    push_cast
    linarith

/-- Every attack of at most 699.050645833 s leaves the attack phase within 2^25 samples. -/
theorem C69_partial (ha : a.total ≤ attackLimit.total) (x : ℕ → F32) :
    ∃ n ≤ 2 ^ 25, ∃ m : ADSR F32, modAfter Modifier.process x (ADSR.new a d s r) n = .ok m ∧ m.state = .decay := by
  by_contra hno
  push Not at hno
  -- otherwise the gain reaches `n / 2^25`
  have key : ∀ n ≤ 2 ^ 25, ∃ (m : ADSR F32) (q : ℚ), modAfter Modifier.process x (ADSR.new a d s r) n = .ok m ∧ m.state = .attack ∧
      m.a = (ADSR.new a d s r : ADSR F32).a ∧ m.g.Is q ∧ 0 ≤ q ∧ q < 1 ∧ (n : ℚ) / 33554432 ≤ q := by
    intro n
    induction n with
    | zero => intro _; exact ⟨_, 0, rfl, rfl, rfl, lit32_0', le_refl _, by norm_num, by norm_num⟩
    | succ n ih =>
      intro hn
      obtain ⟨m, q, h1, h2, h3, h4, h5, h6, h7⟩ := ih (by omega)
      have hstep := modAfter_succ (p := Modifier.process) (x := x) (y := (m.process (x n)).1) (m'' := (m.process (x n)).2) h1 rfl
      have hnd := hno (n + 1) hn _ hstep
      have hc : (lit 1 ≤? m.g + m.a) = false := by
        by_contra hc
        rw [Bool.not_eq_false] at hc
        apply hnd
        unfold ADSR.process
        rw [h2]
        simp only [hc, if_true]
      have hproc : (m.process (x n)).2 = { m with g := m.g + m.a } := by
        unfold ADSR.process
        rw [h2]
        simp only [hc, Bool.false_eq_true, if_false]
      by_cases hz : a.total = 0
      · rw [h3, adsr_a_zero hz, Fl.add_inf h4] at hc
        exact absurd hc (by decide +kernel)
      · obtain ⟨e, p0, p1⟩ := adsr_a hz d s r
        rw [← h3] at e
        have hp' : 0 < a.samp32 := lt_of_lt_of_le (by norm_num) (Duration.samp32_pos hz)
        have hle : a.samp32 ≤ attackLimit.samp32 := Duration.samp32_mono ha
        have hval : 1 / 33554432 < b32.rnd (1 / a.samp32) := by
          refine lt_of_lt_of_le (b := b32.rnd (1 / attackLimit.samp32)) (by decide +kernel) (b32.rnd_mono ?_)
          exact one_div_le_one_div_of_le hp' hle
        have hb : b32.rnd (1 / a.samp32) ≤ 2 ^ 15 := (le_abs_self _).trans (rnd32_pow2_le 15 (by rw [abs_of_nonneg p0]; exact p1))
        have hsum := Is.add h4 e (fits32' 16 (by norm_num) (by rw [abs_of_nonneg (by linarith)]; linarith [(by norm_num : (1 : ℚ) + 2 ^ 15 ≤ 2 ^ 16)]))
        rw [Is.le lit32_1' hsum, decide_eq_false_iff_not, not_le] at hc
        refine ⟨_, _, hstep, ?_, ?_, ?_, b32.rnd_nonneg (by linarith), hc, progress h4.repr h6 hval h7⟩
        · rw [hproc]; exact h2
        · rw [hproc]; exact h3
        · rw [hproc]; exact hsum
  obtain ⟨m, q, -, -, -, -, -, h6, h7⟩ := key (2 ^ 25) (le_refl _)
  norm_num at h7
  linarith

example : (⟨10, 0, by decide, by decide⟩ : Duration).total ≤ attackLimit.total ∧
    attackLimit.total < (⟨1000, 0, by decide, by decide⟩ : Duration).total := by decide
end

/-! ## C68 -/

/-- A duration in samples, exactly. -/
noncomputable def Duration.inSamples (d : Duration) : ℝ := (d.total : ℝ) / 10 ^ 9 * 48000

private theorem exact_eq (d : Duration) : (d.asSecs : ℝ) * srM = d.inSamples := by
  unfold Duration.asSecs Duration.inSamples Duration.total
  real_simp
  push_cast
  ring

private theorem exact_pos {d : Duration} (h : d.total ≠ 0) : 0 < d.inSamples := by
  have : 0 < (d.total : ℝ) := by exact_mod_cast Nat.pos_of_ne_zero h
  unfold Duration.inSamples
  positivity

/-- The sustain level `10^(min s 0 / 20)`. -/
noncomputable def sustain (s : ℝ) : ℝ := 10 ^ (min s 0 / 20 : ℝ)

private theorem sustain_pos (s : ℝ) : 0 < sustain s := Real.rpow_pos_of_pos (by norm_num) _

private theorem sustain_lt {s : ℝ} (h : s < 0) : sustain s < 1 := by
  unfold sustain
  exact Real.rpow_lt_one_of_one_lt_of_neg (by norm_num) (by rw [min_eq_left h.le]; linarith)

private theorem adsr_new_real (a d : Duration) (s : ℝ) (r : Duration) : (ADSR.new a d s r : ADSR ℝ) =
    ⟨1 / a.inSamples, (sustain s - 1) / d.inSamples, sustain s, -sustain s / r.inSamples, .attack, 0⟩ := by
  unfold ADSR.new
  simp only [show ∀ u : ℝ, (SM.down u : ℝ) = u from fun u => rfl, exact_eq]
  unfold dbToLinear sustain
  real_simp

variable (a d : Duration) (s : ℝ) (r : Duration) (x : ℕ → ℝ)

theorem modAfter_add {X S E : Type} {p : X → S → Except E (S × X)} {x : ℕ → S} {m m' : X} {A : ℕ}
    (h : modAfter p x m A = .ok m') (n : ℕ) : modAfter p x m (A + n) = modAfter p (fun i => x (A + i)) m' n := by
  induction n with
  | zero => exact h
  | succ n ih => rw [← Nat.add_assoc, modAfter, ih]; rfl

private theorem attack_ramp (ha : a.total ≠ 0) :
    (∀ n < ⌈a.inSamples⌉₊, modAfter (E := Panic) Modifier.process x (ADSR.new a d s r : ADSR ℝ) n =
      .ok { (ADSR.new a d s r : ADSR ℝ) with g := n / a.inSamples }) ∧
    modAfter (E := Panic) Modifier.process x (ADSR.new a d s r : ADSR ℝ) ⌈a.inSamples⌉₊ =
      .ok { (ADSR.new a d s r : ADSR ℝ) with state := .decay, g := 1 } := by
  have hp := exact_pos ha
  set D := a.inSamples
  have key : ∀ n < ⌈D⌉₊, modAfter (E := Panic) Modifier.process x (ADSR.new a d s r : ADSR ℝ) n =
      .ok { (ADSR.new a d s r : ADSR ℝ) with g := n / D } := by
    intro n
    induction n with
    | zero => intro _; rw [adsr_new_real]; simp [modAfter]
    | succ n ih =>
      intro hn
      refine modAfter_succ (y := x n * ((n + 1 : ℕ) / D)) (ih (by omega)) (show (Except.ok (ADSR.process _ _) : Res _) = _ from ?_)
      congr 1
      unfold ADSR.process
      rw [adsr_new_real]
      have : ((n + 1 : ℕ) : ℝ) < D := Nat.lt_ceil.mp hn
      have hlt : ¬ (1 ≤ (n : ℝ) / D + 1 / D) := by
        rw [← add_div, le_div_iff₀ hp]; push_cast at this; linarith
      real_simp
      rw [if_neg hlt, ← add_div]
      push_cast
      rfl
  refine ⟨key, ?_⟩
  have hc : 0 < ⌈D⌉₊ := Nat.ceil_pos.mpr hp
  obtain ⟨n, hn⟩ : ∃ n, ⌈D⌉₊ = n + 1 := ⟨⌈D⌉₊ - 1, by omega⟩
  rw [hn]
  have h1 : (1 : ℝ) ≤ (n : ℝ) / D + 1 / D := by
    rw [← add_div, le_div_iff₀ hp]
    have := Nat.le_ceil D
    rw [hn] at this
    push_cast at this
    linarith
  refine modAfter_succ (y := x n * 1) (key n (by omega)) (show (Except.ok (ADSR.process _ _) : Res _) = _ from ?_)
  congr 1
  unfold ADSR.process
  rw [adsr_new_real]
  real_simp
  rw [if_pos h1]

/-- Exact: the attack takes `⌈a·48000⌉` samples, rising linearly from 0 to 1. -/
theorem C68_attack (ha : a.total ≠ 0) :
    (∀ n < ⌈a.inSamples⌉₊, ∃ m : ADSR ℝ, modAfter Modifier.process x (ADSR.new a d s r) n = .ok m ∧ m.state = .attack ∧ m.g = n / a.inSamples) ∧
    ∃ m : ADSR ℝ, modAfter Modifier.process x (ADSR.new a d s r) ⌈a.inSamples⌉₊ = .ok m ∧ m.state = .decay ∧ m.g = 1 := by
  obtain ⟨h1, h2⟩ := attack_ramp a d s r x ha
  exact ⟨fun n hn => ⟨_, h1 n hn, rfl, rfl⟩, _, h2, rfl, rfl⟩

/-- An attack of 100 µs (4.8 samples) has gain 3/4.8 after three samples. -/
example (d r : Duration) (s : ℝ) (x : ℕ → ℝ) : ∃ m : ADSR ℝ, modAfter Modifier.process x (ADSR.new ⟨0, 100000, by decide, by decide⟩ d s r) 3 = .ok m ∧
    m.state = .attack ∧ m.g = 3 / (24 / 5) := by
  have e : (⟨0, 100000, by decide, by decide⟩ : Duration).inSamples = 24 / 5 := by
    unfold Duration.inSamples Duration.total
    norm_num
  have := (C68_attack ⟨0, 100000, by decide, by decide⟩ d s r x (by decide)).1 3 (by rw [e, Nat.lt_ceil]; norm_num)
  rw [e] at this
  exact_mod_cast this

private theorem decay_ramp (hd : d.total ≠ 0) (hs : s < 0) (m : ADSR ℝ) (hm : m = { (ADSR.new a d s r : ADSR ℝ) with state := .decay, g := 1 }) :
    (∀ n < ⌈d.inSamples⌉₊, modAfter (E := Panic) Modifier.process x m n = .ok { m with g := 1 - n / d.inSamples * (1 - sustain s) }) ∧
    modAfter (E := Panic) Modifier.process x m ⌈d.inSamples⌉₊ = .ok { m with state := .sustain, g := sustain s } := by
  have hp := exact_pos hd
  have hl := sustain_lt hs
  rw [adsr_new_real] at hm
  subst hm
  set D := d.inSamples
  have hstep : ∀ n : ℕ, 1 - (n : ℝ) / D * (1 - sustain s) + (sustain s - 1) / D = 1 - ((n + 1 : ℕ) : ℝ) / D * (1 - sustain s) := by
    intro n; push_cast; field_simp; ring
  have hle : ∀ n : ℕ, 1 - (n : ℝ) / D * (1 - sustain s) ≤ sustain s ↔ D ≤ n := by
    intro n
    rw [show (1 - (n : ℝ) / D * (1 - sustain s) ≤ sustain s) ↔ 1 * (1 - sustain s) ≤ (n : ℝ) / D * (1 - sustain s) by constructor <;> intro h <;> linarith,
      mul_le_mul_iff_left₀ (by linarith), le_div_iff₀ hp, one_mul]
  have key : ∀ n < ⌈D⌉₊, modAfter (E := Panic) Modifier.process x
      (⟨1 / a.inSamples, (sustain s - 1) / D, sustain s, -sustain s / r.inSamples, .decay, 1⟩ : ADSR ℝ) n =
      .ok ⟨1 / a.inSamples, (sustain s - 1) / D, sustain s, -sustain s / r.inSamples, .decay, 1 - n / D * (1 - sustain s)⟩ := by
    intro n
    induction n with
    | zero => intro _; simp [modAfter]
    | succ n ih =>
      intro hn
      refine modAfter_succ (y := x n * (1 - ((n + 1 : ℕ) : ℝ) / D * (1 - sustain s))) (ih (by omega)) (show (Except.ok (ADSR.process _ _) : Res _) = _ from ?_)
      congr 1
      unfold ADSR.process
      real_simp
      rw [hstep, if_neg (by rw [hle]; exact not_le.mpr (Nat.lt_ceil.mp hn))]
  refine ⟨key, ?_⟩
  have hc : 0 < ⌈D⌉₊ := Nat.ceil_pos.mpr hp
  obtain ⟨n, hn⟩ : ∃ n, ⌈D⌉₊ = n + 1 := ⟨⌈D⌉₊ - 1, by omega⟩
  rw [hn]
  refine modAfter_succ (y := x n * sustain s) (key n (by omega)) (show (Except.ok (ADSR.process _ _) : Res _) = _ from ?_)
  congr 1
  unfold ADSR.process
  real_simp
  rw [hstep, if_pos (by rw [hle, ← hn]; exact Nat.le_ceil D)]

/-- Exact: then the decay takes `⌈d·48000⌉` samples (sustain level below 0 dB), falling linearly from 1 to the sustain level. -/
theorem C68_decay (ha : a.total ≠ 0) (hd : d.total ≠ 0) (hs : s < 0) :
    (∀ n < ⌈d.inSamples⌉₊, ∃ m : ADSR ℝ, modAfter Modifier.process x (ADSR.new a d s r) (⌈a.inSamples⌉₊ + n) = .ok m ∧ m.state = .decay ∧
      m.g = 1 - n / d.inSamples * (1 - sustain s)) ∧
    ∃ m : ADSR ℝ, modAfter Modifier.process x (ADSR.new a d s r) (⌈a.inSamples⌉₊ + ⌈d.inSamples⌉₊) = .ok m ∧ m.state = .sustain ∧ m.g = sustain s := by
  obtain ⟨-, h2⟩ := attack_ramp a d s r x ha
  obtain ⟨h3, h4⟩ := decay_ramp a d s r (fun i => x (⌈a.inSamples⌉₊ + i)) hd hs _ rfl
  exact ⟨fun n hn => ⟨_, (modAfter_add h2 n).trans (h3 n hn), rfl, rfl⟩, _, (modAfter_add h2 _).trans h4, rfl, rfl⟩

/-- An attack and a decay of 100 µs: after ten samples the sustain level is reached. -/
example (r : Duration) (x : ℕ → ℝ) : ∃ m : ADSR ℝ, modAfter Modifier.process x (ADSR.new ⟨0, 100000, by decide, by decide⟩ ⟨0, 100000, by decide, by decide⟩ (-6 : ℝ) r) 10 = .ok m ∧
    m.state = .sustain ∧ m.g = sustain (-6) := by
  have e : ⌈(⟨0, 100000, by decide, by decide⟩ : Duration).inSamples⌉₊ = 5 := by
    unfold Duration.inSamples Duration.total
    rw [Nat.ceil_eq_iff (by norm_num)]
    norm_num
  have := (C68_decay ⟨0, 100000, by decide, by decide⟩ ⟨0, 100000, by decide, by decide⟩ (-6) r x (by decide) (by decide) (by norm_num)).2
  rw [e] at this
  exact this

/-- Exact: at a sustain level of 0 dB or more the decay takes a single sample. -/
theorem C68_decay_flat (ha : a.total ≠ 0) (hs : 0 ≤ s) :
    ∃ m : ADSR ℝ, modAfter Modifier.process x (ADSR.new a d s r) (⌈a.inSamples⌉₊ + 1) = .ok m ∧ m.state = .sustain ∧ m.g = 1 := by
  obtain ⟨-, h2⟩ := attack_ramp a d s r x ha
  have e : sustain s = 1 := by unfold sustain; rw [min_eq_right hs]; simp
  refine ⟨{ (ADSR.new a d s r : ADSR ℝ) with state := .sustain, g := 1 }, ?_, rfl, rfl⟩
  refine modAfter_succ (y := x ⌈a.inSamples⌉₊ * 1) (m'' := { (ADSR.new a d s r : ADSR ℝ) with state := .sustain, g := 1 }) h2 (show (Except.ok (ADSR.process _ _) : Res _) = _ from ?_)
  congr 1
  unfold ADSR.process
  rw [adsr_new_real, e]
  real_simp
  norm_num

/-- An attack of 100 µs and a sustain level of 0 dB. -/
example (d r : Duration) (x : ℕ → ℝ) : ∃ m : ADSR ℝ, modAfter Modifier.process x (ADSR.new ⟨0, 100000, by decide, by decide⟩ d (0 : ℝ) r) 6 = .ok m ∧
    m.state = .sustain ∧ m.g = 1 := by
  have e : ⌈(⟨0, 100000, by decide, by decide⟩ : Duration).inSamples⌉₊ = 5 := by
    unfold Duration.inSamples Duration.total
    rw [Nat.ceil_eq_iff (by norm_num)]
    norm_num
  have := C68_decay_flat ⟨0, 100000, by decide, by decide⟩ d 0 r x (by decide) le_rfl
  rwa [e] at this

/-- The rates never change. -/
theorem run_params {S : Type} [Flt S] (cs : List (AdsrCall S)) (m : ADSR S) : (m.run cs).a = m.a ∧ (m.run cs).d = m.d ∧ (m.run cs).s = m.s ∧ (m.run cs).r = m.r := by
  induction cs generalizing m with
  | nil => exact ⟨rfl, rfl, rfl, rfl⟩
  | cons c cs ih =>
    cases c with
    | release => exact ih _
    | process v =>
      have := ih (m.process v).2
      have e : (m.process v).2.a = m.a ∧ (m.process v).2.d = m.d ∧ (m.process v).2.s = m.s ∧ (m.process v).2.r = m.r := by
        unfold ADSR.process
        cases m.state <;> dsimp only <;> try split_ifs
        all_goals exact ⟨rfl, rfl, rfl, rfl⟩
      rw [e.1, e.2.1, e.2.2.1, e.2.2.2] at this
      exact this

/-- Exact: after any history ending at gain `g > 0`, a release reaches silence in exactly `⌈(g / sustain)·r·48000⌉` samples,
falling linearly. From sustain that is `⌈r·48000⌉` samples. -/
theorem C68_release (hr : r.total ≠ 0) (cs : List (AdsrCall ℝ)) (m : ADSR ℝ) (hm : m = (ADSR.new a d s r).run cs) (hg : 0 < m.g)
    {T : ℝ} (hT : T = m.g / sustain s * r.inSamples) :
    (m.state = .sustain → T = r.inSamples) ∧
    (∀ n < ⌈T⌉₊, ∃ m', modAfter Modifier.process x m.doRelease n = .ok m' ∧ m'.state = .release ∧ m'.g = m.g * (1 - n / T)) ∧
    ∃ m', modAfter Modifier.process x m.doRelease ⌈T⌉₊ = .ok m' ∧ m'.state = .stopped ∧ m'.g = 0 := by
  have hp := exact_pos hr
  have hs := sustain_pos s
  have hTp : 0 < T := by rw [hT]; positivity
  obtain ⟨-, -, e3, e4⟩ := run_params cs (ADSR.new a d s r : ADSR ℝ)
  rw [← hm] at e3 e4
  have hr' : m.r = -(m.g / T) := by
    rw [e4, adsr_new_real, hT]
    show -sustain s / r.inSamples = _
    field_simp
  have hstep : ∀ n : ℕ, m.g * (1 - (n : ℝ) / T) + m.r = m.g * (1 - ((n + 1 : ℕ) : ℝ) / T) := by
    intro n; rw [hr']; push_cast; field_simp; ring
  have hle : ∀ n : ℕ, m.g * (1 - (n : ℝ) / T) ≤ 0 ↔ T ≤ n := by
    intro n
    constructor
    · intro h0
      have h : 1 - (n : ℝ) / T ≤ 0 := by
        by_contra hc
        have := mul_pos hg (not_le.mp hc)
        linarith
      have : 1 ≤ (n : ℝ) / T := by linarith
      rwa [le_div_iff₀ hTp, one_mul] at this
    · intro h
      have : 1 ≤ (n : ℝ) / T := by rwa [le_div_iff₀ hTp, one_mul]
      exact mul_nonpos_of_nonneg_of_nonpos hg.le (by linarith)
  have key : ∀ n < ⌈T⌉₊, modAfter (E := Panic) Modifier.process x m.doRelease n = .ok { m.doRelease with g := m.g * (1 - n / T) } := by
    intro n
    induction n with
    | zero => intro _; simp [modAfter, ADSR.doRelease]
    | succ n ih =>
      intro hn
      refine modAfter_succ (y := x n * (m.g * (1 - ((n + 1 : ℕ) : ℝ) / T))) (ih (by omega)) (show (Except.ok (ADSR.process _ _) : Res _) = _ from ?_)
      congr 1
      unfold ADSR.process ADSR.doRelease
      real_simp
      rw [hstep, if_neg (by rw [hle]; exact not_le.mpr (Nat.lt_ceil.mp hn))]
  refine ⟨?_, fun n hn => ⟨_, key n hn, rfl, rfl⟩, ?_⟩
  · intro h
    have := (C67_levels (M := ℝ) a d s r cs).1
    rw [← hm] at this
    have hg' := (this h).1
    rw [hT, hg', e3, adsr_new_real]
    show sustain s / sustain s * _ = _
    field_simp
  · have hc : 0 < ⌈T⌉₊ := Nat.ceil_pos.mpr hTp
    obtain ⟨n, hn⟩ : ∃ n, ⌈T⌉₊ = n + 1 := ⟨⌈T⌉₊ - 1, by omega⟩
    rw [hn]
    refine ⟨{ m.doRelease with state := .stopped, g := 0 }, ?_, rfl, rfl⟩
    refine modAfter_succ (y := x n * 0) (key n (by omega)) (show (Except.ok (ADSR.process _ _) : Res _) = _ from ?_)
    congr 1
    unfold ADSR.process ADSR.doRelease
    real_simp
    rw [hstep, if_pos (by rw [hle, ← hn]; exact Nat.le_ceil T)]

example : ⌈(⟨0, 100000, by decide, by decide⟩ : Duration).inSamples⌉₊ = 5 := by
  unfold Duration.inSamples Duration.total
  rw [Nat.ceil_eq_iff (by norm_num)]
  norm_num

/-- A sustain level of 1/2 and a decay of one second satisfy the hypotheses, with no release time at all. -/
example (cs : List (AdsrCall F32)) :
    ((@ADSR.new F32 F64 _ _ _ libmHalf (⟨1, 0, by decide, by decide⟩ : Duration) ⟨1, 0, by decide, by decide⟩ (lit (-6) : F64) ⟨0, 0, by decide, by decide⟩).run cs).g.In 0 1 :=
  let _ := libmHalf
  C66_gain _ _ _ _ (L := 1 / 2) (by decide +kernel) (by norm_num) (by norm_num) (.inl (by decide)) (.inr (by norm_num)) cs

end Verif
