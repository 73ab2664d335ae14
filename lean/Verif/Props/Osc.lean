import Verif.Proofs.Osc
import Verif.Spec.History
import Verif.Model.ArithReal

/-! # Oscillators: C33-C38, C42-C44 -/

namespace Verif
open Fl

/-! ## Sawtooth -/

/-- State after a call history. -/
abbrev Sawtooth.run (S : Type) {M : Type} [Flt S] [Flt M] [SM S M] (cs : List (GenCall M)) (g : Sawtooth M) : Sawtooth M :=
  runCalls (fun g => (g.process : S × _).2) Sawtooth.setFrequency cs g

private def Sawtooth.Inv (g : Sawtooth F64) : Prop := g.irate.In 0 1 ∧ g.inc.In (-1) 1

private theorem Sawtooth.inv_step (g : Sawtooth F64) (h : g.Inv) : Sawtooth.Inv (g.process : F32 × _).2 := by
  obtain ⟨⟨r, hr, r0, r1⟩, ⟨i, hi, i0, i1⟩⟩ := h
  have hs := Is.add hi hr (fits64' 1 (by norm_num) (abs_le.mpr ⟨by norm_num; linarith, by norm_num; linarith⟩))
  have b := rnd_in (f := b64) (lo := -1) (hi := 2) (by linarith : (-1 : ℚ) ≤ i + r) (by linarith)
    (by exact_mod_cast Fmt.repr64_int (n := -1) (by norm_num)) (by exact_mod_cast Fmt.repr64_int (n := 2) (by norm_num))
  set s := b64.rnd (i + r)
  refine ⟨⟨r, hr, r0, r1⟩, ?_⟩
  show (if lit 1 ≤? g.inc + g.irate then g.inc + g.irate - lit 2 else g.inc + g.irate).In _ _
  rw [Is.le lit64_1 hs]
  by_cases h1 : 1 ≤ s
  · simp only [h1, decide_true, if_true]
    have hd := Is.sub hs lit64_2 (fits64' 1 (by norm_num) (abs_le.mpr ⟨by norm_num; linarith, by norm_num; linarith⟩))
    have b' := rnd_in (f := b64) (lo := -1) (hi := 1) (by linarith : (-1 : ℚ) ≤ s - 2) (by linarith)
      (by exact_mod_cast Fmt.repr64_int (n := -1) (by norm_num)) (by exact_mod_cast Fmt.repr64_int (n := 1) (by norm_num))
    exact ⟨_, hd, b'.1, b'.2⟩
  · simp only [h1, decide_false, Bool.false_eq_true, if_false]
    exact ⟨_, hs, b.1, (not_le.mp h1).le⟩

/-- IEEE: after any history with frequencies in `[0, 24000]` every sawtooth sample is in `[-1,1]`. -/
theorem C33_sawtooth_range (f : F64) (hf : f.In 0 24000) (cs : List (GenCall F64))
    (hcs : FreqsOk (fun f => f.In 0 24000) cs) :
    (((Sawtooth.new f).run F32 cs).process.1 : F32).In (-1) 1 := by
  have hrate : ∀ f : F64, f.In 0 24000 → (lit 2 * f * invSR).In 0 1 := fun f hf => by
    simpa using rate_in (Or.inl rfl) lit64_2 hf
  have h := runCalls_inv (step := fun g : Sawtooth F64 => (g.process : F32 × _).2) (set := Sawtooth.setFrequency) Sawtooth.Inv
    Sawtooth.inv_step (fun g f' hf' hg => ⟨hrate f' hf', hg.2⟩) cs hcs
    (Sawtooth.new f) ⟨hrate f hf, ⟨0, lit64_0, by norm_num, by norm_num⟩⟩
  have := down_in (n := 1) (by norm_num) (by exact_mod_cast h.2)
  exact_mod_cast this

example : (lit 440 : F64).In 0 24000 ∧
    FreqsOk (fun f => f.In 0 24000) [.process, .setFrequency (lit 24000 : F64), .process] := by
  refine ⟨⟨440, lit64_nat (n := 440) (by norm_num), by norm_num, by norm_num⟩, ?_⟩
  intro f hf
  simp at hf
  subst hf
  exact ⟨24000, lit64_nat (n := 24000) (by norm_num), by norm_num, le_refl _⟩

/-- The frequency bound is needed: `Sawtooth::new(-48000)` leaves `[-1,1]` on its second sample. -/
theorem C33_bound_needed :
    (nth Sawtooth.process (Sawtooth.new (lit (-48000) : F64)) 1 : F32).Is (-2) := by decide +kernel

/-- Exact arithmetic: sample `n` of the sawtooth is `2*fract(n*f/48000 + 1/2) - 1`. -/
theorem C34_sawtooth (f : ℝ) (h0 : 0 ≤ f) (h1 : f ≤ 48000) (n : ℕ) :
    nth (S := ℝ) Sawtooth.process (Sawtooth.new f) n = 2 * Int.fract (n * f / 48000 + 1 / 2) - 1 := by
  suffices h : after (S := ℝ) Sawtooth.process n (Sawtooth.new f) =
      ⟨2 * f * (1 / 48000), 2 * Int.fract (n * f / 48000 + 1 / 2) - 1⟩ by
    unfold nth; rw [h]; rfl
  induction n with
  | zero =>
    rw [after_zero]
    unfold Sawtooth.new
    real_simp
    have : Int.fract (2⁻¹ : ℝ) = 2⁻¹ := Int.fract_eq_self.mpr ⟨by norm_num, by norm_num⟩
    simp [this]
  | succ n ih =>
    rw [after_succ, ih]
    unfold Sawtooth.process
    real_simp
    have key : n * f / 48000 + 1 / 2 + f / 48000 = ((n + 1 : ℕ) : ℝ) * f / 48000 + 1 / 2 := by push_cast; ring
    rw [← key]
    set x := n * f / 48000 + 1 / 2
    have hx0 := Int.fract_nonneg x
    have hx1 := Int.fract_lt_one x
    have hd0 : 0 ≤ f / 48000 := by positivity
    have hd1 : f / 48000 ≤ 1 := by linarith
    have hx : x = ⌊x⌋ + Int.fract x := (Int.floor_add_fract x).symm
    congr 1
    split_ifs with h
    · have : Int.fract (x + f / 48000) = Int.fract x + f / 48000 - 1 := by
        rw [Int.fract_eq_iff]
        refine ⟨by linarith, by linarith, ⌊x⌋ + 1, ?_⟩
        push_cast; linarith
      rw [this]; ring
    · have : Int.fract (x + f / 48000) = Int.fract x + f / 48000 := by
        rw [Int.fract_eq_iff]
        refine ⟨by linarith, by linarith, ⌊x⌋, ?_⟩
        linarith
      rw [this]; ring

example : (0 : ℝ) ≤ 440 ∧ (440 : ℝ) ≤ 48000 := by norm_num

/-! ## Triangle -/

/-- State after a call history. -/
abbrev Triangle.run (S : Type) {M : Type} [Flt S] [Flt M] [SM S M] (cs : List (GenCall M)) (g : Triangle M) : Triangle M :=
  runCalls (fun g => (g.process : S × _).2) Triangle.setFrequency cs g

private def Triangle.Inv (g : Triangle F64) : Prop := g.irate.In (-2) 2 ∧ g.inc.In (-1) 1

private theorem Triangle.inv_step (g : Triangle F64) (h : g.Inv) : Triangle.Inv (g.process : F32 × _).2 := by
  obtain ⟨⟨r, hr, r0, r1⟩, ⟨i, hi, i0, i1⟩⟩ := h
  have hs := Is.add hi hr (fits64' 2 (by norm_num) (abs_le.mpr ⟨by norm_num; linarith, by norm_num; linarith⟩))
  have b := rnd_in (f := b64) (lo := -3) (hi := 3) (by linarith : (-3 : ℚ) ≤ i + r) (by linarith)
    (by exact_mod_cast Fmt.repr64_int (n := -3) (by norm_num)) (by exact_mod_cast Fmt.repr64_int (n := 3) (by norm_num))
  set s := b64.rnd (i + r)
  have hm1 : b64.Repr (-1) := by exact_mod_cast Fmt.repr64_int (n := -1) (by norm_num)
  have h1' : b64.Repr 1 := by exact_mod_cast Fmt.repr64_int (n := 1) (by norm_num)
  unfold Triangle.process
  simp only [Is.le lit64_1 hs, Is.le hs lit64_1.neg]
  by_cases h1 : 1 ≤ s
  · simp only [h1, decide_true, Bool.true_or, if_true]
    refine ⟨⟨-r, hr.neg, by linarith, by linarith⟩, ?_⟩
    have hd := Is.sub lit64_2 hs (fits64' 2 (by norm_num) (abs_le.mpr ⟨by norm_num; linarith, by norm_num; linarith⟩))
    have b' := rnd_in (f := b64) (lo := -1) (hi := 1) (by linarith : (-1 : ℚ) ≤ 2 - s) (by linarith) hm1 h1'
    exact ⟨_, hd, b'.1, b'.2⟩
  · by_cases h2 : s ≤ -1
    · simp only [h1, h2, decide_true, Bool.or_true, if_true, decide_false, Bool.false_eq_true, if_false]
      refine ⟨⟨-r, hr.neg, by linarith, by linarith⟩, ?_⟩
      have hd := Is.sub lit64_2.neg hs (fits64' 2 (by norm_num) (abs_le.mpr ⟨by norm_num; linarith, by norm_num; linarith⟩))
      have b' := rnd_in (f := b64) (lo := -1) (hi := 1) (by linarith : (-1 : ℚ) ≤ -2 - s) (by linarith) hm1 h1'
      exact ⟨_, hd, b'.1, b'.2⟩
    · simp only [h1, h2, decide_false, Bool.or_false, Bool.false_eq_true, if_false]
      exact ⟨⟨r, hr, r0, r1⟩, ⟨_, hs, (not_le.mp h2).le, (not_le.mp h1).le⟩⟩

/-- IEEE: after any history with frequencies in `[0, 24000]` every triangle sample is in `[-1,1]`. -/
theorem C35_triangle_range (f : F64) (hf : f.In 0 24000) (cs : List (GenCall F64))
    (hcs : FreqsOk (fun f => f.In 0 24000) cs) :
    (((Triangle.new f).run F32 cs).process.1 : F32).In (-1) 1 := by
  have hrate : ∀ f : F64, f.In 0 24000 → (lit 4 * f * invSR).In (-2) 2 := fun f hf => by
    have := rate_in (Or.inr rfl) lit64_4 hf
    exact this.mono (by norm_num) (by norm_num)
  have h := runCalls_inv (step := fun g : Triangle F64 => (g.process : F32 × _).2) (set := Triangle.setFrequency) Triangle.Inv
    Triangle.inv_step (fun g f' hf' hg => ⟨hrate f' hf', hg.2⟩) cs hcs
    (Triangle.new f) ⟨hrate f hf, ⟨0, lit64_0, by norm_num, by norm_num⟩⟩
  have := down_in (n := 1) (by norm_num) (by exact_mod_cast h.2)
  have e : (((Triangle.new f).run F32 cs).process.1 : F32) = SM.down ((Triangle.new f).run F32 cs).inc := by
    unfold Triangle.process; simp only; split_ifs <;> rfl
  rw [e]
  exact_mod_cast this

example : (((Triangle.new (lit 440 : F64)).run F32 [.process, .setFrequency (lit 24000), .process]).process.1 : F32).In (-1) 1 := by
  refine C35_triangle_range _ ⟨440, lit64_nat (n := 440) (by norm_num), by norm_num, by norm_num⟩ _ ?_
  intro f hf
  simp at hf
  subst hf
  exact ⟨24000, lit64_nat (n := 24000) (by norm_num), by norm_num, le_refl _⟩

/-- The property fails: one sample after `Triangle::new(24000)` the reported frequency is `-24000`. -/
theorem C36_get_frequency_violated :
    ((Triangle.new (lit 24000 : F64)).run F32 [.process]).getFrequency = lit (-24000) ∧
    ¬ ∀ (f : F64) (cs : List (GenCall F64)), f.In 0 24000 → FreqsOk (fun f => f.In 0 24000) cs →
        ((Triangle.new f).run F32 cs).getFrequency = lastFreq f cs := by
  have h0 : ((Triangle.new (lit 24000 : F64)).run F32 [.process]).getFrequency = lit (-24000) := by decide +kernel
  refine ⟨h0, fun h => ?_⟩
  have := h (lit 24000) [.process] ⟨24000, lit64_nat (n := 24000) (by norm_num), by norm_num, le_refl _⟩
    (by intro f hf; simp at hf)
  rw [h0] at this
  revert this
  decide +kernel

/-- The step is always `±` the step of the frequency set last (exact arithmetic). -/
private theorem Triangle.irate_run (f : ℝ) (cs : List (GenCall ℝ)) (g : Triangle ℝ)
    (h : g.irate = 4 * f / 48000 ∨ g.irate = -(4 * f / 48000)) :
    (g.run ℝ cs).irate = 4 * lastFreq f cs / 48000 ∨ (g.run ℝ cs).irate = -(4 * lastFreq f cs / 48000) := by
  induction cs generalizing f g with
  | nil => exact h
  | cons c cs ih =>
    cases c with
    | process =>
      refine ih f _ ?_
      unfold Triangle.process
      real_simp
      split_ifs
      all_goals first | exact h | (rcases h with h | h <;> simp [h])
    | setFrequency f' =>
      refine ih f' _ (Or.inl ?_)
      unfold Triangle.setFrequency
      real_simp
      ring

/-- What holds (exact arithmetic): the absolute value is always the frequency last set, and directly
after setting it the value is right. Missing: the sign while the wave descends. -/
theorem C36_get_frequency_partial (f : ℝ) (cs : List (GenCall ℝ)) :
    |((Triangle.new f).run ℝ cs).getFrequency| = |lastFreq f cs| ∧
    ((Triangle.new f)).getFrequency = f ∧ (((Triangle.new f).run ℝ cs).setFrequency f).getFrequency = f := by
  have hget : ∀ g : Triangle ℝ, g.getFrequency = g.irate * 12000 := by
    intro g; unfold Triangle.getFrequency; real_simp; norm_num; ring
  refine ⟨?_, ?_, ?_⟩
  · rw [hget]
    have h := Triangle.irate_run f cs (Triangle.new f) (Or.inl (by unfold Triangle.new; real_simp; ring))
    rcases h with h | h
    · rw [h]; congr 1; ring
    · rw [h, ← abs_neg]; congr 1; ring
  · rw [hget]; unfold Triangle.new; real_simp; ring
  · rw [hget]; unfold Triangle.setFrequency; real_simp; ring

/-- The ideal triangle wave of period 1: 0 and rising at 0, peaks `1` at 1/4 and `-1` at 3/4. -/
noncomputable def triWave (x : ℝ) : ℝ :=
  let u := Int.fract (x + 1 / 4)
  if u < 1 / 2 then 4 * u - 1 else 3 - 4 * u

/-- Exact arithmetic, `0 < f ≤ 24000`: sample `n` of `Triangle::new(f)` is the ideal triangle wave at
`n*f/48000`. -/
theorem C95_triangle (f : ℝ) (h0 : 0 < f) (h1 : f ≤ 24000) (n : ℕ) :
    nth (S := ℝ) Triangle.process (Triangle.new f) n = triWave (n * f / 48000) := by
  suffices h : after (S := ℝ) Triangle.process n (Triangle.new f) =
      ⟨if Int.fract (n * f / 48000 + 1 / 4) < 1 / 2 then 4 * (f / 48000) else -(4 * (f / 48000)),
        triWave (n * f / 48000)⟩ by
    unfold nth; rw [h]; unfold Triangle.process; real_simp; split_ifs <;> rfl
  induction n with
  | zero =>
    have : Int.fract (4⁻¹ : ℝ) = 4⁻¹ := Int.fract_eq_self.mpr ⟨by norm_num, by norm_num⟩
    rw [after_zero]
    unfold Triangle.new triWave
    real_simp
    simp [this]
    norm_num
    ring
  | succ n ih =>
    rw [after_succ, ih]
    have key : n * f / 48000 + 1 / 4 + f / 48000 = ((n + 1 : ℕ) : ℝ) * f / 48000 + 1 / 4 := by push_cast; ring
    unfold Triangle.process triWave
    real_simp
    rw [← key]
    set x := n * f / 48000 + 1 / 4
    have hx0 := Int.fract_nonneg x
    have hx1 := Int.fract_lt_one x
    set d := f / 48000 with hd
    have hd0 : 0 < d := by positivity
    have hd1 : d ≤ 1 / 2 := by rw [hd]; linarith
    have hx : x = ⌊x⌋ + Int.fract x := (Int.floor_add_fract x).symm
    set u := Int.fract x with hu
    by_cases hw : u + d < 1
    · have e : Int.fract (x + d) = u + d := by
        rw [Int.fract_eq_iff]; exact ⟨by linarith, hw, ⌊x⌋, by linarith⟩
      rw [e]
      by_cases hu2 : u < 1 / 2
      · simp only [hu2, if_true]
        by_cases h2 : u + d < 1 / 2
        · rw [if_neg (by rintro (h | h) <;> linarith)]
          simp only [h2, if_true]
          exact congrArg₂ Triangle.mk (by ring) (by ring)
        · rw [if_pos (Or.inl (by linarith)), if_pos (by linarith)]
          simp only [h2, if_false]
          exact congrArg₂ Triangle.mk (by ring) (by ring)
      · simp only [hu2, if_false]
        rw [if_neg (by rintro (h | h) <;> linarith), if_neg (by linarith), if_neg (by linarith)]
        exact congrArg₂ Triangle.mk (by ring) (by ring)
    · have e : Int.fract (x + d) = u + d - 1 := by
        rw [Int.fract_eq_iff]; exact ⟨by linarith, by linarith, ⌊x⌋ + 1, by push_cast; linarith⟩
      have hu2 : ¬ u < 1 / 2 := by linarith
      rw [e]
      simp only [hu2, if_false]
      rw [if_pos (Or.inr (by linarith)), if_neg (by linarith), if_pos (by linarith), if_pos (by linarith)]
      exact congrArg₂ Triangle.mk (by ring) (by ring)

example (n : ℕ) : nth (S := ℝ) Triangle.process (Triangle.new (440 : ℝ)) n = triWave (n * 440 / 48000) := C95_triangle 440 (by norm_num) (by norm_num) n

example : triWave 0 = 0 ∧ triWave (1 / 4) = 1 ∧ triWave (3 / 4) = -1 := by
  have e1 : Int.fract (4⁻¹ : ℝ) = 4⁻¹ := Int.fract_eq_self.mpr ⟨by norm_num, by norm_num⟩
  have e2 : Int.fract (1 / 4 + 4⁻¹ : ℝ) = 1 / 2 := by
    rw [show (1 / 4 + 4⁻¹ : ℝ) = 1 / 2 by norm_num]
    exact Int.fract_eq_self.mpr ⟨by norm_num, by norm_num⟩
  unfold triWave
  refine ⟨?_, ?_, ?_⟩
  · simp [e1]; norm_num
  · norm_num [e2]
  · norm_num

/-! ## Square -/

/-- Every square sample is exactly `1.0` or `-1.0`, whatever the state (so after any history, for every
frequency including NaN). -/
theorem C37_square_pm1 (f : F64) (cs : List (GenCall F64)) :
    let g := runCalls (fun g => (g.process : F32 × _).2) Square.setFrequency cs (Square.new f)
    ((g.process).1 : F32) = lit 1 ∨ (g.process.1 : F32) = lit (-1) := by
  intro g
  show (if (g.inv ≤? g.ind) && (g.ind <? lit 2 * g.inv) then -lit 1 else lit 1) = (lit 1 : F32) ∨
    (if (g.inv ≤? g.ind) && (g.ind <? lit 2 * g.inv) then -lit 1 else lit 1) = (lit (-1) : F32)
  have : (-lit 1 : F32) = lit (-1) := by decide +kernel
  split_ifs
  · exact .inr this
  · exact .inl rfl

/-- Both values do occur. -/
theorem C37_square_both :
    (nth Square.process (Square.new (lit 12000 : F64)) 0 : F32) = lit 1 ∧
    (nth Square.process (Square.new (lit 12000 : F64)) 2 : F32) = lit (-1) := by decide +kernel

/-- Exact arithmetic, `0 < f ≤ 24000`: sample `n` is `+1` in the first half of each period, `-1` in the
second. -/
theorem C38_square (f : ℝ) (h0 : 0 < f) (h1 : f ≤ 24000) (n : ℕ) :
    nth (S := ℝ) Square.process (Square.new f) n = if Int.fract (n * f / 48000) < 1 / 2 then 1 else -1 := by
  have hinv : (Square.new f).inv = 24000 / f := by
    unfold Square.new; real_simp; rw [div_eq_div_iff (by positivity) (by positivity)]; ring
  set v := 24000 / f with hv
  have hv1 : 1 ≤ v := by rw [hv, le_div_iff₀ h0]; linarith
  suffices h : (after (S := ℝ) Square.process n (Square.new f)).inv = v ∧ ∃ k : ℤ,
      (after (S := ℝ) Square.process n (Square.new f)).ind = n - k * (2 * v) ∧
      0 ≤ (after (S := ℝ) Square.process n (Square.new f)).ind ∧
      (after (S := ℝ) Square.process n (Square.new f)).ind < 2 * v + 1 by
    obtain ⟨hi, k, hk, k0, k1⟩ := h
    unfold nth
    generalize after (S := ℝ) Square.process n (Square.new f) = g at *
    unfold Square.process
    real_simp
    rw [hi]
    have e : (n : ℝ) * f / 48000 = k + g.ind / (2 * v) := by
      rw [hk, hv]; field_simp; ring
    rw [e, Int.fract_intCast_add]
    have hvpos : 0 < 2 * v := by linarith
    by_cases hlt : g.ind < 2 * v
    · have hfr : Int.fract (g.ind / (2 * v)) = g.ind / (2 * v) :=
        Int.fract_eq_self.mpr ⟨by positivity, by rw [div_lt_one hvpos]; exact hlt⟩
      simp only [hfr, div_lt_iff₀ hvpos]
      by_cases hge : v ≤ g.ind
      · rw [if_pos ⟨hge, hlt⟩, if_neg (by linarith)]
      · rw [if_neg (fun h => hge h.1), if_pos (by linarith)]
    · have hfr : Int.fract (g.ind / (2 * v)) = g.ind / (2 * v) - 1 := by
        rw [Int.fract_eq_iff]
        refine ⟨?_, ?_, 1, by push_cast; ring⟩
        · rw [sub_nonneg, le_div_iff₀ hvpos]; linarith
        · rw [sub_lt_iff_lt_add, div_lt_iff₀ hvpos]; linarith
      rw [if_neg (fun h => hlt h.2), hfr, if_pos]
      rw [sub_lt_iff_lt_add, div_lt_iff₀ hvpos]; linarith
  induction n with
  | zero =>
    refine ⟨hinv, 0, ?_, ?_, ?_⟩ <;> simp only [after_zero] <;> unfold Square.new <;> real_simp <;> norm_num
    linarith
  | succ n ih =>
    obtain ⟨hi, k, hk, k0, k1⟩ := ih
    rw [after_succ]
    generalize after (S := ℝ) Square.process n (Square.new f) = g at *
    unfold Square.process
    real_simp
    rw [hi]
    refine ⟨rfl, ?_⟩
    by_cases hge : 2 * v ≤ g.ind
    · rw [if_pos hge]
      exact ⟨k + 1, by rw [hk]; push_cast; ring, by linarith, by linarith⟩
    · rw [if_neg hge]
      exact ⟨k, by rw [hk]; push_cast; ring, by linarith, by linarith⟩

example : nth (S := ℝ) Square.process (Square.new (24000 : ℝ)) 1 = -1 := by
  rw [C38_square 24000 (by norm_num) (by norm_num), if_neg]
  norm_num

end Verif
