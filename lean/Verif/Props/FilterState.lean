import Verif.Proofs.Time
import Verif.Model.Modifiers
import Verif.Spec.Filter

set_option linter.unusedSectionVars false

/-! # Filter parameters, setters and clones: C62, C65, C72 -/

namespace Verif
open Fl

/-- A call on LowPass or HighPass. -/
inductive FiltCall (S M : Type) where
  | process (x : S)
  | setFrequency (f : M)
  | setResonance (r : M)

/-- State after a history. -/
def runFilt {X S M : Type} (step : X → S → X) (setF setR : X → M → X) : List (FiltCall S M) → X → X
  | [], m => m
  | .process x :: cs, m => runFilt step setF setR cs (step m x)
  | .setFrequency f :: cs, m => runFilt step setF setR cs (setF m f)
  | .setResonance r :: cs, m => runFilt step setF setR cs (setR m r)

/-- The parameters given last. -/
def lastParams {S M : Type} (f r : M) : List (FiltCall S M) → M × M
  | [] => (f, r)
  | .process _ :: cs => lastParams f r cs
  | .setFrequency f' :: cs => lastParams f' r cs
  | .setResonance r' :: cs => lastParams f r' cs

private theorem runFilt_inv {X S M : Type} {step : X → S → X} {setF setR : X → M → X} (I : X → Prop)
    (h1 : ∀ m x, I m → I (step m x)) (h2 : ∀ m f, I m → I (setF m f)) (h3 : ∀ m r, I m → I (setR m r))
    (cs : List (FiltCall S M)) (m : X) (hm : I m) : I (runFilt step setF setR cs m) := by
  induction cs generalizing m with
  | nil => exact hm
  | cons c cs ih =>
    cases c with
    | process x => exact ih _ (h1 m x hm)
    | setFrequency f => exact ih _ (h2 m f hm)
    | setResonance r => exact ih _ (h3 m r hm)

section
variable {S M : Type} [Flt S] [Flt M] [SM S M] [Libm M]

/-- LowPass after a history. -/
def LowPass.run (cs : List (FiltCall S M)) (m : LowPass S M) : LowPass S M :=
  runFilt (fun m x => (m.process x).2) LowPass.setCentralFrequency LowPass.setResonance cs m
/-- HighPass after a history. -/
def HighPass.run (cs : List (FiltCall S M)) (m : HighPass S M) : HighPass S M :=
  runFilt (fun m x => (m.process x).2) HighPass.setCentralFrequency HighPass.setResonance cs m
end

/-! ## C62 -/

private theorem fmin_le {x y : F64} {b : ℚ} (hy : y.Is b) : Flt.fmin x y ≠ .nan ∧ (Flt.fmin x y ≤? y) = true := by
  have hle : (y ≤? y) = true := by rw [Is.le hy hy]; simp
  show Fl.fmin x y ≠ .nan ∧ Fl.le (Fl.fmin x y) y = true
  unfold Fl.fmin
  cases hyc : y with
  | nan => rw [hyc] at hy; cases hy
  | inf s => rw [hyc] at hy; cases hy
  | fin sy by' hby =>
    rw [hyc] at hle
    cases x with
    | nan => simp [isNaN]; exact hle
    | inf s =>
      cases s
      · simp [isNaN, Fl.lt]; exact hle
      · simp [isNaN, Fl.lt]; rfl
    | fin sx a ha =>
      simp only [isNaN, Bool.false_eq_true, if_false]
      by_cases h : Fl.lt (.fin sx a ha) (.fin sy by' hby) = true
      · rw [if_pos h]
        refine ⟨by simp, ?_⟩
        have h1 := Is.lt (x := (.fin sx a ha : F64)) (y := .fin sy by' hby) rfl rfl
        have h2 := Is.le (x := (.fin sx a ha : F64)) (y := .fin sy by' hby) rfl rfl
        have h3 : decide (a < by') = true := h1.symm.trans h
        exact h2.trans (by simp at h3 ⊢; exact h3.le)
      · rw [if_neg h]
        exact ⟨by simp, hle⟩

/-- The resonance clamp. -/
private theorem clamp_in (r : F64) : (Flt.fmax (Flt.fmin r (lit 1)) (lit 0) : F64).In 0 1 := by
  obtain ⟨h1, h2⟩ := fmin_le (x := r) lit64_1
  set m := Flt.fmin r (lit 1 : F64) with hm
  have h0 : (lit 0 : F64).Is 0 := lit64_0
  have e : (Flt.fmax m (lit 0) : F64) = if m.isNaN then lit 0 else if (lit 0 : F64).isNaN then m else if Fl.lt (lit 0) m then m else lit 0 := rfl
  rw [e]
  cases hmc : m with
  | nan => exact absurd hmc h1
  | inf s =>
    rw [hmc] at h2
    cases s
    · exact absurd h2 (by decide +kernel)
    · have : Fl.lt (lit 0 : F64) (.inf true) = false := by decide +kernel
      simp only [isNaN, this, Bool.false_eq_true, if_false]
      split_ifs
      · rename_i h
        exact absurd h (by decide +kernel)
      · exact ⟨0, h0, le_refl _, by norm_num⟩
  | fin s a ha =>
    rw [hmc] at h2
    rw [Is.le (x := (.fin s a ha : F64)) rfl lit64_1, decide_eq_true_iff] at h2
    have hl := Is.lt (y := (.fin s a ha : F64)) h0 rfl
    have hz : (lit 0 : F64).isNaN = false := by decide +kernel
    simp only [isNaN] at hz ⊢
    simp only [hz, Bool.false_eq_true, if_false]
    by_cases hlt : Fl.lt (lit 0 : F64) (.fin s a ha) = true
    · rw [if_pos hlt]
      have : decide (0 < a) = true := hl.symm.trans hlt
      exact ⟨a, rfl, (of_decide_eq_true this).le, h2⟩
    · rw [if_neg hlt]
      exact ⟨0, h0, le_refl _, by norm_num⟩

private theorem half_sr : ((srM : F64) / lit 2).Is 24000 := by decide +kernel

/-- IEEE, any math library, any `f64` arguments (NaN, infinities): after any history the resonance is a number in
`[0,1]`, the central frequency is not NaN and at most 24000. -/
theorem C62_lowpass [Libm F64] (f r : F64) (cs : List (FiltCall F32 F64)) :
    let m : LowPass F32 F64 := (LowPass.new f r).run cs
    m.getResonance.In 0 1 ∧ m.getCentralFrequency ≠ .nan ∧ (m.getCentralFrequency ≤? lit 24000) = true := by
  intro m
  have key : ∀ x : F64, Flt.fmin x ((srM : F64) / lit 2) ≠ .nan ∧ (Flt.fmin x ((srM : F64) / lit 2) ≤? lit 24000) = true := by
    intro x
    have e : (srM : F64) / lit 2 = lit 24000 := by decide +kernel
    have h := fmin_le (x := x) half_sr
    rw [e] at h ⊢
    exact h
  refine runFilt_inv (I := fun m : LowPass F32 F64 => m.getResonance.In 0 1 ∧ m.getCentralFrequency ≠ .nan ∧
    (m.getCentralFrequency ≤? lit 24000) = true) ?_ ?_ ?_ cs _ ?_
  · exact fun m x h => h
  · exact fun m f h => ⟨h.1, key f⟩
  · exact fun m r h => ⟨clamp_in r, h.2⟩
  · exact ⟨clamp_in r, key f⟩

theorem C62_highpass [Libm F64] (f r : F64) (cs : List (FiltCall F32 F64)) :
    let m : HighPass F32 F64 := (HighPass.new f r).run cs
    m.getResonance.In 0 1 ∧ m.getCentralFrequency ≠ .nan ∧ (m.getCentralFrequency ≤? lit 24000) = true := by
  intro m
  have key : ∀ x : F64, Flt.fmin x ((srM : F64) / lit 2) ≠ .nan ∧ (Flt.fmin x ((srM : F64) / lit 2) ≤? lit 24000) = true := by
    intro x
    have e : (srM : F64) / lit 2 = lit 24000 := by decide +kernel
    have h := fmin_le (x := x) half_sr
    rw [e] at h ⊢
    exact h
  refine runFilt_inv (I := fun m : HighPass F32 F64 => m.getResonance.In 0 1 ∧ m.getCentralFrequency ≠ .nan ∧
    (m.getCentralFrequency ≤? lit 24000) = true) ?_ ?_ ?_ cs _ ?_
  · exact fun m x h => h
  · exact fun m f h => ⟨h.1, key f⟩
  · exact fun m r h => ⟨clamp_in r, h.2⟩
  · exact ⟨clamp_in r, key f⟩

example : (Flt.fmin (.nan : F64) ((srM : F64) / lit 2)).Is 24000 ∧ (Flt.fmax (Flt.fmin (.nan : F64) (lit 1)) (lit 0)).Is 1 := by decide +kernel

/-! ## C65 -/

section
variable {S M : Type} [Flt S] [Flt M] [SM S M] [Libm M]

/-- In any arithmetic: setters keep all stored samples. -/
theorem C65_history (l : LowPass S M) (h : HighPass S M) (b : BandPass S M) (v : M) (c : M × M) :
    ((l.setCentralFrequency v).o0 = l.o0 ∧ (l.setCentralFrequency v).o1 = l.o1 ∧ (l.setCentralFrequency v).o2 = l.o2) ∧
    ((l.setResonance v).o0 = l.o0 ∧ (l.setResonance v).o1 = l.o1 ∧ (l.setResonance v).o2 = l.o2) ∧
    (∀ h', h' = h.setCentralFrequency v ∨ h' = h.setResonance v →
      h'.x1 = h.x1 ∧ h'.x2 = h.x2 ∧ h'.x3 = h.x3 ∧ h'.y1 = h.y1 ∧ h'.y2 = h.y2 ∧ h'.y3 = h.y3) ∧
    (∀ b', b' = b.setCentralFrequency v ∨ b' = b.setQuality v ∨ b' = b.setCornerFrequencies c →
      b'.x1 = b.x1 ∧ b'.x2 = b.x2 ∧ b'.y1 = b.y1 ∧ b'.y2 = b.y2) := by
  refine ⟨⟨rfl, rfl, rfl⟩, ⟨rfl, rfl, rfl⟩, ?_, ?_⟩
  · rintro h' (rfl | rfl) <;> exact ⟨rfl, rfl, rfl, rfl, rfl, rfl⟩
  · rintro h' (rfl | rfl | rfl) <;> exact ⟨rfl, rfl, rfl, rfl⟩

/-- A call on BandPass. -/
inductive BpCall (S M : Type) where
  | process (x : S)
  | setFrequency (f : M)
  | setQuality (q : M)
  | setCorners (c : M × M)

/-- BandPass after a history. -/
def BandPass.run : List (BpCall S M) → BandPass S M → BandPass S M
  | [], m => m
  | .process x :: cs, m => run cs (m.process x).2
  | .setFrequency f :: cs, m => run cs (m.setCentralFrequency f)
  | .setQuality q :: cs, m => run cs (m.setQuality q)
  | .setCorners c :: cs, m => run cs (m.setCornerFrequencies c)

/-- Coefficients up to date with the parameters. -/
private theorem bp_run_reset (cs : List (BpCall S M)) (m : BandPass S M) (h : m.reset = m) : (m.run cs).reset = m.run cs := by
  induction cs generalizing m with
  | nil => exact h
  | cons c cs ih =>
    cases c with
    | process x =>
      refine ih _ ?_
      have e : ∀ (b : BandPass S M) (y : S), ({ b with x1 := x, x2 := b.x1, y1 := y, y2 := b.y1 } : BandPass S M).reset =
          { b.reset with x1 := x, x2 := b.x1, y1 := y, y2 := b.y1 } := fun b y => rfl
      exact (e m _).trans (by rw [h]; rfl)
    | setFrequency f => exact ih _ rfl
    | setQuality q => exact ih _ rfl
    | setCorners c => exact ih _ rfl

private theorem lp_run_reset (cs : List (FiltCall S M)) (m : LowPass S M) (h : m.reset = m) : (m.run cs).reset = m.run cs := by
  refine runFilt_inv (I := fun m : LowPass S M => m.reset = m) ?_ (fun _ _ _ => rfl) (fun _ _ _ => rfl) cs _ h
  intro m x h
  have e : ∀ (b : LowPass S M) (y0 y1 y2 : S), ({ b with o0 := y0, o1 := y1, o2 := y2 } : LowPass S M).reset =
      { b.reset with o0 := y0, o1 := y1, o2 := y2 } := fun b _ _ _ => rfl
  exact (e m _ _ _).trans (by rw [h]; rfl)

private theorem hp_run_reset (cs : List (FiltCall S M)) (m : HighPass S M) (h : m.reset = m) : (m.run cs).reset = m.run cs := by
  refine runFilt_inv (I := fun m : HighPass S M => m.reset = m) ?_ (fun _ _ _ => rfl) (fun _ _ _ => rfl) cs _ h
  intro m x h
  have e : ∀ (b : HighPass S M) (x1 x2 x3 y1 y2 y3 : S),
      ({ b with x1 := x1, x2 := x2, x3 := x3, y1 := y1, y2 := y2, y3 := y3 } : HighPass S M).reset =
      { b.reset with x1 := x1, x2 := x2, x3 := x3, y1 := y1, y2 := y2, y3 := y3 } := fun b _ _ _ _ _ _ => rfl
  exact (e m _ _ _ _ _ _).trans (by rw [h]; rfl)

/-- In any arithmetic: two filters, made with any arguments and after any histories, that report the same parameters
have the same coefficients. -/
theorem C65_coefficients (f r f' r' : M) (cs cs' : List (FiltCall S M)) (bs bs' : List (BpCall S M)) :
    (let a : LowPass S M := (LowPass.new f r).run cs; let b : LowPass S M := (LowPass.new f' r').run cs'
      a.getCentralFrequency = b.getCentralFrequency → a.getResonance = b.getResonance →
      a.c0 = b.c0 ∧ a.c1 = b.c1 ∧ a.c2 = b.c2 ∧ a.c3 = b.c3) ∧
    (let a : HighPass S M := (HighPass.new f r).run cs; let b : HighPass S M := (HighPass.new f' r').run cs'
      a.getCentralFrequency = b.getCentralFrequency → a.getResonance = b.getResonance →
      a.a0 = b.a0 ∧ a.a1 = b.a1 ∧ a.a2 = b.a2 ∧ a.a3 = b.a3 ∧ a.b1 = b.b1 ∧ a.b2 = b.b2 ∧ a.b3 = b.b3) ∧
    (let a : BandPass S M := (BandPass.new f r).run bs; let b : BandPass S M := (BandPass.new f' r').run bs'
      a.getCentralFrequency = b.getCentralFrequency → a.getQuality = b.getQuality →
      a.a0 = b.a0 ∧ a.b1 = b.b1 ∧ a.b2 = b.b2) := by
  refine ⟨fun h1 h2 => ?_, fun h1 h2 => ?_, fun h1 h2 => ?_⟩
  · have e1 := lp_run_reset cs (LowPass.new f r : LowPass S M) rfl
    have e2 := lp_run_reset cs' (LowPass.new f' r' : LowPass S M) rfl
    unfold LowPass.getCentralFrequency at h1
    unfold LowPass.getResonance at h2
    rw [← e1, ← e2]
    unfold LowPass.reset
    simp only [h1, h2, and_self]
  · have e1 := hp_run_reset cs (HighPass.new f r : HighPass S M) rfl
    have e2 := hp_run_reset cs' (HighPass.new f' r' : HighPass S M) rfl
    unfold HighPass.getCentralFrequency at h1
    unfold HighPass.getResonance at h2
    rw [← e1, ← e2]
    unfold HighPass.reset
    simp only [h1, h2, and_self]
  · have e1 := bp_run_reset bs (BandPass.new f r : BandPass S M) rfl
    have e2 := bp_run_reset bs' (BandPass.new f' r' : BandPass S M) rfl
    unfold BandPass.getCentralFrequency at h1
    unfold BandPass.getQuality at h2
    rw [← e1, ← e2]
    unfold BandPass.reset BandPass.getCornerFrequencies
    simp only [h1, h2, and_self]

/-! ## C72 -/

/-- In any arithmetic: after any history a clone of LowPass or HighPass is the fresh filter with the parameters given last. -/
theorem C72_lowpass_highpass (f r : M) (cs : List (FiltCall S M)) :
    ((LowPass.new f r : LowPass S M).run cs).clone = LowPass.new (lastParams f r cs).1 (lastParams f r cs).2 ∧
    ((HighPass.new f r : HighPass S M).run cs).clone = HighPass.new (lastParams f r cs).1 (lastParams f r cs).2 := by
  have a : ∀ (m : LowPass S M) (f r : M), m.clone = LowPass.new f r → (m.run cs).clone = LowPass.new (lastParams f r cs).1 (lastParams f r cs).2 := by
    induction cs with
    | nil => exact fun m f r h => h
    | cons c cs ih =>
      intro m f r h
      cases c with
      | process x => exact ih _ f r h
      | setFrequency f' =>
        refine ih _ f' r ?_
        have : (m.setCentralFrequency f').clone = m.clone.setCentralFrequency f' := rfl
        rw [this, h]; rfl
      | setResonance r' =>
        refine ih _ f r' ?_
        have : (m.setResonance r').clone = m.clone.setResonance r' := rfl
        rw [this, h]; rfl
  have b : ∀ (m : HighPass S M) (f r : M), m.clone = HighPass.new f r → (m.run cs).clone = HighPass.new (lastParams f r cs).1 (lastParams f r cs).2 := by
    clear a
    induction cs with
    | nil => exact fun m f r h => h
    | cons c cs ih =>
      intro m f r h
      cases c with
      | process x => exact ih _ f r h
      | setFrequency f' =>
        refine ih _ f' r ?_
        have : (m.setCentralFrequency f').clone = m.clone.setCentralFrequency f' := rfl
        rw [this, h]; rfl
      | setResonance r' =>
        refine ih _ f r' ?_
        have : (m.setResonance r').clone = m.clone.setResonance r' := rfl
        rw [this, h]; rfl
  exact ⟨a _ f r rfl, b _ f r rfl⟩

/-- A clone of BandPass, made by either constructor, after any history is the fresh filter with its parameters. -/
theorem C72_bandpass (f q : M) (c : M × M) (cs : List (BpCall S M)) (m : BandPass S M)
    (hm : m = (BandPass.new f q).run cs ∨ m = (BandPass.fromCorners c).run cs) :
    m.clone = BandPass.new m.getCentralFrequency m.getQuality := by
  have h : m.reset = m := by
    rcases hm with rfl | rfl
    · exact bp_run_reset cs _ rfl
    · exact bp_run_reset cs _ rfl
  rw [show m.clone = (m.reset).clone by rw [h]]
  rfl

example [Libm F64] : ((BandPass.new (lit 1000 : F64) (lit 1) : BandPass F32 F64).run [.process (lit 1)]).clone =
    BandPass.new ((BandPass.new (lit 1000 : F64) (lit 1) : BandPass F32 F64).run [.process (lit 1)]).getCentralFrequency
      ((BandPass.new (lit 1000 : F64) (lit 1) : BandPass F32 F64).run [.process (lit 1)]).getQuality :=
  C72_bandpass _ _ (lit 1, lit 2) _ _ (.inl rfl)

/-- Clones of Envelope and Generic taken after any number of samples are the fresh modifier. -/
theorem C72_envelope_generic [Libm S] (lo up : S) (zeros poles : List (ℕ × S)) (x : ℕ → S) (n : ℕ) :
    (∀ m, modAfter (E := Panic) Modifier.process x (Envelope.new M lo up) n = .ok m → m.clone = Envelope.new M lo up) ∧
    (∀ m, modAfter Modifier.process x (Generic.new zeros poles) n = .ok m → m.clone = Generic.new zeros poles) := by
  constructor
  · induction n with
    | zero => intro m hm; cases hm; rfl
    | succ n ih =>
      intro m hm
      simp only [modAfter] at hm
      cases h : modAfter (E := Panic) Modifier.process x (Envelope.new M lo up) n with
      | error e => simp [h] at hm
      | ok m' =>
        rw [h] at hm
        have := ih m' h
        have e : m = (m'.process (x n)).2 := by
          have := Except.ok.inj hm
          exact this.symm
        rw [e]; exact this
  · have key : ∀ n m, modAfter Modifier.process x (Generic.new zeros poles) n = .ok m → m.zeros = zeros ∧ m.poles = poles ∧
        m.inputs.length = Generic.back zeros ∧ m.outputs.length = Generic.back poles := by
      intro n
      induction n with
      | zero => intro m hm; cases hm; exact ⟨rfl, rfl, by simp [Generic.new], by simp [Generic.new]⟩
      | succ n ih =>
        intro m hm
        simp only [modAfter] at hm
        cases h : modAfter Modifier.process x (Generic.new zeros poles) n with
        | error e => simp [h] at hm
        | ok m' =>
          rw [h] at hm
          obtain ⟨h1, h2, h3, h4⟩ := ih m' h
          have hp : Modifier.process m' (x n) = m'.process (x n) := rfl
          simp only [hp, Generic.process, bind, Except.bind] at hm
          cases ha : Generic.accum (Generic.shift m'.inputs (x n)) m'.zeros (dflt : S) with
          | error e => simp [ha, Except.map] at hm
          | ok y =>
            cases hb : Generic.accum m'.outputs m'.poles y with
            | error e => simp [ha, hb, Except.map] at hm
            | ok y' =>
              simp only [ha, hb, Except.map] at hm
              have := Except.ok.inj hm
              rw [← this]
              exact ⟨h1, h2, by simp [Generic.shift, h3], by simp [Generic.shift, h4]⟩
    intro m hm
    obtain ⟨h1, h2, h3, h4⟩ := key n m hm
    unfold Generic.clone Generic.new
    rw [h1, h2, h3, h4]

/-- A call on ADSR. -/
inductive AdsrCall (S : Type) where
  | process (x : S)
  | release

/-- ADSR after a history. -/
def ADSR.run : List (AdsrCall S) → ADSR S → ADSR S
  | [], m => m
  | .process x :: cs, m => run cs (m.process x).2
  | .release :: cs, m => run cs m.doRelease

theorem C72_adsr (a d : Duration) (s : M) (r : Duration) (cs : List (AdsrCall S)) :
    ((ADSR.new a d s r : ADSR S).run cs).clone = ADSR.new a d s r := by
  have key : ∀ (m : ADSR S), m.clone = ADSR.new a d s r → (m.run cs).clone = ADSR.new a d s r := by
    induction cs with
    | nil => exact fun m h => h
    | cons c cs ih =>
      intro m h
      cases c with
      | process x =>
        refine ih _ ?_
        rw [← h]
        unfold ADSR.process ADSR.clone
        cases m.state <;> simp only <;> split_ifs <;> rfl
      | release => exact ih _ h
  exact key _ rfl
end

end Verif
