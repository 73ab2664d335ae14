import Verif.Props.FilterState
import Verif.Proofs.Samples
import Verif.Model.Channel

set_option linter.unusedSectionVars false

/-! # Setting up an object before it plays: C178 -/

namespace Verif
open Fl

section
variable {S M : Type} [Flt S] [Flt M] [SM S M] [Libm M]

/-- A history in which nothing is played. -/
def FiltCall.Idle : FiltCall S M → Prop
  | .process _ => False
  | _ => True

/-- In any arithmetic: a filter set up by any sequence of settings is the filter constructed with the last ones. The order of
settings does not matter, and earlier ones leave no trace. -/
theorem C178_lowpass_highpass (f r : M) (cs : List (FiltCall S M)) (h : ∀ c ∈ cs, c.Idle) :
    (LowPass.new f r : LowPass S M).run cs = LowPass.new (lastParams f r cs).1 (lastParams f r cs).2 ∧
    (HighPass.new f r : HighPass S M).run cs = HighPass.new (lastParams f r cs).1 (lastParams f r cs).2 := by
  induction cs generalizing f r with
  | nil => exact ⟨rfl, rfl⟩
  | cons c cs ih =>
    have h' : ∀ c ∈ cs, c.Idle := fun c hc => h c (List.mem_cons_of_mem _ hc)
    cases c with
    | process x => exact (h _ List.mem_cons_self).elim
    | setFrequency f' => exact ih f' r h'
    | setResonance r' => exact ih f r' h'

example (f r f' r' : M) : ((LowPass.new f r : LowPass S M).setCentralFrequency f').setResonance r' =
    ((LowPass.new r f : LowPass S M).setResonance r').setCentralFrequency f' :=
  (C178_lowpass_highpass f r [.setFrequency f', .setResonance r'] (by simp [FiltCall.Idle])).1.trans
    (C178_lowpass_highpass r f [.setResonance r', .setFrequency f'] (by simp [FiltCall.Idle])).1.symm

/-- Settings of BandPass by centre and quality, or by corners. -/
inductive BpSet (M : Type) where
  | frequency (f : M)
  | quality (q : M)
  | corners (c : M × M)

/-- The settings applied. -/
def BandPass.setUp : List (BpSet M) → BandPass S M → BandPass S M
  | [], m => m
  | .frequency f :: cs, m => setUp cs (m.setCentralFrequency f)
  | .quality q :: cs, m => setUp cs (m.setQuality q)
  | .corners c :: cs, m => setUp cs (m.setCornerFrequencies c)

/-- Centre and quality after the settings. -/
def bpParams : List (BpSet M) → M × M → M × M
  | [], p => p
  | .frequency f :: cs, p => bpParams cs (f, p.2)
  | .quality q :: cs, p => bpParams cs (p.1, q)
  | .corners c :: cs, _ => bpParams cs (Flt.sqrt (c.1 * c.2), Flt.sqrt (c.1 * c.2) / Flt.abs (c.1 - c.2))

/-- In any arithmetic: the same for BandPass; corners stand for the centre and quality they define, and centre and quality set in
either order give the same filter. -/
theorem C178_bandpass (f q : M) (cs : List (BpSet M)) :
    (BandPass.new f q : BandPass S M).setUp cs = BandPass.new (bpParams cs (f, q)).1 (bpParams cs (f, q)).2 := by
  induction cs generalizing f q with
  | nil => rfl
  | cons c cs ih =>
    cases c with
    | frequency f' => exact ih f' q
    | quality q' => exact ih f q'
    | corners c => exact ih _ _

example (f q f' q' : M) : ((BandPass.new f q : BandPass S M).setCentralFrequency f').setQuality q' =
    ((BandPass.new f q : BandPass S M).setQuality q').setCentralFrequency f' :=
  (C178_bandpass f q [.frequency f', .quality q']).trans (C178_bandpass f q [.quality q', .frequency f']).symm

/-- In any arithmetic: an oscillator given any frequencies before it plays is the one constructed with the last. -/
theorem C178_oscillators (f : M) (fs : List M) :
    fs.foldl Sine.setFrequency (Sine.new f) = Sine.new (fs.getLastD f) ∧
    fs.foldl Sawtooth.setFrequency (Sawtooth.new f) = Sawtooth.new (fs.getLastD f) ∧
    fs.foldl Square.setFrequency (Square.new f) = Square.new (fs.getLastD f) ∧
    fs.foldl Triangle.setFrequency (Triangle.new f) = Triangle.new (fs.getLastD f) := by
  induction fs generalizing f with
  | nil => exact ⟨rfl, rfl, rfl, rfl⟩
  | cons a fs ih =>
    have e : (a :: fs).getLastD f = fs.getLastD a := by cases fs <;> rfl
    rw [e]
    exact ih a

example (f a b : M) : ((Square.new f).setFrequency a).setFrequency b = Square.new b := (C178_oscillators f [a, b]).2.2.1

/-- In any arithmetic: gains set on a new sound or channel are those of a sound or channel constructed with them; the two gains of a
sound do not touch each other or anything else, at any time, nor do modifiers added in between. -/
theorem C178_gains (ig og a b : M) (g m : ℕ) (s : SimpleSound S) :
    (SimpleSound.new ig og g : SimpleSound S).setInputGain a = SimpleSound.new a og g ∧
    (SimpleSound.new ig og g : SimpleSound S).setOutputGain b = SimpleSound.new ig b g ∧
    (s.setInputGain a).setOutputGain b = (s.setOutputGain b).setInputGain a ∧
    (s.setInputGain a).addModifier m = (s.addModifier m).setInputGain a ∧
    (s.setOutputGain b).addModifier m = (s.addModifier m).setOutputGain b ∧
    (s.setInputGain a).setInputGain b = s.setInputGain b ∧ (s.setOutputGain a).setOutputGain b = s.setOutputGain b :=
  ⟨rfl, rfl, rfl, rfl, rfl, rfl, rfl⟩

/-- In any arithmetic: the gain set on a new channel is that of a channel constructed with it, panics included. -/
theorem C178_channel {SF : Type} [SampleFmt SF S] (g v : M) :
    (StandardChannel.new g : Res (StandardChannel SF S)).map (StandardChannel.setGain · v) = StandardChannel.new v := by
  unfold StandardChannel.new StandardChannel.withCapacity
  by_cases h : toUsize (lit (1 / 100) * srM : M) * SampleFmt.size SF S > 2 ^ 63 - 1
  · rw [if_pos h]; rfl
  · rw [if_neg h]; rfl

/-- The constructor from corners and the setter of corners do not agree: corners of opposite sign make a working filter when
constructed and NaN when set. -/
theorem C178_corners_violated [Libm F64] : let c : F64 × F64 := (lit (-100), lit 400)
    (BandPass.fromCorners c : BandPass F32 F64).getCentralFrequency.Is 200 ∧
    ((BandPass.new (lit 1000) (lit 1) : BandPass F32 F64).setCornerFrequencies c).getCentralFrequency = .nan := by
  intro c
  refine ⟨?_, ?_⟩
  · show (Flt.sqrt (Flt.abs ((lit (-100) : F64) * lit 400))).Is 200
    decide +kernel
  · show Flt.sqrt ((lit (-100) : F64) * lit 400) = .nan
    decide +kernel
end

private theorem fin_congr' {s s' : Bool} {q q' : ℚ} (h : b64.Ok s q) (h' : b64.Ok s' q') (e : s = s') (e' : q = q') :
    (fin s q h : F64) = fin s' q' h' := by
  subst e; subst e'; rfl

private theorem abs_sub_comm' (a b : F64) : Flt.abs (a - b) = Flt.abs (b - a) := by
  have key : ∀ (z z' : Bool) (x : ℚ), Flt.abs (ofQ z x : F64) = Flt.abs (ofQ z' (-x) : F64) := by
    intro z z' x
    have en : |b64.rnd (-x)| = |b64.rnd x| := by rw [b64.rnd_neg, abs_neg]
    unfold ofQ
    by_cases h : |b64.rnd x| < pow2 (b64.emax + 1)
    · have h' : |b64.rnd (-x)| < pow2 (b64.emax + 1) := en ▸ h
      rw [dif_pos h, dif_pos h']
      exact fin_congr' _ _ rfl en.symm
    · have h' : ¬ |b64.rnd (-x)| < pow2 (b64.emax + 1) := en ▸ h
      rw [dif_neg h, dif_neg h']
      rfl
  cases a with
  | nan => cases b <;> rfl
  | inf s =>
    cases b with
    | nan => rfl
    | inf t => cases s <;> cases t <;> rfl
    | fin t y hy => cases s <;> rfl
  | fin s x hx =>
    cases b with
    | nan => rfl
    | inf t => cases t <;> rfl
    | fin t y hy =>
      show Flt.abs (ofQ _ (x + -y) : F64) = Flt.abs (ofQ _ (y + -x) : F64)
      rw [show y + -x = -(x + -y) by ring]
      exact key _ _ _

/-- IEEE: for corners that are positive numbers the two agree, bit for bit. Missing: corners of opposite sign, where they do not. -/
theorem C178_corners_partial [Libm F64] (f q a b : F64) (x y : ℚ) (ha : a.Is x) (hb : b.Is y) (hx : 0 < x) (hy : 0 < y) :
    (BandPass.new f q : BandPass F32 F64).setCornerFrequencies (a, b) = BandPass.fromCorners (a, b) := by
  have e : Flt.abs (a * b) = a * b := by
    obtain ⟨h1, rfl⟩ := ha.sign_pos hx
    obtain ⟨h2, rfl⟩ := hb.sign_pos hy
    have hxy : 0 < x * y := mul_pos hx hy
    rw [mul_fin]
    unfold ofQ
    by_cases h : |b64.rnd (x * y)| < pow2 (b64.emax + 1)
    · rw [dif_pos h]
      exact fin_congr' _ _ (by rw [if_neg (not_lt.mpr hxy.le), if_pos hxy]) (abs_of_nonneg (b64.rnd_nonneg hxy.le))
    · rw [dif_neg h]
      simp only [decide_eq_false (not_lt.mpr hxy.le)]
      rfl
  unfold BandPass.setCornerFrequencies BandPass.fromCorners
  simp only
  rw [e, abs_sub_comm' b a]
  rfl

example [Libm F64] : (BandPass.new (lit 1) (lit 1) : BandPass F32 F64).setCornerFrequencies (lit 400, lit 100) = BandPass.fromCorners (lit 400, lit 100) :=
  C178_corners_partial _ _ _ _ 400 100 (by decide +kernel) (by decide +kernel) (by norm_num) (by norm_num)

end Verif
