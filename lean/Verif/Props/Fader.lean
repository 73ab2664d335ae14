import Verif.Props.SimpleSound
import Verif.Proofs.Samples
import Verif.Model.Sounds
import Verif.Model.ArithReal

set_option linter.unusedSectionVars false

/-! # Moving the volume of a playing sound: C179 -/

namespace Verif
open Fl

section
variable {B S M : Type} [Flt S] [Flt M] [SM S M] [Block B S]

/-- The volume control and the mute button are brought to the position `p`. -/
def SimpleSound.toPosition (s : SimpleSound S) (p : M × Bool) : SimpleSound S :=
  let s := s.setOutputGain p.1
  if s.isMuted = p.2 then s else s.toggleMute

/-- A sound is played while its controls move: position `c n` during sample `n`. -/
def SimpleSound.ride (h : Heap B) (s : SimpleSound S) (c : ℕ → M × Bool) : List S → Res (List S × Heap B)
  | [] => .ok ([], h)
  | x :: xs => do
    let s := s.toPosition (c 0)
    let (y, h) ← s.process h x
    let (ys, h) ← s.ride h (fun n => c (n + 1)) xs
    .ok (y :: ys, h)

/-- What the controls do to a signal. -/
def faded (c : ℕ → M × Bool) : List S → List S
  | [] => []
  | y :: ys => (if (c 0).2 then dflt else y * SM.down (c 0).1) :: faded (fun n => c (n + 1)) ys

private theorem toPosition_eq (s : SimpleSound S) (p : M × Bool) :
    s.toPosition p = { s with outputGain := SM.down p.1, muted := p.2 } := by
  obtain ⟨g, m⟩ := p
  unfold SimpleSound.toPosition SimpleSound.setOutputGain SimpleSound.isMuted SimpleSound.toggleMute
  rcases s with ⟨_, _, _, _, _, mu, _⟩
  cases mu <;> cases m <;> rfl

/-- In any arithmetic, for any blocks: behind the volume control of a sound there is one signal, which no movement of volume or mute
changes; what is heard is that signal times the volume of the moment, or nothing while muted. The blocks end in the same state however
the controls moved, and a panic does not depend on them either. -/
theorem C179_volume (h : Heap B) (s : SimpleSound S) (hp : s.isPaused = false) (xs : List S) :
    (∃ e, ∀ c : ℕ → M × Bool, s.ride h c xs = .error e) ∨
    ∃ ys h', ys.length = xs.length ∧ ∀ c : ℕ → M × Bool, s.ride h c xs = .ok (faded c ys, h') := by
  suffices H : ∀ (gen : ℕ) (mods : List ℕ) (ig : S), (∃ e, ∀ (s : SimpleSound S) (c : ℕ → M × Bool), s.generator = gen → s.modifierList = mods → s.inputGain = ig → s.paused = false → s.ride h c xs = .error e) ∨
      ∃ ys h', ys.length = xs.length ∧ ∀ (s : SimpleSound S) (c : ℕ → M × Bool), s.generator = gen → s.modifierList = mods → s.inputGain = ig → s.paused = false → s.ride h c xs = .ok (faded c ys, h') by
    rcases H s.generator s.modifierList s.inputGain with ⟨e, he⟩ | ⟨ys, h', hl, hy⟩
    · exact .inl ⟨e, fun c => he s c rfl rfl rfl hp⟩
    · exact .inr ⟨ys, h', hl, fun c => hy s c rfl rfl rfl hp⟩
  intro gen mods ig
  clear hp s
  induction xs generalizing h with
  | nil => exact .inr ⟨[], h, rfl, fun s c _ _ _ _ => rfl⟩
  | cons x xs ih =>
    cases e1 : SimpleSound.runGen h gen (x * ig) with
    | error e =>
      refine .inl ⟨e, fun s c h1 h2 h3 h4 => ?_⟩
      unfold SimpleSound.ride
      rw [toPosition_eq]
      subst h1; subst h3
      simp only [SimpleSound.process, h4, e1]
      rfl
    | ok r1 =>
      cases e2 : SimpleSound.runMods r1.2 mods r1.1 with
      | error e =>
        refine .inl ⟨e, fun s c h1 h2 h3 h4 => ?_⟩
        unfold SimpleSound.ride
        rw [toPosition_eq]
        subst h1; subst h3; subst h2
        simp only [SimpleSound.process, h4, e1]
        show ((SimpleSound.runMods r1.2 s.modifierList r1.1 >>= _) >>= _) = _
        rw [e2]
        rfl
      | ok r2 =>
        have key : ∀ (s : SimpleSound S) (c : ℕ → M × Bool), s.generator = gen → s.modifierList = mods → s.inputGain = ig → s.paused = false →
            s.ride h c (x :: xs) = ((s.toPosition (c 0)).ride r2.2 (fun n => c (n + 1)) xs).bind
              (fun p => .ok ((if (c 0).2 then dflt else r2.1 * SM.down (c 0).1) :: p.1, p.2)) := by
          intro s c h1 h2 h3 h4
          subst h1; subst h3; subst h2
          rw [SimpleSound.ride]
          rw [toPosition_eq]
          simp only [SimpleSound.process, h4, e1]
          show ((SimpleSound.runMods r1.2 s.modifierList r1.1 >>= _) >>= _) = _
          rw [e2]
          rfl
        rcases ih r2.2 with ⟨e, he⟩ | ⟨ys, h', hl, hy⟩
        · refine .inl ⟨e, fun s c h1 h2 h3 h4 => ?_⟩
          rw [key s c h1 h2 h3 h4, he]
          · rfl
          all_goals rw [toPosition_eq]; assumption
        · refine .inr ⟨r2.1 :: ys, h', by simp [hl], fun s c h1 h2 h3 h4 => ?_⟩
          rw [key s c h1 h2 h3 h4, hy]
          · rfl
          all_goals rw [toPosition_eq]; assumption

/-- In any arithmetic: the input gain acts as a multiplication of the input, and on nothing else: settings and inputs with the same
product give the same sample and the same state of the blocks. -/
theorem C179_input (h : Heap B) (s : SimpleSound S) (g g' : M) (x x' : S) (e : x * SM.down g = x' * SM.down g') :
    (s.setInputGain g).process h x = (s.setInputGain g').process h x' := by
  simp only [SimpleSound.process, SimpleSound.setInputGain, e]
  rfl

end

/-- Exact: moving the volume adds no more to the step between two samples than the step of the volume times the level. -/
theorem C179_click (c : ℕ → ℝ × Bool) (y0 y1 : ℝ) (hm : (c 0).2 = false) (hm' : (c 1).2 = false) :
    ∃ a b, faded c [y0, y1] = [a, b] ∧ |b - a| ≤ |(c 1).1| * |y1 - y0| + |(c 1).1 - (c 0).1| * |y0| := by
  refine ⟨y0 * (c 0).1, y1 * (c 1).1, ?_, ?_⟩
  · simp only [faded, hm, hm']
    rfl
  · rw [← abs_mul, ← abs_mul]
    refine le_trans (le_of_eq ?_) (abs_add_le _ _)
    congr 1
    ring

/-- IEEE: volume zero is silence for every finite signal. Missing: infinite and NaN samples, for which it is not. -/
theorem C179_zero_volume_partial (p : F64 × Bool) (y : F32) (q : ℚ) (hy : y.Is q) (hp : p.1 = lit 0) :
    ∃ z : F32, faded (fun _ => p) [y] = [z] ∧ z.Is 0 := by
  refine ⟨_, rfl, ?_⟩
  cases h : p.2
  · have hz : (SM.down p.1 : F32).Is 0 := by rw [hp]; decide +kernel
    have := hy.mul hz (by rw [mul_zero]; exact Fmt.fits_of_repr b32.repr_zero (by rw [abs_zero]; exact pow2_pos _))
    rw [mul_zero, show b32.rnd 0 = 0 by decide +kernel] at this
    exact this
  · show (dflt : F32).Is 0
    decide +kernel

/-- Volume zero is not mute: an infinite sample at volume zero is NaN, muted it is zero. -/
theorem C179_zero_volume_violated : faded (fun _ => ((lit 0 : F64), false)) [(.inf false : F32)] = [.nan] ∧
    faded (fun _ => ((lit 0 : F64), true)) [(.inf false : F32)] = [dflt] := by
  constructor <;> decide +kernel

/-! ## Examples -/

/-- A fade out, then mute, on the sound of gain 6 with an input of ones. -/
private def fade : ℕ → F64 × Bool := fun n => if n = 0 then (lit 1, false) else if n = 1 then (lit (1 / 2), false) else (lit 1, true)

example : exSound.isPaused = false ∧ (exSound.ride exHeap fade [lit 1, lit 1, lit 1]).map (·.1) = .ok (faded fade [lit 6, lit 6, lit 6]) := by
  decide +kernel
example : ((lit 2 : F32) * SM.down (lit 3 : F64)) = (lit 6 : F32) * SM.down (lit 1 : F64) := by decide +kernel
example : ∃ a b : ℝ, faded (fun n => ((1 / (n + 1) : ℝ), false)) [(1 : ℝ), 1] = [a, b] ∧ |b - a| ≤ |(1 / (((1 : ℕ) : ℝ) + 1) : ℝ)| * |(1 : ℝ) - 1| + |(1 / (((1 : ℕ) : ℝ) + 1) : ℝ) - 1 / (((0 : ℕ) : ℝ) + 1)| * |(1 : ℝ)| :=
  C179_click _ 1 1 rfl rfl
example : ∃ z : F32, faded (fun _ => ((lit 0 : F64), false)) [(lit 7 : F32)] = [z] ∧ z.Is 0 :=
  C179_zero_volume_partial _ _ 7 (by decide +kernel) rfl

end Verif
