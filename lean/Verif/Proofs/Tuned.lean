import Verif.Proofs.Filters
import Verif.Spec.Tuned

/-! # Recurrences of filters that are retuned while they run -/

namespace Verif
section
variable {S M : Type} [Flt S] [Flt M] [SM S M] [Libm M]

/-- Cutoff and resonance set together. -/
def LowPass.tune (m : LowPass S M) (q : M × M) : LowPass S M := (m.setCentralFrequency q.1).setResonance q.2
/-- Cutoff and resonance set together. -/
def HighPass.tune (m : HighPass S M) (q : M × M) : HighPass S M := (m.setCentralFrequency q.1).setResonance q.2

/-- The outputs `Y 3, Y 4, …` of a retuned low pass filter, preceded by its output history. -/
theorem lp_tuned (m : LowPass S M) (q : ℕ → M × M) (x : ℕ → S) : ∃ Y : ℕ → S, Y 0 = m.o2 ∧ Y 1 = m.o1 ∧ Y 2 = m.o0 ∧
    ∀ n, tunedOut LowPass.tune Modifier.process q x m n = (.ok (Y (n + 3)) : Res S) ∧
      Y (n + 3) = (LowPass.new (q n).1 (q n).2 : LowPass S M).c0 * x n + (LowPass.new (q n).1 (q n).2 : LowPass S M).c1 * Y (n + 2) +
        (LowPass.new (q n).1 (q n).2 : LowPass S M).c2 * Y (n + 1) + (LowPass.new (q n).1 (q n).2 : LowPass S M).c3 * Y n := by
  obtain ⟨s, h0, hs, -, ho⟩ := tuned_exists (E := Panic) LowPass.tune LowPass.process q x m
  let Y : ℕ → S := fun n => match n with
    | 0 => m.o2
    | 1 => m.o1
    | 2 => m.o0
    | n + 3 => (((s n).tune (q n)).process (x n)).1
  have key : ∀ n, (s n).o0 = Y (n + 2) ∧ (s n).o1 = Y (n + 1) ∧ (s n).o2 = Y n := by
    intro n
    induction n with
    | zero => rw [h0]; exact ⟨rfl, rfl, rfl⟩
    | succ n ih =>
      rw [hs n]
      exact ⟨rfl, ih.1, ih.2.1⟩
  refine ⟨Y, rfl, rfl, rfl, fun n => ⟨ho n, ?_⟩⟩
  obtain ⟨e0, e1, e2⟩ := key n
  rw [← e0, ← e1, ← e2]
  rfl

/-- The same for the high pass filter; `U 3, U 4, …` are the inputs. -/
theorem hp_tuned (m : HighPass S M) (q : ℕ → M × M) (x : ℕ → S) : ∃ U Y : ℕ → S,
    (U 0 = m.x3 ∧ U 1 = m.x2 ∧ U 2 = m.x1 ∧ ∀ n, U (n + 3) = x n) ∧ (Y 0 = m.y3 ∧ Y 1 = m.y2 ∧ Y 2 = m.y1) ∧
    ∀ n, tunedOut HighPass.tune Modifier.process q x m n = (.ok (Y (n + 3)) : Res S) ∧
      Y (n + 3) = (HighPass.new (q n).1 (q n).2 : HighPass S M).a0 * x n + (HighPass.new (q n).1 (q n).2 : HighPass S M).a1 * U (n + 2) +
        (HighPass.new (q n).1 (q n).2 : HighPass S M).a2 * U (n + 1) + (HighPass.new (q n).1 (q n).2 : HighPass S M).a3 * U n +
        (HighPass.new (q n).1 (q n).2 : HighPass S M).b1 * Y (n + 2) +
        (HighPass.new (q n).1 (q n).2 : HighPass S M).b2 * Y (n + 1) + (HighPass.new (q n).1 (q n).2 : HighPass S M).b3 * Y n := by
  obtain ⟨s, h0, hs, -, ho⟩ := tuned_exists (E := Panic) HighPass.tune HighPass.process q x m
  let Y : ℕ → S := fun n => match n with
    | 0 => m.y3
    | 1 => m.y2
    | 2 => m.y1
    | n + 3 => (((s n).tune (q n)).process (x n)).1
  let U : ℕ → S := fun n => match n with
    | 0 => m.x3
    | 1 => m.x2
    | 2 => m.x1
    | n + 3 => x n
  have key : ∀ n, ((s n).y1 = Y (n + 2) ∧ (s n).y2 = Y (n + 1) ∧ (s n).y3 = Y n) ∧ (s n).x1 = U (n + 2) ∧ (s n).x2 = U (n + 1) ∧ (s n).x3 = U n := by
    intro n
    induction n with
    | zero => rw [h0]; exact ⟨⟨rfl, rfl, rfl⟩, rfl, rfl, rfl⟩
    | succ n ih =>
      rw [hs n]
      exact ⟨⟨rfl, ih.1.1, ih.1.2.1⟩, rfl, ih.2.1, ih.2.2.1⟩
  refine ⟨U, Y, ⟨rfl, rfl, rfl, fun n => rfl⟩, ⟨rfl, rfl, rfl⟩, fun n => ⟨ho n, ?_⟩⟩
  obtain ⟨⟨e0, e1, e2⟩, e3, e4, e5⟩ := key n
  rw [← e0, ← e1, ← e2, ← e3, ← e4, ← e5]
  rfl

/-- The same for the band pass filter and its corners; `U 2, U 3, …` are the inputs. -/
theorem bp_tuned (m : BandPass S M) (q : ℕ → M × M) (x : ℕ → S) : ∃ (s : ℕ → BandPass S M) (U Y : ℕ → S),
    (U 0 = m.x2 ∧ U 1 = m.x1 ∧ ∀ n, U (n + 2) = x n) ∧ (Y 0 = m.y2 ∧ Y 1 = m.y1) ∧
    ∀ n, tunedOut BandPass.setCornerFrequencies Modifier.process q x m n = (.ok (Y (n + 2)) : Res S) ∧
      Y (n + 2) = SM.down (((s n).setCornerFrequencies (q n)).a0 * SM.up (x n - U n) + ((s n).setCornerFrequencies (q n)).b1 * SM.up (Y (n + 1)) -
        ((s n).setCornerFrequencies (q n)).b2 * SM.up (Y n)) := by
  obtain ⟨s, h0, hs, -, ho⟩ := tuned_exists (E := Panic) BandPass.setCornerFrequencies BandPass.process q x m
  let Y : ℕ → S := fun n => match n with
    | 0 => m.y2
    | 1 => m.y1
    | n + 2 => (((s n).setCornerFrequencies (q n)).process (x n)).1
  let U : ℕ → S := fun n => match n with
    | 0 => m.x2
    | 1 => m.x1
    | n + 2 => x n
  have key : ∀ n, ((s n).y1 = Y (n + 1) ∧ (s n).y2 = Y n) ∧ (s n).x1 = U (n + 1) ∧ (s n).x2 = U n := by
    intro n
    induction n with
    | zero => rw [h0]; exact ⟨⟨rfl, rfl⟩, rfl, rfl⟩
    | succ n ih =>
      rw [hs n]
      exact ⟨⟨rfl, ih.1.1⟩, rfl, ih.2.1⟩
  refine ⟨s, U, Y, ⟨rfl, rfl, fun n => rfl⟩, ⟨rfl, rfl⟩, fun n => ⟨ho n, ?_⟩⟩
  obtain ⟨⟨e0, e1⟩, -, e5⟩ := key n
  rw [← e0, ← e1, ← e5]
  rfl
end
end Verif
