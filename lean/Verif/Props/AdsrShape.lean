import Verif.Model.Modifiers
import Verif.Model.ArithReal
import Verif.Float.Lemmas
import Verif.Float.Order

set_option linter.unusedSectionVars false

/-! # The envelope does not listen to the sound: C180 -/

namespace Verif
open Fl

section
variable {S M : Type} [Flt S] [Flt M] [SM S M] [Libm M]

/-- An envelope is played; the flag says whether `release()` is called before the sample. -/
def ADSR.play : List (Bool × S) → ADSR S → List S × ADSR S
  | [], m => ([], m)
  | (b, x) :: cs, m =>
    let m := if b then m.doRelease else m
    let (y, m) := m.process x
    let (ys, m) := play cs m
    (y :: ys, m)

/-- A gain, or nothing at all. -/
def shaped (g : Option S) (x : S) : S :=
  match g with
  | none => dflt
  | some g => x * g

private theorem process_shape (m : ADSR S) : ∃ (g : Option S) (m' : ADSR S), ∀ x, m.process x = (shaped g x, m') := by
  unfold ADSR.process
  cases m.state with
  | attack => exact ⟨some _, _, fun x => rfl⟩
  | decay => exact ⟨some _, _, fun x => rfl⟩
  | sustain => exact ⟨some _, _, fun x => rfl⟩
  | release => exact ⟨some _, _, fun x => rfl⟩
  | stopped => exact ⟨none, _, fun x => rfl⟩

/-- In any arithmetic, from any state: the moments of release fix the course of the envelope. There is one sequence of gains by which
whatever is played is multiplied, and the envelope ends in the same state whatever was played. -/
theorem C180_course (m : ADSR S) (rel : List Bool) :
    ∃ gs m', gs.length = rel.length ∧ ∀ xs : List S, xs.length = rel.length → m.play (rel.zip xs) = (List.zipWith shaped gs xs, m') := by
  induction rel generalizing m with
  | nil =>
    refine ⟨[], m, rfl, fun xs h => ?_⟩
    rw [List.length_eq_zero_iff.mp h]
    rfl
  | cons b rel ih =>
    obtain ⟨g, m1, h1⟩ := process_shape (if b then m.doRelease else m)
    obtain ⟨gs, m', hl, hy⟩ := ih m1
    refine ⟨g :: gs, m', by simp [hl], fun xs h => ?_⟩
    cases xs with
    | nil => simp at h
    | cons x xs =>
      have := hy xs (by simpa using h)
      show ADSR.play ((b, x) :: rel.zip xs) m = _
      simp only [ADSR.play, h1, this, List.zipWith_cons_cons]

/-- Two envelopes with the same settings on the two sides of a stereo sound, released together: both sides are multiplied by the same
gains, and the envelopes stay equal. -/
theorem C180_stereo (a d r : Duration) (s : M) (rel : List Bool) (ls rs : List S) (hl : ls.length = rel.length) (hr : rs.length = rel.length) :
    ∃ gs : List (Option S), gs.length = rel.length ∧ ((ADSR.new a d s r : ADSR S).play (rel.zip ls)).1 = List.zipWith shaped gs ls ∧
      ((ADSR.new a d s r : ADSR S).play (rel.zip rs)).1 = List.zipWith shaped gs rs ∧
      ((ADSR.new a d s r : ADSR S).play (rel.zip ls)).2 = ((ADSR.new a d s r : ADSR S).play (rel.zip rs)).2 := by
  obtain ⟨gs, m', h, hy⟩ := C180_course (ADSR.new a d s r : ADSR S) rel
  exact ⟨gs, h, by rw [hy ls hl], by rw [hy rs hr], by rw [hy ls hl, hy rs hr]⟩

/-- In any arithmetic: releasing again while the release lasts changes nothing. -/
theorem C180_release_again (m : ADSR S) (x : S) (hm : m.state = .release) : m.doRelease.process x = m.process x := by
  have : m.doRelease = m := by
    cases m
    simp only at hm
    subst hm
    rfl
  rw [this]

/-- In any arithmetic: releasing a note that has ended does not revive it: the sample is multiplied by zero and the envelope is where it
was. -/
theorem C180_release_after_end (m : ADSR S) (x : S) (hm : m.state = .stopped) (hg : m.g = lit 0) (hr : (lit 0 + m.r ≤? lit 0) = true) :
    m.doRelease.process x = (x * lit 0, m) := by
  cases m
  simp only at hm hg hr
  subst hm; subst hg
  simp only [ADSR.doRelease, ADSR.process, hr]
  rfl
end

/-- Exact: an envelope is linear, from any state, with releases at any moment: sums and multiples of sounds are shaped into sums and
multiples. -/
theorem C180_linear (m : ADSR ℝ) (rel : List Bool) (xs ys : List ℝ) (c : ℝ) (hx : xs.length = rel.length) (hy : ys.length = rel.length) :
    (m.play (rel.zip (List.zipWith (fun x y => x + c * y) xs ys))).1 =
      List.zipWith (fun x y => x + c * y) (m.play (rel.zip xs)).1 (m.play (rel.zip ys)).1 := by
  obtain ⟨gs, m', hg, h⟩ := C180_course m rel
  rw [h xs hx, h ys hy, h _ (by simp [hx, hy])]
  clear h
  have key : ∀ (gs : List (Option ℝ)) (xs ys : List ℝ), List.zipWith shaped gs (List.zipWith (fun x y => x + c * y) xs ys) =
      List.zipWith (fun x y => x + c * y) (List.zipWith shaped gs xs) (List.zipWith shaped gs ys) := by
    intro gs
    induction gs with
    | nil => intros; simp
    | cons g gs ih =>
      intro xs ys
      cases xs with
      | nil => simp
      | cons x xs =>
        cases ys with
        | nil => simp
        | cons y ys =>
          simp only [List.zipWith_cons_cons, ih]
          congr 1
          cases g with
          | none =>
            show (dflt : ℝ) = dflt + c * dflt
            have : (dflt : ℝ) = 0 := Rat.cast_zero
            rw [this]; ring
          | some g =>
            show (x + c * y) * g = x * g + c * (y * g)
            ring
  exact key gs xs ys

/-- Exact: an envelope and a constant gain may change places, and so may two envelopes with releases at any moments. -/
theorem C180_order (m m2 : ADSR ℝ) (rel rel2 : List Bool) (c : ℝ) (xs : List ℝ) (hx : xs.length = rel.length) (h2 : rel2.length = rel.length) :
    (m.play (rel.zip (xs.map (fun x => ((Gain.new c).process x).1)))).1 = (m.play (rel.zip xs)).1.map (fun x => ((Gain.new c).process x).1) ∧
    (m2.play (rel2.zip (m.play (rel.zip xs)).1)).1 = (m.play (rel.zip (m2.play (rel2.zip xs)).1)).1 := by
  obtain ⟨gs, m', hg, h⟩ := C180_course m rel
  obtain ⟨gs2, m2', hg2, h'⟩ := C180_course m2 rel2
  have z : (dflt : ℝ) = 0 := Rat.cast_zero
  constructor
  · rw [h xs hx, h _ (by simp [hx])]
    clear h hx hg
    dsimp only
    induction gs generalizing xs with
    | nil => simp
    | cons g gs ih =>
      cases xs with
      | nil => simp
      | cons x xs =>
        simp only [List.map_cons, List.zipWith_cons_cons, ih]
        congr 1
        cases g with
        | none => show (dflt : ℝ) = dflt * c; rw [z, zero_mul]
        | some g => show x * c * g = x * g * c; ring
  · rw [h xs hx, h' xs (by omega), h _ (by simp [hg2, hx, h2]), h' _ (by simp [hg, hx, h2])]
    clear h h' hx h2 hg hg2
    dsimp only
    induction gs generalizing xs gs2 with
    | nil => simp
    | cons g gs ih =>
      cases xs with
      | nil => simp
      | cons x xs =>
        cases gs2 with
        | nil => simp
        | cons g2 gs2 =>
          simp only [List.zipWith_cons_cons]
          rw [ih]
          congr 1
          cases g with
          | none =>
            cases g2 with
            | none => rfl
            | some g2 => show (dflt : ℝ) * g2 = dflt; rw [z, zero_mul]
          | some g =>
            cases g2 with
            | none => show (dflt : ℝ) = dflt * g; rw [z, zero_mul]
            | some g2 => show x * g * g2 = x * g2 * g; ring

/-! ## Examples -/

/-- A short note in binary32: attack of four samples, released at the third. -/
private def exNote : ADSR F32 := ⟨lit (1 / 4), lit (-1 / 4), lit (1 / 2), lit (-1 / 4), .attack, lit 0⟩
example : (exNote.play ([false, false, true, false, false].zip [lit 8, lit 8, lit 8, lit 8, lit 8])).1 =
    List.zipWith shaped [some (lit (1 / 4)), some (lit (1 / 2)), some (lit (1 / 4)), some (lit 0), none] [lit 8, lit 8, lit 8, lit 8, lit 8] := by
  decide +kernel
example : (exNote.play ([false, false, true].zip [lit 8, lit 8, lit 8])).2.state = .release := by decide +kernel
example : (exNote.play ([false, false, true, false].zip [lit 8, lit 8, lit 8, lit 8])).2.state = .stopped ∧
    (exNote.play ([false, false, true, false].zip [lit 8, lit 8, lit 8, lit 8])).2.g = lit 0 ∧ ((lit 0 + exNote.r) ≤? lit 0) = true := by decide +kernel
/-- Hypotheses of `C180_linear` and `C180_order`: three samples, one release. -/
example (m : ADSR ℝ) : (m.play ([false, true, false].zip [1 + 2 * 4, 2 + 2 * 5, 3 + 2 * 6])).1 =
    List.zipWith (fun x y => x + 2 * y) (m.play ([false, true, false].zip [1, 2, 3])).1 (m.play ([false, true, false].zip [4, 5, 6])).1 :=
  C180_linear m [false, true, false] [1, 2, 3] [4, 5, 6] 2 rfl rfl

end Verif
