import Verif.Proofs.Sine
import Verif.Spec.History
import Verif.Spec.Signal

/-! # Lemmas for the resampler -/

set_option linter.unusedSectionVars false

namespace Verif
open Fl

theorem real_trunc_nonneg {x : ℝ} (h : 0 ≤ x) : Flt.trunc x = (⌊x⌋ : ℝ) := by
  show (if x < 0 then (⌈x⌉ : ℝ) else (⌊x⌋ : ℝ)) = _
  rw [if_neg (not_lt.mpr h)]

theorem real_toUsize_floor {x : ℝ} (h0 : 0 ≤ x) : toUsize x = min (2 ^ 64 - 1) ⌊x⌋₊ := by
  unfold toUsize
  show (max 0 (min (2 ^ 64 - 1) (if x < 0 then ⌈x⌉ else ⌊x⌋))).toNat = _
  rw [if_neg (not_lt.mpr h0)]
  have h3 : 0 ≤ ⌊x⌋ := Int.floor_nonneg.mpr h0
  have h4 : ⌊x⌋ = (⌊x⌋₊ : ℤ) := (Int.natCast_floor_eq_floor h0).symm
  rw [h4]
  omega

namespace MonoResampler

variable {S M : Type} [Flt S] [Flt M] [SM S M]

theorem at'_ok (r : MonoResampler S M) {i : ℕ} (h : i < r.data.length) : r.at' i = .ok r.data[i].mono := by
  unfold at'
  rw [List.getElem?_eq_getElem h]
  rfl

theorem at'_err (r : MonoResampler S M) {i : ℕ} (h : r.data.length ≤ i) : r.at' i = .error .index := by
  unfold at'
  rw [List.getElem?_eq_none h]

/-- `process` once both neighbours are known. -/
theorem process_eq (r : MonoResampler S M) {x1 x2 : S} (h : ¬ (toUsize r.ind ≥ r.data.length ∧ r.loopEnd = 0))
    (h2 : r.nextSample = .ok x2) (h1 : r.at' (toUsize (Flt.trunc r.ind)) = .ok x1) :
    r.process = .ok (x1 + Flt.fract r.ind * (x2 - x1), r.advance) := by
  unfold process
  rw [if_neg h]
  simp only [h1, h2]
  rfl

theorem process_silent (r : MonoResampler S M) (h : toUsize r.ind ≥ r.data.length ∧ r.loopEnd = 0) :
    r.process = .ok (dflt, r) := by
  unfold process
  rw [if_pos h]

/-- Exact arithmetic: the index computations, for a position inside the track. -/
theorem real_index {x : ℝ} (h0 : 0 ≤ x) {len : ℕ} (hlen : len < 2 ^ 63) (hx : x < len) :
    toUsize x = ⌊x⌋₊ ∧ toUsize (Flt.trunc x) = ⌊x⌋₊ ∧ toUsize (Flt.trunc (x + 1)) = ⌊x⌋₊ + 1 ∧
      Flt.fract x = Int.fract x ∧ ⌊x⌋₊ < len := by
  have hf : ⌊x⌋₊ < len := (Nat.floor_lt h0).mpr hx
  have e1 : toUsize x = ⌊x⌋₊ := by rw [real_toUsize_floor h0]; omega
  have e2 : (⌊x⌋ : ℝ) = (⌊x⌋₊ : ℕ) := by
    rw [← Int.natCast_floor_eq_floor h0]; norm_cast
  refine ⟨e1, ?_, ?_, ?_, hf⟩
  · rw [real_trunc_nonneg h0, e2, real_toUsize_floor (by positivity), Nat.floor_natCast]; omega
  · rw [real_trunc_nonneg (by linarith), Int.floor_add_one]
    push_cast
    rw [e2, show ((⌊x⌋₊ : ℕ) : ℝ) + 1 = ((⌊x⌋₊ + 1 : ℕ) : ℝ) by push_cast; ring,
      real_toUsize_floor (by positivity), Nat.floor_natCast]
    omega
  · unfold Flt.fract
    real_simp
    rw [real_trunc_nonneg h0, Int.self_sub_floor]

/-- Exact arithmetic, no loop: inside the track `process` interpolates and advances. -/
theorem real_process (r : MonoResampler ℝ ℝ) (hlen : r.data.length < 2 ^ 63) (h0 : 0 ≤ r.ind) (hl : r.loopEnd = 0)
    (hx : r.ind < r.data.length) :
    r.process = .ok (lin (r.data.map Mono.mono) r.ind, r.advance) := by
  obtain ⟨e1, e2, e3, e4, hf⟩ := real_index h0 hlen hx
  have hg : ∀ i (h : i < r.data.length), (r.data.map Mono.mono).getD i 0 = r.data[i].mono := by
    intro i h
    simp [List.getD_eq_getElem?_getD, h]
  have h1 : r.at' (toUsize (Flt.trunc r.ind)) = .ok r.data[⌊r.ind⌋₊].mono := by rw [e2, at'_ok r hf]
  by_cases hlast : ⌊r.ind⌋₊ + 1 ≥ r.data.length
  · have h2 : r.nextSample = .ok r.data[⌊r.ind⌋₊].mono := by
      unfold nextSample
      simp only [e2]
      rw [if_neg (by omega), if_neg (by tauto), if_pos hlast, at'_ok r hf]
    rw [process_eq r (by rw [e1]; omega) h2 h1, e4]
    unfold lin
    rw [show min (⌊r.ind⌋₊ + 1) ((r.data.map Mono.mono).length - 1) = ⌊r.ind⌋₊ by simp; omega, hg _ hf]
  · have hlt : ⌊r.ind⌋₊ + 1 < r.data.length := by omega
    have h2 : r.nextSample = .ok r.data[⌊r.ind⌋₊ + 1].mono := by
      unfold nextSample
      simp only [e2]
      have : (r.ind + lit 1 : ℝ) = r.ind + 1 := by rw [real_lit]; simp
      rw [if_neg (by omega), if_neg (by tauto), if_neg hlast]
      rw [show @HAdd.hAdd ℝ ℝ ℝ (@instHAdd ℝ Flt.toAdd) r.ind (lit 1) = r.ind + 1 from this, e3, at'_ok r hlt]
    rw [process_eq r (by rw [e1]; omega) h2 h1, e4]
    unfold lin
    rw [show min (⌊r.ind⌋₊ + 1) ((r.data.map Mono.mono).length - 1) = ⌊r.ind⌋₊ + 1 by simp; omega, hg _ hf, hg _ hlt]

/-- Exact arithmetic, no loop: past the end `process` returns silence and does not move. -/
theorem real_process_end (r : MonoResampler ℝ ℝ) (hlen : r.data.length < 2 ^ 63) (h0 : 0 ≤ r.ind) (hl : r.loopEnd = 0)
    (hx : r.data.length ≤ r.ind) : r.process = .ok (0, r) := by
  have : toUsize r.ind ≥ r.data.length := by
    rw [real_toUsize_floor h0]
    have := Nat.le_floor hx
    omega
  rw [process_silent r ⟨this, hl⟩]
  unfold dflt
  real_simp

theorem real_advance (r : MonoResampler ℝ ℝ) (hl : r.loopEnd = 0) :
    r.advance = { r with ind := r.ind + r.inc * r.speed } := by
  unfold advance
  simp only [hl, ne_eq, not_true, decide_false, Bool.and_false, Bool.false_eq_true, if_false]
  real_simp

theorem real_advance_loop (r : MonoResampler ℝ ℝ) (hl : r.loopEnd ≠ 0) :
    r.advance = { r with ind := if (r.loopEnd : ℝ) ≤ r.ind + r.inc * r.speed
      then r.ind + r.inc * r.speed - ((r.loopEnd - r.loopStart : ℕ) : ℝ) else r.ind + r.inc * r.speed } := by
  unfold advance
  simp only [hl, ne_eq, not_false_eq_true, decide_true, Bool.and_true]
  real_simp

end MonoResampler

/-- Two finite non-zero floats of the same value are the same float. -/
theorem Fl.Is.eq_of_ne {f : Fmt} {x y : Fl f} {q : ℚ} (hx : x.Is q) (hy : y.Is q) (hq : q ≠ 0) : x = y := by
  obtain ⟨s, h, rfl⟩ := is_iff.mp hx
  obtain ⟨t, h', rfl⟩ := is_iff.mp hy
  have e : s = t := by
    rcases lt_or_gt_of_ne hq with hlt | hgt
    · rw [h.2.2.1 hlt, h'.2.2.1 hlt]
    · rw [h.2.2.2 hgt, h'.2.2.2 hgt]
  subst e
  rfl

end Verif
