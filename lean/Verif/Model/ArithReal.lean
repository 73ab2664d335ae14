import Verif.Model.Arith
import Mathlib.Analysis.SpecialFunctions.Pow.Real
import Mathlib.Analysis.SpecialFunctions.Log.Base
import Mathlib.Analysis.SpecialFunctions.Trigonometric.Basic

/-!
# Exact real arithmetic

The same model code, read with `SampleT = MathT = ℝ`, exact operations and the mathematical
functions. Division by zero gives `0` here (Lean's convention), so theorems over `ℝ` carry the
hypotheses that exclude it.
-/

namespace Verif
open Classical in
noncomputable instance instFltReal : Flt ℝ where
  add := (· + ·)
  sub := (· - ·)
  mul := (· * ·)
  div := (· / ·)
  neg := (- ·)
  lt a b := decide (a < b)
  le a b := decide (a ≤ b)
  lit q := (q : ℝ)
  abs x := |x|
  sqrt x := Real.sqrt x
  floor x := ⌊x⌋
  trunc x := if x < 0 then ⌈x⌉ else ⌊x⌋
  round x := if x < 0 then -⌊-x + 1 / 2⌋ else ⌊x + 1 / 2⌋
  fmin a b := min a b
  fmax a b := max a b
  toInt lo hi x := max lo (min hi (if x < 0 then ⌈x⌉ else ⌊x⌋))

noncomputable instance instLibmReal : Libm ℝ where
  sin := Real.sin
  cos := Real.cos
  tan := Real.tan
  log10 x := Real.logb 10 x
  pow x y := x ^ y

noncomputable instance instSMReal : SM ℝ ℝ where
  up x := x
  down x := x
  piS := Real.pi
  piM := Real.pi

section
variable (a b : ℝ)
theorem real_add : @HAdd.hAdd ℝ ℝ ℝ (@instHAdd ℝ Flt.toAdd) a b = a + b := rfl
theorem real_sub : @HSub.hSub ℝ ℝ ℝ (@instHSub ℝ Flt.toSub) a b = a - b := rfl
theorem real_mul : @HMul.hMul ℝ ℝ ℝ (@instHMul ℝ Flt.toMul) a b = a * b := rfl
theorem real_div : @HDiv.hDiv ℝ ℝ ℝ (@instHDiv ℝ Flt.toDiv) a b = a / b := rfl
theorem real_neg : @Neg.neg ℝ Flt.toNeg a = -a := rfl
theorem real_lt : (a <? b) = true ↔ a < b := by simp [Flt.lt]
theorem real_le : (a ≤? b) = true ↔ a ≤ b := by simp [Flt.le]
theorem real_lit (q : ℚ) : (lit q : ℝ) = q := rfl
theorem real_abs : Flt.abs a = |a| := rfl
theorem real_sqrt : Flt.sqrt a = Real.sqrt a := rfl
theorem real_fmin : Flt.fmin a b = min a b := rfl
theorem real_fmax : Flt.fmax a b = max a b := rfl
theorem real_floor : Flt.floor a = (⌊a⌋ : ℝ) := rfl
theorem real_up : (SM.up a : ℝ) = a := rfl
theorem real_down : (SM.down a : ℝ) = a := rfl
theorem real_piS : (SM.piS ℝ : ℝ) = Real.pi := rfl
theorem real_piM : (SM.piM ℝ : ℝ) = Real.pi := rfl
theorem real_sin : Libm.sin a = Real.sin a := rfl
theorem real_cos : Libm.cos a = Real.cos a := rfl
theorem real_tan : Libm.tan a = Real.tan a := rfl
theorem real_log10 : Libm.log10 a = Real.logb 10 a := rfl
theorem real_pow : Libm.pow a b = a ^ b := rfl
theorem real_sr : (srM : ℝ) = 48000 := by simp [srM, real_lit, SAMPLE_RATE]
theorem real_inv : (invSR : ℝ) = 1 / 48000 := by
  simp [invSR, real_sr, real_lit]
end

/-- Rewrites the model's operations at `ℝ` to Mathlib's. -/
macro "real_simp" : tactic => `(tactic|
  simp only [real_add, real_sub, real_mul, real_div, real_neg, real_lt, Bool.or_eq_true, Bool.and_eq_true, real_le, real_lit, real_abs,
    real_sqrt, real_fmin, real_fmax, real_floor, real_up, real_down, real_piS, real_piM, real_sin,
    real_cos, real_tan, real_log10, real_pow, real_sr, real_inv, Rat.cast_ofNat, Rat.cast_zero,
    Rat.cast_one, Rat.cast_natCast, Rat.cast_intCast])

end Verif
