import Mathlib.Algebra.Order.Archimedean.Real.Basic
import Mathlib.Algebra.Order.Floor.Ring

/-! # Reference signals, independent of the model -/

namespace Verif

/-- Linear interpolation of a list at a non-negative position, holding the last sample. -/
noncomputable def lin (d : List ℝ) (p : ℝ) : ℝ :=
  d.getD ⌊p⌋₊ 0 + Int.fract p * (d.getD (min (⌊p⌋₊ + 1) (d.length - 1)) 0 - d.getD ⌊p⌋₊ 0)

/-- Linear interpolation of the periodic extension of a list at a non-negative position. -/
noncomputable def linPer (d : List ℝ) (p : ℝ) : ℝ :=
  let i := ⌊p⌋₊ % d.length
  let j := (⌊p⌋₊ + 1) % d.length
  d.getD i 0 + Int.fract p * (d.getD j 0 - d.getD i 0)

/-- Playback position at distance `p` from the start when playing `[0, le)` once and then `[ls, le)` for ever. -/
noncomputable def loopAt (ls le : ℕ) (p : ℝ) : ℝ :=
  if p < le then p else ls + Int.fract ((p - ls) / (le - ls)) * (le - ls)

/-- Linear interpolation at position `x` in a loop `[ls, le)`: after `le - 1` comes `ls`. -/
noncomputable def linLoop (d : List ℝ) (ls le : ℕ) (x : ℝ) : ℝ :=
  d.getD ⌊x⌋₊ 0 + Int.fract x * (d.getD (if ⌊x⌋₊ + 1 = le then ls else ⌊x⌋₊ + 1) 0 - d.getD ⌊x⌋₊ 0)

end Verif
