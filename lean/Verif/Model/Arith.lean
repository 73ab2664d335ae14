import Verif.Float.Fl

/-!
# The arithmetic interface of the model

The Rust code computes with `SampleT = f32` and `MathT = f64` (src/lib.rs 48-53).  The model is
written once over the interface below and interpreted in IEEE arithmetic (`F32`, `F64`) and in
exact real arithmetic.
-/

namespace Verif

/-- The operations of a Rust primitive float type. -/
class Flt (F : Type) extends Add F, Sub F, Mul F, Div F, Neg F where
  /-- `<` -/
  lt : F → F → Bool
  /-- `<=` -/
  le : F → F → Bool
  /-- a literal or an integer cast: the given rational, rounded -/
  lit : ℚ → F
  /-- `abs` -/
  abs : F → F
  /-- `sqrt` -/
  sqrt : F → F
  /-- `floor` -/
  floor : F → F
  /-- `trunc` -/
  trunc : F → F
  /-- `round` -/
  round : F → F
  /-- `min` -/
  fmin : F → F → F
  /-- `max` -/
  fmax : F → F → F
  /-- saturating `as` cast to an integer type with the given range -/
  toInt : ℤ → ℤ → F → ℤ

/-- The functions the standard library takes from the platform's libm; their accuracy is not
specified by Rust. -/
class Libm (F : Type) where
  /-- `sin` -/
  sin : F → F
  /-- `cos` -/
  cos : F → F
  /-- `tan` -/
  tan : F → F
  /-- `log10` -/
  log10 : F → F
  /-- `powf` -/
  pow : F → F → F

/-- The casts `as f64` (`up`) and `as f32` (`down`) between `SampleT` and `MathT`. -/
class SM (S M : Type) where
  /-- `SampleT as MathT` -/
  up : S → M
  /-- `MathT as SampleT` -/
  down : M → S
  /-- `std::f32::consts::PI` -/
  piS : S
  /-- `std::f64::consts::PI` -/
  piM : M

export Flt (lit)

instance Fl.instFlt {f : Fmt} : Flt (Fl f) where
  add := Fl.add
  sub := Fl.sub
  mul := Fl.mul
  div := Fl.div
  neg := Fl.neg
  lt := Fl.lt
  le := Fl.le
  lit := Fl.ofQ false
  abs := Fl.abs
  sqrt := Fl.sqrt
  floor := Fl.floor
  trunc := Fl.trunc
  round := Fl.round
  fmin := Fl.fmin
  fmax := Fl.fmax
  toInt := Fl.toInt

/-- Casts between `f32` and `f64`. The constants are the rounded values of π given by the
decimal expansions in `core::f32::consts` and `core::f64::consts`. -/
instance Fl.instSM : SM F32 F64 where
  up := Fl.conv
  down := Fl.conv
  piS := lit (314159265358979323846264338327950288 / 10 ^ 35)
  piM := lit (314159265358979323846264338327950288 / 10 ^ 35)

section
variable {F : Type} [Flt F]

/-- `x.fract()`: `self - self.trunc()`. -/
def Flt.fract (x : F) : F := x - Flt.trunc x

/-- `x as usize` (64-bit target). -/
def toUsize (x : F) : ℕ := (Flt.toInt 0 (2 ^ 64 - 1) x).toNat

end

/-- `x < y` on floats, as in the Rust source. -/
scoped infix:50 " <? " => Flt.lt
/-- `x <= y` on floats, as in the Rust source. -/
scoped infix:50 " ≤? " => Flt.le

/-- Reasons for a Rust panic. -/
inductive Panic where
  /-- `Option::unwrap` / `expect` on `None`, or `Result::expect` on `Err` -/
  | unwrapNone
  /-- slice, array, Vec or VecDeque index out of bounds -/
  | index
  /-- integer remainder by zero -/
  | remZero
  /-- `Duration::from_secs_f64` on a negative, NaN or overflowing argument -/
  | duration
  /-- a petgraph node index that is not in the graph -/
  | badNode
  /-- arithmetic overflow (checked in debug builds; in the one place it is used, release builds
  wrap to 0 and then panic on the next index, see `MonoResampler.nextSample`) -/
  | overflow
  /-- `Vec` capacity overflow -/
  | capacity
  deriving DecidableEq, Repr

/-- A computation that may panic. -/
abbrev Res (α : Type) := Except Panic α

/-- `src/lib.rs` 56: `SAMPLE_RATE`. -/
def SAMPLE_RATE : ℕ := 48000

/-- `SAMPLE_RATE as MathT` (or `as f64`). -/
def srM {M : Type} [Flt M] : M := lit (SAMPLE_RATE : ℚ)

/-- `src/lib.rs` 58: `INV_SAMPLE_RATE = 1.0/(SAMPLE_RATE as MathT)`. -/
def invSR {M : Type} [Flt M] : M := lit 1 / srM

end Verif
