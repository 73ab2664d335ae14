import Verif.Float.Round
import Mathlib.Data.Nat.Sqrt

/-!
# IEEE-754 binary floating point, value level

`Fl f` is the set of data of the format `f`: one NaN (payloads are not modelled), two infinities
and the finite numbers, each finite number being its sign bit and its exact rational value (so
that `+0` and `-0` are different data).  Every operation computes the exact rational result and
rounds once, to nearest, ties to even.
-/

namespace Verif

/-- Validity of a finite datum: representable, below the overflow threshold, sign bit consistent. -/
def Fmt.Ok (f : Fmt) (s : Bool) (q : ℚ) : Prop :=
  f.Repr q ∧ |q| < pow2 (f.emax + 1) ∧ (q < 0 → s = true) ∧ (0 < q → s = false)

/-- A floating point datum of format `f`. -/
inductive Fl (f : Fmt) where
  /-- not a number (payload and signalling bit not modelled) -/
  | nan
  /-- infinity with sign bit `s` -/
  | inf (s : Bool)
  /-- finite number with sign bit `s` and value `q` -/
  | fin (s : Bool) (q : ℚ) (h : f.Ok s q)
  deriving DecidableEq

/-- Rust `f32`. -/
abbrev F32 := Fl b32
/-- Rust `f64`. -/
abbrev F64 := Fl b64

namespace Fl
variable {f : Fmt}

theorem ok_rnd (z : Bool) (q : ℚ) (h : |f.rnd q| < pow2 (f.emax + 1)) :
    f.Ok (if q < 0 then true else if 0 < q then false else z) (f.rnd q) := by
  refine ⟨f.repr_rnd q, h, ?_, ?_⟩
  · intro hr
    have hq : q < 0 := by
      by_contra hc
      exact absurd (f.rnd_nonneg (not_lt.mp hc)) (not_le.mpr hr)
    simp [hq]
  · intro hr
    have hq : 0 < q := by
      by_contra hc
      exact absurd (f.rnd_nonpos (not_lt.mp hc)) (not_le.mpr hr)
    simp [hq, not_lt.mpr hq.le]

/-- Round an exact rational result to the format. `z` is the sign given to an exact zero;
overflow gives an infinity (IEEE-754 §4.3.1, §6.3, §7.4). -/
def ofQ (z : Bool) (q : ℚ) : Fl f :=
  if h : |f.rnd q| < pow2 (f.emax + 1) then
    .fin (if q < 0 then true else if 0 < q then false else z) (f.rnd q) (ok_rnd z q h)
  else .inf (decide (q < 0))

/-- Sign bit flipped: Rust unary minus. -/
def neg : Fl f → Fl f
  | .nan => .nan
  | .inf s => .inf (!s)
  | .fin s q h => .fin (!s) (-q) ⟨f.repr_neg h.1, by rw [abs_neg]; exact h.2.1,
      fun hq => by have := h.2.2.2 (by linarith); simp [this],
      fun hq => by have := h.2.2.1 (by linarith); simp [this]⟩

/-- Rust `abs`. -/
def abs : Fl f → Fl f
  | .nan => .nan
  | .inf _ => .inf false
  | .fin _ q h => .fin false |q| ⟨f.repr_abs h.1, by rw [abs_abs]; exact h.2.1,
      fun hq => absurd (abs_nonneg q) (not_le.mpr hq), fun _ => rfl⟩

/-- Rust `+`. -/
def add : Fl f → Fl f → Fl f
  | .nan, _ => .nan
  | _, .nan => .nan
  | .inf s, .inf t => if s = t then .inf s else .nan
  | .inf s, .fin _ _ _ => .inf s
  | .fin _ _ _, .inf t => .inf t
  | .fin s a _, .fin t b _ => ofQ (s && t) (a + b)

/-- Rust `-` (IEEE: `x - y = x + (-y)`). -/
def sub (x y : Fl f) : Fl f := add x (neg y)

/-- Rust `*`. -/
def mul : Fl f → Fl f → Fl f
  | .nan, _ => .nan
  | _, .nan => .nan
  | .inf s, .inf t => .inf (xor s t)
  | .inf s, .fin t b _ => if b = 0 then .nan else .inf (xor s t)
  | .fin s a _, .inf t => if a = 0 then .nan else .inf (xor s t)
  | .fin s a _, .fin t b _ => ofQ (xor s t) (a * b)

/-- Rust `/`. -/
def div : Fl f → Fl f → Fl f
  | .nan, _ => .nan
  | _, .nan => .nan
  | .inf _, .inf _ => .nan
  | .inf s, .fin t _ _ => .inf (xor s t)
  | .fin s _ _, .inf t => ofQ (xor s t) 0
  | .fin s a _, .fin t b _ =>
      if b = 0 then (if a = 0 then .nan else .inf (xor s t)) else ofQ (xor s t) (a / b)

/-- Rust `<` (false on NaN, `-0 < +0` false). -/
def lt : Fl f → Fl f → Bool
  | .nan, _ => false
  | _, .nan => false
  | .inf s, .inf t => s && !t
  | .inf s, .fin _ _ _ => s
  | .fin _ _ _, .inf t => !t
  | .fin _ a _, .fin _ b _ => decide (a < b)

/-- Rust `<=`. -/
def le : Fl f → Fl f → Bool
  | .nan, _ => false
  | _, .nan => false
  | .inf s, .inf t => s || !t
  | .inf s, .fin _ _ _ => s
  | .fin _ _ _, .inf t => !t
  | .fin _ a _, .fin _ b _ => decide (a ≤ b)

/-- Integer part towards zero of a rational. -/
def truncQ (q : ℚ) : ℤ := if q < 0 then q.ceil else q.floor

/-- Nearest integer, ties away from zero (Rust `round`). -/
def roundAwayQ (q : ℚ) : ℤ := if q < 0 then -(-q + 1 / 2).floor else (q + 1 / 2).floor

/-- Rust `floor`. -/
def floor : Fl f → Fl f
  | .fin s q _ => ofQ s q.floor
  | x => x

/-- Rust `trunc`. -/
def trunc : Fl f → Fl f
  | .fin s q _ => ofQ s (truncQ q)
  | x => x

/-- Rust `round`: half away from zero. -/
def round : Fl f → Fl f
  | .fin s q _ => ofQ s (roundAwayQ q)
  | x => x

/-- Rust saturating `as` cast to an integer type with range `[lo, hi]` (Rust ≥ 1.45): truncate
towards zero, saturate, NaN gives 0. -/
def toInt (lo hi : ℤ) : Fl f → ℤ
  | .nan => 0
  | .inf true => lo
  | .inf false => hi
  | .fin _ q _ => max lo (min hi (truncQ q))

/-- Rational just precise enough that rounding it gives the correctly rounded square root:
the integer square root at a quarter ulp, plus a sticky half unit when inexact. -/
def sqrtQ (f : Fmt) (q : ℚ) : ℚ :=
  let u := max (ilog2 q / 2 - (f.p - 1)) f.emin
  let k := 2 - u
  let m : ℚ := ((q * pow2 (2 * k)).floor.toNat.sqrt : ℕ)
  let r0 := m * pow2 (-k)
  if r0 * r0 = q then r0 else r0 + pow2 (-k - 1)

/-- Rust `sqrt` (correctly rounded; NaN below zero, `sqrt(-0) = -0`). -/
def sqrt : Fl f → Fl f
  | .nan => .nan
  | .inf s => if s then .nan else .inf false
  | .fin s q h => if q < 0 then .nan else if q = 0 then .fin s q h else ofQ false (sqrtQ f q)

/-- Is NaN. -/
def isNaN : Fl f → Bool
  | .nan => true
  | _ => false

/-- Rust `min`: the other argument if one is NaN. (For `min(+0,-0)` either may be returned; the
model returns the second.) -/
def fmin (x y : Fl f) : Fl f :=
  if x.isNaN then y else if y.isNaN then x else if lt x y then x else y

/-- Rust `max`, same conventions. -/
def fmax (x y : Fl f) : Fl f :=
  if x.isNaN then y else if y.isNaN then x else if lt y x then x else y

/-- Rust `as` cast between float types: round once (exact when widening). -/
def conv {g : Fmt} : Fl f → Fl g
  | .nan => .nan
  | .inf s => .inf s
  | .fin s q _ => ofQ s q

/-! ## Reading values back -/

/-- The rational value of a finite datum. -/
def toQ? : Fl f → Option ℚ
  | .fin _ q _ => some q
  | _ => none

/-- `x` is finite with value `q`. -/
def Is (x : Fl f) (q : ℚ) : Prop := x.toQ? = some q

/-- `x` is finite. -/
def Finite (x : Fl f) : Prop := ∃ q, x.Is q

instance (x : Fl f) (q : ℚ) : Decidable (x.Is q) := inferInstanceAs (Decidable (_ = _))

end Fl
end Verif
