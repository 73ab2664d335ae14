import Verif.Model.Arith

/-! # Model of `src/debug.rs` -/

namespace Verif
open Flt

/-- debug.rs 18-23 `float_equal` (line numbers within src/debug.rs); `abs` is a parameter. -/
def floatEqual {F : Type} [Flt F] (a b e : F) (abs : F → F) : Bool := abs (a - b) <? e

/-- debug.rs 27-30 `struct VecReader`. -/
structure VecReader where
  vec : List UInt8
  pos : ℕ

namespace VecReader

/-- debug.rs 34-39 `new`. -/
def new (v : List UInt8) : VecReader := ⟨v, 0⟩

/-- debug.rs 45-49, the `while` loop: fill `buf` from index `n` on. The recursion is on the part of
the buffer not yet visited (`rest = buf[n..]`); returns the new tail of the buffer, the count and
the reader. -/
def readLoop (r : VecReader) : List UInt8 → ℕ → List UInt8 × ℕ × VecReader
  | [], n => ([], n, r)
  | b :: rest, n =>
    match r.vec[r.pos]? with
    | none => (b :: rest, n, r)
    | some x =>
      let (t, m, r') := readLoop { r with pos := r.pos + 1 } rest (n + 1)
      (x :: t, m, r')
  termination_by l => l.length

/-- debug.rs 43-51 `read`: returns the count, the buffer contents after the call, the reader. -/
def read (r : VecReader) (buf : List UInt8) : ℕ × List UInt8 × VecReader :=
  let (b, n, r') := readLoop r buf 0
  (n, b, r')

end VecReader
end Verif
