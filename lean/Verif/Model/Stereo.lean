import Verif.Model.Utils

/-! # Model of `src/sample_format/stereo.rs` -/

namespace Verif
open Flt

/-- stereo.rs 15-20 `struct Stereo`. -/
structure Stereo (S : Type) where
  left : S
  right : S

namespace Stereo
variable {S M : Type} [Flt S] [Flt M] [SM S M] [Libm M]

/-- stereo.rs 24-26 `new`/`Default`. -/
def new : Stereo S := ⟨dflt, dflt⟩
/-- stereo.rs 35-40 `Stereo::from`. -/
def from' (l r : S) : Stereo S := ⟨l, r⟩
/-- stereo.rs 45-50 `from_sample`. -/
def fromSample (x : S) : Stereo S := ⟨x * sqrt (lit (1 / 2)), x * sqrt (lit (1 / 2))⟩
/-- stereo.rs 52-54 `into_sample`. -/
def intoSample (a : Stereo S) : S := (a.left + a.right) / sqrt (lit (1 / 2))
/-- stereo.rs 56-58 `num_samples`. -/
def numSamples : ℕ := 2

/-- stereo.rs 66-82 `Panner<f32>::to_sample_format`; `g <= 0.0` and `g >= 0.0` compare the f32. -/
def panS (M : Type) [Flt M] [SM S M] [Libm M] (s : S) (g : S) : Stereo S :=
  let l : M := if g ≤? lit 0 then clerp (SM.up g) (-lit 1) (lit 0) (-lit 3) (-lit 120)
    else clerp (SM.up g) (lit 0) (lit 1) (lit 0) (-lit 3)
  let r : M := if lit 0 ≤? g then clerp (SM.up g) (lit 0) (lit 1) (-lit 3) (-lit 120)
    else clerp (SM.up g) (-lit 1) (lit 0) (lit 0) (-lit 3)
  ⟨SM.down (dbToLinear l * (SM.up s : M)), SM.down (dbToLinear r * (SM.up s : M))⟩

/-- stereo.rs 85-101 `Panner<f64>::to_sample_format`. -/
def panM (s : S) (g : M) : Stereo S :=
  let l : M := if g ≤? lit 0 then clerp g (-lit 1) (lit 0) (-lit 3) (-lit 120)
    else clerp g (lit 0) (lit 1) (lit 0) (-lit 3)
  let r : M := if lit 0 ≤? g then clerp g (lit 0) (lit 1) (-lit 3) (-lit 120)
    else clerp g (-lit 1) (lit 0) (lit 0) (-lit 3)
  ⟨SM.down (dbToLinear l * (SM.up s : M)), SM.down (dbToLinear r * (SM.up s : M))⟩

/-- stereo.rs 104-113 `neg`. -/
def neg (a : Stereo S) : Stereo S := ⟨-a.left, -a.right⟩
/-- stereo.rs 115-124 `add`. -/
def add (a b : Stereo S) : Stereo S := ⟨a.left + b.left, a.right + b.right⟩
/-- stereo.rs 125-130 `add_assign`. -/
def addAssign (a b : Stereo S) : Stereo S :=
  let a := { a with left := a.left + b.left }
  { a with right := a.right + b.right }
/-- stereo.rs 132-141 `sub`. -/
def sub (a b : Stereo S) : Stereo S := ⟨a.left - b.left, a.right - b.right⟩
/-- stereo.rs 142-147 `sub_assign`. -/
def subAssign (a b : Stereo S) : Stereo S :=
  let a := { a with left := a.left - b.left }
  { a with right := a.right - b.right }
/-- stereo.rs 149-158 `mul`. -/
def mul (a b : Stereo S) : Stereo S := ⟨a.left * b.left, a.right * b.right⟩
/-- stereo.rs 159-164 `mul_assign`. -/
def mulAssign (a b : Stereo S) : Stereo S :=
  let a := { a with left := a.left * b.left }
  { a with right := a.right * b.right }
/-- stereo.rs 166-175 `mul` by `SampleT`. -/
def mulS (a : Stereo S) (k : S) : Stereo S := ⟨a.left * k, a.right * k⟩
/-- stereo.rs 176-181 `mul_assign` by `SampleT`. -/
def mulAssignS (a : Stereo S) (k : S) : Stereo S :=
  let a := { a with left := a.left * k }
  { a with right := a.right * k }
/-- stereo.rs 183-192 `mul` by `MathT`: multiplies in `MathT`, then narrows. -/
def mulM (a : Stereo S) (k : M) : Stereo S :=
  ⟨SM.down ((SM.up a.left : M) * k), SM.down ((SM.up a.right : M) * k)⟩
/-- stereo.rs 193-198 `mul_assign` by `MathT`: narrows the factor, then multiplies in `SampleT`. -/
def mulAssignM (a : Stereo S) (k : M) : Stereo S :=
  let a := { a with left := a.left * SM.down k }
  { a with right := a.right * SM.down k }
/-- stereo.rs 200-204 `From<SampleT>`. -/
def fromS (s : S) : Stereo S := fromSample s
/-- stereo.rs 205-209 `Into<SampleT>`. -/
def intoS (a : Stereo S) : S := a.intoSample

/-- stereo.rs 211-226 `TryFrom<Vec<u8>>`. -/
def tryFromU8 (v : List UInt8) : Except String (Stereo S) :=
  match v with
  | a :: b :: _ => .ok ⟨sampleFromU8 a, sampleFromU8 b⟩
  | _ => .error (Mono.lenError v.length 2)
/-- stereo.rs 227-231 `Into<Vec<u8>>`. -/
def intoU8 (a : Stereo S) : List UInt8 := [sampleToU8 a.left, sampleToU8 a.right]
/-- stereo.rs 233-248 `TryFrom<Vec<i16>>`. -/
def tryFromI16 (v : List Int16) : Except String (Stereo S) :=
  match v with
  | a :: b :: _ => .ok ⟨sampleFromI16 a, sampleFromI16 b⟩
  | _ => .error (Mono.lenError v.length 2)
/-- stereo.rs 249-253 `Into<Vec<i16>>`. -/
def intoI16 (a : Stereo S) : List Int16 := [sampleToI16 a.left, sampleToI16 a.right]
/-- stereo.rs 255-270 `TryFrom<Vec<i32>>`. -/
def tryFromI32 (v : List Int32) : Except String (Stereo S) :=
  match v with
  | a :: b :: _ => .ok ⟨sampleFromI24 a, sampleFromI24 b⟩
  | _ => .error (Mono.lenError v.length 2)
/-- stereo.rs 271-275 `Into<Vec<i32>>`. -/
def intoI32 (a : Stereo S) : List Int32 := [sampleToI24 a.left, sampleToI24 a.right]

end Stereo
end Verif
