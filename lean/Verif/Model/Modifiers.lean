import Verif.Model.Utils

/-! # Model of `src/modifiers/*.rs`

Allocation failure is not modelled, and `usize` arithmetic on buffer lengths is on `ℕ`. -/

namespace Verif
open Flt

/-- modifiers/mod.rs 34-42 `trait Modifier`. -/
class Modifier (X S : Type) where
  /-- modifiers/mod.rs 41 -/
  process : X → S → Res (S × X)

/-! ## modifiers/gain.rs -/

/-- gain.rs 7-10. -/
structure Gain (S : Type) where
  a : S

namespace Gain
variable {S : Type} [Flt S]
/-- gain.rs 14-18. -/
def new (a : S) : Gain S := ⟨a⟩
/-- gain.rs 22-24. -/
def process (m : Gain S) (x : S) : S × Gain S := (x * m.a, m)
/-- gain.rs 21. -/
instance : Modifier (Gain S) S := ⟨fun m x => .ok (m.process x)⟩
end Gain

/-! ## modifiers/passthrough.rs -/

/-- passthrough.rs 7. -/
structure Passthrough where

namespace Passthrough
variable {S : Type} [Flt S]
/-- passthrough.rs 18-20. -/
def process (m : Passthrough) (x : S) : S × Passthrough := (x, m)
/-- passthrough.rs 17. -/
instance : Modifier Passthrough S := ⟨fun m x => .ok (m.process x)⟩
end Passthrough

/-! ## modifiers/delay.rs -/

/-- delay.rs 9-11. The deque's front is the head of the list. -/
structure Delay (S : Type) where
  delay : List S

namespace Delay
variable {S : Type} [Flt S]
/-- delay.rs 16-26. -/
def new (M : Type) [Flt M] (d : Duration) : Delay S :=
  ⟨List.replicate (toUsize (round ((d.asSecs : M) * srM))) dflt⟩
/-- delay.rs 29-31; `fromSecs` is `Duration::from_secs_f64`. -/
def getDelay {M : Type} [Flt M] (fromSecs : M → Res Duration) (m : Delay S) : Res Duration :=
  fromSecs (lit (m.delay.length : ℚ) / srM)
/-- delay.rs 35-39. -/
def process (m : Delay S) (x : S) : Res (S × Delay S) :=
  match m.delay ++ [x] with
  | [] => .error .unwrapNone
  | y :: q => .ok (y, ⟨q⟩)
/-- delay.rs 42-56. -/
def clone (m : Delay S) : Delay S := ⟨List.replicate (m.delay.length * SAMPLE_RATE) dflt⟩
/-- delay.rs 34. -/
instance : Modifier (Delay S) S := ⟨process⟩
end Delay

/-! ## modifiers/echo.rs -/

/-- echo.rs 8-11. -/
structure Echo (S : Type) where
  delay : List S
  gain : S

namespace Echo
variable {S M : Type} [Flt S] [Flt M] [SM S M]
/-- echo.rs 18-28. -/
def new (d : Duration) (g : M) : Echo S :=
  ⟨List.replicate (toUsize ((d.asSecs : M) * srM)) dflt, SM.down g⟩
/-- echo.rs 32-37. -/
def process (m : Echo S) (x : S) : Res (S × Echo S) :=
  match m.delay with
  | [] => .error .unwrapNone
  | d :: q =>
    let wet := d * m.gain + x
    .ok (wet, { m with delay := q ++ [wet] })
/-- echo.rs 40-55. -/
def clone (m : Echo S) : Echo S := ⟨List.replicate (m.delay.length * SAMPLE_RATE) dflt, m.gain⟩
/-- echo.rs 31. -/
instance : Modifier (Echo S) S := ⟨process⟩
end Echo

/-! ## modifiers/envelope.rs -/

/-- envelope.rs 7-15. -/
structure Envelope (S : Type) where
  au : S
  bu : S
  ad : S
  bd : S
  x1 : S
  y1 : S

namespace Envelope
variable {S : Type} [Flt S]
/-- envelope.rs 22-35. `INV_SAMPLE_RATE as SampleT` narrows the `MathT` constant. -/
def new (M : Type) [Flt M] [SM S M] [Libm S] (lower upper : S) : Envelope S :=
  let tu := Libm.tan (SM.piS M * upper * SM.down (invSR : M))
  let td := Libm.tan (SM.piS M * lower * SM.down (invSR : M))
  ⟨tu / (lit 1 + tu), (lit 1 - tu) / (lit 1 + tu), td / (lit 1 + td), (lit 1 - td) / (lit 1 + td),
    dflt, dflt⟩
/-- envelope.rs 39-50. -/
def process (m : Envelope S) (x : S) : S × Envelope S :=
  let y := if m.y1 <? Flt.abs x then m.au * (Flt.abs x + Flt.abs m.x1) + m.bu * m.y1
    else m.ad * (Flt.abs x + Flt.abs m.x1) + m.bd * m.y1
  (y, { m with y1 := y, x1 := x })
/-- envelope.rs 53-65. -/
def clone (m : Envelope S) : Envelope S := ⟨m.au, m.bu, m.ad, m.bd, dflt, dflt⟩
/-- envelope.rs 38. -/
instance : Modifier (Envelope S) S := ⟨fun m x => .ok (m.process x)⟩
end Envelope

/-! ## modifiers/generic.rs -/

/-- generic.rs 22-27; deques are lists, front first. -/
structure Generic (S : Type) where
  zeros : List (ℕ × S)
  poles : List (ℕ × S)
  inputs : List S
  outputs : List S

namespace Generic
variable {S : Type} [Flt S]
/-- generic.rs 32-36, 37-41: one more than the index of the last tap, 0 without taps. -/
def back (l : List (ℕ × S)) : ℕ :=
  match l.getLast? with
  | some z => z.1 + 1
  | none => 0
/-- generic.rs 31-60. -/
def new (zeros poles : List (ℕ × S)) : Generic S :=
  ⟨zeros, poles, List.replicate (back zeros) dflt, List.replicate (back poles) dflt⟩
/-- `push_front` then `pop_back` (generic.rs 67-68, 77-78). -/
def shift (q : List S) (x : S) : List S := (x :: q).dropLast
/-- generic.rs 70-72 / 73-75: accumulate taps; indexing out of bounds panics. -/
def accum (buf : List S) : List (ℕ × S) → S → Res S
  | [], y => .ok y
  | z :: zs, y =>
    match buf[z.1]? with
    | none => .error .index
    | some v => accum buf zs (y + v * z.2)
/-- generic.rs 64-81. -/
def process (m : Generic S) (x : S) : Res (S × Generic S) := do
  let inputs := shift m.inputs x
  let y ← accum inputs m.zeros dflt
  let y ← accum m.outputs m.poles y
  .ok (y, { m with inputs := inputs, outputs := shift m.outputs y })
/-- generic.rs 84-105. -/
def clone (m : Generic S) : Generic S :=
  ⟨m.zeros, m.poles, List.replicate m.inputs.length dflt, List.replicate m.outputs.length dflt⟩
/-- generic.rs 63. -/
instance : Modifier (Generic S) S := ⟨process⟩
end Generic

/-! ## modifiers/lowpass.rs -/

/-- lowpass.rs 9-14; the arrays are written out. -/
structure LowPass (S M : Type) where
  fc : M
  r : M
  c0 : S
  c1 : S
  c2 : S
  c3 : S
  o0 : S
  o1 : S
  o2 : S

namespace LowPass
variable {S M : Type} [Flt S] [Flt M] [SM S M] [Libm M]
/-- lowpass.rs 67-78. -/
def reset (m : LowPass S M) : LowPass S M :=
  let theta := (SM.piM S / lit 6) * (lit 4 - m.r)
  let k := lit 1 - lit 2 * Libm.cos theta
  let w := lit 2 * SM.piM S * m.fc
  let t := w * invSR
  let g := Libm.pow t (lit 3) + k * Libm.pow t (lit 2) + k * t + lit 1
  { m with
    c0 := SM.down (Libm.pow t (lit 3) / g)
    c1 := SM.down ((k * Libm.pow t (lit 2) + lit 2 * k * t + lit 3) / g)
    c2 := SM.down ((-k * t - lit 3) / g)
    c3 := SM.down (lit 1 / g) }
/-- lowpass.rs 25-39. -/
def new (fc r : M) : LowPass S M :=
  let fc := fmin fc (srM / lit 2)
  let r := fmax (fmin r (lit 1)) (lit 0)
  reset ⟨fc, r, lit 0, lit 0, lit 0, lit 0, dflt, dflt, dflt⟩
/-- lowpass.rs 42-44. -/
def getCentralFrequency (m : LowPass S M) : M := m.fc
/-- lowpass.rs 47-52. -/
def setCentralFrequency (m : LowPass S M) (fc : M) : LowPass S M :=
  let fc := fmin fc (srM / lit 2)
  reset { m with fc := fc }
/-- lowpass.rs 55-57. -/
def getResonance (m : LowPass S M) : M := m.r
/-- lowpass.rs 60-65. -/
def setResonance (m : LowPass S M) (r : M) : LowPass S M :=
  let r := fmax (fmin r (lit 1)) (lit 0)
  reset { m with r := r }
/-- lowpass.rs 82-93. -/
def process (m : LowPass S M) (x : S) : S × LowPass S M :=
  let y := m.c0 * x + m.c1 * m.o0 + m.c2 * m.o1 + m.c3 * m.o2
  (y, { m with o2 := m.o1, o1 := m.o0, o0 := y })
/-- lowpass.rs 96-105. -/
def clone (m : LowPass S M) : LowPass S M := { m with o0 := dflt, o1 := dflt, o2 := dflt }
/-- lowpass.rs 81. -/
instance : Modifier (LowPass S M) S := ⟨fun m x => .ok (m.process x)⟩
end LowPass

/-! ## modifiers/highpass.rs -/

/-- highpass.rs 10-28. -/
structure HighPass (S M : Type) where
  a0 : S
  a1 : S
  a2 : S
  a3 : S
  b1 : S
  b2 : S
  b3 : S
  x1 : S
  x2 : S
  x3 : S
  y1 : S
  y2 : S
  y3 : S
  fc : M
  r : M

namespace HighPass
variable {S M : Type} [Flt S] [Flt M] [SM S M] [Libm M]
/-- highpass.rs 91-106. -/
def reset (m : HighPass S M) : HighPass S M :=
  let theta := SM.piM S * (lit 4 - m.r) / lit 6
  let k := lit 1 - lit 2 * Libm.cos theta
  let w := lit 2 * SM.piM S * m.fc
  let t := w * invSR
  let g := Libm.pow t (lit 3) + k * Libm.pow t (lit 2) + k * t + lit 1
  { m with
    a0 := SM.down (lit 1 / g)
    a1 := SM.down (-lit 3 / g)
    a2 := SM.down (lit 3 / g)
    a3 := SM.down (-lit 1 / g)
    b1 := SM.down ((k * Libm.pow t (lit 2) + lit 2 * k * t + lit 3) / g)
    b2 := SM.down ((-k * t - lit 3) / g)
    b3 := SM.down (lit 1 / g) }
/-- highpass.rs 39-63. -/
def new (fc r : M) : HighPass S M :=
  let fc := fmin fc (srM / lit 2)
  let r := fmax (fmin r (lit 1)) (lit 0)
  reset ⟨dflt, dflt, dflt, dflt, dflt, dflt, dflt, dflt, dflt, dflt, dflt, dflt, dflt, fc, r⟩
/-- highpass.rs 66-68. -/
def getCentralFrequency (m : HighPass S M) : M := m.fc
/-- highpass.rs 71-76. -/
def setCentralFrequency (m : HighPass S M) (fc : M) : HighPass S M :=
  let fc := fmin fc (srM / lit 2)
  reset { m with fc := fc }
/-- highpass.rs 79-81. -/
def getResonance (m : HighPass S M) : M := m.r
/-- highpass.rs 84-89. -/
def setResonance (m : HighPass S M) (r : M) : HighPass S M :=
  let r := fmax (fmin r (lit 1)) (lit 0)
  reset { m with r := r }
/-- highpass.rs 110-122. -/
def process (m : HighPass S M) (x : S) : S × HighPass S M :=
  let y := m.a0 * x + m.a1 * m.x1 + m.a2 * m.x2 + m.a3 * m.x3 +
    m.b1 * m.y1 + m.b2 * m.y2 + m.b3 * m.y3
  (y, { m with x3 := m.x2, x2 := m.x1, x1 := x, y3 := m.y2, y2 := m.y1, y1 := y })
/-- highpass.rs 125-145. -/
def clone (m : HighPass S M) : HighPass S M :=
  { m with x1 := dflt, x2 := dflt, x3 := dflt, y1 := dflt, y2 := dflt, y3 := dflt }
/-- highpass.rs 109. -/
instance : Modifier (HighPass S M) S := ⟨fun m x => .ok (m.process x)⟩
end HighPass

/-! ## modifiers/bandpass.rs -/

/-- bandpass.rs 6-16. -/
structure BandPass (S M : Type) where
  centralF : M
  quality : M
  a0 : M
  b1 : M
  b2 : M
  x1 : S
  x2 : S
  y1 : S
  y2 : S

namespace BandPass
variable {S M : Type} [Flt S] [Flt M]
/-- bandpass.rs 148-153. -/
def quadratic (a b c : M) : M × M :=
  ((-b + sqrt (b * b - lit 4 * a * c)) / (lit 2 * a), (-b - sqrt (b * b - lit 4 * a * c)) / (lit 2 * a))
/-- bandpass.rs 89-105. -/
def getCornerFrequencies (m : BandPass S M) : M × M :=
  let b := -m.centralF / m.quality
  let (p, n) := quadratic (lit 1) b (-m.centralF * m.centralF)
  let fl := if lit 0 <? p then p else n
  let fh := fl + b
  if fl <? fh then (fl, fh) else (fh, fl)

variable [SM S M] [Libm M]
/-- bandpass.rs 115-130: the pair returned by `get_corner_frequencies` is bound as `(fh, fl)`. -/
def reset (m : BandPass S M) : BandPass S M :=
  let (fh, fl) := m.getCornerFrequencies
  let tl := Libm.tan (SM.piM S * fl * invSR)
  let th := Libm.tan (SM.piM S * fh * invSR)
  let al := lit 1 / (lit 1 + tl)
  let ah := lit 1 / (lit 1 + th)
  let bl := (lit 1 - tl) / (lit 1 + tl)
  let bh := (lit 1 - th) / (lit 1 + th)
  { m with a0 := (lit 1 - al) * ah, b1 := bl + bh, b2 := bl * bh }
/-- bandpass.rs 24-40. -/
def new (f q : M) : BandPass S M :=
  reset ⟨f, q, lit 0, lit 0, lit 0, dflt, dflt, dflt, dflt⟩
/-- bandpass.rs 43-59. -/
def fromCorners (f : M × M) : BandPass S M :=
  reset ⟨sqrt (Flt.abs (f.1 * f.2)), sqrt (Flt.abs (f.1 * f.2)) / Flt.abs (f.2 - f.1),
    lit 0, lit 0, lit 0, dflt, dflt, dflt, dflt⟩
/-- bandpass.rs 62-64. -/
def getCentralFrequency (m : BandPass S M) : M := m.centralF
/-- bandpass.rs 67-71. -/
def setCentralFrequency (m : BandPass S M) (f : M) : BandPass S M := reset { m with centralF := f }
/-- bandpass.rs 74-76. -/
def getQuality (m : BandPass S M) : M := m.quality
/-- bandpass.rs 82-86. -/
def setQuality (m : BandPass S M) (q : M) : BandPass S M := reset { m with quality := q }
/-- bandpass.rs 108-113. -/
def setCornerFrequencies (m : BandPass S M) (f : M × M) : BandPass S M :=
  let m := { m with centralF := sqrt (f.1 * f.2) }
  let m := { m with quality := m.centralF / Flt.abs (f.1 - f.2) }
  m.reset
/-- bandpass.rs 134-145; `(x - self.x2) as MathT` subtracts in `SampleT`. -/
def process (m : BandPass S M) (x : S) : S × BandPass S M :=
  let y : S := SM.down (m.a0 * SM.up (x - m.x2) + m.b1 * SM.up m.y1 - m.b2 * SM.up m.y2)
  (y, { m with y2 := m.y1, y1 := y, x2 := m.x1, x1 := x })
/-- bandpass.rs 155-169. -/
def clone (m : BandPass S M) : BandPass S M :=
  { m with x1 := dflt, x2 := dflt, y1 := dflt, y2 := dflt }
/-- bandpass.rs 133. -/
instance : Modifier (BandPass S M) S := ⟨fun m x => .ok (m.process x)⟩
end BandPass

/-! ## modifiers/adsr.rs -/

/-- adsr.rs 8-19. -/
inductive ADSRState where
  | attack | decay | sustain | release | stopped
  deriving DecidableEq, Repr

/-- adsr.rs 24-31. -/
structure ADSR (S : Type) where
  a : S
  d : S
  s : S
  r : S
  state : ADSRState
  g : S

namespace ADSR
variable {S M : Type} [Flt S] [Flt M] [SM S M] [Libm M]
/-- adsr.rs 42-52. In the `a` field, `as SampleT` applies to the denominator only. -/
def new (a d : Duration) (s : M) (r : Duration) : ADSR S :=
  let s := fmin s (lit 0)
  { a := lit 1 / SM.down ((a.asSecs : M) * srM)
    d := SM.down ((dbToLinear s - lit 1) / ((d.asSecs : M) * srM))
    s := SM.down (dbToLinear s)
    r := SM.down (-dbToLinear s / ((r.asSecs : M) * srM))
    state := .attack
    g := lit 0 }
/-- adsr.rs 55-57. -/
def doRelease (m : ADSR S) : ADSR S := { m with state := .release }
/-- adsr.rs 61-90. -/
def process (m : ADSR S) (x : S) : S × ADSR S :=
  match m.state with
  | .attack =>
    let g := m.g + m.a
    let m' := if lit 1 ≤? g then { m with state := .decay, g := lit 1 } else { m with g := g }
    (x * m'.g, m')
  | .decay =>
    let g := m.g + m.d
    let m' := if g ≤? m.s then { m with state := .sustain, g := m.s } else { m with g := g }
    (x * m'.g, m')
  | .sustain => (x * m.g, m)
  | .release =>
    let g := m.g + m.r
    let m' := if g ≤? lit 0 then { m with state := .stopped, g := lit 0 } else { m with g := g }
    (x * m'.g, m')
  | .stopped => (dflt, m)
/-- adsr.rs 93-104. -/
def clone (m : ADSR S) : ADSR S := { m with state := .attack, g := lit 0 }
/-- adsr.rs 60. -/
instance : Modifier (ADSR S) S := ⟨fun m x => .ok (m.process x)⟩
end ADSR

end Verif
