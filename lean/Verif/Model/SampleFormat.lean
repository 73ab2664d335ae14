import Verif.Model.Arith

/-! # Model of `src/sample_format/mod.rs`, `mono.rs`, `stereo.rs` -/

namespace Verif
open Flt

variable {S M : Type} [Flt S] [Flt M] [SM S M]

/-- `SampleT::default()`, i.e. `0.0`. -/
def dflt : S := lit 0

/-! ## src/sample_format/mod.rs -/

/-- mod.rs 102-104 `sample_from_u8`. -/
def sampleFromU8 (v : UInt8) : S := (lit (v.toNat : ℚ) - lit 128) / lit 128

/-- mod.rs 106-108 `sample_from_u8_bytes` (the one-element array is its element). -/
def sampleFromU8Bytes (v : UInt8) : S := (lit (v.toNat : ℚ) - lit 128) / lit 128

/-- mod.rs 111-113 `sample_to_u8`. -/
def sampleToU8 (s : S) : UInt8 := UInt8.ofNat (toInt 0 255 (round (s * lit 128 + lit 128))).toNat

/-- mod.rs 115-117 `sample_to_u8_bytes`. -/
def sampleToU8Bytes (s : S) : UInt8 := sampleToU8 s

/-- `(1 << 15) as SampleT - 1.0`, the i16 scale (mod.rs 121, 125, 130). -/
def scale16 : S := lit 32768 - lit 1

/-- `(1 << 23) as SampleT - 1.0`, the 24-bit scale (mod.rs 139, 143, 148). -/
def scale24 : S := lit 8388608 - lit 1

/-- `i16::from_le_bytes` (std): two's complement value of little-endian bytes. -/
def i16FromLe (b0 b1 : UInt8) : Int16 := Int16.ofInt (b0.toNat + 256 * b1.toNat)

/-- `i16::to_le_bytes` (std). -/
def i16ToLe (v : Int16) : UInt8 × UInt8 :=
  (UInt8.ofNat (v.toInt % 256).toNat, UInt8.ofNat (v.toInt / 256 % 256).toNat)

/-- `i32::from_le_bytes` (std). -/
def i32FromLe (b0 b1 b2 b3 : UInt8) : Int32 :=
  Int32.ofInt (b0.toNat + 256 * b1.toNat + 65536 * b2.toNat + 16777216 * b3.toNat)

/-- `i32::to_le_bytes` (std). -/
def i32ToLe (v : Int32) : UInt8 × UInt8 × UInt8 × UInt8 :=
  (UInt8.ofNat (v.toInt % 256).toNat, UInt8.ofNat (v.toInt / 256 % 256).toNat,
   UInt8.ofNat (v.toInt / 65536 % 256).toNat, UInt8.ofNat (v.toInt / 16777216 % 256).toNat)

/-- mod.rs 120-122 `sample_from_i16`. -/
def sampleFromI16 (v : Int16) : S := lit (v.toInt : ℚ) / scale16

/-- mod.rs 124-126 `sample_from_i16_bytes`. -/
def sampleFromI16Bytes (b0 b1 : UInt8) : S := lit ((i16FromLe b0 b1).toInt : ℚ) / scale16

/-- mod.rs 129-131 `sample_to_i16`. -/
def sampleToI16 (s : S) : Int16 := Int16.ofInt (toInt (-32768) 32767 (round (s * scale16)))

/-- mod.rs 133-135 `sample_to_i16_bytes`. -/
def sampleToI16Bytes (s : S) : UInt8 × UInt8 := i16ToLe (sampleToI16 s)

/-- mod.rs 138-140 `sample_from_i24` (argument type is `i32`). -/
def sampleFromI24 (v : Int32) : S := lit (v.toInt : ℚ) / scale24

/-- mod.rs 142-144 `sample_from_i24_bytes`: the top byte is the literal `0`. -/
def sampleFromI24Bytes (b0 b1 b2 : UInt8) : S := lit ((i32FromLe b0 b1 b2 0).toInt : ℚ) / scale24

/-- mod.rs 147-149 `sample_to_i24` (result type is `i32`). -/
def sampleToI24 (s : S) : Int32 := Int32.ofInt (toInt (-2147483648) 2147483647 (round (s * scale24)))

/-- mod.rs 151-155 `sample_to_i24_bytes`. -/
def sampleToI24Bytes (s : S) : UInt8 × UInt8 × UInt8 :=
  let i := i32ToLe (sampleToI24 s)
  (i.1, i.2.1, i.2.2.1)

/-! ## src/sample_format/mono.rs -/

/-- mono.rs 14-17 `struct Mono`. -/
structure Mono (S : Type) where
  mono : S

namespace Mono
/-- mono.rs 13, 21-23 `new`/`Default`. -/
def new : Mono S := ⟨dflt⟩
/-- mono.rs 26-30 `Mono::from`. -/
def from' (s : S) : Mono S := ⟨s⟩
/-- mono.rs 34-38 `from_sample`. -/
def fromSample (x : S) : Mono S := ⟨x⟩
/-- mono.rs 40-42 `into_sample`. -/
def intoSample (a : Mono S) : S := a.mono
/-- mono.rs 44-46 `num_samples`. -/
def numSamples : ℕ := 1
/-- mono.rs 49-55 `to_sample_format`. -/
def toSampleFormat {G : Type} (s : S) (_ : G) : Mono S := ⟨s⟩
/-- mono.rs 59-67 `neg`. -/
def neg (a : Mono S) : Mono S := ⟨-a.mono⟩
/-- mono.rs 69-77 `add`. -/
def add (a b : Mono S) : Mono S := ⟨a.mono + b.mono⟩
/-- mono.rs 78-82 `add_assign`. -/
def addAssign (a b : Mono S) : Mono S := { a with mono := a.mono + b.mono }
/-- mono.rs 84-92 `sub`: the source adds. -/
def sub (a b : Mono S) : Mono S := ⟨a.mono + b.mono⟩
/-- mono.rs 93-97 `sub_assign`. -/
def subAssign (a b : Mono S) : Mono S := { a with mono := a.mono - b.mono }
/-- mono.rs 99-107 `mul`. -/
def mul (a b : Mono S) : Mono S := ⟨a.mono * b.mono⟩
/-- mono.rs 108-112 `mul_assign`. -/
def mulAssign (a b : Mono S) : Mono S := { a with mono := a.mono * b.mono }
/-- mono.rs 114-122 `mul` by `SampleT`. -/
def mulS (a : Mono S) (k : S) : Mono S := ⟨a.mono * k⟩
/-- mono.rs 123-127 `mul_assign` by `SampleT`. -/
def mulAssignS (a : Mono S) (k : S) : Mono S := { a with mono := a.mono * k }
/-- mono.rs 129-137 `mul` by `MathT`. -/
def mulM (a : Mono S) (k : M) : Mono S := ⟨SM.down ((SM.up a.mono : M) * k)⟩
/-- mono.rs 138-142 `mul_assign` by `MathT`. -/
def mulAssignM (a : Mono S) (k : M) : Mono S := { a with mono := SM.down ((SM.up a.mono : M) * k) }
/-- mono.rs 144-148 `From<SampleT>`. -/
def fromS (s : S) : Mono S := fromSample s
/-- mono.rs 149-153 `Into<SampleT>`. -/
def intoS (a : Mono S) : S := a.intoSample

/-- The error string of mono.rs 160, 181, 202 and stereo.rs 216, 238, 260. -/
def lenError (given required : ℕ) : String :=
  s!"ERROR: Given vector was length {given}. This function requires length {required}."

/-- mono.rs 155-169 `TryFrom<Vec<u8>>`. The index `v[0]` is guarded by the length check. -/
def tryFromU8 (v : List UInt8) : Except String (Mono S) :=
  match v with
  | [] => .error (lenError v.length 1)
  | a :: _ => .ok ⟨sampleFromU8 a⟩
/-- mono.rs 170-174 `Into<Vec<u8>>`. -/
def intoU8 (a : Mono S) : List UInt8 := [sampleToU8 a.mono]
/-- mono.rs 176-190 `TryFrom<Vec<i16>>`. -/
def tryFromI16 (v : List Int16) : Except String (Mono S) :=
  match v with
  | [] => .error (lenError v.length 1)
  | a :: _ => .ok ⟨sampleFromI16 a⟩
/-- mono.rs 191-195 `Into<Vec<i16>>`. -/
def intoI16 (a : Mono S) : List Int16 := [sampleToI16 a.mono]
/-- mono.rs 197-211 `TryFrom<Vec<i32>>`. -/
def tryFromI32 (v : List Int32) : Except String (Mono S) :=
  match v with
  | [] => .error (lenError v.length 1)
  | a :: _ => .ok ⟨sampleFromI24 a⟩
/-- mono.rs 212-216 `Into<Vec<i32>>`. -/
def intoI32 (a : Mono S) : List Int32 := [sampleToI24 a.mono]
end Mono

end Verif
