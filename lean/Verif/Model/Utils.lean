import Verif.Model.SampleFormat

/-! # Model of `src/utils/mod.rs` -/

namespace Verif
open Flt

section lerp
variable {F : Type} [Flt F]

/-- utils/mod.rs 13-17 `lerp`. -/
def lerp (x x1 x2 y1 y2 : F) : F := ((y2 - y1) / (x2 - x1)) * (x - x1) + y1

/-- utils/mod.rs 19-33 `clamp` (`a > b` is `b < a`). -/
def clamp (x x1 x2 : F) : F :=
  let (x1, x2) := if x2 <? x1 then (x2, x1) else (x1, x2)
  if x2 <? x then x2 else if x <? x1 then x1 else x

/-- utils/mod.rs 38-42 `clerp`. -/
def clerp (x x1 x2 y1 y2 : F) : F := lerp (clamp x x1 x2) x1 x2 y1 y2

end lerp

/-- `std::time::Duration`: whole seconds (`u64`) and nanoseconds below 10^9. -/
structure Duration where
  secs : ℕ
  nanos : ℕ
  hs : secs < 2 ^ 64
  hn : nanos < 10 ^ 9
  deriving DecidableEq

/-- Total nanoseconds. -/
def Duration.total (d : Duration) : ℕ := d.secs * 10 ^ 9 + d.nanos

section utils
variable {S M : Type} [Flt S] [Flt M] [SM S M] [Libm M]

/-- std `Duration::as_secs_f64`: `(self.secs as f64) + (self.nanos as f64) / (NANOS_PER_SEC as f64)`. -/
def Duration.asSecs (d : Duration) : M := lit (d.secs : ℚ) + lit (d.nanos : ℚ) / lit (10 ^ 9)

/-- utils/mod.rs 45-47 `samples_to_seconds`. `fromSecs` is `Duration::from_secs_f64` (panics on
negative, NaN or too large arguments); it is a parameter because its rounding changed between
Rust versions. -/
def samplesToSeconds (fromSecs : M → Res Duration) (s : ℕ) : Res Duration :=
  fromSecs (lit (s : ℚ) * (srM : M))

/-- utils/mod.rs 50-52 `seconds_to_samples`. `M` is `f64`. -/
def secondsToSamples (M : Type) [Flt M] (s : Duration) : ℕ :=
  toUsize (round ((s.asSecs : M) * srM))

/-- utils/mod.rs 55-57 `linear_to_db`. -/
def linearToDb (g : M) : M := lit 20 * Libm.log10 g

/-- utils/mod.rs 60-62 `db_to_linear`. -/
def dbToLinear (db : M) : M := Libm.pow (lit 10) (db / lit 20)

/-- utils/mod.rs 66-89 `normalize`; the three loops over the track are folds / map. -/
def normalize (db : M) (t : List S) : List S :=
  let dc0 := t.foldl (fun dc s => dc + s) (lit 0 : S)
  let dc := dc0 / lit (t.length : ℚ)
  let mx := t.foldl (fun mx s => if mx <? Flt.abs (s - dc) then Flt.abs (s - dc) else mx) (lit 0 : S)
  let factor := (SM.down (dbToLinear db) : S) / mx
  t.map (fun s => (s - dc) * factor)

end utils

/-! ## WAV reading and writing (`wav` crate 0.3 is a parameter) -/

/-- `wav::Header`, the fields BAE sets or reads. -/
structure WavHeader where
  audioFormat : UInt16
  channelCount : UInt16
  samplingRate : UInt32
  bitsPerSample : UInt16
  deriving DecidableEq

/-- `wav::BitDepth`; `other` stands for the variants matched by `_` in utils/mod.rs 134. -/
inductive BitDepth where
  | eight (d : List UInt8)
  | sixteen (d : List Int16)
  | twentyFour (d : List Int32)
  | other

/-- An I/O error: message and origin are kept as a string. -/
abbrev IoErr := String

section wav
variable {S : Type} [Flt S]

/-- Push `x` onto track number `c` (`tracks[c].push(x)`, panics if out of bounds). -/
def pushTrack (tracks : List (List S)) (c : ℕ) (x : S) : Res (List (List S)) :=
  match tracks[c]? with
  | none => .error .index
  | some t => .ok (tracks.set c (t ++ [x]))

/-- The loops of utils/mod.rs 119-121, 124-126, 129-131: for `i` from `i0`, push the converted
datum on track `i % channel_count` (a zero channel count panics in `%`). -/
def deinterleave {D : Type} (conv : D → S) (cc : ℕ) : ℕ → List D → List (List S) → Res (List (List S))
  | _, [], tr => .ok tr
  | i, d :: ds, tr =>
    if cc = 0 then .error .remZero
    else match pushTrack tr (i % cc) (conv d) with
      | .error e => .error e
      | .ok tr' => deinterleave conv cc (i + 1) ds tr'

/-- utils/mod.rs 109-138 `read_wav`. The source and `wav::read_wav` are represented by the latter's
result. The outer `Except` is a panic, the inner one `std::io::Result`. -/
def readWav (src : Except IoErr (WavHeader × BitDepth)) :
    Res (Except IoErr (WavHeader × List (List S))) :=
  match src with
  | .error e => .ok (.error e)
  | .ok (h, bd) =>
    let cc := h.channelCount.toNat
    let tracks := List.replicate cc ([] : List S)
    let r := match bd with
      | .eight d => deinterleave sampleFromU8 cc 0 d tracks
      | .sixteen d => deinterleave sampleFromI16 cc 0 d tracks
      | .twentyFour d => deinterleave sampleFromI24 cc 0 d tracks
      | .other => .ok tracks
    match r with
    | .error e => .error e
    | .ok tr => .ok (.ok (h, tr))

/-- utils/mod.rs 190-196: clip one sample. -/
def clip1 (s : S) : S := if lit 1 <? s then lit 1 else if s <? -lit 1 then -lit 1 else s

/-- utils/mod.rs 185-198: the checking and clipping loop over the tracks; `none` is the early
return on a length mismatch. -/
def checkClip (clip : Bool) (len : ℕ) : List (List S) → Option (List (List S))
  | [] => some []
  | t :: ts =>
    if t.length ≠ len then none
    else match checkClip clip len ts with
      | none => none
      | some ts' => some ((if clip then t.map clip1 else t) :: ts')

/-- utils/mod.rs 204-208, 219-223, 234-238: `for i in 0..len { for t in &tracks { v.push(conv(t[i])) } }`;
`t[i]` panics when out of bounds. -/
def interleave {D : Type} (conv : S → D) (tracks : List (List S)) (len : ℕ) : Res (List D) :=
  (List.range len).foldlM (fun v i =>
    tracks.foldlM (fun v t =>
      match t[i]? with
      | none => .error .index
      | some s => .ok (v ++ [conv s])) v) []

/-- utils/mod.rs 175-250 `write_wav`. `wr` is `wav::write_wav` acting on a destination of type `W`;
the result is the I/O result and the final destination. -/
def writeWav {W : Type} (wr : WavHeader → BitDepth → W → Except IoErr Unit × W)
    (tracks : List (List S)) (bps : UInt16) (dst : W) (clip : Bool) : Res (Except IoErr Unit × W) :=
  match tracks with
  | [] => .ok (.error "No channels given, aborting.", dst)
  | t0 :: _ =>
    let len := t0.length
    match checkClip clip len tracks with
    | none => .ok (.error "Channels have mismatching lengths, aborting.", dst)
    | some tr =>
      let hdr : WavHeader := ⟨1, UInt16.ofNat tr.length, UInt32.ofNat SAMPLE_RATE, bps⟩
      if bps = 8 then
        match interleave sampleToU8 tr len with
        | .error e => .error e
        | .ok v => .ok (wr hdr (.eight v) dst)
      else if bps = 16 then
        match interleave sampleToI16 tr len with
        | .error e => .error e
        | .ok v => .ok (wr hdr (.sixteen v) dst)
      else if bps = 24 then
        match interleave sampleToI24 tr len with
        | .error e => .error e
        | .ok v => .ok (wr hdr (.twentyFour v) dst)
      else .ok (.error "Unsupported bit depth, aborting.", dst)

end wav
end Verif
