import Verif.Model.Utils

/-! # Model of `src/generators/*.rs` and `src/utils/mono_resampler.rs`

`process` takes the generator state and returns the sample and the next state. Generators that can
panic return `Res`. -/

namespace Verif
open Flt

/-- generators/mod.rs 46-50 `trait Generator`. -/
class Generator (G S : Type) where
  /-- generators/mod.rs 49 -/
  process : G → Res (S × G)

/-! ## generators/sawtooth.rs -/

/-- sawtooth.rs 10-13. -/
structure Sawtooth (M : Type) where
  irate : M
  inc : M

namespace Sawtooth
variable {S M : Type} [Flt S] [Flt M] [SM S M]
/-- sawtooth.rs 16-21. -/
def new (f : M) : Sawtooth M := ⟨lit 2 * f * invSR, lit 0⟩
/-- sawtooth.rs 23-25. -/
def setFrequency (g : Sawtooth M) (f : M) : Sawtooth M := { g with irate := lit 2 * f * invSR }
/-- sawtooth.rs 27-29. -/
def getFrequency (g : Sawtooth M) : M := g.irate / (lit 2 * invSR)
/-- sawtooth.rs 33-43. -/
def process (g : Sawtooth M) : S × Sawtooth M :=
  let y := g.inc
  let inc := g.inc + g.irate
  let inc := if lit 1 ≤? inc then inc - lit 2 else inc
  (SM.down y, { g with inc := inc })
/-- sawtooth.rs 46-53. -/
def clone (g : Sawtooth M) : Sawtooth M := ⟨g.irate, lit 0⟩
/-- sawtooth.rs 32. -/
instance : Generator (Sawtooth M) S := ⟨fun g => .ok g.process⟩
end Sawtooth

/-! ## generators/square.rs -/

/-- square.rs 8-11. -/
structure Square (M : Type) where
  ind : M
  inv : M

namespace Square
variable {S M : Type} [Flt S] [Flt M]
/-- square.rs 14-19. -/
def new (f : M) : Square M := ⟨lit 0, srM / (lit 2 * f)⟩
/-- square.rs 21-23. -/
def setFrequency (g : Square M) (f : M) : Square M := { g with inv := srM / (lit 2 * f) }
/-- square.rs 25-27. -/
def getFrequency (g : Square M) : M := srM / (lit 2 * g.inv)
/-- square.rs 31-45. -/
def process (g : Square M) : S × Square M :=
  let y : S := if (g.inv ≤? g.ind) && (g.ind <? lit 2 * g.inv) then -lit 1 else lit 1
  let ind := if lit 2 * g.inv ≤? g.ind then g.ind - lit 2 * g.inv else g.ind
  (y, { g with ind := ind + lit 1 })
/-- square.rs 48-55. -/
def clone (g : Square M) : Square M := ⟨lit 0, g.inv⟩
/-- square.rs 30. -/
instance : Generator (Square M) S := ⟨fun g => .ok g.process⟩
end Square

/-! ## generators/triangle.rs -/

/-- triangle.rs 8-11. -/
structure Triangle (M : Type) where
  irate : M
  inc : M

namespace Triangle
variable {S M : Type} [Flt S] [Flt M] [SM S M]
/-- triangle.rs 14-19. -/
def new (f : M) : Triangle M := ⟨lit 4 * f * invSR, lit 0⟩
/-- triangle.rs 21-23. -/
def setFrequency (g : Triangle M) (f : M) : Triangle M := { g with irate := lit 4 * f * invSR }
/-- triangle.rs 25-27. -/
def getFrequency (g : Triangle M) : M := g.irate / (lit 4 * invSR)
/-- triangle.rs 31-47. -/
def process (g : Triangle M) : S × Triangle M :=
  let y := g.inc
  let inc := g.inc + g.irate
  if (lit 1 ≤? inc) || (inc ≤? -lit 1) then
    (SM.down y, ⟨-g.irate, if lit 1 ≤? inc then lit 2 - inc else -lit 2 - inc⟩)
  else (SM.down y, { g with inc := inc })
/-- triangle.rs 50-57. -/
def clone (g : Triangle M) : Triangle M := ⟨g.irate, lit 0⟩
/-- triangle.rs 30. -/
instance : Generator (Triangle M) S := ⟨fun g => .ok g.process⟩
end Triangle

/-! ## generators/sine.rs -/

/-- sine.rs 9. -/
def WAVETABLE_FREQ : ℕ := 10
/-- sine.rs 11. -/
def WAVETABLE_SIZE : ℕ := SAMPLE_RATE / WAVETABLE_FREQ

/-- sine.rs 25-28. -/
structure Sine (M : Type) where
  ind : M
  inc : M

namespace Sine
variable {S M : Type} [Flt S] [Flt M] [SM S M] [Libm M]
/-- sine.rs 15-21: entry `i` of `WAVETABLE`, `none` outside the array. `2.0*PI*INV*10*i` associates
to the left. -/
def wavetable (S : Type) {M : Type} [Flt S] [Flt M] [SM S M] [Libm M] (i : ℕ) : Option M :=
  if i < WAVETABLE_SIZE then
    some (Libm.sin (lit 2 * SM.piM S * invSR * lit (WAVETABLE_FREQ : ℚ) * lit (i : ℚ)))
  else none
/-- sine.rs 31-36. -/
def new (f : M) : Sine M := ⟨lit 0, f / lit (WAVETABLE_FREQ : ℚ)⟩
/-- sine.rs 38-40. -/
def setFrequency (g : Sine M) (f : M) : Sine M := { g with inc := f / lit (WAVETABLE_FREQ : ℚ) }
/-- sine.rs 42-44. -/
def getFrequency (g : Sine M) : M := g.inc * lit (WAVETABLE_FREQ : ℚ)
/-- sine.rs 48-67; indexing the table out of bounds panics. -/
def process (g : Sine M) : Res (S × Sine M) :=
  let k := floor g.ind
  let fr := g.ind - k
  let k1 := toUsize (if lit (WAVETABLE_SIZE : ℚ) ≤? k + lit 1 then lit 0 else k + lit 1)
  let k := toUsize k
  match wavetable S k, wavetable S k1 with
  | some a, some b =>
    let y : S := SM.down ((lit 1 - fr) * a + fr * b)
    let ind := g.ind + g.inc
    let ind := if lit (WAVETABLE_SIZE : ℚ) - lit 1 ≤? ind then ind - lit (WAVETABLE_SIZE : ℚ) else ind
    .ok (y, { g with ind := ind })
  | _, _ => .error .index
/-- sine.rs 70-77. -/
def clone (g : Sine M) : Sine M := ⟨lit 0, g.inc⟩
/-- sine.rs 47. -/
instance : Generator (Sine M) S := ⟨process⟩
end Sine

/-! ## generators/noise.rs -/

/-- noise.rs 10-12. The thread-local random engine is a state `R`; `draw` is
`rand::Rng::gen::<SampleT>`. `derive(Clone)` copies the handle, both handles sharing the engine. -/
structure Noise (R : Type) where
  engine : R

/-- noise.rs 16-20 `new`: a handle to the engine of this thread, whose state is `r`. -/
def Noise.new {R : Type} (r : R) : Noise R := ⟨r⟩

/-- noise.rs 24-28. -/
def Noise.process {S R : Type} [Flt S] (draw : R → S × R) (g : Noise R) : S × Noise R :=
  let (u, e) := draw g.engine
  (u * lit 2 - lit 1, ⟨e⟩)

/-- An engine state with its `rand::Rng::gen::<SampleT>`. -/
class Draw (R S : Type) where
  draw : R → S × R

/-- noise.rs 23. -/
instance {S R : Type} [Flt S] [Draw R S] : Generator (Noise R) S := ⟨fun g => .ok (g.process Draw.draw)⟩

/-! ## generators/zero.rs -/

/-- zero.rs 9-10. -/
structure Zero where

/-- zero.rs 20-22. -/
def Zero.process {S : Type} [Flt S] (g : Zero) : S × Zero := (lit 0, g)

/-- zero.rs 19. -/
instance {S : Type} [Flt S] : Generator Zero S := ⟨fun g => .ok g.process⟩

/-! ## utils/mono_resampler.rs -/

/-- mono_resampler.rs 14-21. -/
structure MonoResampler (S M : Type) where
  data : List (Mono S)
  ind : S
  inc : S
  speed : M
  loopStart : ℕ
  loopEnd : ℕ

namespace MonoResampler
variable {S M : Type} [Flt S] [Flt M] [SM S M]

/-- mono_resampler.rs 34-47. -/
def new (data : List (Mono S)) (rate : M) (ls le : ℕ) : MonoResampler S M :=
  let (ls, le) := if le < ls then (le, ls) else (ls, le)
  ⟨data, lit 0, SM.down (rate * invSR), lit 1, ls, le⟩

/-- mono_resampler.rs 50-52. -/
def setPlaybackSpeed (r : MonoResampler S M) (v : M) : MonoResampler S M := { r with speed := v }
/-- mono_resampler.rs 55-57. -/
def getPlaybackSpeed (r : MonoResampler S M) : M := r.speed

/-- `self.data[i].into_sample()`. -/
def at' (r : MonoResampler S M) (i : ℕ) : Res S :=
  match r.data[i]? with
  | none => .error .index
  | some m => .ok m.intoSample

/-- mono_resampler.rs 65-71: `p1`. `ind.trunc() as usize + 1` overflows when the cast saturates. -/
def nextSample (r : MonoResampler S M) : Res S :=
  let i := toUsize (trunc r.ind)
  if i + 1 ≥ 2 ^ 64 then .error .overflow
  else if i + 1 ≥ r.data.length ∧ r.loopEnd ≠ 0 then
    r.at' (toUsize (r.ind - lit ((r.loopEnd - r.loopStart : ℕ) : ℚ)))
  else if i + 1 ≥ r.data.length then r.at' i
  else r.at' (toUsize (trunc (r.ind + lit 1)))

/-- mono_resampler.rs 78-82: advance and wrap. -/
def advance (r : MonoResampler S M) : MonoResampler S M :=
  let ind := r.ind + r.inc * SM.down r.speed
  let ind := if (lit (r.loopEnd : ℚ) ≤? ind) && decide (r.loopEnd ≠ 0)
    then ind - lit ((r.loopEnd - r.loopStart : ℕ) : ℚ) else ind
  { r with ind := ind }

/-- mono_resampler.rs 60-85. -/
def process (r : MonoResampler S M) : Res (S × MonoResampler S M) :=
  if toUsize r.ind ≥ r.data.length ∧ r.loopEnd = 0 then .ok (dflt, r)
  else do
    let p1 ← r.nextSample
    let x1 ← r.at' (toUsize (trunc r.ind))
    let x2 := p1
    let y := x1 + fract r.ind * (x2 - x1)
    .ok (y, r.advance)

/-- mono_resampler.rs 88-99. -/
def clone (r : MonoResampler S M) : MonoResampler S M := { r with ind := lit 0 }

end MonoResampler

/-! ## generators/mono_wav.rs -/

/-- mono_wav.rs 11-13. -/
structure MonoWav (S M : Type) where
  resam : MonoResampler S M

namespace MonoWav
variable {S M : Type} [Flt S] [Flt M] [SM S M]

/-- mono_wav.rs 31-35. -/
def fromTrack (rate : M) (t : List (Mono S)) : MonoWav S M := ⟨MonoResampler.new t rate 0 0⟩

/-- mono_wav.rs 17-28; both `expect`s panic. -/
def fromSource (src : Except IoErr (WavHeader × BitDepth)) : Res (MonoWav S M) :=
  match (readWav src : Res (Except IoErr (WavHeader × List (List S)))) with
  | .error e => .error e
  | .ok (.error _) => .error .unwrapNone
  | .ok (.ok (h, t)) =>
    match t with
    | [] => .error .unwrapNone
    | t0 :: _ => .ok (fromTrack (lit (h.samplingRate.toNat : ℚ)) (t0.map Mono.fromSample))

/-- mono_wav.rs 38-40. -/
def get (g : MonoWav S M) : MonoResampler S M := g.resam
/-- mono_wav.rs 43-45: run `f` on the resampler borrowed mutably. -/
def getMut (g : MonoWav S M) (f : MonoResampler S M → MonoResampler S M) : MonoWav S M := ⟨f g.resam⟩

/-- mono_wav.rs 48-52. -/
def process (g : MonoWav S M) : Res (S × MonoWav S M) := do
  let (y, r) ← g.resam.process
  .ok (y, ⟨r⟩)

/-- mono_wav.rs 10 `derive(Clone)`. -/
def clone (g : MonoWav S M) : MonoWav S M := ⟨g.resam.clone⟩

/-- mono_wav.rs 48. -/
instance : Generator (MonoWav S M) S := ⟨process⟩
end MonoWav

end Verif
