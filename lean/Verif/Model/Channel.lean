import Verif.Model.Sounds
import Verif.Model.Stereo

/-! # Model of `src/channels/*.rs` -/

namespace Verif
open Flt

/-- The operations of `trait SampleFormat` (sample_format/mod.rs 60-88) that a channel uses. -/
class SampleFmt (SF S : Type) where
  default : SF
  addAssign : SF → SF → SF
  mulAssignS : SF → S → SF
  fromSample : S → SF
  /-- `size_of::<SF>()`, for the capacity check of `Vec` -/
  size : ℕ

instance {S : Type} [Flt S] : SampleFmt (Mono S) S :=
  ⟨Mono.new, Mono.addAssign, Mono.mulAssignS, Mono.fromSample, 4⟩
instance {S : Type} [Flt S] : SampleFmt (Stereo S) S :=
  ⟨Stereo.new, Stereo.addAssign, Stereo.mulAssignS, Stereo.fromSample, 8⟩

/-- standard_channel.rs 13-20. `output` is the vector's contents, `cap` the capacity that was
requested for it. `sounds` lists the entries of the `HashMap` (keys are unique); its iteration order
is a parameter of `process`. `id_counter` is a natural number (overflow after 2^64 calls ignored). -/
structure StandardChannel (SF S : Type) where
  output : List SF
  cap : ℕ
  sounds : List (ℕ × ℕ)
  gain : S
  idCounter : ℕ

namespace StandardChannel
variable {SF S M T : Type} [Flt S] [Flt M] [SM S M] [SampleFmt SF S] [Sound T S]

/-- `Vec::with_capacity(n)`: empty; panics when the byte size exceeds `isize::MAX`. -/
def withCapacity (size n : ℕ) : Res (List SF × ℕ) :=
  if n * size > 2 ^ 63 - 1 then .error .capacity else .ok ([], n)

/-- standard_channel.rs 31-38. -/
def new (gain : M) : Res (StandardChannel SF S) := do
  let (v, c) ← withCapacity (SampleFmt.size SF S) (toUsize (lit (1 / 100) * srM : M))
  .ok ⟨v, c, [], SM.down gain, 0⟩
/-- standard_channel.rs 40-46. -/
def freshId (c : StandardChannel SF S) : ℕ × StandardChannel SF S :=
  (c.idCounter, { c with idCounter := c.idCounter + 1 })
/-- standard_channel.rs 52-54. -/
def setProcessTime (M : Type) [Flt M] (c : StandardChannel SF S) (d : Duration) :
    Res (StandardChannel SF S) := do
  let (v, n) ← withCapacity (SampleFmt.size SF S) (toUsize ((d.asSecs : M) * srM))
  .ok { c with output := v, cap := n }
/-- standard_channel.rs 56-58. -/
def getOutput (c : StandardChannel SF S) : List SF := c.output
/-- standard_channel.rs 60-62. -/
def setGain (c : StandardChannel SF S) (g : M) : StandardChannel SF S := { c with gain := SM.down g }

/-- `Vec::resize_with(n, SF::default)`. -/
def resizeWith (v : List SF) (n : ℕ) (d : SF) : List SF := v.take n ++ List.replicate (n - v.length) d

/-- standard_channel.rs 68-70: add every sound's next sample to one output sample. -/
def mixOne (h : Heap T) (sample : SF) : List (ℕ × ℕ) → Res (SF × Heap T)
  | [] => .ok (sample, h)
  | e :: es =>
    match h.getMut e.2 with
    | none => .error .unwrapNone
    | some t => do
      let (y, t') ← Sound.process t (dflt : S)
      mixOne (h.put e.2 t') (SampleFmt.addAssign S sample (SampleFmt.fromSample y)) es
  termination_by l => l.length

/-- standard_channel.rs 67-73: the loop over the output samples. -/
def mixAll (order : List (ℕ × ℕ)) (gain : S) (h : Heap T) : List SF → Res (List SF × Heap T)
  | [] => .ok ([], h)
  | s :: ss => do
    let (s', h) ← mixOne (S := S) h s order
    let (ss', h) ← mixAll order gain h ss
    .ok (SampleFmt.mulAssignS s' gain :: ss', h)

/-- standard_channel.rs 64-74. `order` is the iteration order of the map. -/
def process (order : List (ℕ × ℕ) → List (ℕ × ℕ)) (h : Heap T) (c : StandardChannel SF S) :
    Res (StandardChannel SF S × Heap T) := do
  let out := resizeWith c.output c.output.length (SampleFmt.default S)
  let (out, h) ← mixAll (order c.sounds) c.gain h out
  .ok ({ c with output := out }, h)

/-- `HashMap::insert`. -/
def insert (m : List (ℕ × ℕ)) (k v : ℕ) : List (ℕ × ℕ) := (k, v) :: m.filter (fun e => e.1 ≠ k)

/-- standard_channel.rs 76-80; `a` is the address of the caller's `Arc`. -/
def addSound (S : Type) [Flt S] [SampleFmt SF S] [Sound T S] (h : Heap T) (c : StandardChannel SF S)
    (a : ℕ) : Res (StandardChannel SF S × Heap T) :=
  let (id, c) := c.freshId
  match h.getMut a with
  | none => .error .unwrapNone
  | some t =>
    let h := h.put a (Sound.register S t id)
    .ok ({ c with sounds := insert c.sounds id a }, h.incr a)

/-- standard_channel.rs 82-84; removing an entry drops its `Arc`. -/
def removeSound (h : Heap T) (c : StandardChannel SF S) (id : ℕ) : StandardChannel SF S × Heap T :=
  ({ c with sounds := c.sounds.filter (fun e => e.1 ≠ id) },
   (c.sounds.filter (fun e => e.1 = id)).foldl (fun h e => h.decr e.2) h)

/-- standard_channel.rs 12 `derive(Clone)`: every field is cloned, so each `Arc` in the map gets a second owner; a cloned
`Vec` has room for its contents only. -/
def clone (h : Heap T) (c : StandardChannel SF S) : StandardChannel SF S × Heap T :=
  ({ c with cap := c.output.length }, (c.sounds.map (·.2)).foldl Heap.incr h)

/-- Drop of a channel: the map drops its `Arc`s. -/
def drop (h : Heap T) (c : StandardChannel SF S) : Heap T := (c.sounds.map (·.2)).foldl Heap.decr h

end StandardChannel
end Verif
