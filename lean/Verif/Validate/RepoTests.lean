import Verif.Model.Generators
import Verif.Model.Debug

/-! # The assertions of /repo/tests, evaluated in the model

No property: a check of the model against the test-suite of the repository. Each definition transcribes the body of one
test in IEEE arithmetic and the kernel evaluates it. Tests without assertions write a file and are left out, and so are
`test_sine` and `test_blocks`, which call `sin`. -/

namespace Verif.RepoTests
open Flt

/-- `std::f32::EPSILON` -/
def eps32 : F32 := lit (1 / 2 ^ 23)
/-- `std::f64::EPSILON` -/
def eps64 : F64 := lit (1 / 2 ^ 52)
/-- `bae_rs::INV_SAMPLE_RATE as f32` -/
def inv32 : F32 := SM.down (invSR : F64)
/-- `i as f32` -/
def idx (i : ℕ) : F32 := lit (i : ℚ)
/-- `float_equal(y, n, std::f32::EPSILON * 10.0, |x| x.abs())` -/
def close (y n : F32) : Bool := floatEqual y n (eps32 * lit 10) Flt.abs

/-- The body of `for i in 0..n` where each round takes one sample from a generator. -/
def loop {G : Type} (p : G → F32 × G) (check : ℕ → F32 → Bool) : ℕ → ℕ → G → Bool
  | 0, _, _ => true
  | n + 1, i, g => check i (p g).1 && loop p check n (i + 1) (p g).2

/-- `Duration::from_secs_f64(1.0/440.0)`: 2272727.27 ns. -/
def period440 : Duration := ⟨0, 2272727, by norm_num, by norm_num⟩

/-- generators.rs 36: `samples`. -/
example : secondsToSamples F64 period440 = 109 := by decide +kernel

/-- generators.rs 8-15 `test_zero`. -/
theorem test_zero : loop (Zero.process (S := F32)) (fun _ y => floatEqual y (lit 0) eps32 Flt.abs) 48000 0 ⟨⟩ = true := by
  have h : ∀ n i, loop (Zero.process (S := F32)) (fun _ y => floatEqual y (lit 0) eps32 Flt.abs) n i ⟨⟩ = true := by
    intro n
    induction n with
    | zero => intro i; rfl
    | succ n ih =>
      intro i
      rw [loop, show (Zero.process (S := F32) ⟨⟩).2 = ⟨⟩ from rfl, ih, Bool.and_true]
      show floatEqual (lit 0 : F32) (lit 0) eps32 Flt.abs = true
      decide +kernel
  exact h _ _

/-- generators.rs 30-53 `test_sawtooth`, first assertion. -/
theorem test_sawtooth_freq : floatEqual (lit 440) (Sawtooth.new (lit 440 : F64)).getFrequency eps64 Flt.abs = true := by
  decide +kernel

/-- generators.rs 37-52: `o + p` for sample `i`; `t` is `1.0/s.get_frequency() as f32`, where the cast binds tighter. -/
def sawRef (i : ℕ) : F32 :=
  let t : F32 := lit 1 / SM.down (Sawtooth.new (lit 440 : F64)).getFrequency
  let x := idx i * inv32
  (lit 2 / t * x) + (-lit 2 * floor (x / t + lit (1 / 2)))

/-- generators.rs 30-53 `test_sawtooth`. -/
theorem test_sawtooth : loop (Sawtooth.process (S := F32)) (fun i y => close y (sawRef i)) 109 0 (Sawtooth.new (lit 440 : F64)) = true := by
  decide +kernel

/-- generators.rs 73-89 `test_square`, first assertion. -/
theorem test_square_freq : floatEqual (lit 440) (Square.new (lit 440 : F64)).getFrequency eps64 Flt.abs = true := by
  decide +kernel

/-- generators.rs 80-86; `ceil x = -floor (-x)`. -/
def squareRef (i : ℕ) : F32 :=
  let omega : F32 := SM.down (-lit 2 * (Square.new (lit 440 : F64)).getFrequency * invSR)
  let c := -floor (-(omega * idx i + lit 1))
  c * lit 2 - lit 1

/-- generators.rs 73-89 `test_square`. -/
theorem test_square : loop (Square.process (S := F32)) (fun i y => close y (squareRef i)) 109 0 (Square.new (lit 440 : F64)) = true := by
  decide +kernel

/-- generators.rs 91-119 `test_triangle`, first assertion. -/
theorem test_triangle_freq : floatEqual (lit 440) (Triangle.new (lit 440 : F64)).getFrequency eps64 Flt.abs = true := by
  decide +kernel

/-- `(-1.0_f32).powf(q)` for a whole `q`. -/
def altSign (q : F32) : F32 := if toInt (-1000) 1000 q % 2 = 0 then lit 1 else -lit 1

/-- generators.rs 97-105: `gen_triangle`. -/
def triangleRef (i : ℕ) : F32 :=
  let period : F32 := lit 1 / SM.down (Triangle.new (lit 440 : F64)).getFrequency
  let t := idx i * inv32
  let q1 := floor (lit 2 / period * t + lit (1 / 2))
  let q2 := floor (lit 2 / period * t + lit (3 / 2))
  lit 4 / period * t * altSign q1 + lit 2 * q1 * altSign q2

/-- generators.rs 91-119 `test_triangle`. -/
theorem test_triangle : loop (Triangle.process (S := F32)) (fun i y => close y (triangleRef i)) 109 0 (Triangle.new (lit 440 : F64)) = true := by
  decide +kernel

/-! ## utils.rs 20-58 `test_resampler` -/

/-- The body of a loop over a generator that can panic. -/
def loopR (check : ℕ → F32 → Bool) : ℕ → ℕ → MonoResampler F32 F64 → Bool
  | 0, _, _ => true
  | n + 1, i, g => match g.process with
    | .error _ => false
    | .ok (y, g') => check i y && loopR check n (i + 1) g'

/-- utils.rs 26: `sam`. -/
def sam : List (Mono F32) := [Mono.fromSample (lit 0), Mono.fromSample (lit 1), Mono.fromSample (lit 2), Mono.fromSample (lit 3)]
/-- `float_equal(s, n, std::f32::EPSILON, |x| x.abs())` -/
def close1 (y n : F32) : Bool := floatEqual y n eps32 Flt.abs

/-- utils.rs 28-33. -/
theorem test_resampler_half : loopR (fun i s => close1 s (idx i / lit 2)) 7 0 (MonoResampler.new sam (srM / lit 2) 0 0) = true := by
  decide +kernel
/-- utils.rs 35-40. -/
theorem test_resampler_double : loopR (fun i s => close1 s (idx (i * 2))) 2 0 (MonoResampler.new sam (srM * lit 2) 0 0) = true := by
  decide +kernel
/-- utils.rs 42-48. -/
theorem test_resampler_speed : loopR (fun i s => close1 s (idx i / lit 2)) 7 0
    ((MonoResampler.new sam srM 0 0).setPlaybackSpeed (lit (1 / 2))) = true := by
  decide +kernel
/-- utils.rs 50-57. -/
theorem test_resampler_both : loopR (fun i s => close1 s (sam.getD i ⟨lit 9⟩).intoSample) 4 0
    ((MonoResampler.new sam (srM * lit 2) 0 0).setPlaybackSpeed (lit (1 / 2))) = true := by
  decide +kernel

end Verif.RepoTests
