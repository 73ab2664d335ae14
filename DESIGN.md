# Formal model of BAE (bae_rs 0.13.2) in Lean 4

## 1. Approach

One executable model, several arithmetics.  Every modelled Rust function is written once, over
an abstract float interface `Flt F` (the operations Rust's `f32`/`f64` offer: `+ - * /`, unary
minus, comparisons, `abs`, `sqrt`, `floor`, `trunc`, `round`, `min`, `max`, rounded literals and
int casts, saturating `as` casts to integers) with `SampleT = S`, `MathT = M` and widening /
narrowing casts between them.  The interface is then interpreted in two ways:

* **IEEE**: `F32 = Fl b32`, `F64 = Fl b64`: a value-level model of IEEE-754 binary32/binary64
  with NaN, infinities, signed zeros, subnormals and round-to-nearest-even
  (`Verif/Float/*.lean`). Each operation is "exact rational result, then round once".
* **Exact**: `S = M = ℝ` (Mathlib reals), used for properties that hold only up to rounding
  (closed forms, linearity, filter DC gain, stability).

A theorem is stated either for *every* `Flt` (then it holds for IEEE as a special case), for the
IEEE instance, or for the exact instance.  Theorems of the last kind about a float program are
labelled: the claim is about exact arithmetic, and MANIFEST says so ("partial" when the English
property speaks about the float program without qualification).

Conventions: `&mut self` methods become functions returning the new value; panics are an explicit
`Except Panic` error; loops are folds or structural recursion; `Arc` is modelled with an explicit
heap of reference-counted cells where sharing matters; external crates are either modelled
(`petgraph` adjacency order) or parameters (`wav` container, `rand` stream, libm).

Where the code violates the property a user would rely on, the theorem list contains a proof of
the *negation* on a concrete witness (suffix `_violated`), plus the strongest weakening that does
hold (suffix `_partial`).

## 2. Layout

* `Verif/Float/` rounding and the IEEE datatype, with the lemmas used elsewhere.
* `Verif/Model/` the model, one file per source file; every definition cites file and lines.
* `Verif/Spec/` small independent specifications used in theorem statements.
* `Verif/Proofs/` helper lemmas.
* `Verif/Props/` the property theorems with their non-vacuity examples, nothing else.

## 3. Plan per property

| id | arithmetic | what is modelled, how proved |
|----|-----------|------------------------------|
| C01-C03 | IEEE | conversion functions; rounding-error bound (sum of two roundings < 1/2) then `round` |
| C04-C06 | IEEE | saturating cast, monotonicity of rounding; C05 refuted by witness 2.0, proved for [-1,1] |
| C07 | IEEE | error bounds of the conversion chain |
| C08 | IEEE | byte functions over `BitVec 8`; equality of functions |
| C09 | IEEE | refuted by witness -1; proved for 0 <= v |
| C10 | any | list-length case split, error data kept |
| C11-C12 | any / IEEE | operators; `Mono - Mono` refuted; `Stereo *= f64` refuted with witness |
| C13-C14 | exact / IEEE | from/into_sample; identity refuted (result is 2x) |
| C15-C17 | IEEE / exact | panner through clerp; direction refuted |
| C18-C19 | exact / IEEE | lerp, clamp, clerp |
| C20-C21 | IEEE | Duration as (secs,nanos); as_secs_f64 with its two roundings |
| C22-C24 | exact / IEEE | dB functions; normalize; constant track refuted |
| C25-C30 | any / IEEE | read_wav/write_wav with the `wav` crate as a parameter |
| C31-C32 | any / IEEE | VecReader as state machine; induction over call history |
| C33-C44 | IEEE / exact / any | generators as state machines; invariants by induction over histories |
| C45-C50 | IEEE / exact | MonoResampler/MonoWav; invariant on the f32 position |
| C51-C58 | any / exact | delay lines and difference equations, induction over input sequences |
| C59-C65 | exact / IEEE | Butterworth/bandpass coefficients, Lyapunov-style stability bound, clamped parameters |
| C66-C70 | IEEE / exact | ADSR state machine invariant; stall of the f32 ramp refutes C69; NaN witness refutes C70 |
| C71-C73 | exact / any | envelope follower; clones; memoryless modifiers |
| C74-C80 | any | StandardBlock, SimpleSound, with Arc reference counts |
| C81-C88 | any | ComplexSound over a petgraph model; process_order termination and shape; order bugs refuted by witness |
| C89-C92 | any | StandardChannel with Arc heap; C89 refuted for every history |
| C93-C94 | - | bin2str string formatting; induction over bytes |
| C95 | exact | triangle wave against its ideal |
| C96 | IEEE | divergence at 20 Hz: coefficients pinned by interval arithmetic for every accurate libm, then 34000 filter steps evaluated by the kernel on integers (`Float/Fast.lean`, proved to follow the float model); boundedness from 400 Hz up (200 Hz at resonance up to 1/2) by a small-gain argument on the difference to the exact filter, with the gain of the third order recursion from its energy |
| C97 | IEEE | relative error through the coefficient formulas |
| C98–C101 | IEEE | oscillators against the ideal waves: error per sample of the f64 position, summed over the run |
| C102–C106 | IEEE | Echo, Envelope, clerp, normalize and from_sample with their rounding errors; invariants over the run for the first two |
| C107–C108 | IEEE | resampler position in f32: rounding analysed binade by binade (violations and error bounds), interpolation error of one output |
| C109 | IEEE | ADSR phase times in f32: ramps of rounded additions (bounds), a 100 s attack taking 107 s (violation) |
| C110 | IEEE | band-pass in f32: coefficients from `tan`, boundedness, decay below 2^-126 for inputs of period two |
| C111 | IEEE | frequency getters: relative error 2^-48 after any history |
| C112 | IEEE | band-pass corners through square roots and the quadratic formula |
| C113 | IEEE | offset removal by normalize; violated when the offset dominates |
| C114 | any | clones of players after any history |
| C115 | any, exact, IEEE | WAV file to speaker: reading, decoding, rate conversion, playback |
| C116 | IEEE, libm accurate | dB conversions and their round trips |
| C117 | IEEE, libm accurate | pan levels, no amplification |
| C118 | IEEE and exact | distance to the exact filter by the same small-gain argument; an 8 % offset of the low pass at 90 Hz and a 7 % one of the high pass at 85 Hz from runs of 31385 and 8219 samples evaluated by the kernel (`Float/Runs.lean`, `Props/FilterConstHigh.lean`) |
| C119 | any arithmetic, any blocks | one call is one sample of the synchronous network when the order respects all connections; sounds built by calls on forests and layered graphs; refuted for all summation orders by a five-block sound |
| C120 | any arithmetic; exact for order independence | the mixing loop of a channel for any output contents, over the `Arc` heap |
| C121 | IEEE | integer positions stay exact below 2^24, interpolation with fraction 0 returns the sample |
| C122 | IEEE | range conditions of generators and modifiers compose through blocks, the modifier chain and the output gain, over all call histories |
| C123 | reals | phasors; the difference to the steady state obeys the homogeneous recurrence and tends to 0 |
| C124 | reals | closed form of the gain; violated by concrete cutoffs, two-sided Butterworth bounds otherwise |
| C125 | reals | closed form of the gain; violated by a narrow band and by every octave below 12 kHz, peak, corners and 6 dB slope otherwise |
| C126 | reals | phasors; a feedback sum below one makes the difference to the steady state die out |
| C127 | reals | simulation by a composition of modifiers; gains multiply because each part is linear and forgets |
| C128 | IEEE | superposition in the reals (sinusoid plus disturbance), then the error bound of C118 |
| C129 | IEEE next to exact reals | one relation (`Tracks`) with gain bounds that multiply along a chain; strong induction over time for the effects with feedback |
| C130 | programs over an explicit heap | invariant over all runs: reference count = own pointers + channel entries |
| C131 | any arithmetic, any parts | shift of the two histories at the time of replacement |
| C132 | exact reals; IEEE for positive speeds | invariant: position = sum of steps; Lipschitz constant of linear interpolation; rounding errors summed |
| C133 | IEEE | composition of C115, C76, C26, C01 to C03 and C129; distance of a code from its sample |
| C134 | IEEE and exact | slope of the pole as a function of the corner; bound of the exact cascade; error recursion through two real poles |
| C135 | exact; IEEE runs | recurrences with coefficients that vary with time; a common quadratic Lyapunov function along backward differences, with the rounding errors fed back in f32; kernel evaluation of 1400 samples with two sets of coefficients in turn |
| C136 | IEEE | absorption of small addends in a binade, ties to even included; ramps of rounded subtractions |
| C137 | IEEE | invariant on rates and levels over all histories; one rounded step |
| C138 | exact and IEEE | geometric approach, `artanh t ≥ t`; rounded contraction with summed errors |
| C139 | IEEE | non-finite history is inherited by every later sample; locality of the rest |
| C140 | IEEE | rounding of subnormal numbers: a product by more than 1/2 does not round to zero |
| C141 | exact and IEEE | the pole of the upper corner lies outside the unit circle; double pole at 1; NaN coefficients |
| C142 | any; exact for the loop | graph order, what each block receives, signals of the blocks |
| C143 | exact | the diagram equations of C142, induction over samples and order |
| C144 | exact | power series: the transfer series of an effect, products commute |
| C145 | exact; IEEE with error terms | error of linear interpolation, drift of the position |
| C146 | exact | the closed forms C34, C38, C95, C40, and a permutation of the N-th parts of a period |
| C147 | IEEE f32 against exact | signals of the blocks (C142), induction over samples and order, rounding of each sum |
| C148 | exact; IEEE for sawtooth and sine | induction over samples with the summed phase; triangle and square from any state |
| C149 | exact | power series: each block multiplies by its transfer function; the flow equations have one solution |
| C150 | exact, IEEE | sums over roots of unity; the triangle's steps are a square wave; in f32 with the error of the samples, edges counted separately |
| C151 | exact, IEEE | impulse responses, Parseval's equation over roots of unity, limit of longer and longer transforms; converse by averaging a sine and a cosine |
| C152 | exact | sizes of signals (energy, peak) with triangle inequality, induction over time and order of processing against a budget of gains |
| C153 | IEEE; exact for effects | averages over all sequences of draws: product of sums, quadratic mean and its triangle inequality; convolution (C144) and rounding budgets (C129) |
| C154 | IEEE | product formula for the block (C75), tuning of the sine (C101), addition theorems |
| C155 | exact, IEEE | phases of whole periods are the multiples of 1/N (C146), sums of squares; the squared triangle is the squared sawtooth of twice the frequency; Minkowski for the IEEE error |
| C156 | exact, IEEE | closed forms of the states by induction; interval invariant for Triangle; IEEE witnesses by evaluation |
| C157 | exact | induction on the recursion; sums over a period shrink by the pole; witness for every pair of frequencies |
| C158 | exact, IEEE | transfer function on the unit circle, symmetry of a sum of sines, induction; rounding of four operations |
| C159 | IEEE | the rounded factor times the peak is at most 1 + 2^-24, which rounds to 1; witnesses for silence and quiet tracks |
| C160 | IEEE | error bounds of the two conversions against the step of the target; evaluation of the one exception |
| C161 | exact reals, IEEE | a positive multiple with a given peak is unique; in f32 the factor of the second pass is bounded from both sides by the peaks of the two passes |
| C162 | exact reals, IEEE | extreme values of the comb response, cancellation of equal samples, induction over the samples |
| C163 | exact reals, IEEE | Lipschitz bound of the dB conversion on each side, exact levels; violated at the centre |
| C164 | exact reals | complex responses of both filters over a common denominator; common factor cancelled; violated by cancellation at 8 kHz |
| C165 | generic; IEEE witnesses | two networks compared block by block along the order of one of them; violated by taps that change the order |
| C166 | IEEE | positions as whole numbers of steps of 2^-k, which f32 represents; induction over the samples |
| C167 | generic | blocks that count their calls; C85 and induction over the samples; double counting of the connections |
| C168 | generic; IEEE witnesses | from C165 with the same numbers; violated by the order (C84) and by the order of summation |
| C169 | IEEE | relation between two runs: rounding commutes with the sign, each effect keeps opposite histories, structural for heaps and graphs |
| C170 | generic; IEEE witness | invariant over interleaved calls: the stored order is that of the last change of connections, from C82-C85 |
| C171 | exact and IEEE | orthogonality of sampled tones by telescoping, then the oscillator bounds C40 and C101 |
| C172 | exact and IEEE | superposition of the steady states (C123-C127), sums of cosines bounded by 1/sin, transient averaged away |
| C173 | IEEE | signals of the blocks (C142), induction over samples and order; rounding is monotone and keeps representable bounds |
| C174 | any arithmetic, exact and IEEE | network of the chain (C119), series of blocks (C76), induction over blocks and samples; 0 + x in IEEE |
| C175 | any arithmetic | a frame relation between two memories, induction over the calls |
| C176 | IEEE samples, exact averages over all outcomes | Chebyshev's inequality from the independence of the draws (C153), rounding of one sum |
| C177 | IEEE, bit for bit; exact for corner frequencies | scaling or inverting with rounding, back and forth, is stable (`Float/Idem.lean`): rounding intervals are symmetric except at powers of two, which are checked by evaluation |
| C178 | any arithmetic; IEEE for corners | induction over the settings; the magnitude of a difference does not depend on its order |
| C179 | any arithmetic; exact for the step, IEEE for volume zero | induction over the samples: gain and mute are applied after the blocks have run |
| C180 | any arithmetic; exact for linearity and order | induction over the samples: the gain is computed before the sample is looked at |
| C181 | IEEE | silence is its own mirror image, so by C169 the output is its own mirror image: zero or NaN; for finite coefficients by an invariant |
| C182 | any arithmetic | reading starts again at channel 0 after whole frames; writing goes frame by frame |
| C183 | any arithmetic, exact, IEEE | only the stride is heard; rounding commutes with powers of two; concrete witness for speed 7 |

Not expressible: performance, memory consumption, actual OS file I/O, the statistical quality of
`rand`, and the bit-level accuracy of libm (`sin`, `cos`, `tan`, `powf`, `log10`), which enters
IEEE theorems only through explicit hypotheses.

## 4. Trusted base

**Proof checking.** Lean 4.33.0's kernel and Mathlib's definitions of `ℝ`, `ℚ`, `ℤ`, `BitVec` and of
the real functions (`sin`, `cos`, `tan`, `log`, `rpow`). No axiom beyond `propext`,
`Classical.choice` and `Quot.sound`; AXIOMS.md lists the axioms of every theorem of MANIFEST.json and
is generated from `#print axioms` by `tools/axioms.py`, which fails on any other axiom. No `sorry`,
`native_decide`, `bv_decide`, `implemented_by` or `unsafe`. Finite checks use `decide +kernel`, that
is, evaluation inside the kernel.

**Reading of the code.** Nothing was compiled or run from /repo. That each definition in
`Verif/Model/` says what the cited lines do is the reader's to check; the citations are there for it.

**Semantics of Rust that the model assumes.**

* `f32`/`f64` `+ - * /` and `sqrt` are IEEE-754 with round-to-nearest-even, no excess precision and no
  contraction; literals and int-to-float casts are rounded once; `f64 as f32` is rounded once, `f32 as
  f64` is exact. `floor`, `trunc`, `round` (half away from zero) are exact. There is one NaN: sign and
  payload of NaN are not modelled (no code in /repo looks at them).
* Float-to-integer `as` saturates and sends NaN to 0 (Rust 1.45 and later).
* `f32::min`/`max` return the other argument when one is NaN. The sign of `min(0.0, -0.0)` is unspecified
  in Rust; the model picks one.
* Debug-build arithmetic: integer overflow in the code that can overflow on user input is an explicit
  panic; `usize` counters and buffer lengths (below 2^63 elements by allocation limits) are naturals.
* Argument evaluation is left to right, and panics abort the call (no `catch_unwind`, so the state
  after a panic is not described).
* `Arc::get_mut` succeeds exactly when it is the only pointer.

**The float model against the standard.** `Props/Ieee.lean` proves, for every format and independently of
how `Fl` computes: the finite data are exactly the values of the IEEE bit fields, each once
(`ieee_encoding`, `ieee_encoding_unique`); rounding gives a nearest representable number
(`ieee_nearest`), the one with even significand on ties (`ieee_ties_even`); overflow starts at
`2^emax (2 - 2^-p)` (`ieee_overflow`); `sqrt` is correctly rounded (`ieee_sqrt`). These are not
listed as properties because they say nothing about BAE.

**Differential check of the float model.** During development, 6000 rounds of random and special
operands were run through `Fl b32`/`Fl b64` and through Lean's native `Float32`/`Float` for `+ - * /
sqrt`, comparisons, `floor`/`round` and casts, without a mismatch. That run is not part of the proof.

**External code.**

| dependency | treatment |
|---|---|
| libm (`sin cos tan powf log10`) | class `Libm`: arbitrary functions in IEEE, Mathlib's in exact arithmetic. IEEE theorems that need more have it as a hypothesis (e.g. "the sustain level is in [0,1]"); C96, C97 and C118 assume `LibmAccurate` (`Spec/Libm.lean`): `cos` and the powers 2 and 3 accurate to 2^-40; C101 assumes `SinAccurate` (`Spec/LibmSin.lean`), the same for `sin`; C103 assumes `TanAccurate` (`Spec/LibmTan.lean`): `f32` `tan` accurate to 2^-20 on [2^-14, 4/5]; C110 assumes `Tan64Accurate` (`Spec/LibmTan64.lean`): `f64` `tan` accurate to 2^-40 on [2^-12, 1.5705]; C116 and C117 assume `DbAccurate` (`Spec/LibmPow.lean`): `pow(10, ·)` and `log10` with relative error at most 2^-45; all five shown satisfiable |
| `wav` 0.3 crate | `WavHeader`, `BitDepth` as data; `wav::read`/`write` are parameters, so theorems hold for any parser |
| `rand` | an arbitrary `draw : R -> S x R`, hypothesis "in [0,1)" where needed |
| `petgraph::Graph` | node and edge lists; `neighbors` lists the most recently added edge first; `externals` in index order; `remove_edge` keeps the order of the remaining edges of a node |
| `HashMap` | association list with unique keys; the iteration order is a universally quantified parameter |
| `Duration` | (secs < 2^64, nanos < 10^9); `as_secs_f64` = secs + nanos/1e9 with its two or three roundings; `from_secs_f64` is a parameter with a specification (shown to be satisfiable) |
| `Vec`, `VecDeque` | lists; only `with_capacity` checks its size limit; running out of memory is not modelled |

## 5. Which code is modelled

Everything compiled into the crate `bae_rs`, and the utility `bin2str`, function by function, except
what the third column lists.

| source | model | not modelled |
|---|---|---|
| src/lib.rs | constants in `Model/Arith.lean` | re-exports, doc text |
| src/sample_format/mod.rs, mono.rs | `Model/SampleFormat.lean` | |
| src/sample_format/stereo.rs | `Model/Stereo.lean` | |
| src/utils/mod.rs | `Model/Utils.lean` | opening files (the `wav` crate's job) |
| src/utils/mono_resampler.rs | `Model/Generators.lean` | |
| src/generators/*.rs | `Model/Generators.lean` | `lazy_static` initialisation order of the sine table |
| src/modifiers/*.rs | `Model/Modifiers.lean` | |
| src/sounds/*.rs | `Model/Sounds.lean` | `Weak` pointers (counted like `Arc`), trait-object dispatch (a type parameter instead) |
| src/channels/*.rs | `Model/Channel.lean` | |
| src/debug.rs | `Model/Debug.lean` | |
| src/tools/mixer.rs | - | not compiled: `lib.rs` has `// pub mod tools;` |
| utility/bin2str/src/main.rs | `Model/Bin2str.lean` | command line, file reading and printing |
| tests/*.rs | `Validate/RepoTests.lean` | the asserting tests that need no `sin` are transcribed and evaluated in the IEEE model by the kernel; a check of the model, not a property |

Simplifications, each also stated at the definition: `ComplexSound::process_order` runs with fuel
(`nodes + 2`), and `C82_terminates` proves the fuel is never exhausted; blocks inside sounds are
heap addresses with reference counts; closures are values of a type with a `call` operation.

## 6. Mutation testing

`seeded/LOG.jsonl` records wrong programs tried against the theorems: one definition of the model
is edited in a scratch copy, the whole project is rebuilt, and the theorems that stop proving are
listed, together with any theorem that had to be added or tightened because the edit survived.
A build stops at the first modules that fail, so it says little about the theorems further down.
For some of these, instances of the statement were evaluated on the changed model instead; those
entries have a note that says so. For C178 to C183 only the property's own file and what it imports
was built. Records with a field `corrected` once listed theorems inferred to fail from a failing
helper lemma; they now list what the build reported, and `instances_refuted` what was evaluated.
