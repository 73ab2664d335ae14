{"id": "C01", "title": "u8 samples survive a round trip", "statement": "For every byte v, sample_to_u8(sample_from_u8(v)) == v, and sample_from_u8(v) is exactly (v-128)/128, so it lies in [-1, 127/128].", "quantifier": "every u8 value", "why_tests_cant": "The claim is about IEEE binary32 rounding on the whole code domain; a test samples it.", "anchors": ["src/sample_format/mod.rs:sample_from_u8", "src/sample_format/mod.rs:sample_to_u8"]}
{"id": "C02", "title": "i16 samples survive a round trip", "statement": "For every i16 value v, sample_to_i16(sample_from_i16(v)) == v, including -32768 whose decoded value is below -1.", "quantifier": "every i16 value", "why_tests_cant": "Two binary32 roundings (a division and a multiplication) sit between input and output; only an error bound covers all 65536 values.", "anchors": ["src/sample_format/mod.rs:sample_from_i16", "src/sample_format/mod.rs:sample_to_i16"]}
{"id": "C03", "title": "24-bit samples survive a round trip", "statement": "For every v in [-2^23, 2^23-1], sample_to_i24(sample_from_i24(v)) == v although binary32 has only 24 bits of precision.", "quantifier": "every 24-bit signed integer", "why_tests_cant": "16.7 million values and two roundings whose worst-case errors sum to just under one half.", "anchors": ["src/sample_format/mod.rs:sample_from_i24", "src/sample_format/mod.rs:sample_to_i24"]}
{"id": "C04", "title": "Encoding saturates instead of wrapping", "statement": "sample_to_u8 and sample_to_i16 are total on every f32: samples at or above +1 give the largest code, samples at or below -1 give the smallest code (0, or at most -32767), infinities saturate and NaN encodes as 0.", "quantifier": "every f32 including infinities, NaN and signed zeros", "why_tests_cant": "The f32 domain has 2^32 points and the claim includes all the non-finite ones.", "anchors": ["src/sample_format/mod.rs:sample_to_u8", "src/sample_format/mod.rs:sample_to_i16"]}
{"id": "C05", "title": "24-bit encoding stays within 24 bits", "statement": "sample_to_i24(s) always lies in [-2^23, 2^23-1], so that dropping the top byte (sample_to_i24_bytes, WAV writing) never changes the value.", "quantifier": "every f32", "why_tests_cant": "Depends on the value of the argument over the full float range.", "anchors": ["src/sample_format/mod.rs:sample_to_i24", "src/sample_format/mod.rs:sample_to_i24_bytes"]}
{"id": "C06", "title": "Encoding is monotone", "statement": "If s <= t then sample_to_u8(s) <= sample_to_u8(t), and likewise for i16 and i24: louder samples never get smaller codes.", "quantifier": "every pair of comparable f32 values, infinities included", "why_tests_cant": "A relation between two arbitrary inputs through several roundings.", "anchors": ["src/sample_format/mod.rs:sample_to_u8", "src/sample_format/mod.rs:sample_to_i16", "src/sample_format/mod.rs:sample_to_i24"]}
{"id": "C07", "title": "Quantisation error is at most half a step", "statement": "For every s in [-1,1] encoding and decoding again moves the sample by at most half a quantisation step (plus the binary32 rounding of the arithmetic): u8 1/256 (except that s near +1 saturates), i16 1/65534, i24 1/16777214.", "quantifier": "every f32 in [-1,1]", "why_tests_cant": "An error bound over a continuum of inputs.", "anchors": ["src/sample_format/mod.rs"]}
{"id": "C08", "title": "Byte-array decoding and encoding agree with the integer functions", "statement": "For u8 and i16 the *_bytes functions compute exactly the integer functions composed with little-endian layout, and bytes round-trip: sample_to_i16_bytes(sample_from_i16_bytes(b)) == b. sample_to_i24_bytes(s) is the low three little-endian bytes of sample_to_i24(s).", "quantifier": "every byte array and every f32", "why_tests_cant": "Equality of functions on their full domain.", "anchors": ["src/sample_format/mod.rs:sample_from_i16_bytes", "src/sample_format/mod.rs:sample_to_i16_bytes", "src/sample_format/mod.rs:sample_to_i24_bytes", "src/sample_format/mod.rs:sample_from_u8_bytes", "src/sample_format/mod.rs:sample_to_u8_bytes"]}
{"id": "C09", "title": "24-bit byte decoding inverts 24-bit byte encoding", "statement": "For every 24-bit value v, sample_from_i24_bytes applied to its three little-endian bytes equals sample_from_i24(v); hence encoding to bytes and decoding recovers the sample.", "quantifier": "every 24-bit signed integer", "why_tests_cant": "Sign handling differs on half of the domain.", "anchors": ["src/sample_format/mod.rs:sample_from_i24_bytes"]}
{"id": "C10", "title": "Vec conversions accept exactly long-enough vectors", "statement": "Mono::try_from(v) succeeds iff v.len() >= 1 and Stereo::try_from(v) iff v.len() >= 2, for u8, i16 and i32 vectors; failure reports the given length and required length; success decodes the leading elements in order and ignores the rest; into::<Vec<_>>() yields exactly num_samples() codes and try_from(into(x)) requantises each channel.", "quantifier": "every vector of every length and content, every sample", "why_tests_cant": "Unbounded vector lengths.", "anchors": ["src/sample_format/mono.rs", "src/sample_format/stereo.rs"]}
{"id": "C11", "title": "Mono operators agree with their assigning forms", "statement": "For Mono, a + b, a - b, a * b, a * k (f32 and f64) equal the value left by +=, -=, *=, and act as the f32 operation on the single channel.", "quantifier": "all pairs of Mono values / scalars", "why_tests_cant": "Equality of two functions on all float pairs.", "anchors": ["src/sample_format/mono.rs"]}
{"id": "C12", "title": "Stereo operators are channelwise and agree with their assigning forms", "statement": "For Stereo, negation, +, -, * with Stereo, f32 and f64 act independently on left and right and equal the value left by the assigning operator. Stereo::from(l, r) has l on the left and r on the right, and the operators keep the sides apart.", "quantifier": "all pairs of Stereo values / scalars", "why_tests_cant": "Equality of two functions on all float pairs.", "anchors": ["src/sample_format/stereo.rs"]}
{"id": "C13", "title": "Mono to Stereo to mono conversion preserves the sample", "statement": "Stereo::from_sample(x).into_sample() returns x (up to rounding).", "quantifier": "every f32 sample", "why_tests_cant": "A continuum of inputs.", "anchors": ["src/sample_format/stereo.rs:from_sample", "src/sample_format/stereo.rs:into_sample"]}
{"id": "C14", "title": "Mono to Stereo conversion is equal-power and centred", "statement": "Stereo::from_sample(x) puts the same value on both channels and left^2 + right^2 = x^2; Mono::from_sample/into_sample are mutually inverse. The ways to make (from, from_sample, From<f32>) and to read (into_sample, Into<f32>) a sample agree.", "quantifier": "every sample", "why_tests_cant": "A continuum of inputs.", "anchors": ["src/sample_format/stereo.rs:from_sample", "src/sample_format/mono.rs"]}
{"id": "C15", "title": "Pan position is clamped to [-1,1]", "statement": "Stereo::to_sample_format(s,g) with g < -1 equals the result for -1 and with g > 1 equals the result for 1, in IEEE arithmetic.", "quantifier": "every sample s and every pan g outside [-1,1], infinities included", "why_tests_cant": "Unbounded range of g.", "anchors": ["src/sample_format/stereo.rs:to_sample_format", "src/utils/mod.rs:clerp", "src/utils/mod.rs:clamp"]}
{"id": "C16", "title": "Pan direction", "statement": "Panning full left (g = -1) makes the left channel at least as loud as the right, full right (g = 1) makes the right at least as loud as the left, and centre (g = 0) gives both channels equal, audible (>= -6 dB) level.", "quantifier": "every nonzero sample, the three named positions", "why_tests_cant": "The claim depends on db_to_linear of real numbers, for all samples.", "anchors": ["src/sample_format/stereo.rs:to_sample_format"]}
{"id": "C17", "title": "f32 and f64 panning agree", "statement": "Panning with an f32 position equals panning with that position widened to f64; Mono ignores the pan position.", "quantifier": "every sample and every f32 position including NaN", "why_tests_cant": "2^64 input pairs.", "anchors": ["src/sample_format/stereo.rs:to_sample_format", "src/sample_format/mono.rs:to_sample_format"]}
{"id": "C18", "title": "Clamped interpolation stays in range", "statement": "clerp(x,x1,x2,y1,y2) lies between y1 and y2 for every x when x1 != x2, in either order of x1,x2 and of y1,y2; it equals lerp when x is inside the interval and the end value outside.", "quantifier": "all real x, x1 != x2, y1, y2", "why_tests_cant": "A continuum of inputs with four orderings.", "anchors": ["src/utils/mod.rs:clerp", "src/utils/mod.rs:lerp", "src/utils/mod.rs:clamp"]}
{"id": "C19", "title": "Interpolation passes through its end points", "statement": "lerp(x1,..) = y1 and lerp(x2,..) = y2 when x1 != x2, lerp is monotone in x when y1 <= y2 and x1 < x2; in IEEE arithmetic lerp(x1,..) is exactly y1 whenever the slope is finite.", "quantifier": "all x1 != x2, y1, y2", "why_tests_cant": "A continuum of inputs.", "anchors": ["src/utils/mod.rs:lerp"]}
{"id": "C20", "title": "samples_to_seconds inverts seconds_to_samples", "statement": "seconds_to_samples(samples_to_seconds(n)) == n for every representable count n, and samples_to_seconds(n) is n/48000 seconds.", "quantifier": "every sample count", "why_tests_cant": "Unbounded n.", "anchors": ["src/utils/mod.rs:samples_to_seconds", "src/utils/mod.rs:seconds_to_samples"]}
{"id": "C21", "title": "seconds_to_samples rounds to the nearest sample", "statement": "For every Duration d shorter than 2^30 seconds, |seconds_to_samples(d) - 48000*d| <= 1/2 + 2^-6 despite three binary64 roundings, and the function is monotone in d.", "quantifier": "every Duration (secs, nanos)", "why_tests_cant": "2^60 durations; the bound is about accumulated rounding.", "anchors": ["src/utils/mod.rs:seconds_to_samples"]}
{"id": "C22", "title": "Decibel conversions are mutually inverse", "statement": "linear_to_db(db_to_linear(x)) = x for all x; db_to_linear(linear_to_db(g)) = g for g > 0; 0 dB is gain 1; adding decibels multiplies gains; both directions are strictly increasing.", "quantifier": "all real dB values and positive gains", "why_tests_cant": "A continuum of inputs.", "anchors": ["src/utils/mod.rs:linear_to_db", "src/utils/mod.rs:db_to_linear"]}
{"id": "C23", "title": "normalize reaches the requested peak", "statement": "After normalize(db, t) on a track that is not constant, the largest absolute sample is exactly db_to_linear(db), the mean is 0, the length is unchanged and the result is a positive multiple of the de-meaned input.", "quantifier": "every non-constant track of any length, every dB value", "why_tests_cant": "Unbounded tracks of reals.", "anchors": ["src/utils/mod.rs:normalize"]}
{"id": "C24", "title": "normalize never corrupts a track", "statement": "normalize leaves no NaN in a track of finite samples, in particular for silent or constant tracks.", "quantifier": "every track of finite f32 samples", "why_tests_cant": "Unbounded tracks; the failing cases are measure-zero.", "anchors": ["src/utils/mod.rs:normalize"]}
{"id": "C25", "title": "write_wav rejects exactly the invalid requests and then writes nothing", "statement": "write_wav fails before touching the destination iff there are no channels, or two channels differ in length, or the bit depth is not 8, 16 or 24 (in that order of precedence); otherwise it hands exactly one header and one data block to the WAV encoder and its result is the encoder's result.", "quantifier": "every list of tracks, every u16 bit depth, both clip settings, every encoder behaviour", "why_tests_cant": "Unbounded inputs and an arbitrary destination.", "anchors": ["src/utils/mod.rs:write_wav"]}
{"id": "C26", "title": "write_wav interleaves frames", "statement": "On success the data block at position f*C+c is the encoding of sample f of channel c, the block has len*C entries, and the header says PCM, C channels, 48000 Hz, the requested bits.", "quantifier": "every list of C equally long tracks (C < 65536), every position", "why_tests_cant": "Unbounded sizes.", "anchors": ["src/utils/mod.rs:write_wav"]}
{"id": "C27", "title": "read_wav deinterleaves frames", "statement": "read_wav returns channel_count tracks; sample f of track c is the decoding of data[f*C+c]; track lengths partition the data; unsupported depths give empty tracks; reader errors are passed through unchanged.", "quantifier": "every data block of every length (also not a multiple of C) and every positive channel count", "why_tests_cant": "Unbounded sizes.", "anchors": ["src/utils/mod.rs:read_wav"]}
{"id": "C28", "title": "read_wav never panics", "statement": "read_wav on any source returns a value or an error, never panics.", "quantifier": "every header and data block", "why_tests_cant": "The failing header is a single corner case.", "anchors": ["src/utils/mod.rs:read_wav"]}
{"id": "C29", "title": "Write then read returns the quantised tracks; read then write reproduces the data", "statement": "With a faithful WAV container, read_wav(write_wav(tracks)) has the same number of channels, the same lengths and each sample replaced by decode(encode(sample)); writing what was read (depth 8, 16, 24) reproduces the integer data exactly.", "quantifier": "every non-empty list of equally long tracks with fewer than 65536 channels; every data block with a whole number of frames", "why_tests_cant": "Unbounded sizes and all sample values.", "anchors": ["src/utils/mod.rs:read_wav", "src/utils/mod.rs:write_wav"]}
{"id": "C30", "title": "Clipping clamps to [-1,1] and only clamps", "statement": "With clip=true write_wav behaves as if every sample were clamped to [-1,1] first (NaN unchanged), every 24-bit code written lies in [-8388607, 8388607], and when all samples are already in [-1,1] clip=true and clip=false write the same thing.", "quantifier": "every list of tracks and all sample values", "why_tests_cant": "Unbounded sizes and all sample values.", "anchors": ["src/utils/mod.rs:write_wav"]}
{"id": "C31", "title": "VecReader delivers its payload exactly once, in order", "statement": "For any sequence of read calls with any buffer sizes the delivered bytes concatenate to a prefix of the payload, each call returns min(buffer, remaining), bytes of the buffer beyond the count are untouched, and after the payload is exhausted every read returns 0.", "quantifier": "every payload and every sequence of buffer sizes", "why_tests_cant": "All call histories.", "anchors": ["src/debug.rs:VecReader"]}
{"id": "C32", "title": "float_equal is a symmetric tolerance test", "statement": "float_equal(a,b,e,abs) is true iff |a-b| < e; it is symmetric, reflexive on finite values for e > 0, and false whenever a or b is NaN.", "quantifier": "all f32/f64 pairs and tolerances", "why_tests_cant": "Full float domain.", "anchors": ["src/debug.rs:float_equal"]}
{"id": "C33", "title": "Sawtooth output stays in [-1,1]", "statement": "For any frequency in [0, 24000] and any history of process/set_frequency calls with such frequencies, every Sawtooth sample is in [-1,1] in IEEE arithmetic.", "quantifier": "all call histories", "why_tests_cant": "Invariant over unbounded histories with accumulated rounding.", "anchors": ["src/generators/sawtooth.rs"]}
{"id": "C34", "title": "Sawtooth is the ideal sawtooth", "statement": "In exact arithmetic sample n of Sawtooth::new(f), 0 <= f <= 48000, is 2*fract(n*f/48000 + 1/2) - 1.", "quantifier": "all n and f", "why_tests_cant": "Unbounded n.", "anchors": ["src/generators/sawtooth.rs"]}
{"id": "C35", "title": "Triangle output stays in [-1,1]", "statement": "For any frequency in [0, 24000] and any history of process/set_frequency calls, every Triangle sample is in [-1,1] in IEEE arithmetic.", "quantifier": "all call histories", "why_tests_cant": "Invariant over unbounded histories with accumulated rounding.", "anchors": ["src/generators/triangle.rs"]}
{"id": "C36", "title": "Triangle reports the frequency it was given", "statement": "get_frequency returns the frequency last set, at any time during playback.", "quantifier": "all call histories", "why_tests_cant": "Depends on the phase reached.", "anchors": ["src/generators/triangle.rs:get_frequency"]}
{"id": "C37", "title": "Square output is always exactly +1 or -1", "statement": "Every Square sample is 1.0 or -1.0, for every frequency (zero, negative, NaN included) and every history.", "quantifier": "all call histories and all f64 frequencies", "why_tests_cant": "All histories and the full float domain.", "anchors": ["src/generators/square.rs"]}
{"id": "C38", "title": "Square is the ideal 50% square wave", "statement": "In exact arithmetic with 0 < f <= 24000 sample n is +1 iff fract(n*f/48000) < 1/2.", "quantifier": "all n and f", "why_tests_cant": "Unbounded n.", "anchors": ["src/generators/square.rs"]}
{"id": "C39", "title": "Sine never indexes outside its wavetable and stays in [-1,1]", "statement": "For frequencies in [0, 48000] and every history, process does not panic and returns a value in [-1,1] in IEEE arithmetic (given table entries in [-1,1]).", "quantifier": "all call histories", "why_tests_cant": "Index safety over unbounded histories with rounding.", "anchors": ["src/generators/sine.rs"]}
{"id": "C40", "title": "Sine approximates the true sinusoid", "statement": "In exact arithmetic sample n of Sine::new(f) differs from sin(2*pi*f*n/48000) by at most the linear-interpolation error of a 4800-point table.", "quantifier": "all n and f in [0,48000]", "why_tests_cant": "Unbounded n, a continuum of f.", "anchors": ["src/generators/sine.rs"]}
{"id": "C41", "title": "Frequency getters return what was set", "statement": "get_frequency after new(f)/set_frequency(f) returns f: bit-exactly in IEEE binary64 for Sine (no under/overflow), in exact arithmetic for Sawtooth, Square (f != 0) and Triangle.", "quantifier": "every frequency", "why_tests_cant": "Full float domain.", "anchors": ["src/generators/mod.rs:FreqMod"]}
{"id": "C42", "title": "Changing frequency keeps the phase", "statement": "set_frequency never changes the next sample produced by Sawtooth, Triangle or Sine, and setting the same frequency again is a no-op on Sawtooth, Sine and Square.", "quantifier": "all states and frequencies", "why_tests_cant": "All states.", "anchors": ["src/generators/sawtooth.rs:set_frequency", "src/generators/triangle.rs:set_frequency", "src/generators/sine.rs:set_frequency", "src/generators/square.rs:set_frequency"]}
{"id": "C43", "title": "White noise is in [-1,1)", "statement": "Every Noise sample lies in [-1,1), for any random source delivering uniform f32 multiples of 2^-24 in [0,1).", "quantifier": "every random stream", "why_tests_cant": "Unbounded random histories.", "anchors": ["src/generators/noise.rs"]}
{"id": "C44", "title": "Cloned generators restart from phase zero", "statement": "A clone of Sine, Sawtooth, Square or Triangle taken after any history behaves exactly like a fresh generator with the same frequency.", "quantifier": "all histories before and after cloning", "why_tests_cant": "All histories.", "anchors": ["src/generators/sine.rs:clone", "src/generators/sawtooth.rs:clone", "src/generators/square.rs:clone", "src/generators/triangle.rs:clone"]}
{"id": "C45", "title": "A 48 kHz track plays back verbatim, then silence", "statement": "MonoWav::from_track(48000, t) yields t sample by sample, bit-exactly in IEEE arithmetic, then 0 forever.", "quantifier": "every track and every number of process calls", "why_tests_cant": "Unbounded tracks; the f32 position counter is the crux.", "anchors": ["src/generators/mono_wav.rs", "src/utils/mono_resampler.rs"]}
{"id": "C46", "title": "Non-looping resampling never panics and ends in permanent silence", "statement": "With loop_start = loop_end = 0 and non-negative rate*speed, process never panics, and once the position passes the end every later sample is 0, whatever non-negative speeds are set.", "quantifier": "every track, every history of process/set_playback_speed with non-negative speeds", "why_tests_cant": "All histories.", "anchors": ["src/utils/mono_resampler.rs"]}
{"id": "C47", "title": "Looping resampling never panics", "statement": "If 0 < loop_end <= track length, loop_start < loop_end and each position step is between 0 and loop_end - loop_start, process never panics and the position stays below loop_end.", "quantifier": "every track, loop and history", "why_tests_cant": "All histories.", "anchors": ["src/utils/mono_resampler.rs"]}
{"id": "C48", "title": "Resampler output is the linear interpolation at the playback position", "statement": "In exact arithmetic, without looping, sample n equals the linear interpolation of the track at position n*rate*speed/48000 (the last sample being held), so it lies between the two neighbouring track samples.", "quantifier": "every track, rate, speed and n inside the track", "why_tests_cant": "Unbounded tracks and a continuum of rates.", "anchors": ["src/utils/mono_resampler.rs"]}
{"id": "C49", "title": "loop_end = 0 disables looping", "statement": "A MonoResampler created with loop_end = 0 never loops: it ends in silence.", "quantifier": "every track, rate and loop_start", "why_tests_cant": "All parameters and histories.", "anchors": ["src/utils/mono_resampler.rs:new"]}
{"id": "C50", "title": "Looping is seamless", "statement": "While looping over [loop_start, loop_end] the interpolation partner of the last loop sample is the sample at loop_start, so the output equals the linear interpolation of the periodic extension of the loop.", "quantifier": "every track, loop and position", "why_tests_cant": "All parameters.", "anchors": ["src/utils/mono_resampler.rs:process"]}
{"id": "C51", "title": "Delay delays", "statement": "Delay with D samples outputs x[n-D] for n >= D and 0 before, for D = 0 it is the identity; it never panics and get_delay does not change while processing.", "quantifier": "every input sequence and every D", "why_tests_cant": "All histories; unbounded D.", "anchors": ["src/modifiers/delay.rs"]}
{"id": "C52", "title": "Delay length is the rounded duration and get_delay reports it", "statement": "Delay::new(d) holds seconds_to_samples(d) samples; get_delay returns length/48000 s and Delay::new(get_delay()) has the same length.", "quantifier": "every Duration shorter than 2^30 s", "why_tests_cant": "All durations through binary64 rounding and nanosecond truncation.", "anchors": ["src/modifiers/delay.rs"]}
{"id": "C53", "title": "Cloning a Delay or Echo preserves its delay time", "statement": "A clone of a Delay (Echo) delays by the same number of samples as the original, starting from silence.", "quantifier": "every length", "why_tests_cant": "Unbounded lengths.", "anchors": ["src/modifiers/delay.rs:clone", "src/modifiers/echo.rs:clone"]}
{"id": "C54", "title": "Echo implements y[n] = g*y[n-D] + x[n]", "statement": "For D >= 1 every Echo output equals gain*y[n-D] + x[n] (y = 0 before time 0) in the arithmetic used, and in exact arithmetic with |g| < 1 and |x| <= M the output is bounded by M/(1-|g|).", "quantifier": "every input sequence, D >= 1 and gain", "why_tests_cant": "All histories.", "anchors": ["src/modifiers/echo.rs"]}
{"id": "C55", "title": "Echo never panics", "statement": "Echo::new(d,g) followed by any processing never panics.", "quantifier": "every Duration", "why_tests_cant": "The failing durations are those under one sample.", "anchors": ["src/modifiers/echo.rs:process"]}
{"id": "C56", "title": "Generic filter implements its difference equation", "statement": "Generic::new(zeros,poles) computes y[n] = sum z*x[n-k] over zeros (k,z) + sum p*y[n-1-k] over poles (k,p), evaluated left to right, with zero initial history.", "quantifier": "every coefficient list, every input sequence", "why_tests_cant": "All histories and unbounded orders.", "anchors": ["src/modifiers/generic.rs"]}
{"id": "C57", "title": "Generic filter never panics", "statement": "Generic::new(zeros,poles).process(x) does not panic, for tap lists in any order.", "quantifier": "every coefficient list", "why_tests_cant": "Unbounded lists.", "anchors": ["src/modifiers/generic.rs:process"]}
{"id": "C58", "title": "Filters are linear and time invariant", "statement": "In exact arithmetic Gain, Passthrough, Delay, Echo, Generic, LowPass, HighPass and BandPass from rest satisfy superposition and time invariance: filtering a*x + b*y gives a*filter(x) + b*filter(y), and prefixing k zeros delays the output by k.", "quantifier": "all input sequences and scalars", "why_tests_cant": "All histories.", "anchors": ["src/modifiers/gain.rs:process", "src/modifiers/passthrough.rs:process", "src/modifiers/delay.rs:process", "src/modifiers/echo.rs:process", "src/modifiers/generic.rs:process", "src/modifiers/lowpass.rs:process", "src/modifiers/highpass.rs:process", "src/modifiers/bandpass.rs:process"]}
{"id": "C59", "title": "LowPass passes DC with unit gain", "statement": "In exact arithmetic for 0 < fc the LowPass coefficients sum to 1, so a settled filter maps a constant to the same constant; and the output is the cascade of the continuous-time 3rd order prototype under backward Euler.", "quantifier": "every cutoff and resonance", "why_tests_cant": "A continuum of parameters.", "anchors": ["src/modifiers/lowpass.rs"]}
{"id": "C60", "title": "HighPass blocks DC", "statement": "In exact arithmetic the HighPass response to any constant input obeys a homogeneous recursion whose constant solution is 0: feed-forward coefficients sum to 0, and a settled filter with constant input outputs 0.", "quantifier": "every cutoff and resonance", "why_tests_cant": "A continuum of parameters.", "anchors": ["src/modifiers/highpass.rs"]}
{"id": "C61", "title": "BandPass blocks DC and Nyquist", "statement": "In exact arithmetic a settled BandPass outputs 0 for a constant input and for an alternating input x,-x,x,...", "quantifier": "every parameter pair and amplitude", "why_tests_cant": "A continuum of parameters.", "anchors": ["src/modifiers/bandpass.rs"]}
{"id": "C62", "title": "LowPass and HighPass parameters stay in range", "statement": "After any sequence of new/set_central_frequency/set_resonance with any f64 arguments including NaN and infinities, get_resonance is in [0,1], get_central_frequency is at most 24000 and neither is NaN.", "quantifier": "all call histories and all f64 arguments", "why_tests_cant": "All histories and the full float domain.", "anchors": ["src/modifiers/lowpass.rs", "src/modifiers/highpass.rs"]}
{"id": "C63", "title": "Filters are stable", "statement": "In exact arithmetic LowPass, HighPass (0 < fc <= 24000, any resonance) and BandPass (corners in (0,24000)) map bounded inputs to bounded outputs.", "quantifier": "all bounded input sequences of any length, all parameters", "why_tests_cant": "All histories.", "anchors": ["src/modifiers/lowpass.rs:process", "src/modifiers/highpass.rs:process", "src/modifiers/bandpass.rs:process"]}
{"id": "C64", "title": "BandPass corner frequencies round-trip", "statement": "In exact arithmetic, for positive distinct corners (f1,f2), from_corners and set_corner_frequencies make get_corner_frequencies return the two corners in increasing order; central frequency is their geometric mean and quality is centre/width.", "quantifier": "all positive distinct corner pairs", "why_tests_cant": "A continuum of parameters.", "anchors": ["src/modifiers/bandpass.rs"]}
{"id": "C65", "title": "Filter setters keep the signal history and depend only on the final parameters", "statement": "Setting parameters of LowPass/HighPass/BandPass never changes stored samples, and any two setter histories ending with the same parameters give the same coefficients.", "quantifier": "all setter histories", "why_tests_cant": "All histories.", "anchors": ["src/modifiers/lowpass.rs", "src/modifiers/highpass.rs", "src/modifiers/bandpass.rs"]}
{"id": "C66", "title": "ADSR gain stays in [0,1]", "statement": "For any constructor arguments with a non-degenerate decay and release and any history of process/release calls the envelope gain is in [0,1], so |output| <= |input| in IEEE arithmetic.", "quantifier": "all histories, all inputs", "why_tests_cant": "All histories with accumulated rounding.", "anchors": ["src/modifiers/adsr.rs"]}
{"id": "C67", "title": "ADSR phases only advance", "statement": "Processing moves Attack -> Decay -> Sustain and Release -> Stopped only; only release() enters Release; Sustain holds the sustain level; Stopped outputs 0 and stays stopped under process.", "quantifier": "all histories", "why_tests_cant": "All histories.", "anchors": ["src/modifiers/adsr.rs"]}
{"id": "C68", "title": "ADSR attack and release take the requested time", "statement": "In exact arithmetic the attack completes after ceil(a*48000) samples (a > 0), decay after ceil(d*48000) more (sustain level below 0 dB, d > 0; one sample at 0 dB), and a release from sustain reaches silence after ceil(r*48000) samples (from gain g after ceil(g/sustain*r*48000)).", "quantifier": "all positive durations and sustain levels", "why_tests_cant": "A continuum of parameters and unbounded step counts.", "anchors": ["src/modifiers/adsr.rs"]}
{"id": "C69", "title": "ADSR always finishes its attack", "statement": "For every finite attack time the f32 envelope eventually leaves the Attack phase.", "quantifier": "all durations", "why_tests_cant": "Non-termination cannot be observed by a test.", "anchors": ["src/modifiers/adsr.rs"]}
{"id": "C70", "title": "ADSR never produces NaN from finite input", "statement": "For all constructor arguments the envelope output for finite input is never NaN.", "quantifier": "all constructor arguments", "why_tests_cant": "Degenerate arguments are measure-zero.", "anchors": ["src/modifiers/adsr.rs:new"]}
{"id": "C71", "title": "Envelope follower is non-negative and bounded by the input peak", "statement": "In exact arithmetic with 0 <= lower, upper < 24000 Envelope output is always >= 0; with both at most 12000 it never exceeds the largest |x| seen; it depends only on |x|.", "quantifier": "all input sequences", "why_tests_cant": "All histories.", "anchors": ["src/modifiers/envelope.rs"]}
{"id": "C72", "title": "Cloned filters restart from rest with the same parameters", "statement": "A clone of LowPass, HighPass, BandPass, Envelope, Generic or ADSR taken after any history behaves as a freshly constructed one with the same parameters.", "quantifier": "all histories before and after cloning", "why_tests_cant": "All histories.", "anchors": ["src/modifiers/lowpass.rs:clone", "src/modifiers/highpass.rs:clone", "src/modifiers/bandpass.rs:clone", "src/modifiers/envelope.rs:clone", "src/modifiers/generic.rs:clone", "src/modifiers/adsr.rs:clone"]}
{"id": "C73", "title": "Gain and Passthrough are memoryless", "statement": "Gain multiplies each sample by its factor, Passthrough returns it unchanged, Zero yields 0, independently of history.", "quantifier": "all sequences", "why_tests_cant": "All histories.", "anchors": ["src/modifiers/gain.rs", "src/modifiers/passthrough.rs", "src/generators/zero.rs"]}
{"id": "C74", "title": "StandardBlock accumulates inputs and consumes them once", "statement": "After any number of prime_input calls one process call feeds the modifier the left-to-right sum of those inputs, combines generator and modifier output with the interactor, and leaves the accumulated input at 0.", "quantifier": "all sequences of prime_input/process calls", "why_tests_cant": "All histories.", "anchors": ["src/sounds/standard_block.rs"]}
{"id": "C75", "title": "Blocks made from a generator or modifier are transparent", "statement": "from_generator(g) emits exactly g's samples whatever was primed; from_modifier(m) emits exactly m applied to the per-step primed sums; default_interactor multiplies.", "quantifier": "all input sequences, all generators/modifiers", "why_tests_cant": "All histories.", "anchors": ["src/sounds/standard_block.rs"]}
{"id": "C76", "title": "SimpleSound is generator then modifiers in series then output gain", "statement": "With unshared blocks, unpaused and unmuted, SimpleSound::process(x) equals out_gain * m_k(...m_1(gen(x*in_gain))) and each block is processed exactly once per call.", "quantifier": "every number and kind of modifiers, every input", "why_tests_cant": "Unbounded chains and histories.", "anchors": ["src/sounds/simple_sound.rs"]}
{"id": "C77", "title": "Pausing freezes a sound", "statement": "While paused, process returns 0 and changes nothing: after unpausing the sound continues exactly as if the paused calls had not happened.", "quantifier": "all call histories with any number of paused calls, SimpleSound and ComplexSound", "why_tests_cant": "All histories.", "anchors": ["src/sounds/simple_sound.rs", "src/sounds/complex_sound.rs"]}
{"id": "C78", "title": "Muting silences the output but keeps the sound running", "statement": "While muted, process returns 0 and the internal state advances exactly as if unmuted.", "quantifier": "all call histories, SimpleSound and ComplexSound", "why_tests_cant": "All histories.", "anchors": ["src/sounds/simple_sound.rs", "src/sounds/complex_sound.rs"]}
{"id": "C79", "title": "Toggle, registration and gain accessors are lawful", "statement": "toggle_pause/toggle_mute flip only their own flag (twice is the identity), get_id returns the last registered id or None after unregister, gain getters return the f32 rounding of the last value set.", "quantifier": "all states", "why_tests_cant": "All states.", "anchors": ["src/sounds/simple_sound.rs", "src/sounds/complex_sound.rs"]}
{"id": "C80", "title": "Shared blocks: SimpleSound skips them silently", "statement": "If a block is shared (another Arc to it exists) SimpleSound::process skips it without panicking; in particular processing a clone or an original whose clone is alive yields 0 generator output and does not touch any block.", "quantifier": "all sharing patterns", "why_tests_cant": "All aliasing configurations.", "anchors": ["src/sounds/simple_sound.rs:process"]}
{"id": "C81", "title": "Cloning a ComplexSound leaves both usable", "statement": "After cloning a ComplexSound, both the original and the clone can be processed without panicking.", "quantifier": "all graphs", "why_tests_cant": "All aliasing configurations.", "anchors": ["src/sounds/complex_sound.rs"]}
{"id": "C82", "title": "ComplexSound processing order is well formed", "statement": "After any sequence of add_block/add_connection/remove_connection ending in a connection change, get_nodes terminates, starts with the input gain, ends with the output gain, contains no node twice and only nodes of the graph.", "quantifier": "all graphs including cycles and self-loops, all edit histories", "why_tests_cant": "Termination and shape for every graph.", "anchors": ["src/sounds/complex_sound.rs:process_order"]}
{"id": "C83", "title": "Every connected block is processed", "statement": "Every block reachable from a source block appears in the processing order.", "quantifier": "all graphs", "why_tests_cant": "All graphs; the failing ones need a specific diamond shape.", "anchors": ["src/sounds/complex_sound.rs:process_order"]}
{"id": "C84", "title": "Blocks are processed after their inputs", "statement": "In an acyclic graph every block is processed after all blocks connected into it.", "quantifier": "all acyclic graphs", "why_tests_cant": "All graphs.", "anchors": ["src/sounds/complex_sound.rs:process_order"]}
{"id": "C85", "title": "ComplexSound data flow", "statement": "In one process call each block in the order is processed exactly once, with input equal to what was pending plus the outputs of predecessors processed earlier in this call; outputs to predecessors-or-self in the order stay pending for the next call; the result is the output gain block's output.", "quantifier": "all graphs, orders and block behaviours", "why_tests_cant": "All graphs and histories.", "anchors": ["src/sounds/complex_sound.rs:process"]}
{"id": "C86", "title": "ComplexSound never panics when its blocks are unshared", "statement": "process, add_block, add_connection and remove_connection on existing nodes never panic when no block is shared.", "quantifier": "all edit and processing histories", "why_tests_cant": "All histories.", "anchors": ["src/sounds/complex_sound.rs"]}
{"id": "C87", "title": "A ComplexSound without connections passes or drops input but does not store it", "statement": "Input given before the first connection is not replayed later.", "quantifier": "all input sequences before the first connection", "why_tests_cant": "All histories.", "anchors": ["src/sounds/complex_sound.rs:process", "src/sounds/complex_sound.rs:new"]}
{"id": "C88", "title": "Connections form a set", "statement": "add_connection twice equals once; remove_connection of an absent edge changes no edge; removing a just-added new edge restores the edge set; neighbours of a node are exactly the targets of its edges.", "quantifier": "all graphs and edit histories", "why_tests_cant": "All graphs.", "anchors": ["src/sounds/complex_sound.rs:add_connection", "src/sounds/complex_sound.rs:remove_connection"]}
{"id": "C89", "title": "A channel produces the configured amount of audio", "statement": "After set_process_time(d) and process, get_output has floor(48000*d) samples (480 by default).", "quantifier": "all durations and histories", "why_tests_cant": "All histories.", "anchors": ["src/channels/standard_channel.rs"]}
{"id": "C90", "title": "Channel ids are unique", "statement": "Every add_sound assigns an id never assigned before by that channel, the sound reports exactly that id, and ids are not reused after removal.", "quantifier": "all histories of add/remove", "why_tests_cant": "All histories.", "anchors": ["src/channels/standard_channel.rs:add_sound", "src/channels/standard_channel.rs:get_id"]}
{"id": "C91", "title": "Removing a sound removes exactly it and unregisters it", "statement": "remove_sound(id) removes exactly the sound with that id, leaves others, ignores unknown ids, and the removed sound's get_id becomes None.", "quantifier": "all histories", "why_tests_cant": "All histories.", "anchors": ["src/channels/standard_channel.rs:remove_sound"]}
{"id": "C92", "title": "Channel operations do not panic", "statement": "add_sound, remove_sound, process, set_gain and set_process_time do not panic.", "quantifier": "all histories including adding the same sound twice", "why_tests_cant": "All histories.", "anchors": ["src/channels/standard_channel.rs"]}
{"id": "C93", "title": "bin2str output lists exactly the input bytes", "statement": "convert_file yields text whose comma-separated, whitespace-trimmed fields are the decimal bytes of the input in order.", "quantifier": "every byte string", "why_tests_cant": "Unbounded inputs.", "anchors": ["utility/bin2str/src/main.rs:byte2char", "utility/bin2str/src/main.rs:convert_file"]}
{"id": "C94", "title": "bin2str wraps lines at 80 columns", "statement": "No output line of convert_file exceeds 80 characters and every line starts with four spaces.", "quantifier": "every byte string", "why_tests_cant": "Unbounded inputs.", "anchors": ["utility/bin2str/src/main.rs:byte2char"]}
{"id": "C95", "title": "Triangle is the ideal triangle wave", "statement": "In exact arithmetic, sample n of Triangle::new(f), 0 < f <= 24000, is the ideal triangle wave (0 and rising at phase 0, +1 at 1/4, -1 at 3/4) at phase n*f/48000.", "quantifier": "all frequencies in (0,24000] and all n", "why_tests_cant": "A continuum of frequencies and unboundedly many samples.", "anchors": ["src/generators/triangle.rs:process"]}
{"id": "C96", "title": "LowPass and HighPass stay finite in f32", "statement": "In the arithmetic the code uses (f32 samples, f64 coefficients computed then narrowed), LowPass and HighPass map every bounded input to a bounded output with no infinity or NaN, for every cutoff of at least 20 Hz and every resonance.", "quantifier": "all cutoffs, resonances, bounded inputs and run lengths", "why_tests_cant": "The filter that diverges takes 34000 samples to overflow after a single pulse; a test at another cutoff, or a shorter one, passes. Boundedness over all inputs and unbounded time is not testable.", "anchors": ["src/modifiers/lowpass.rs:process", "src/modifiers/lowpass.rs:reset", "src/modifiers/highpass.rs:process", "src/modifiers/highpass.rs:reset"]}
{"id": "C97", "title": "Stored filter coefficients are accurate", "statement": "For every cutoff of at least 1 Hz and every resonance, the f32 coefficients stored by LowPass::new and HighPass::new are within relative error 1.03125 * 2^-24 (one rounding is 2^-24) of the exact coefficients of the third order prototype at the limited cutoff and resonance.", "quantifier": "all finite cutoffs >= 1 and finite resonances, every libm accurate to 2^-40", "why_tests_cant": "A continuum of cutoffs and resonances; the reference values are irrational.", "anchors": ["src/modifiers/lowpass.rs:reset", "src/modifiers/highpass.rs:reset"]}
{"id": "C98", "title": "Sawtooth stays in tune in floating point", "statement": "In the arithmetic the code uses (f64 position, f32 output), sample n of Sawtooth::new(f), 0 <= f <= 24000, differs from the ideal sawtooth at phase n*f/48000 by at most 2^-25 + n*2^-49 (modulo the jump).", "quantifier": "all representable f in [0,24000], all n", "why_tests_cant": "Error accumulates with the sample number; a continuum of frequencies and unboundedly many samples.", "anchors": ["src/generators/sawtooth.rs:process"]}
{"id": "C99", "title": "Triangle stays in tune in floating point", "statement": "In the arithmetic the code uses, sample n of Triangle::new(f), 0 <= f <= 24000, differs from the ideal triangle wave at phase n*f/48000 by at most 2^-25 + n*2^-49.", "quantifier": "all representable f in [0,24000], all n", "why_tests_cant": "Error accumulates with the sample number; a continuum of frequencies and unboundedly many samples.", "anchors": ["src/generators/triangle.rs:process"]}
{"id": "C100", "title": "Square stays in tune in floating point", "statement": "In the arithmetic the code uses, sample n of Square::new(f), 1/1024 <= f <= 24000, is +1 in the first half and -1 in the second half of the period of the ideal wave at phase n*f/48000, except within (n+2)*2^-50 of a jump.", "quantifier": "all representable f in [1/1024,24000], all n", "why_tests_cant": "Error accumulates with the sample number; a continuum of frequencies and unboundedly many samples.", "anchors": ["src/generators/square.rs:process"]}
{"id": "C101", "title": "Sine stays in tune in floating point", "statement": "In the arithmetic the code uses, sample n of Sine::new(f), 0 <= f <= 48000, does not panic and differs from sin(2*pi*f*n/48000) by at most 2*pi/4800 + 2^-23 + n*2^-48; outside the last of the 4800 table steps by at most the interpolation error (2*pi/4800)^2/8 + 2^-23 + n*2^-48. At a frequency that is a whole multiple of 10*2^-39 Hz the term growing with n is absent and the tone repeats bit for bit whenever a whole number of periods has passed.", "quantifier": "all representable f in [0,48000], all n, every libm sin accurate to 2^-40", "why_tests_cant": "Error accumulates with the sample number; a continuum of frequencies and unboundedly many samples. The reference values are irrational.", "anchors": ["src/generators/sine.rs:process"]}
{"id": "C102", "title": "Echo with |gain| < 1 never blows up in f32", "statement": "An Echo whose gain has magnitude g <= 1-2^-20 fed with samples of magnitude at most X <= 2^70 never panics and never produces an infinity or NaN; every output has magnitude at most 2X/(1-g) + 2^-128, for ever. (With gain 2 a single pulse reaches infinity.)", "quantifier": "all gains, delay lengths > 0, input sequences, sample numbers", "why_tests_cant": "Feedback over unboundedly many samples with a rounding at each step.", "anchors": ["src/modifiers/echo.rs:process"]}
{"id": "C103", "title": "Envelope follower stays between zero and the peak in f32", "statement": "In the f32 arithmetic the code uses, with both corner frequencies in [4 Hz, 11990 Hz], the output of Envelope::process is never negative, infinite or NaN and never exceeds (1+2^-8)X + 2^-130, X <= 2^90 the largest input magnitude.", "quantifier": "all corner frequencies in range, input sequences, sample numbers, every libm tan accurate to 2^-20", "why_tests_cant": "Feedback over unboundedly many samples; coefficients come from a rounded tan.", "anchors": ["src/modifiers/envelope.rs:new", "src/modifiers/envelope.rs:process"]}
{"id": "C104", "title": "Clamped interpolation is accurate in f64", "statement": "In f64, clerp(x,x1,x2,y1,y2) with end points and values of magnitude at most 2^60 and |x2-x1| >= 2^-60 differs from the exact clamped interpolation by at most 2^-49*max(|y1|,|y2|) + 2^-150 for every finite x. (The result can exceed both y1 and y2 by a rounding error.)", "quantifier": "all arguments in range", "why_tests_cant": "A continuum of five arguments; the error bound is about the worst case.", "anchors": ["src/utils/mod.rs:clerp", "src/utils/mod.rs:lerp"]}
{"id": "C105", "title": "normalize reaches the requested peak in f32", "statement": "In f32, for at most 2^24 samples in [-1,1] of which two differ by at least 2^-38, and a linear gain g in [2^-60, 2^40], no output of normalize exceeds g(1+2^-22) in magnitude and some output reaches g(1-2^-22).", "quantifier": "all tracks and gains in range, every libm", "why_tests_cant": "Worst-case rounding over all tracks.", "anchors": ["src/utils/mod.rs:normalize"]}
{"id": "C106", "title": "Mono to Stereo conversion is equal-power in f32", "statement": "In f32, Stereo::from_sample(x) puts the same value v with the sign of x on both channels and |2v^2 - x^2| <= 2^-22 x^2, for 2^-100 <= |x| <= 2^100. Converting back gives 2x up to relative error 2^-22.", "quantifier": "all samples in range", "why_tests_cant": "Worst-case rounding over all samples.", "anchors": ["src/sample_format/stereo.rs:from_sample", "src/sample_format/stereo.rs:into_sample"]}
{"id": "C107", "title": "Resampled playback stays in time", "statement": "After n output samples, MonoWav and MonoResampler are at position n*rate*speed/48000 of the track, to within a small fraction of a second, for every supported rate and any track length.", "quantifier": "all tracks, rates, speeds, sample numbers", "why_tests_cant": "The f32 position loses a bit of resolution whenever it doubles; the error only shows after tens of seconds and depends on rate and length.", "anchors": ["src/utils/mono_resampler.rs:process", "src/generators/mono_wav.rs:process"]}
{"id": "C108", "title": "Resampler output is the interpolation at its position, in f32", "statement": "In f32, the sample MonoResampler::process returns at position p is the linear interpolation between track samples floor(p) and floor(p)+1, up to rounding.", "quantifier": "all positions and tracks", "why_tests_cant": "Only single floating-point positions just below certain integers misbehave; a test would have to hit them by chance.", "anchors": ["src/utils/mono_resampler.rs:process"]}
{"id": "C109", "title": "ADSR phases last as long as requested, in f32", "statement": "In f32 the attack, decay and release phases of an ADSR take the requested durations, to within a small percentage and one sample.", "quantifier": "all durations, sustain levels, inputs and histories", "why_tests_cant": "The gain is accumulated in f32, so each step is rounded; the timing error grows with the square of the duration and shows only after seconds of audio.", "anchors": ["src/modifiers/adsr.rs:new", "src/modifiers/adsr.rs:process"]}
{"id": "C110", "title": "BandPass is stable and blocks DC, silence and Nyquist in f32", "statement": "With reported corner frequencies between 8 Hz and 23992 Hz, the f32 band-pass never overflows, its output stays within a fixed multiple of the input level, and once the input repeats with period two (silence, a constant, a constant of alternating sign) the output falls below the smallest normal number and stays there.", "quantifier": "every centre frequency and quality, every bounded input, all time", "why_tests_cant": "The feedback runs through values rounded to f32 at every sample; whether rounding sustains a limit cycle needs all states and unbounded time.", "anchors": ["src/modifiers/bandpass.rs:process", "src/modifiers/bandpass.rs:reset"]}
{"id": "C111", "title": "Frequency getters are accurate in floating point", "statement": "After any history of samples and frequency changes, get_frequency of Sawtooth, Square and Sine is within a relative error of 2^-48 of the frequency set last (Triangle: in magnitude).", "quantifier": "every frequency of magnitude 2^-80 to 2^80, every history", "why_tests_cant": "All frequencies and histories; the getters invert a rounded computation.", "anchors": ["src/generators/sawtooth.rs:get_frequency", "src/generators/square.rs:get_frequency", "src/generators/triangle.rs:get_frequency", "src/generators/sine.rs:get_frequency"]}
{"id": "C112", "title": "BandPass corner frequencies round-trip in floating point", "statement": "from_corners and set_corner_frequencies give a filter whose get_corner_frequencies returns the given corners in ascending order to within 2^-38 of the larger one, and whose centre frequency and quality are the geometric mean and its ratio to the bandwidth.", "quantifier": "every two corners between 2^-20 and 2^20 Hz at least 2^-20 Hz apart, every previous state", "why_tests_cant": "The corners are recovered through a square root and a quadratic formula with cancellation; the loss of accuracy depends on the pair.", "anchors": ["src/modifiers/bandpass.rs:from_corners", "src/modifiers/bandpass.rs:set_corner_frequencies", "src/modifiers/bandpass.rs:get_corner_frequencies"]}
{"id": "C113", "title": "normalize removes the DC offset in floating point", "statement": "Normalising a track leaves no constant offset: every output is a common positive multiple of the input minus the input's mean, up to rounding, so the output's mean is near zero.", "quantifier": "every finite f32 track", "why_tests_cant": "The mean is a running f32 sum whose error grows with length and offset; when the offset dominates the signal, cancellation amplifies it without bound.", "anchors": ["src/utils/mod.rs:normalize"]}
{"id": "C114", "title": "A cloned player restarts with the same settings", "statement": "Cloning a MonoResampler or MonoWav at any moment gives a player that plays the same track from the start with the same rate, loop and the playback speed set last, and the reported speed is the one set last.", "quantifier": "every track, rate, loop and call history, any arithmetic", "why_tests_cant": "Only the position may be reset; which fields survive depends on the whole history before the clone.", "anchors": ["src/utils/mono_resampler.rs:clone", "src/generators/mono_wav.rs:Clone", "src/utils/mono_resampler.rs:set_playback_speed"]}
{"id": "C115", "title": "A WAV file plays its first channel at its own pitch", "statement": "MonoWav::from_source succeeds exactly for readable files with at least one channel; n/48000 s into playback it yields the first channel at that time, interpolated linearly, then silence. A 48 kHz file plays its decoded samples verbatim, and a track written by write_wav and played back comes back up to the quantisation of its bit depth.", "quantifier": "every file header and data; in floating point every 48 kHz file of at most 2^24 frames, every written track in [-1,1]", "why_tests_cant": "Reading, decoding, rate conversion and interpolation compose; tests play a few files and listen.", "anchors": ["src/generators/mono_wav.rs:from_source", "src/generators/mono_wav.rs:from_track", "src/utils/mod.rs:read_wav", "src/utils/mod.rs:write_wav"]}
{"id": "C116", "title": "dB conversions are accurate and invert each other in floating point", "statement": "db_to_linear is accurate to 2^-44 and linear_to_db to 2^-44 of the level; going to the other unit and back returns the level to within 2^-38 + 2^-43 of it, and a gain to 2^-35.", "quantifier": "every level between -600 and 600 dB, every gain between 10^-29 and 10^29, any libm with relative error at most 2^-45", "why_tests_cant": "The error of the exponent is multiplied by the size of the logarithm; sampling levels cannot bound it.", "anchors": ["src/utils/mod.rs:linear_to_db", "src/utils/mod.rs:db_to_linear"]}
{"id": "C117", "title": "Panning levels in floating point", "statement": "Each channel of a panned sample is the sample at the level of its position, to one part in 2^24, and is never louder than the sample itself.", "quantifier": "every finite sample and every finite pan position in f32 or f64, any libm with relative error at most 2^-45", "why_tests_cant": "The level is computed by an interpolation that can overshoot 0 dB by rounding; only the final narrowing removes it.", "anchors": ["src/sample_format/stereo.rs:to_sample_format", "src/utils/mod.rs:clerp", "src/utils/mod.rs:db_to_linear"]}
{"id": "C118", "title": "LowPass and HighPass in f32 follow their equations", "statement": "On every bounded input, a LowPass or HighPass in the arithmetic the code uses outputs what the same filter gives in exact arithmetic up to 3 % of the largest input, for ever; given a constant, a low pass settles within 3 % of it and a high pass within 3 % of it around zero.", "quantifier": "all cutoffs, resonances, bounded inputs and run lengths", "why_tests_cant": "The rounding errors are fed back and accumulate over tens of thousands of samples; whether they stay small depends on cutoff and resonance, and the exact output is not computable by the code under test.", "anchors": ["src/modifiers/lowpass.rs:process", "src/modifiers/lowpass.rs:reset", "src/modifiers/highpass.rs:process", "src/modifiers/highpass.rs:reset"]}
{"id": "C119", "title": "A complex sound computes the network of its blocks", "statement": "Given a graph without cycles, each call of process gives every block exactly the sum of the outputs, of the same call, of all blocks connected to it (and the input sample to the input gain), processes every block once, and returns the output of the output gain; so a run of the sound is a run of the synchronous network that the user drew.", "quantifier": "all acyclic graphs, blocks, inputs and run lengths", "why_tests_cant": "A test fixes one graph and one order of calls; the processing order depends on the order in which the connections were made, and a wrong order only shows as a delay or a lost branch on particular shapes.", "anchors": ["src/sounds/complex_sound.rs:process", "src/sounds/complex_sound.rs:process_order", "src/sounds/complex_sound.rs:add_connection"]}
{"id": "C120", "title": "A channel mixes its sounds", "statement": "process adds to each output sample the next sample of every sound of the channel, converted to the channel's format, multiplies the sum by the gain, and advances each sound by one sample per output sample; it does not panic if the channel is the only owner of its sounds and touches no other memory. set_gain sets the gain of later calls. In exact arithmetic the result does not depend on the iteration order of the map.", "quantifier": "all channels with any output contents, sounds, gains, formats and iteration orders", "why_tests_cant": "Through the public interface the output of a channel is always empty (C89), so no test of the library can observe the mixing loop; and the iteration order of a HashMap is random.", "anchors": ["src/channels/standard_channel.rs:process", "src/channels/standard_channel.rs:set_gain", "src/channels/standard_channel.rs:new"]}
{"id": "C121", "title": "A loop repeats without drift", "statement": "In f32/f64 arithmetic a track of at most 2^24 samples looped over [ls,le) and played with a whole number of samples per step repeats the loop for ever with the recorded samples themselves: no panic, no drift and no rounding error after any number of rounds.", "quantifier": "all tracks with finite samples |s| <= 2^99, loops, rates and speeds giving a whole step not above the loop length, all positions n", "why_tests_cant": "An error of one sample per round or an accumulated rounding only shows after many rounds, and depends on the loop bounds and the step.", "anchors": ["src/utils/mono_resampler.rs:process", "src/utils/mono_resampler.rs:new", "src/utils/mono_resampler.rs:set_playback_speed"]}
{"id": "C122", "title": "A synthesiser voice never clips", "statement": "A SimpleSound whose generator is one of the oscillators at frequencies up to 24 kHz and whose modifiers are ADSR envelopes, delays, gains up to 1 and passthroughs, with an output gain up to 1, never panics and never gives a sample outside [-1,1], whatever its input and whatever samples, pauses, mutes, gain changes, retunings and releases are interleaved.", "quantifier": "all such voices, inputs and call histories, IEEE arithmetic", "why_tests_cant": "Which sample is the loudest depends on phase, envelope and rounding at once; a test plays a few of the histories.", "anchors": ["src/sounds/simple_sound.rs:process", "src/sounds/standard_block.rs:process", "src/generators/sawtooth.rs:process", "src/generators/triangle.rs:process", "src/generators/square.rs:process", "src/generators/sine.rs:process", "src/modifiers/adsr.rs:process", "src/modifiers/delay.rs:process", "src/modifiers/gain.rs:process"]}
{"id": "C123", "title": "Filters turn a sinusoid into a sinusoid of known gain", "statement": "In exact arithmetic, every sinusoid fed to a new LowPass, HighPass or BandPass settles into a sinusoid of the same frequency whose amplitude is multiplied by a gain given in closed form, with a phase shift that depends on the frequency only.", "quantifier": "all cutoffs, resonances and corners, all frequencies, amplitudes and phases", "why_tests_cant": "A continuum of frequencies and parameters, and a limit over time.", "anchors": ["src/modifiers/lowpass.rs:process", "src/modifiers/lowpass.rs:reset", "src/modifiers/highpass.rs:process", "src/modifiers/highpass.rs:reset", "src/modifiers/bandpass.rs:process", "src/modifiers/bandpass.rs:reset"]}
{"id": "C124", "title": "LowPass and HighPass respond like 18 dB per octave Butterworth filters", "statement": "In exact arithmetic, a LowPass or HighPass without resonance has the third order Butterworth response its documentation names: unit gain in the pass band, -3 dB at the cutoff, 18 dB per octave beyond; resonance only ever raises the gain.", "quantifier": "all cutoffs, resonances and frequencies", "why_tests_cant": "A continuum of frequencies and parameters.", "anchors": ["src/modifiers/lowpass.rs:process", "src/modifiers/lowpass.rs:reset", "src/modifiers/highpass.rs:process", "src/modifiers/highpass.rs:reset"]}
{"id": "C125", "title": "BandPass passes its band and rejects the rest at 12 dB per octave", "statement": "In exact arithmetic, a BandPass has unit gain inside its band, -3 dB at its corners, and a slope of 12 dB per octave outside, as documented.", "quantifier": "all corners and frequencies", "why_tests_cant": "A continuum of frequencies and parameters.", "anchors": ["src/modifiers/bandpass.rs:process", "src/modifiers/bandpass.rs:reset"]}
{"id": "C126", "title": "Generic, Echo, Delay and Gain realise their transfer functions", "statement": "In exact arithmetic, a new Generic filter whose feedback coefficients sum to less than one in absolute value answers every sinusoid with a sinusoid multiplied by the magnitude of its transfer function, forgets its past, and keeps bounded inputs bounded; Echo does so with H(z) = 1/(1-a z^-d) for |a| < 1 (and diverges for a >= 1), Delay has gain one and Gain the absolute value of its factor at every frequency.", "quantifier": "all zeros and poles within the condition, all delays and gains, all frequencies, amplitudes, phases and bounded inputs", "why_tests_cant": "A continuum of coefficients and frequencies, and a limit over time.", "anchors": ["src/modifiers/generic.rs:new", "src/modifiers/generic.rs:process", "src/modifiers/echo.rs:process", "src/modifiers/delay.rs:process", "src/modifiers/gain.rs:process", "src/modifiers/passthrough.rs:process"]}
{"id": "C127", "title": "The response of a chain of modifiers is the product of the responses", "statement": "In exact arithmetic, a SimpleSound whose blocks each settle into a known gain at a frequency settles into the product of these gains, times the absolute values of its input and output gain, at that frequency, whatever the number and the types of the blocks.", "quantifier": "all sounds, all chains of settling blocks, all frequencies, amplitudes and phases", "why_tests_cant": "Chains of any length over a continuum of frequencies, and a limit over time.", "anchors": ["src/sounds/simple_sound.rs:process", "src/sounds/standard_block.rs:process", "src/sounds/standard_block.rs:prime_input"]}
{"id": "C128", "title": "In f32, a filtered tone ends up at the level the response says", "statement": "Fed with f32 samples that follow a sinusoid, a LowPass or HighPass ends up, in f32, at the sinusoid of the same frequency whose amplitude is multiplied by the filter's gain at that frequency, up to about 3 % of the largest sample plus a fixed multiple of the distance between the samples and the sinusoid; in particular a Sine into a LowPass within 0.045 and into a HighPass within 0.065, forever.", "quantifier": "all sample streams near a sinusoid, all frequencies, amplitudes and phases, all cutoffs and resonances, all libm implementations accurate to 2^-40", "why_tests_cant": "A limit over time over a continuum of frequencies and filters, with rounding errors of 2^-24 fed back for ever.", "anchors": ["src/modifiers/lowpass.rs:new", "src/modifiers/lowpass.rs:process", "src/modifiers/highpass.rs:new", "src/modifiers/highpass.rs:process", "src/generators/sine.rs:process"]}
{"id": "C129", "title": "The rounding errors of a chain of effects stay within the product of the effects' bounds", "statement": "Put next to the same chain in exact arithmetic, a chain of f32 effects in a SimpleSound never drifts away: each effect has a gain bound B (exact) and a slightly larger one C (with rounding); for a chain the bounds multiply, and as long as the exact input is at most M and the f32 input within d of it, the f32 output stays within C(M+d) - B M of the exact one, for ever. Bounds are given for Gain, Delay, Echo, Generic, LowPass and HighPass, and with the frequency response this gives the level at which a tone comes out of a whole sound.", "quantifier": "all input streams, all lengths of time, all chains of these effects, gains, taps, and (for the filters) all cutoffs from 2 kHz (low pass) or 2.5 kHz (high pass), from 1 kHz and 1.5 kHz at resonance up to 1/2", "why_tests_cant": "Unbounded time, any number of effects with feedback, and an error bound that compares with exact real arithmetic.", "anchors": ["src/sounds/simple_sound.rs:process", "src/sounds/standard_block.rs:process", "src/modifiers/echo.rs:process", "src/modifiers/generic.rs:process", "src/modifiers/gain.rs:process", "src/modifiers/delay.rs:process", "src/modifiers/lowpass.rs:process", "src/modifiers/highpass.rs:process"]}
{"id": "C130", "title": "The owner of a sound stays in control of it while it is in a channel", "statement": "A program that adds a sound to a channel can still pause, mute or unregister it through its own pointer, gets full control back after removing it, and no pointer leaks or dangles: at any time the number of pointers to a sound is the number the program holds plus one for each channel entry, also when channels are cloned and dropped.", "quantifier": "all programs with any number of sounds and channels, any interleaving of creating, sharing, releasing, adding, removing, processing, cloning and dropping", "why_tests_cant": "All programs and interleavings.", "anchors": ["src/channels/standard_channel.rs:add_sound", "src/channels/standard_channel.rs:remove_sound", "src/channels/standard_channel.rs:process", "src/channels/mod.rs"]}
{"id": "C131", "title": "The generator and the modifier of a running block can be replaced", "statement": "Storing a new generator through get_g_mut makes the block continue with that generator from its first sample while the modifier goes on undisturbed; storing a new modifier through get_m_mut makes it process the inputs from then on while the generator goes on; inputs already primed are kept; a block that panics because a part is shared works again.", "quantifier": "all generators, modifiers, inputs, and times of replacement", "why_tests_cant": "All histories, all implementations of the traits.", "anchors": ["src/sounds/standard_block.rs:get_g_mut", "src/sounds/standard_block.rs:get_m_mut", "src/sounds/standard_block.rs:process"]}
{"id": "C132", "title": "Changing the playback speed while playing", "statement": "With a speed set before every sample through get_mut, sample n is the linear interpolation of the track at the sum of the steps so far, forwards and backwards; consecutive samples differ by at most the largest jump in the track times the step, so speed changes never click; before the start and after the end there is silence. What is set through get_mut is what get shows and what is heard.", "quantifier": "all tracks, rates, and sequences of speeds (positive, zero, negative)", "why_tests_cant": "All speed curves, unbounded time.", "anchors": ["src/generators/mono_wav.rs:get_mut", "src/utils/mono_resampler.rs:set_playback_speed", "src/utils/mono_resampler.rs:process"]}
{"id": "C133", "title": "From file to file", "statement": "Loading a 48 kHz file into MonoWav, playing it through a SimpleSound with both gains 1 and writing the output at the depth of the file reproduces the first channel code by code, for 8, 16 and 24 bits. With effects behind the file, each 16-bit code written is within 1/2 + 2^-9 + 32767 E of 32767 times what exact arithmetic gives, and each 24-bit code within 1 + 8388607 E, where E is the rounding budget of the effects (C129); for an echo of gain 1/2 that is less than one code.", "quantifier": "all files of at most 2^24 frames and any number of channels, any inputs of the sound, any number of rendered frames, any chain of effects with a rounding budget up to 1", "why_tests_cant": "All files and effect chains; errors could accumulate over frames.", "anchors": ["src/generators/mono_wav.rs:process", "src/sounds/simple_sound.rs:process", "src/utils/mod.rs:write_wav", "src/sample_format/mod.rs:sample_to_i16"]}
{"id": "C134", "title": "The f32 BandPass follows its equations", "statement": "A BandPass computed in f32/f64 stays, for ever and for every input of peak X, within 120 X / (d1 d2) of the filter its formulas define over the real numbers, where d1 and d2 are the distances in Hz of its two corners from the nearer end of the spectrum (0 or 24 kHz). The exact output is at most 4 X. So a filter with corners at 500 and 2000 Hz is accurate to 0.00012 X, the filter has a rounding budget in chains of effects (C129), and a tone leaves it at the level of its frequency response (C123).", "quantifier": "all corners in [9, 23991] Hz at least 2^-20 Hz apart, given to from_corners in either order or by centre frequency and quality; all inputs with peak in [2^-90, 2^80]; all sample positions", "why_tests_cant": "Rounding errors feed back through two poles; a test shows them for one input and a finite time only.", "anchors": ["src/modifiers/bandpass.rs:process", "src/modifiers/bandpass.rs:reset", "src/modifiers/bandpass.rs:from_corners", "src/modifiers/bandpass.rs:new"]}
{"id": "C135", "title": "Turning the knobs of a playing filter", "statement": "Changing the frequency or resonance of a filter while it plays is safe: the output stays bounded by the input level times a constant however the parameters are changed, and once they are left alone the output approaches that of a filter which had these parameters from the start.", "quantifier": "LowPass and HighPass (set_central_frequency, set_resonance before any samples) and BandPass (set_corner_frequencies); all sequences of parameters, all states, all inputs", "why_tests_cant": "Each setting by itself is stable; whether a sequence of changes is depends on products of matrices along all sequences, of which a test tries a handful.", "anchors": ["src/modifiers/lowpass.rs:set_central_frequency", "src/modifiers/lowpass.rs:set_resonance", "src/modifiers/lowpass.rs:process", "src/modifiers/highpass.rs:set_central_frequency", "src/modifiers/highpass.rs:process", "src/modifiers/bandpass.rs:set_corner_frequencies", "src/modifiers/bandpass.rs:process"]}
{"id": "C136", "title": "A released note ends", "statement": "After release() an ADSR envelope reaches silence: from every history, after finitely many samples the output is 0 and stays 0.", "quantifier": "all durations, sustain levels, histories of process and release, and inputs; IEEE arithmetic", "why_tests_cant": "Whether a ramp of rounded additions ever arrives depends on every bit of the rate and of the level it starts from, and a test can only wait so long.", "anchors": ["src/modifiers/adsr.rs:new", "src/modifiers/adsr.rs:release", "src/modifiers/adsr.rs:process"]}
{"id": "C137", "title": "The envelope does not click", "statement": "The gain of an ADSR envelope never jumps: from one sample to the next it changes by at most the steepest slope that was asked for (0 to 1 in the attack time, 1 to the sustain level in the decay time, sustain level to 0 in the release time), so consecutive outputs differ by at most the difference of the inputs plus that slope, also when release() falls between them.", "quantifier": "all positive durations, sustain levels, histories of process and release, inputs; IEEE arithmetic", "why_tests_cant": "The bound covers every phase change at every gain and every interleaving of release().", "anchors": ["src/modifiers/adsr.rs:new", "src/modifiers/adsr.rs:release", "src/modifiers/adsr.rs:process"]}
{"id": "C138", "title": "The envelope follower moves at the speeds asked for", "statement": "When the input settles at a level, an envelope below it rises at the speed of a one-pole filter with cutoff `upper` and an envelope above it falls at the speed of one with cutoff `lower`, without passing the level; a sample louder than the envelope raises it.", "quantifier": "all pairs of frequencies up to 12 kHz, all inputs and times; exact arithmetic; IEEE arithmetic for frequencies of 4 to 11990 Hz", "why_tests_cant": "The law holds for every pair of frequencies, every earlier history and every number of samples after the level settles, and rounding errors must be summed over all of them.", "anchors": ["src/modifiers/envelope.rs:new", "src/modifiers/envelope.rs:process"]}
{"id": "C139", "title": "One bad sample does not ruin the sound", "statement": "After a single NaN or infinite input sample, once only good samples follow, an effect's output becomes good again.", "quantifier": "all inputs, all states, all settings made in between, every later sample; IEEE arithmetic", "why_tests_cant": "It is a statement about every sample after the bad one, whatever else happens in between.", "anchors": ["src/modifiers/lowpass.rs:process", "src/modifiers/highpass.rs:process", "src/modifiers/bandpass.rs:process", "src/modifiers/envelope.rs:process", "src/modifiers/echo.rs:process", "src/modifiers/delay.rs:process", "src/modifiers/generic.rs:process"]}
{"id": "C140", "title": "The tail of an effect ends", "statement": "Once the input has become silent the output of an effect becomes exactly zero, so that it can be switched off and costs nothing (no subnormal numbers for ever).", "quantifier": "all inputs, gains and delays, every later sample; IEEE arithmetic", "why_tests_cant": "The tail is decided by roundings of subnormal numbers hundreds of repeats after the input ended, for every gain.", "anchors": ["src/modifiers/echo.rs:process", "src/modifiers/delay.rs:process", "src/modifiers/generic.rs:process", "src/modifiers/envelope.rs:process", "src/modifiers/lowpass.rs:process", "src/modifiers/highpass.rs:process", "src/modifiers/bandpass.rs:process"]}
{"id": "C141", "title": "No setting makes a BandPass blow up", "statement": "Whatever corners, centre or quality a BandPass is given, at creation or while it plays, its output for a bounded input stays bounded and finite.", "quantifier": "all settings, all states, all bounded inputs, every sample", "why_tests_cant": "Growth without bound is a statement about all times, and the unsafe settings form continuous ranges.", "anchors": ["src/modifiers/bandpass.rs:new", "src/modifiers/bandpass.rs:from_corners", "src/modifiers/bandpass.rs:set_corner_frequencies", "src/modifiers/bandpass.rs:set_central_frequency", "src/modifiers/bandpass.rs:reset"]}
{"id": "C142", "title": "A sound plays its block diagram, and a loop delays by one sample", "statement": "Every block of a network receives in each sample the sum of what its inputs put out in the same sample, or in the sample before if the input comes later in the processing order; so a feedback loop delays by exactly one sample, and the sound is the solution of its block diagram.", "quantifier": "all graphs, also with loops, all blocks, all samples; any arithmetic for the flow of samples, exact arithmetic for the closed form of a loop", "why_tests_cant": "Which connections are delayed depends on the order chosen for the whole graph, and the claim is about every sample of every graph.", "anchors": ["src/sounds/complex_sound.rs:process", "src/sounds/complex_sound.rs:process_order", "src/sounds/complex_sound.rs:add_connection"]}
{"id": "C143", "title": "A network of linear effects is linear and does not depend on when it is started", "statement": "A network, also one with loops, whose blocks are linear effects answers a weighted sum of two inputs with the weighted sum of the two answers, and a delayed input with the delayed answer, and never panics.", "quantifier": "all graphs, all linear effects, all inputs and weights, every sample; exact arithmetic", "why_tests_cant": "Linearity is a statement about all pairs of inputs and all graphs.", "anchors": ["src/sounds/complex_sound.rs:process", "src/sounds/complex_sound.rs:process_order", "src/sounds/complex_sound.rs:add_connection"]}
{"id": "C144", "title": "An effect is its impulse response, and the order of linear effects does not matter", "statement": "The output of a linear effect, of a chain of them and of a network of them is the input convolved with its answer to a single sample of 1; two effects with the same such answer are interchangeable, and two linear effects in a row may be exchanged.", "quantifier": "all linear effects and chains and networks of them, all inputs, every sample; exact arithmetic", "why_tests_cant": "It is about all inputs and all pairs of effects, and about the whole infinite impulse response.", "anchors": ["src/modifiers/lowpass.rs:process", "src/modifiers/highpass.rs:process", "src/modifiers/bandpass.rs:process", "src/modifiers/delay.rs:process", "src/modifiers/echo.rs:process", "src/modifiers/gain.rs:process", "src/sounds/simple_sound.rs:process", "src/sounds/complex_sound.rs:process"]}
{"id": "C145", "title": "A recorded tone plays as a tone of the right pitch", "statement": "Playing a recording of a tone of frequency f at speed v gives the tone of frequency f·v, up to the error of linear interpolation, (2πf/rate)²/8 of the amplitude.", "quantifier": "all frequencies, amplitudes, phases, source rates, speeds and samples before the end of the recording; exact arithmetic, and IEEE with the rounding terms", "why_tests_cant": "The claim is about every sample of every recording, and the fractional position accumulates over the whole playback.", "anchors": ["src/utils/mono_resampler.rs:process", "src/utils/mono_resampler.rs:new", "src/utils/mono_resampler.rs:set_playback_speed", "src/generators/mono_wav.rs:process"]}
{"id": "C146", "title": "A waveform has no constant part", "statement": "Averaged over whole periods, Sine, Square, Triangle and Sawtooth are zero.", "quantifier": "all frequencies 48000·P/N with P, N without common factor, all starting points; exact arithmetic", "why_tests_cant": "Whether the samples of a period balance depends on the ratio of the frequency to the sample rate; a test sees only a few ratios.", "anchors": ["src/generators/sine.rs:process", "src/generators/square.rs:process", "src/generators/triangle.rs:process", "src/generators/sawtooth.rs:process"]}
{"id": "C147", "title": "Rounding errors in a network of effects stay within a budget, also in loops", "statement": "If sizes and errors can be assigned to the blocks of a network such that each block's share covers what it is given (for a loop: if its gain is below 1), then the f32 sound stays for ever within the budget of the exact sound, at most 2^-18/(1-g)^2 for a gain up to g connected to itself.", "quantifier": "all graphs with or without loops, all effects with known gain bounds, all inputs of bounded size, every sample", "why_tests_cant": "Errors that go round a loop might add up over hours of playing, and the claim is about all graphs.", "anchors": ["src/sounds/complex_sound.rs:process", "src/sounds/complex_sound.rs:process_order", "src/sounds/standard_block.rs:process", "src/modifiers/gain.rs:process"]}
{"id": "C148", "title": "Vibrato: a generator follows its frequency", "statement": "When the frequency of a playing generator is set before every sample, the output at each sample is the waveform at the phase that the frequencies set so far add up to.", "quantifier": "all four generators, all sequences of frequencies in range, every sample", "why_tests_cant": "The claim is about every sequence of frequencies; tests set a frequency once or twice.", "anchors": ["src/generators/sawtooth.rs:set_frequency", "src/generators/triangle.rs:set_frequency", "src/generators/square.rs:set_frequency", "src/generators/sine.rs:set_frequency"]}
{"id": "C149", "title": "Transfer functions of networks", "statement": "A ComplexSound of linear effects multiplies every input by one fixed transfer function, the only solution of its flow equations: effects in series multiply, effects side by side add, and an effect A with return path B gives A / (1 - X A B), where X is a delay of one sample.", "quantifier": "all networks of linear time-invariant effects, with or without loops, all inputs, all lengths; exact arithmetic", "why_tests_cant": "The claim is about all networks and all inputs, and transfer functions are infinite series.", "anchors": ["src/sounds/complex_sound.rs:process", "src/sounds/complex_sound.rs:process_order", "src/sounds/standard_block.rs:process"]}
{"id": "C150", "title": "Harmonics of the waveforms", "statement": "The harmonics of each generator are those of its waveform sampled at 48 kHz: a sawtooth has all of them, falling as 1/j, a square and a triangle wave only the odd ones, falling as 1/j and 1/j², a sine only the first.", "quantifier": "all frequencies that divide the sample rate rationally (48000 P/N), all harmonics, from any sample on; exact arithmetic", "why_tests_cant": "The claim is about the spectrum at every rational frequency; tests compare a few samples.", "anchors": ["src/generators/sawtooth.rs:process", "src/generators/square.rs:process", "src/generators/triangle.rs:process", "src/generators/sine.rs:process"]}
{"id": "C151", "title": "Effects and energy", "statement": "An effect never puts out more energy than its largest gain at any frequency allows: LowPass and HighPass without resonance add none, BandPass takes some from every sound, Echo multiplies it by at most 1/(1-|gain|)², and the bounds multiply along a sound.", "quantifier": "all input sounds, all lengths, all cutoffs up to 24 kHz, all corners, all echo gains below one, all chains of blocks; exact arithmetic", "why_tests_cant": "The claim bounds the output for every input of every length by the response to sinusoids; tests feed a few inputs.", "anchors": ["src/modifiers/lowpass.rs:process", "src/modifiers/highpass.rs:process", "src/modifiers/bandpass.rs:process", "src/modifiers/echo.rs:process", "src/modifiers/generic.rs:process", "src/sounds/simple_sound.rs:process"]}
{"id": "C152", "title": "Loops whose gain is below one", "statement": "A sound whose blocks are connected in any way, loops included, stays within a fixed multiple of its input for ever as soon as the gains of its blocks can be covered by a budget: an effect with gain A and a return path with gain B < 1/A gives at most A/(1-AB) times the input, in energy and in peak. A loop of gain exactly one has no such bound.", "quantifier": "all graphs, all effects (linear or not) with a known gain, all inputs, all lengths; exact arithmetic", "why_tests_cant": "The claim concerns every input of every length through every graph; a test hears one feedback loop for a while.", "anchors": ["src/sounds/complex_sound.rs:process", "src/sounds/standard_block.rs:process", "src/modifiers/adsr.rs:process"]}
{"id": "C153", "title": "Noise is white, and its level after an effect is predictable", "statement": "Given ideal random numbers, the samples of the noise generator are independent of each other (also across several noise generators, which share the random source of the thread), each of the 2^24 values from -1 to 1 - 2^-23 is equally likely, the mean is -2^-24 and the mean square 1/3. Sent through a linear effect with impulse response g, noise comes out with the mean square that the sum of g squared says.", "quantifier": "all lengths, all linear effects, all outcomes of the random numbers; f32 samples, exact effects and f32 effects with a rounding budget", "why_tests_cant": "The claim is about the average over all outcomes; a test sees one sequence of random numbers and has to guess a tolerance.", "anchors": ["src/generators/noise.rs:process", "src/modifiers/mod.rs:Modifier", "src/modifiers/lowpass.rs:process"]}
{"id": "C154", "title": "The default interactor is a ring modulator", "statement": "A block built from an oscillator and a modifier with the default interactor multiplies the two: with a Sine of frequency s, a tone of frequency v coming out of the modifier leaves the block as the two tones s + v and s - v at half the amplitude each and nothing else audible; with a Square every sample is passed exactly, unchanged or with its sign changed.", "quantifier": "all modifiers, all inputs, all sample numbers, all frequencies that do not drift (every multiple of 10 Hz among them); IEEE arithmetic", "why_tests_cant": "A test can check one product; the claim is about the spectrum of the output for all frequencies, phases and times, with an error that does not grow.", "anchors": ["src/sounds/standard_block.rs:process", "src/sounds/standard_block.rs:default_interactor", "src/generators/sine.rs:process", "src/generators/square.rs:process"]}
{"id": "C155", "title": "The level of a waveform", "statement": "The root mean square of a Sine is 1/sqrt(2), of a Square 1, of a Sawtooth and of a Triangle 1/sqrt(3), over whole periods, wherever they begin, up to a term in 1/N^2 for N samples; over any n samples the square of the level differs from that by at most N/n.", "quantifier": "all frequencies 48000·P/N with P, N without common factor, all starting points, all lengths; exact arithmetic and IEEE with the drift of the oscillator", "why_tests_cant": "The level depends on which phases are sampled and on the edges of the waveform falling on a sample; a test sees a few frequencies and the start of the sound only.", "anchors": ["src/generators/sine.rs:process", "src/generators/square.rs:process", "src/generators/triangle.rs:process", "src/generators/sawtooth.rs:process"]}
{"id": "C156", "title": "Frequencies below zero and above half the sample rate", "statement": "A generator whose frequency is modulated through zero or beyond half the sample rate keeps playing: it does not panic, its samples stay in [-1,1], and it is back to normal when the frequency is.", "quantifier": "all frequencies, all sample numbers; exact arithmetic for the general statements, IEEE for Triangle and the witnesses", "why_tests_cant": "Frequency modulation visits values no test lists, and some of the failures (running out of the table, drifting out of range) come only after a number of samples that depends on the frequency.", "anchors": ["src/generators/sine.rs:process", "src/generators/square.rs:process", "src/generators/triangle.rs:process", "src/generators/sawtooth.rs:process"]}
{"id": "C157", "title": "The envelope follower as a level meter", "statement": "The reading is proportional to the level of the input, settles between its quietest and loudest magnitude, is not lowered by making the input louder, and with equal frequencies averages to the mean magnitude.", "quantifier": "all inputs, all sample numbers, all frequencies in the stated ranges; exact arithmetic", "why_tests_cant": "The follower switches between two speeds depending on its own state, so its reading is not a linear function of anything; only some inputs hit the switch at the wrong moment.", "anchors": ["src/modifiers/envelope.rs:process", "src/modifiers/envelope.rs:new"]}
{"id": "C158", "title": "Filters designed with Generic: all-pass, linear phase, undoing an effect", "statement": "Tap lists chosen by the textbook do what the textbook says: all-pass taps keep the level of every frequency and add no energy, symmetric taps delay every frequency by the same time, and the exchanged and negated taps undo a filter or an echo.", "quantifier": "all tap lists of the stated form, all inputs, all frequencies, all sample numbers; exact arithmetic, and IEEE for undoing an echo", "why_tests_cant": "The sign and index conventions of the two tap lists decide whether a design works; a test of one design at one frequency cannot tell a convention error from a wrong coefficient.", "anchors": ["src/modifiers/generic.rs:process", "src/modifiers/generic.rs:new", "src/modifiers/echo.rs:process"]}
{"id": "C159", "title": "Normalised tracks may be written without clipping", "statement": "After normalize to 0 dB or less every sample is within [-1,1] exactly, so write_wav with clip set to false writes the same file as with clip set to true and every 24-bit code is within 24 bits.", "quantifier": "all tracks, all levels of at most 0 dB, all bit depths, all writers; IEEE f32", "why_tests_cant": "The documentation of write_wav promises it, but the factor is rounded up for about half of all peaks, and a product one unit above 1 would wrap the 24-bit code; a test sees a few peaks.", "anchors": ["src/utils/mod.rs:write_wav", "src/utils/mod.rs:normalize", "src/sample_format/mod.rs:sample_to_i24"]}
{"id": "C160", "title": "Changing the bit depth of a recording", "statement": "A recording converted to a higher bit depth and back is unchanged, sample by sample and file by file; converted to a lower depth and back it is off by half a step of the lower depth; the codes written stay within the bit depth.", "quantifier": "all 8-bit, 16-bit and 24-bit samples, all files of whole frames, all writers; IEEE f32", "why_tests_cant": "Each depth has its own scale (128, 32767, 8388607), so a conversion is two roundings at incommensurable steps; tests of single samples do not show the one code that leaves the range.", "anchors": ["src/sample_format/mod.rs:sample_to_i24", "src/sample_format/mod.rs:sample_from_i16", "src/sample_format/mod.rs:sample_to_u8", "src/utils/mod.rs:write_wav", "src/utils/mod.rs:read_wav"]}
{"id": "C161", "title": "Normalising depends only on the shape of a track", "statement": "The result of normalize does not depend on the volume or the offset of the track it is given; normalising again changes nothing, and normalising to another level is the same as changing the volume.", "quantifier": "all tracks with two different samples, all levels, all volumes and offsets; exact arithmetic, and IEEE f32 for normalising again", "why_tests_cant": "A test normalises one track once; that the mean and the peak are both removed exactly, in this order, only shows when the same track comes in at every volume and offset.", "anchors": ["src/utils/mod.rs:normalize"]}
{"id": "C162", "title": "Combs: removing hum and offset", "statement": "An echo boosts the multiples of 48000/D Hz and weakens the frequencies half way between, by known factors and no others by more; two taps at a distance of D samples remove these frequencies altogether, a hum of period D is gone exactly after D samples whatever its shape, and the usual offset filter removes any offset at the rate of its feedback.", "quantifier": "all delays, gains, frequencies and inputs; exact arithmetic, and IEEE f32 for hum and constants", "why_tests_cant": "Whether the delay is D or D+1 samples decides which frequencies vanish; a test at one frequency cannot tell a wrong delay from a wrong gain, and exact cancellation in f32 must hold for every waveform.", "anchors": ["src/modifiers/echo.rs:process", "src/modifiers/generic.rs:process", "src/modifiers/generic.rs:new"]}
{"id": "C163", "title": "Moving a sound between the speakers", "statement": "While its pan position moves a sound changes smoothly in both speakers, opposite positions are mirror images, and the loudness does not depend on the position.", "quantifier": "all samples and positions; exact arithmetic and IEEE", "why_tests_cant": "The position is a real number and the sample any number; a discontinuity at one position is only found by tests that straddle it.", "anchors": ["src/sample_format/stereo.rs:to_sample_format"]}
{"id": "C164", "title": "Splitting a sound at a frequency and putting it together again", "statement": "A low pass and a high pass of the same cutoff without resonance, side by side, give back every frequency at its own level.", "quantifier": "all cutoffs and frequencies; exact arithmetic", "why_tests_cant": "Whether two bands add up or cancel depends on the phases of both filters at every frequency and cutoff, which no single measurement shows.", "anchors": ["src/modifiers/lowpass.rs:process", "src/modifiers/highpass.rs:process", "src/sounds/complex_sound.rs:process"]}
{"id": "C165", "title": "A branch that leads nowhere does not change the sound", "statement": "Blocks from which no path of connections leads to the output gain of a complex sound do not change its output: two sounds that agree in the blocks and connections leading to the output give the same samples, however their blocks are numbered and whatever else they contain.", "quantifier": "all pairs of built sounds, block types and inputs", "why_tests_cant": "The processing order is computed from the whole graph; that it never depends on a dead branch is a statement about pairs of graphs of any size.", "anchors": ["src/sounds/complex_sound.rs:process", "src/sounds/complex_sound.rs:process_order", "src/sounds/complex_sound.rs:add_connection"]}
{"id": "C166", "title": "Tracks whose rate is a simple ratio play without drift", "statement": "A track whose step per sample is a/2^k (96, 24, 72 kHz; half, double, one and a half speed) is read at exactly n*a/2^k for every n: between two samples the straight line up to rounding, at whole positions the sample bit for bit, held after the last sample, silence from the end on, and no panic.", "quantifier": "all tracks of at most 2^24/2^k samples less one step, all such steps and all n; IEEE arithmetic", "why_tests_cant": "The position is an accumulated f32; that no rounding ever enters, up to and including the last samples, concerns millions of additions and every track.", "anchors": ["src/utils/mono_resampler.rs:process", "src/utils/mono_resampler.rs:new", "src/generators/mono_wav.rs:process"]}
{"id": "C167", "title": "The cost of a sample does not grow", "statement": "While a complex sound plays, every sample runs each block of its order exactly once (at most one entry per block) and passes on one input per connection, so that n samples take at most n calls per block and n per connection (and one more); neither the sound nor Delay, Echo or Generic takes more memory as they play.", "quantifier": "all graphs, blocks, effects, states and numbers of samples; any arithmetic", "why_tests_cant": "A test plays for a while; a cost that depends on how long a sound has been playing or how often it has been rewired shows only later.", "anchors": ["src/sounds/complex_sound.rs:process", "src/sounds/complex_sound.rs:process_order", "src/modifiers/delay.rs:process", "src/modifiers/echo.rs:process", "src/modifiers/generic.rs:process"]}
{"id": "C168", "title": "The order of wiring is not heard", "statement": "Two complex sounds with the same blocks and the same connections give the same samples for the same input, in whatever order the connections were made and whatever was connected and disconnected on the way.", "quantifier": "all pairs of call sequences, block types and inputs", "why_tests_cant": "The processing order is derived from the history of the connections; that the history cannot be heard is a statement about all pairs of histories of a diagram.", "anchors": ["src/sounds/complex_sound.rs:add_connection", "src/sounds/complex_sound.rs:remove_connection", "src/sounds/complex_sound.rs:process_order", "src/sounds/complex_sound.rs:process"]}
{"id": "C169", "title": "Turning a sound upside down (the null test)", "statement": "Inverting the polarity of the input inverts the output exactly, for every effect but the envelope follower, for every chain and every network of them, and for tracks played from inverted samples; so a sound and its mirrored copy cancel to exact silence. The envelope follower reads the same level from both.", "quantifier": "all effects, settings, inputs (NaN and infinities included), networks of any shape, sharing states and lengths, in IEEE arithmetic", "why_tests_cant": "Inverting one copy and listening for silence is the usual test that two signal paths are the same; that rounding never breaks the symmetry concerns every operation, every state and every graph.", "anchors": ["src/modifiers/gain.rs:process", "src/modifiers/delay.rs:process", "src/modifiers/echo.rs:process", "src/modifiers/generic.rs:process", "src/modifiers/lowpass.rs:process", "src/modifiers/highpass.rs:process", "src/modifiers/bandpass.rs:process", "src/modifiers/adsr.rs:process", "src/modifiers/envelope.rs:process", "src/utils/mono_resampler.rs:process", "src/sounds/standard_block.rs:process", "src/sounds/simple_sound.rs:process", "src/sounds/complex_sound.rs:process"]}
{"id": "C170", "title": "Rewiring a playing sound", "statement": "While a complex sound plays, blocks may be added, connections made and removed, and the sound paused and muted, in any order: every sample is what the connections of that moment make of the present states of the blocks. Rewiring itself changes no block.", "quantifier": "all sequences of calls on a new sound, all block types and inputs", "why_tests_cant": "The processing order is recomputed by some calls only and blocks keep pending input; that the history of edits cannot be heard is a statement about all interleavings of edits and samples.", "anchors": ["src/sounds/complex_sound.rs:add_block", "src/sounds/complex_sound.rs:add_connection", "src/sounds/complex_sound.rs:remove_connection", "src/sounds/complex_sound.rs:process_order", "src/sounds/complex_sound.rs:process"]}
{"id": "C171", "title": "The level of a chord", "statement": "Sines of different frequencies, mixed with any weights and started at any time, have together the level sqrt(sum of a^2/2): their powers add. Two sines of one frequency instead have the level sqrt((a^2+b^2)/2 + a b cos(phase difference)), from the sum of the amplitudes when started together to silence when started half a period apart.", "quantifier": "all finite sets of frequencies 48000·P/N with different P below N/2, all weights, all starting points of every tone; exact arithmetic and f32 samples with the drift of the oscillator", "why_tests_cant": "The headroom to leave for a mix depends on how its voices add; a test hears one chord with one set of starting times.", "anchors": ["src/generators/sine.rs:new", "src/generators/sine.rs:process"]}
{"id": "C172", "title": "The level of a mixture of tones after an effect", "statement": "An effect turns a mixture of tones into the mixture of the same tones, each with the gain the response says; its long-term level is sqrt(sum of (gain*amplitude)^2/2), wherever the measurement begins. In f32 the level differs from that by no more than the rounding bound of the effect.", "quantifier": "all finite sets of different frequencies between 0 and 24 kHz, all amplitudes and phases, all effects that settle (filters, echoes, chains, sounds made of them), all beginnings of the window; exact arithmetic and f32", "why_tests_cant": "The level of a mix behind an equaliser is a limit over ever longer windows and the response is known for single tones; a test measures one mix over one window.", "anchors": ["src/modifiers/lowpass.rs:process", "src/modifiers/highpass.rs:process", "src/modifiers/bandpass.rs:process", "src/modifiers/generic.rs:process", "src/modifiers/echo.rs:process", "src/sounds/simple_sound.rs:process"]}
{"id": "C173", "title": "Headroom: mixing without clipping", "statement": "If the levels the blocks of a network may put out, added along the connections, are covered by what the next blocks may be given, no block ever exceeds its level, loops included, with no allowance for rounding. In particular K generators mixed with an output gain of at most 1/K never leave [-1,1].", "quantifier": "all graphs, all kinds of blocks with a limit (generators, gains, delays, envelopes), all inputs within the limit, any length, in f32", "why_tests_cant": "Leaving headroom of 1/K is the usual rule against clipping; that the rounding of K sums and a product never puts a sample just above 1, and that pending input in loops is counted once, concerns every combination of samples.", "anchors": ["src/sounds/complex_sound.rs:process", "src/sounds/standard_block.rs:prime_input", "src/sounds/standard_block.rs:process", "src/modifiers/gain.rs:process", "src/modifiers/delay.rs:process", "src/modifiers/adsr.rs:process"]}
{"id": "C174", "title": "A chain sounds the same in a simple and a complex sound", "statement": "If the blocks of a SimpleSound (generator block, then the modifiers) are wired into a chain in a ComplexSound with the same gains, by whatever calls, the two give the same samples for the same input: exactly in exact arithmetic, and in f32 exactly but for the sign of zero, NaN and infinities included.", "quantifier": "all chains of any length of blocks of any kind (f32: standard blocks with any generator, modifier and interaction), all gains, all inputs, any length, all ways of building", "why_tests_cant": "SimpleSound is meant for blocks in series, ComplexSound for any wiring; the two are separate code (a list and a graph with a computed order), and equality concerns all blocks, inputs and ways of wiring.", "anchors": ["src/sounds/simple_sound.rs:process", "src/sounds/complex_sound.rs:process", "src/sounds/complex_sound.rs:new", "src/sounds/standard_block.rs:prime_input"]}
{"id": "C175", "title": "Sounds do not disturb each other", "statement": "Playing a sample of a sound depends on nothing but that sound's own flags and blocks and changes no other memory, whether or not it panics. Sounds of either kind that have no block in common, played, paused, muted and registered in any interleaving, each give exactly the samples (and leave their blocks in the state) they would give alone, and can be played together whenever each can be played alone.", "quantifier": "all sounds (simple and complex, any number), all blocks, all inputs, all interleavings of calls of any length, any arithmetic", "why_tests_cant": "Isolation is a statement about all interleavings and all memories; a test sees one order of calls, and blocks are shared pointers, so nothing in the types forbids interference.", "anchors": ["src/sounds/simple_sound.rs:process", "src/sounds/complex_sound.rs:process", "src/sounds/mod.rs:BlockSP", "src/sounds/mod.rs:Sound"]}
{"id": "C176", "title": "The level of noise as a meter shows it, with a tone and in several voices", "statement": "Noise added to any signal is measured as the mean square of the signal plus a third (times the square of the noise gain): over N samples, all but a share of the order 1/(N eps^2) of the outcomes of the random numbers give a reading within eps of it. This also holds for the f32 sum with a signal of at most 1, up to 2^-21. Noise voices add in power: V of them have V times the mean square of one; the f32 sum of two is exact.", "quantifier": "all signals, all lengths, all tolerances, all gains, all numbers of voices, all outcomes of ideal random numbers", "why_tests_cant": "A test draws one sequence of random numbers and guesses a tolerance; the claim bounds the share of all outcomes in which a reading is off, for every signal and length.", "anchors": ["src/generators/noise.rs:process", "src/sample_format/mono.rs:Add"]}
{"id": "C177", "title": "Writing back a control that was read", "statement": "Setting a control to the value the object reports for it changes no bit of the object, after any history: the frequency of Sine, Sawtooth, Square and Triangle (on either slope), frequency and resonance of LowPass and HighPass, frequency and quality of BandPass, the gains of a SimpleSound, the speed of a resampler. This holds although the frequency reported need not be the one that was set. The corner frequencies of BandPass are the exception: writing them back moves the centre.", "quantifier": "all histories, all f64 arguments (oscillators: frequencies of magnitude 2^-180 to 2^180)", "why_tests_cant": "Whether dividing by ten, multiplying back and dividing again returns the same double depends on all 53 bits; a test tries a few frequencies.", "anchors": ["src/generators/sine.rs:set_frequency", "src/generators/sawtooth.rs:get_frequency", "src/generators/triangle.rs:set_frequency", "src/modifiers/lowpass.rs:set_central_frequency", "src/modifiers/highpass.rs:set_resonance", "src/modifiers/bandpass.rs:set_corner_frequencies", "src/sounds/simple_sound.rs:set_input_gain"]}
{"id": "C178", "title": "Setting up an object equals constructing it", "statement": "Settings made before an object plays give the object that the constructor gives for the last settings: LowPass, HighPass and BandPass under any sequence and order of settings, the oscillators under any sequence of frequencies, the gains of SimpleSound and StandardChannel. The settings of a SimpleSound are independent of each other at any time. BandPass made from corners and BandPass given the same corners are the same filter for positive corners; for corners of opposite sign the constructor takes a magnitude and the setter does not, giving NaN.", "quantifier": "all settings in any sequence, any arithmetic (corners: all positive finite f64, bit for bit)", "why_tests_cant": "A test compares a constructor with one setter call; the claim is about every sequence of settings and every bit of the result.", "anchors": ["src/modifiers/lowpass.rs:set_resonance", "src/modifiers/highpass.rs:set_central_frequency", "src/modifiers/bandpass.rs:from_corners", "src/modifiers/bandpass.rs:set_corner_frequencies", "src/generators/square.rs:set_frequency", "src/sounds/simple_sound.rs:set_output_gain", "src/channels/standard_channel.rs:set_gain"]}
{"id": "C179", "title": "Moving the volume of a playing sound", "statement": "Behind the volume and the mute button of a SimpleSound there is one signal that no movement of these controls changes: whatever positions they take from sample to sample, what is heard is that signal times the volume of the moment, or zero while muted; the blocks end in the same state and a panic occurs or not regardless. The input gain acts only as a factor of the input. A step of the volume adds at most that step times the level to the difference of neighbouring samples. Volume zero is silence for every finite sample; for an infinite one it is NaN, while mute gives zero.", "quantifier": "all sounds, blocks (shared or not), inputs and movements of the controls; any arithmetic", "why_tests_cant": "The claim relates all movements of a control to one signal; a test plays one movement.", "anchors": ["src/sounds/simple_sound.rs:process", "src/sounds/simple_sound.rs:set_output_gain", "src/sounds/simple_sound.rs:set_input_gain", "src/sounds/simple_sound.rs:toggle_mute"]}
{"id": "C180", "title": "The envelope does not listen to the sound", "statement": "The course of an ADSR envelope is fixed by its state and the moments of release: there is one sequence of gains by which whatever is played is multiplied, and the final state does not depend on the sound. So the two sides of a stereo sound with equal envelopes stay balanced; in exact arithmetic the envelope is linear and may change places with a gain or another envelope. Releasing again during the release changes nothing, and releasing a note that has ended does not revive it.", "quantifier": "all states, all inputs, releases at any moments; any arithmetic (exact for linearity and order)", "why_tests_cant": "The claim compares all inputs for every pattern of releases.", "anchors": ["src/modifiers/adsr.rs:process", "src/modifiers/adsr.rs:release", "src/modifiers/adsr.rs:new"]}
{"id": "C181", "title": "Silence in, silence out", "statement": "No effect makes a sound of its own: from rest and fed silence (zeros of either sign), every effect with any parameters outputs zero or NaN at every sample in IEEE arithmetic, and so does every chain and every network of effects, also with loops. With coefficients that are numbers the output is zero and nothing panics; with an infinite gain it is NaN.", "quantifier": "all parameters, all lengths of silence, all networks (IEEE)", "why_tests_cant": "Self-oscillation, limit cycles and offsets appear for particular coefficients and after long times.", "anchors": ["src/modifiers/gain.rs:process", "src/modifiers/delay.rs:process", "src/modifiers/echo.rs:process", "src/modifiers/generic.rs:process", "src/modifiers/lowpass.rs:process", "src/modifiers/highpass.rs:process", "src/modifiers/bandpass.rs:process", "src/modifiers/envelope.rs:process", "src/modifiers/adsr.rs:process", "src/sounds/complex_sound.rs:process"]}
{"id": "C182", "title": "Cutting and joining recordings", "statement": "Files can be cut between frames and joined: data that is the data of one file followed by the data of another reads as the two recordings joined channel by channel, and recordings joined channel by channel are written as the data of the first followed by that of the second under the same header, at 8, 16 and 24 bits, with and without clipping. No sample depends on what lies before or after the cut. A cut within a frame does not have this property.", "quantifier": "all recordings, channel counts, lengths and depths; any arithmetic", "why_tests_cant": "The claim is about every position of the cut and every channel count.", "anchors": ["src/utils/mod.rs:read_wav", "src/utils/mod.rs:write_wav"]}
{"id": "C183", "title": "A rate is a speed", "statement": "A track of rate R played at speed v is the same track of rate R * v played at speed 1: sample for sample, looping or not, to the end or to the panic. Of rate and speed only the distance from one sample to the next is heard.", "quantifier": "all tracks, rates, speeds, loop bounds and numbers of samples; octaves in floating point", "why_tests_cant": "The claim compares two settings over playback of unbounded length; in floating point it holds bit for bit for some pairs of settings and not for others.", "anchors": ["src/utils/mono_resampler.rs:MonoResampler::new", "src/utils/mono_resampler.rs:MonoResampler::set_playback_speed", "src/utils/mono_resampler.rs:MonoResampler::process"]}
