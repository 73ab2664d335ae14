{
 "C01": "IEEE binary32.",
 "C02": "IEEE binary32.",
 "C03": "IEEE binary32.",
 "C04": "IEEE binary32, all values including NaN, infinities and signed zeros.",
 "C05": "The code violates this: sample_to_i24(2.0) = 16777214. Proved: the bound for samples in [-1,1]; and the exact set, C05_i24_range_iff_partial: the code is in range iff the sample is NaN or -(1+2^-23) <= s <= 1; missing, because false, are the samples outside.",
 "C06": "IEEE binary32.",
 "C07": "IEEE binary32. Explicit constants: u8 1/256 + 2^-24 for s <= 127/128 and one step 1/128 on the whole of [-1,1]; i16 (1/2 + 2^-10)/32767 + 2^-25; i24 (1/2 + 1/4)/8388607 + 2^-25.",
 "C08": "leValue is a specification of little-endian two's complement written apart from the model.",
 "C09": "The code violates this: the top byte is filled with 0 instead of the sign. Proved: correct iff the top bit is clear; negative values decode to something >= 1.",
 "C10": "IEEE binary32; error text of the failing conversions included.",
 "C11": "The code violates this: Sub for Mono adds. Proved: -= subtracts, every other operator is the channel operation and agrees with its assigning form; missing is '-'.",
 "C12": "The code violates this for *= by an f64: the factor is narrowed before multiplying. Proved: all operators channelwise, f32 factors agree for every value; missing is f64 factors that are not f32 values.",
 "C13": "The code violates this: from_sample then into_sample doubles.",
 "C14": "Exact real arithmetic for equal power; the equality of the two channels holds in any arithmetic.",
 "C15": "IEEE, any math library.",
 "C16": "The code violates this: full left is louder on the right, full right is louder on the left and the centre is 117 dB out of balance, in exact arithmetic and in f64. Proved: the levels actually produced, and that panning never amplifies (exact arithmetic; in floating point see C117).",
 "C17": "IEEE, any math library.",
 "C18": "Exact real arithmetic.",
 "C19": "Exact real arithmetic; the left endpoint also in IEEE.",
 "C20": "The code violates this: samples_to_seconds multiplies by the sample rate. from_secs_f64 of the standard library is a parameter specified by FromSecsSpec (shown inhabited).",
 "C21": "IEEE binary64, durations below 2^30 s for the error bound, all durations for monotonicity.",
 "C22": "Exact real arithmetic.",
 "C23": "Exact real arithmetic.",
 "C24": "The code violates this: silent and other constant tracks turn into NaN (or full-scale), and differences near the denormal range overflow to infinity. Proved (IEEE, tracks of any length below 2^64): finite output when two samples differ by at least 2^-38 with |s| <= 1, and for samples up to 2^100 differing by at least 2^j when the gain is at most 2^(j+126).",
 "C25": "The wav writer is a parameter.",
 "C26": "The wav writer is a parameter.",
 "C27": "The wav reader is a parameter: the theorem quantifies over what it may return.",
 "C28": "The code violates this: a header with zero channels and data panics. Proved: no panic otherwise.",
 "C29": "Any sample codec with decode-encode identities proved for u8, i16, i24 in C01-C03.",
 "C30": "IEEE binary32.",
 "C32": "Exact reals, IEEE finite values and NaN.",
 "C33": "IEEE, all histories with frequencies in [0,48000]; the frequency bound is shown necessary.",
 "C34": "Exact real arithmetic.",
 "C35": "IEEE, all histories.",
 "C36": "The code violates this: after one sample at 24000 Hz the getter returns -24000. Proved (exact arithmetic): the absolute value is right; missing is the sign while the wave descends.",
 "C37": "IEEE, all histories.",
 "C38": "Exact real arithmetic.",
 "C39": "IEEE; the math library's sin is assumed to map the table arguments into [-1,1].",
 "C40": "The code violates this in the last table step, where the output is 0. Proved (exact arithmetic): the interpolation bound outside that step, and 2*pi/4800 everywhere.",
 "C41": "Exact arithmetic for all generators. In IEEE the Sine getter is not bit-exact (20.3 Hz); proved exact for frequencies of at most 52 significant bits; for all other frequencies and generators C111 bounds the error.",
 "C42": "Any arithmetic, hence IEEE.",
 "C43": "IEEE; the random source is a parameter delivering multiples of 2^-24 in [0,1).",
 "C44": "Any arithmetic for Sawtooth, Square, Sine. Violated by Triangle, whose clone may run downwards; proved in exact arithmetic and in IEEE arithmetic (any f64 frequencies, histories with set_frequency): it plays the fresh wave bit for bit or its negative.",
 "C45": "The code violates this: the f32 position stalls at 2^24 samples, and far-apart neighbours give NaN. Proved (IEEE): bit-exact playback then silence for tracks up to 2^24 samples whose neighbouring differences are finite; missing is longer tracks, infinite/NaN samples, and -0.0 (read back as +0.0).",
 "C46": "The code violates this in IEEE arithmetic: a two-sample track at speed 1-2^-24 panics with an index error. Proved: the whole property in exact arithmetic; permanent silence in any arithmetic; in IEEE, for every state with a track up to 2^24 samples, that this rounding of ind+1 is the only way to panic.",
 "C47": "The code violates this in IEEE arithmetic by the same rounding of ind+1, and by a step equal to the loop length being rounded to the loop end. Proved: the whole property in exact arithmetic for every history; in IEEE, for every history with tracks up to 2^23 samples and steps up to the loop length less one, that the rounding of ind+1 at the end of the track is the only panic, so loops ending two samples before the end of the track never panic.",
 "C48": "Exact real arithmetic.",
 "C49": "The code violates this: a positive loop_start with loop_end = 0 is swapped into a loop over the first loop_start samples (any arithmetic). Proved (exact arithmetic): silence after the end for loop_start = 0, which is the only case left.",
 "C50": "The code violates this for loops over part of the track. Proved (exact arithmetic): seamless when the loop is the whole track; for every other loop the output is the seamless one except between the last sample of the loop and the loop end, with the exact output given there.",
 "C95": "Exact real arithmetic.",
 "C51": "Any arithmetic.",
 "C52": "IEEE arithmetic for the length; see the theorem for the range of durations.",
 "C53": "The code violates this: clone multiplies the length by 48000, so a 1-sample delay clones to a 1-second delay. Proved: the clone is silent and delays by 48000 times as much, which is right only for length 0.",
 "C54": "The recurrence holds in any arithmetic, the bound in exact arithmetic.",
 "C55": "The code violates this: durations that round to 0 samples leave an empty queue and process unwraps None. Proved: no panic for every duration of at least 20834 ns, panic for every shorter one.",
 "C56": "Any arithmetic. Hypothesis: in each tap list the last tap has the largest delay, which C57 shows is needed.",
 "C57": "The code violates this: taps out of order index past the buffer. Proved when the last tap of each list has the largest delay.",
 "C58": "Exact real arithmetic.",
 "C59": "Exact real arithmetic; unit DC gain, backward-Euler form of the third-order prototype, and convergence of the step response.",
 "C60": "Exact real arithmetic, including convergence to 0.",
 "C61": "Exact real arithmetic, including convergence to 0.",
 "C62": "IEEE arithmetic, all f64 arguments, any math library.",
 "C63": "Exact real arithmetic.",
 "C64": "Exact real arithmetic.",
 "C65": "Any arithmetic.",
 "C72": "Any arithmetic.",
 "C73": "Any arithmetic.",
 "C66": "IEEE arithmetic. Hypothesis on the math library: the sustain level 10^(min(s,0)/20) it computes is in [0,1]. Excluded: decay 0 at level exactly 1 and release 0 at level exactly 0 (rate 0/0, see C70).",
 "C67": "Any arithmetic.",
 "C68": "Exact real arithmetic.",
 "C69": "The code violates this: every attack of 699.050645834 s or more stalls at gain 1/2 or below. Proved: every attack of at most 699.050645833 s (one nanosecond less) finishes within 2^25 samples.",
 "C70": "The code violates this for decay 0 at 0 dB and for release 0 at level 0 (both 0/0). Proved outside these two combinations, given a sustain level in [0,1] from the math library.",
 "C71": "Exact real arithmetic. The code violates non-negativity for every lower above 12000; proved for lower <= 12000 and every upper. The peak bound, the dependence on |x| only (any arithmetic) and tracking of constants are proved as stated.",
 "C74": "Any arithmetic, any generator, modifier and interactor.",
 "C75": "Any arithmetic.",
 "C76": "Any arithmetic, any block type. Single calls and whole runs; also says when a panic in a block propagates.",
 "C77": "Any arithmetic; both kinds of sound.",
 "C78": "Any arithmetic; both kinds of sound.",
 "C79": "Any arithmetic for flags and ids (all sequences of calls); gains in IEEE arithmetic. C79_trait: the same through dyn Sound, with samples processed in between, for both kinds of sound.",
 "C80": "Any arithmetic, any block type. The output with everything shared is 0 times the output gain, which is NaN when the gain is infinite or NaN.",
 "C81": "Violated: after clone() every block is shared, so process of the original and of the clone panics unless paused. Partial: dropping either of the two restores a sound that behaves exactly as before.",
 "C82": "Any graph, including cycles and self-loops.",
 "C83": "Violated: a diamond fed by two sources drops a downstream block from the order (and a sound can be silent because of it); mixing voices of different length in the output gain is enough. Partial: every source and every direct target of a source is in the order; every reachable block is when no block has two inputs; and every block is in layered graphs (all sources in layer 0, each connection to the next layer or from the last layer to the output, mixing only in the last layer and the output gain).",
 "C84": "Violated: with a->b->c and a->c, c is processed before b. Partial: holds when no block has two inputs and in layered graphs (see C83), if nothing is connected into the input gain and nothing out of the output gain.",
 "C85": "Any arithmetic, any graph and any block type.",
 "C86": "Any arithmetic, any block type whose process returns; all sequences of legal calls.",
 "C87": "Violated: three samples given before the first connection come out as one burst of their sum afterwards. Partial: once the order is computed and nothing connects to the input gain, a call keeps nothing of its input there.",
 "C88": "Any arithmetic; panics for node indices outside the graph are also characterised.",
 "C89": "Violated: process never writes output, which stays empty for every history, and process changes nothing. Partial: the length is right exactly for durations up to 20833 ns, where it is 0.",
 "C90": "Any Sound whose get_id returns what register set. Ids are modelled as naturals: the overflow after 2^64 calls is not modelled.",
 "C91": "Violated in part: the removed sound keeps its id (it is never unregistered). The removal part is proved for every history.",
 "C92": "Violated: adding the same sound twice, adding a sound someone else also holds, and too long a process time panic; the exact limits are 48038396025285.285156251 s for mono and 24019198012642.642578126 s for stereo. Partial: process, set_gain, remove_sound and adding unshared sounds never panic after any history. Running out of memory is not modelled.",
 "C93": "Includes that conversion never panics and is injective. For no bytes the text is blank. The whole file written is given line by line.",
 "C94": "Violated for an empty input only (its single line has two spaces). Partial: every non-empty input, with the sharper bound of 79 characters.",
 "C96": "The code violates this: at 20 Hz and resonance 1 a single pulse drives both filters to infinity and NaN within 34637 samples, for ever (IEEE, every libm accurate to 2^-40; the run is evaluated by the kernel). Proved: bounded output for every cutoff not below 400 Hz (NaN and infinite cutoffs included) at every resonance (100 and 300 times the input), and not below 200 Hz at resonance up to 1/2 (13 and 42 times); missing is the range between 20 Hz and these.",
 "C97": "IEEE; every libm whose cos and powf meet LibmAccurate (shown inhabited).",
 "C98": "IEEE.",
 "C99": "IEEE.",
 "C100": "IEEE; nothing is claimed for sample 0 and other phases within (n+2)*2^-50 of a jump, where rounding may choose either side.",
 "C101": "IEEE; every libm meeting SinAccurate (shown inhabited). The last table step is the one where C40 is violated.",
 "C102": "IEEE.",
 "C103": "IEEE; every f32 tan meeting TanAccurate (shown inhabited).",
 "C104": "IEEE.",
 "C105": "IEEE; the gain is the value of db_to_linear narrowed to f32, whatever libm answers.",
 "C106": "IEEE. The factor 2 on the way back is the violation of C13.",
 "C107": "The code violates this: every 44.1 kHz track of more than 2^21 samples is over a second behind after 48.6 s (IEEE; the f32 position advances by 7/8 instead of 0.91875 per sample from 2^20 on). Proved: the error after n samples is at most n*(2^(k-25) + 2^-22*step) while the position is below 2^k.",
 "C108": "The code violates this: just below sample number 2^j the neighbour floor(p)+2 can be used, a full-scale glitch. Proved (IEEE): right up to 2^-21 of the peak at every position whose next sample number is not a power of two, three samples or more from the end.",
 "C109": "The code violates this for long phases: an attack of 100 s is still going on after 107 s (IEEE). Proved (IEEE): attack, decay and release of N samples (N up to 2^22 times the level difference covered) take N samples up to 1 + N*(N/D*2^-24 + 2^-21) with D the level difference; at 1 s that is 0.3%.",
 "C110": "Proved (IEEE), assuming the platform's f64 tan is accurate to 2^-40 on [2^-12, 1.5705] (Spec/LibmTan64, shown satisfiable).",
 "C111": "Proved (IEEE).",
 "C112": "Proved (IEEE), with the consequence that C110 applies to every filter made from corners between 9 Hz and 23991 Hz.",
 "C113": "Violated in f32: three samples 0.9 at 0 dB come out as three samples 1.0. Proved (IEEE): output = c*(input - mean) within g(n+16)2^-24/P, where P is the peak of the input minus its mean, and the same bound on the output mean.",
 "C114": "Proved for any arithmetic.",
 "C115": "Proved: loading for any arithmetic, pitch in exact arithmetic, verbatim playback and write-then-play in IEEE. Other rates in IEEE are covered by C45-C48.",
 "C116": "Proved (IEEE) for every libm meeting DbAccurate.",
 "C117": "Proved (IEEE) for every libm meeting DbAccurate; out-of-range and infinite positions are C15.",
 "C118": "The code violates this at low cutoffs: a 90 Hz low pass given the constant 1.0 settles at 1.0808 exactly and stays there (IEEE, every libm accurate to 2^-40; 31385 samples evaluated by the kernel), and an 85 Hz high pass given the constant 0.6 lets 6.9 % of it through for ever. Proved: low pass from 2 kHz, or 1 kHz at resonance up to 1/2; high pass from 2.5 kHz, or 1.5 kHz at resonance up to 1/2. C118_lowpass_bound_partial and C118_highpass_bound_partial give the error as a formula of the cutoff, C118_table_partial for 1, 2, 5 and 12 kHz. Missing: the 3 % at the cutoffs in between.",
 "C119": "The code violates this: input -> 2 -> 3 -> 4 -> output with 2 -> 4, connected in that order, gives 1 instead of 2 for an impulse (and the rest one sample late), whatever the order of summation. Proved, for any arithmetic and any blocks: whenever the order contains every block and respects every connection; in particular for every sound built by calls whose graph is acyclic with at most one connection into each block, or layered (see C83). Missing: other graphs.",
 "C120": "For any contents of the output, although only the empty output is reachable (C89). A second call without clearing adds to the scaled result of the first.",
 "C121": "IEEE. The sample is bit-exact, except that -0.0 may come out as 0.0. Steps longer than the loop panic or leave it (C47).",
 "C122": "IEEE. C122_voice is for any blocks meeting the range conditions; the others show that the oscillators (the sine if its table is in [-1,1], see C39) and the modifiers meet them; C122_synth puts an oscillator and an envelope together. Blocks may be shared and unshared at any time (a shared block is skipped, C80). Edits stand for calls on the objects inside a block.",
 "C123": "Exact reals. SteadyGain fixes the gain (SteadyGain.unique). LowPass/HighPass: 0 < fc, any resonance; BandPass: 0 < l < h < 24000.",
 "C124": "Exact reals. Violated: at 12 kHz the cutoff is at -11 dB and the high pass passes nothing above -11 dB; the octave 12-24 kHz falls by at most 9.1 dB. Proved: attenuation at least Butterworth (never above 1), within 1 dB of it for cutoffs up to 500 Hz, cutoff between -4 and -3 dB there, 18 dB per octave as an upper bound, monotone in the frequency and in the resonance; with full resonance some frequency is boosted by 16000/(pi fc) or more.",
 "C125": "Exact reals. Violated: a narrow band comes out at half its amplitude, and the slope is 6 dB per octave. Proved: the peak lies inside the band, between -6 and 0 dB, both corners have the same gain between -6 and -3 dB, and the gain falls off at 6 dB per octave on both sides.",
 "C126": "Exact reals. Zeros and poles listed with the largest delay last (LastLargest, else Generic panics, C56). C126_echo_needed shows the bound on the echo gain is needed.",
 "C127": "Exact reals. Sound neither paused nor muted; each block behind its own handle (Owns). C127_block takes any modifier of C123 and C126 into a block, C127_sum mixes block types.",
 "C128": "The code violates this at low cutoffs: the 90 Hz low pass given a constant stays 8 % above the level (C128_lowpass_violated), and the 85 Hz high pass passes 6.9 % of a constant (C128_highpass_violated). Proved for the cutoffs of C118: low pass from 2 kHz, or 1 kHz at resonance up to 1/2; high pass from 2.5 kHz, or 1.5 kHz at resonance up to 1/2. The Sine theorems take frequencies that are whole multiples of 10/2^39 Hz (every multiple of 10 Hz among them), which do not drift (C101_no_drift). The _cutoff theorems give the distance as a function of the cutoff (any resonance), to any further accuracy; C128_sine_cutoff_partial tabulates it. Missing: low cutoffs, where loopError exceeds 1/2.",
 "C129": "Feedback must be below 1 (Echo gain below 1 - 2^-22, Generic feedback sum times 1 + 2^-20 per tap below 1). Sizes between 2^-80 and 2^80.",
 "C130": "add_sound leaves a second pointer in the channel, so Arc::get_mut fails for the owner until removal; a sound that process could play (one pointer) is one nobody can control. After cloning a channel both copies hand out the same ids.",
 "C132": "Before the start the first sample is held for ever instead of silence. Exact arithmetic for all speeds; IEEE (position and output, with explicit drift) for positive speeds up to three samples before the end.",
 "C133": "The bound with effects holds at frames where the exact output is in [-1,1]; beyond, C04 and C05 describe the codes.",
 "C134": "Assumes tan accurate to 2^-40 (relative), as C110. For a freshly made filter; C65 and C72 describe the setters and clone.",
 "C135": "Violated: LowPass and HighPass in f32, with the cutoff set to 20 kHz and 100 Hz in turn before each sample, turn one sample of 1.0 into infinity within 30 ms and never recover; a single change of a LowPass from 20 kHz to 100 Hz turns five samples of size 1 into an output above 3000; BandPass with its band moved to and fro grows without bound (exact arithmetic). The filters keep past outputs as state and these mean something else under new coefficients. Proved: with parameters that stop changing all three filters forget the past and converge to a fresh filter (exact arithmetic), LowPass and HighPass stay bounded by a constant times the input level, from any state, under any modulation of the cutoff within a factor 9/5 without resonance or 7/5 with resonance up to 1/2 (in f32 from 400 Hz on, from a new filter, every sample finite and the low pass within 100 times the input level), and BandPass stays bounded under any modulation of corners between 6 and 18 kHz.",
 "C136": "Violated: the release slope is computed from the sustain level, so a note released above it falls too slowly, and if the sustain level times 2^25 is at most the number of samples of the release, the f32 gain 1 does not move at all: a pluck with sustain -80 dB and release 100 ms, released at its peak, sounds for ever at full level (more generally gains of 2^-k with level * 2^(25+k)). Proved: a release ends from every history when level * 2^25 exceeds the number of samples (times 1 + 2^-22).",
 "C137": "Up to a factor 1 + 2^-21 and 2^-24 (gain) or 2^-23 (output) of rounding. The sustain level as f64, which the math library must place in [0,1], is a hypothesis as in C66.",
 "C138": "Settling is proved: exactly geometric at the pole of upper or lower, at least as fast as e^(-2\u03c0f/48000) per sample, never passing the level; in IEEE arithmetic the distance shrinks by 1 - f/15500 per sample down to c/(130 f), f the lower of the two frequencies. Violated: the branch is chosen by the last sample but the output moves towards the mean of the last two, so for every pair of frequencies a sample louder than the envelope can make it fall (after a quieter one). Proved instead: it does not fall when the last two samples are both at least as loud.",
 "C139": "Violated by every effect with feedback: after one non-finite sample LowPass, HighPass, BandPass and Envelope never put out a finite sample again, whatever parameters are set later, and Echo repeats the bad sample every D samples for ever, whatever its gain. Proved for the others: the bad sample affects only its own place (Gain, Passthrough, ADSR), the place D later (Delay) or the reach of the taps (Generic without poles).",
 "C140": "Proved for Delay and Generic without poles. Violated by Echo for gains with 1/2 < |g| \u2264 1: a nonzero sample is repeated as a nonzero (in the end subnormal) number for ever; by Envelope for a lower frequency of 4 to 3600 Hz: the level never returns to zero; and by LowPass and HighPass at 5 kHz: the answer to one sample stays at 3 \u00b7 2^-149 for ever. Proved for Echo: with |g| \u2264 1/2 exactly zero after 278 repeats, otherwise fading geometrically to below 2^-129. And by BandPass with corners between 9 and 4000 Hz: an input that fades to exact silence leaves 2^-149 for ever (C110 shows that the output does fall below 2^-126).",
 "C141": "Violated in three ways. Exact arithmetic: a centre up to 24 kHz whose upper corner lies between 24 and 48 kHz gives an impulse response that grows without bound; setting the centre of a playing filter to 0 turns its tail into a straight line. IEEE: a corner of 0 gives NaN for ever, also after the corners are set again. Proved: setting any two different corners strictly between 0 and 24 kHz keeps the output bounded from any state.",
 "C142": "C142_flow and C142_standard hold in any arithmetic, C142_diagram describes a built sound by the signals of its blocks, and C142_loop is the closed form of a gain fed back to itself in exact arithmetic.",
 "C143": "Exact arithmetic. For every kind of effect that is linear and time invariant by itself; Gain, LowPass, HighPass, BandPass, Delay and Echo are shown to be usable together.",
 "C144": "Exact arithmetic. In f32 the order matters for the last bits; an example shows it.",
 "C145": "C145_smooth is about any recording with bounded slope and curvature, C145_float and C145_float_tone carry the drift of the position and the rounding of f32.",
 "C146": "Exact arithmetic. Violated by Sawtooth for even N (the sum over N samples is -1, a constant part of -1/N, for example -1/4 at 12 kHz) and by Square for odd N (sum 1). The partial theorems give the exact sum in every case; Triangle always has sum 0, Sine at most its table error per sample.",
 "C147": "IEEE f32 against exact arithmetic. C147_network is for any effects that meet Keeps; the bounds of C129 carry over (Tracks.keeps), C147_gain adds gains below 1, and C147_loop is a complete instance with a loop. Sizes between 2^-80 and 2^80.",
 "C148": "Proved for Sawtooth and Sine, in exact arithmetic and in IEEE with explicit error. Violated by Triangle: set_frequency makes it rise whatever it was doing, so one whose frequency is set before every sample, even to the same value, rises to 1 and stays there (every frequency up to 12 kHz; IEEE at 1500 Hz). Violated by Square: it keeps the number of samples into the period, so the phase jumps, and after a change from 100 Hz to 20 kHz it may put out 1 for 286 samples. Proved for Triangle: after a change it is the ideal wave from the same phase if rising, from the mirrored phase if falling. For Square: the ideal wave from the jumped phase once it has caught up.",
 "C149": "Exact arithmetic. The gain-and-delay loop is shown to be the Echo modifier of one sample more, followed by the gain.",
 "C150": "Amplitudes are given in closed form: 2/(N sin(\u03c0j/N)) for a sawtooth, which is at least the 2/(\u03c0j) of its Fourier series and at most \u03c0/2 times that; 4/(N sin(\u03c0j/N)) and 8/(N sin(\u03c0j/N))\u00b2 for the odd harmonics of square and triangle. Violated by Square if N is odd: its even harmonics do not vanish. Triangle: every even N (times |cos(\u03c0j/N)| if N is not a multiple of four). Sine: up to the error of its table. In f32 (the _f32 theorems): up to the accumulated error of N samples, the sample at the edge of a sawtooth and the two at the edges of a square counted as possibly wrong. Triangle with odd N has even harmonics as well (C150_triangle_violated, with the amplitudes of all).",
 "C151": "For every linear, time invariant effect with bounded output the smallest energy gain is its largest gain at any frequency (C151_energy_iff). Exact values for BandPass and Echo; upper bounds for the others. With resonance LowPass does add energy (C151_resonance_needed). C151_f32 carries the bound over to f32 for every effect that tracks its exact counterpart (C129), with the rounding errors of one sample counted at every sample.",
 "C152": "The gains are those of C151 for the effects of the crate; ADSR envelopes have gain 1 (C152_adsr). C152_needed: without the condition the claim fails. f32 rounding is not included.",
 "C153": "The random numbers of the rand crate enter as a source that delivers every sequence of multiples of 2^-24 equally often (structure Fair, shown inhabited). f32: the samples are exact; for effects the root mean square is right up to the rounding budget C - B of C129.",
 "C154": "The error 1/750 of the level is that of the sine table (C101); Sine frequencies are whole multiples of 10/2^39 Hz, which do not drift.",
 "C155": "Exact levels: 1/3 + 2/(3N^2) for a sawtooth with N even, 1/3 - 1/(3N^2) with N odd; triangle 1/3 + 8/(3N^2), 1/3 - 4/(3N^2), 1/3 - 1/(3N^2) for N = 0 mod 4, 2 mod 4, odd (squares). IEEE within 2^-25 + n*2^-49. The sine needs three samples per period: at 24 kHz it is silence (C155_sine_nyquist).",
 "C156": "Holds for Triangle between -24 and 24 kHz (IEEE, any history). Violated otherwise: a Sawtooth below zero falls for ever and, set back, is out of range for as long as it was below zero; a Sine below zero is silent and stays so for as long after; a Square below zero or above 48 kHz is the constant 1; a Triangle above 24 kHz and a Sawtooth above 48 kHz grow without bound; every Sine above 48 kHz panics, at the first n with n*(f - 48000) >= 48000.",
 "C157": "Proportional for all frequencies; settles between the magnitudes up to 12 kHz; averages to the mean magnitude for periodic inputs when lower = upper. Violated for every lower < upper: raising one sample from the reading to just above it switches the follower to the fast speed towards a mean that is below it, and the reading drops. With lower = upper louder never reads less.",
 "C158": "Holds in exact arithmetic. Violated in IEEE for undoing sample for sample (a sample of 2^-25 is lost beside an echo of 1/2); there the undone samples differ by at most 2^-23 times the sizes of the sample and of the echo's output, and the errors do not build up.",
 "C159": "Violated for silence (written as the lowest 8-bit code, clipped or not) and for very quiet tracks (infinite samples; 24-bit codes out of range). Partial: tracks of any length below 2^64, samples of magnitude at most 2^100 two of which differ by at least 2^-126, levels from -600 to 0 dB, accurate pow.",
 "C160": "Up and back is lossless for every sample and file. Violated: the 16-bit sample -32768 becomes the code -8388863, below the 24-bit range (clipped first, it comes back as -32767); every other sample stays in range. Down and back: at most 129 of the original codes (257 above the highest 8-bit sample).",
 "C161": "Proved in exact arithmetic. Violated in f32: normalising [1,0,0] twice gives another track than once. Partial (IEEE): tracks of at most 2^24 samples that move at least P around their mean: the second pass moves no sample by more than 4N + g(8N/P + 2^-19), N = (n+16) 2^-24.",
 "C162": "C162_echo, C162_taps, C162_average and C162_offset in exact arithmetic; C162_hum and C162_constant in IEEE f32 (compare C118_highpass_violated: HighPass does not remove a constant).",
 "C163": "Violated three times: the left speaker jumps from -120 dB to 0 dB at the centre, opposite positions are mirror images at \u00b11/2 only, and the power is three times as large just right of the centre as at the centre. Proved: smoothness elsewhere with constant 10 (exact and IEEE), the positions that are mirror images, and a power range of 4.9 dB. IEEE theorems under DbAccurate.",
 "C164": "Violated: split at 8 kHz, a tone of 8 kHz comes back at less than 1/20 of its level, and at a cutoff of 24000/\u03c0 Hz it vanishes. Proved: the level at every frequency (C164_level), that the bands never exceed the sound, and at most 3 % (17 %) loss for cutoffs up to 100 Hz (500 Hz); C164_sound connects this to a complex sound built from the two filters.",
 "C165": "Violated: two taps, or an unused source, connected beside a chain of three unit gains silence it (C165_violated). Proved for pairs of sounds of the shapes of C119: the outputs are equal, for any blocks if no block has two inputs, otherwise if priming does not depend on the order (exact arithmetic).",
 "C166": "Complements C45, C107 and C108, whose counterexamples (44.1 kHz, speed 1-2^-24) have other steps. Samples up to 2^90, interpolation within 2^-21 of the peak; 21 usual rates and speeds are checked to have exact steps.",
 "C167": "Counted by wrapping any block type in one that counts its calls. Computing the order when a connection changes is not counted (it visits at most blocks + 2 entries, C82_terminates).",
 "C168": "Violated: five connections made in two orders give 2, 0 and 1, 1 for an impulse; three voices mixed in the output gain are added in the order of wiring, which changes the rounding. Proved for the shapes of C119: equal outputs if no block has two inputs, otherwise if priming does not depend on the order (exact arithmetic, C165_standard).",
 "C169": "Bitwise up to the sign of zero. A network needs blocks that are mirrored: the same settings and generators, opposite histories; a block that plays its generator needs the opposite generator.",
 "C170": "Violated: a block that has only been added stands still until the next change of connections, a block that has been connected and disconnected runs, so two sounds with equal connections at every sample differ. Proved with that rule in the specification, for the shapes of C119 at every sample played.",
 "C171": "The weighted sum is taken exactly; what the channels and sounds make of a mix is C120 and C119. Errors: the table of 4800 entries of the sine (2*pi/4800 for each voice) and, in f32, rounding and drift.",
 "C172": "For every effect with the steady gain and fading properties that C123, C126 and C127 prove; the f32 statement takes the bounds of C129.",
 "C173": "Levels are whole numbers of steps of 2^-k up to 2^24 steps, which f32 represents. Filters are not covered by this rule, their peak gain exceeds 1; for them see C129 and C147.",
 "C174": "SimpleSound multiplies by its gains directly, ComplexSound has gain blocks that first add to zero, so -0.0 becomes 0.0; the example has an input for which the two differ in this. Pausing and muting: C77, C78.",
 "C175": "No hypothesis on the arithmetic or the blocks. C175_local also covers sounds with blocks in common (Arc::get_mut fails) and calls that panic. Sequential calls only; threads are outside the model, as every call takes &mut self.",
 "C176": "Chebyshev's inequality from the independence proved in C153; the bound on the share is not the best possible. Ideal random numbers as in C153. The meter itself (the sum of squares) is in exact arithmetic.",
 "C177": "Violated for set_corner_frequencies (1000 Hz, quality 1: the centre moves); in exact arithmetic it holds there too.",
 "C178": "Violated for BandPass corners of opposite sign (-100, 400): from_corners gives 200 Hz, set_corner_frequencies gives NaN. Proved for positive corners.",
 "C179": "Violated in one respect: at volume zero an infinite sample becomes NaN, so volume zero is not mute; proved for finite samples. The rest is proved without restriction.",
 "C180": "Releasing after the end assumes that the release slope is not NaN (0 + r <= 0); see C70 for when it is.",
 "C181": "Violated as to NaN: Gain::new(f32::INFINITY) turns silence into NaN. Zero or NaN is proved for all parameters; zero alone for coefficients that are numbers (Gain, Delay, Echo, LowPass, HighPass, BandPass, Envelope).",
 "C182": "Reading: the first part is whole frames, the second may end within a frame. Writing: equal channel counts, equal lengths within each recording.",
 "C183": "Equal strides give equal playback in any arithmetic; exact arithmetic has the property for all rates and speeds. In floating point it is proved for speeds 2^k, |k| <= 20, and rates from 1 to 2^30; rate 8000 at speed 7 violates it."
}
