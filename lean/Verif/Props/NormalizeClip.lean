import Verif.Props.NormalizeF32
import Verif.Props.DbF64
import Verif.Props.Wav

/-! # Property theorems: C159 (normalised tracks may be written without clipping) -/

namespace Verif
open Fl

/-- A level of at most 0 dB is a gain between 0 and 1 once rounded to `f32`. -/
private theorem gain_le_one [Libm F64] (hA : DbAccurate) (db : F64) (q : ℚ) (h : db.Is q) (q0 : q ≤ 0) (q1 : -600 ≤ q) :
    ∃ g : ℚ, (SM.down (dbToLinear db) : F32).Is g ∧ 0 ≤ g ∧ g ≤ 1 := by
  obtain ⟨p, hp, hpe⟩ := C116_db_to_linear hA db q h (abs_le.mpr ⟨q1, q0.trans (by norm_num)⟩)
  have hg0 : 0 < gainOf q := Real.rpow_pos_of_pos (by norm_num) _
  have hg1 : gainOf q ≤ 1 := by
    have : (q : ℝ) ≤ 0 := by exact_mod_cast q0
    exact Real.rpow_le_one_of_one_le_of_nonpos (by norm_num) (by linarith)
  obtain ⟨e1, e2⟩ := abs_le.mp hpe
  have p1 : p ≤ 1 + (2 ^ 44)⁻¹ := by
    have : (p : ℝ) ≤ ((1 + (2 ^ 44)⁻¹ : ℚ) : ℝ) := by
      push_cast
      have : ((2 : ℝ) ^ 44)⁻¹ * gainOf q ≤ (2 ^ 44)⁻¹ * 1 := mul_le_mul_of_nonneg_left hg1 (by norm_num)
      linarith
    exact_mod_cast this
  have p0 : 0 ≤ p := by
    have : (0 : ℝ) ≤ p := by
      have : ((2 : ℝ) ^ 44)⁻¹ * gainOf q ≤ 1 * gainOf q := mul_le_mul_of_nonneg_right (by norm_num) hg0.le
      linarith
    exact_mod_cast this
  refine ⟨b32.rnd p, Is.down hp (fits32' 1 (by norm_num) (abs_le.mpr ⟨by linarith, p1.trans (by norm_num)⟩)), b32.rnd_nonneg p0,
    (b32.rnd_mono p1).trans (by decide +kernel)⟩

/-- What holds of C159 (IEEE, accurate `pow`): tracks of fewer than `2^64` samples of magnitude at most `2^100`, in each of
which two samples differ by at least `2^-126`, normalised to a level between -600 and 0 dB: clipping writes the same
file as not clipping at every bit depth, and without clipping every 24-bit code is within 24 bits. Missing: constant
and quieter tracks (false, below), louder ones. -/
theorem C159_write_partial [Libm F64] (hA : DbAccurate) {W : Type} (wr : WavHeader → BitDepth → W → Except IoErr Unit × W)
    (tracks : List (List F32)) (db : F64) (q : ℚ) (h : db.Is q) (q0 : q ≤ 0) (q1 : -600 ≤ q)
    (hlen : ∀ t ∈ tracks, t.length < 2 ^ 64) (ht : ∀ t ∈ tracks, ∀ s ∈ t, ∃ q, s.Is q ∧ |q| ≤ 2 ^ 100)
    (hd : ∀ t ∈ tracks, ∃ x ∈ t, ∃ y ∈ t, ∃ p q, x.Is p ∧ y.Is q ∧ (2 ^ 126)⁻¹ ≤ |p - q|) (bps : UInt16) (dst : W) :
    writeWav wr (tracks.map (normalize db)) bps dst false = writeWav wr (tracks.map (normalize db)) bps dst true ∧
    ∀ t ∈ tracks, ∀ y ∈ normalize db t, |(sampleToI24 y).toInt| ≤ 8388607 := by
  obtain ⟨g, hg, g0, g1⟩ := gain_le_one hA db q h q0 q1
  have key : ∀ t ∈ tracks, ∀ y ∈ normalize db t, (-lit 1 ≤? y) = true ∧ (y ≤? lit 1) = true := by
    intro t hm y hy
    obtain ⟨r, hr, hr1⟩ := C159_peak_partial db g t hg g0 g1 (hlen t hm) (ht t hm) (hd t hm) y hy
    obtain ⟨e1, e2⟩ := abs_le.mp hr1
    exact ⟨by rw [lit32_1.neg.le hr]; exact decide_eq_true e1, by rw [hr.le lit32_1]; exact decide_eq_true e2⟩
  refine ⟨(C30_noop wr _ bps dst ?_).symm, ?_⟩
  · intro t hm
    obtain ⟨t', hm', rfl⟩ := List.mem_map.mp hm
    exact key t' hm'
  · intro t hm y hy
    obtain ⟨k1, k2⟩ := key t hm y hy
    exact abs_le.mpr (C05_i24_range_partial y k1 k2)

/-- Two channels at -6 dB, one of them far above full scale. -/
example [Libm F64] (hA : DbAccurate) {W : Type} (wr : WavHeader → BitDepth → W → Except IoErr Unit × W) (dst : W) :
    writeWav wr ([[(lit 1000 : F32), lit (-3)], [lit (1 / 8), lit 0]].map (normalize (lit (-6) : F64))) 24 dst false =
    writeWav wr ([[(lit 1000 : F32), lit (-3)], [lit (1 / 8), lit 0]].map (normalize (lit (-6) : F64))) 24 dst true := by
  refine (C159_write_partial hA wr _ _ (-6) (by decide +kernel) (by norm_num) (by norm_num) (by decide) ?_ ?_ 24 dst).1
  · intro t ht s hs
    simp only [List.mem_cons, List.not_mem_nil, or_false] at ht
    rcases ht with rfl | rfl <;> simp only [List.mem_cons, List.not_mem_nil, or_false] at hs <;> rcases hs with rfl | rfl
    · exact ⟨1000, by decide +kernel, by norm_num⟩
    · exact ⟨-3, by decide +kernel, by norm_num⟩
    · exact ⟨1 / 8, by decide +kernel, by rw [abs_of_pos (by norm_num)]; norm_num⟩
    · exact ⟨0, lit32_0, by norm_num⟩
  · intro t ht
    simp only [List.mem_cons, List.not_mem_nil, or_false] at ht
    rcases ht with rfl | rfl
    · exact ⟨lit 1000, by simp, lit (-3), by simp, 1000, -3, by decide +kernel, by decide +kernel, by norm_num⟩
    · exact ⟨lit (1 / 8), by simp, lit 0, by simp, 1 / 8, 0, by decide +kernel, lit32_0, by rw [sub_zero, abs_of_pos (by norm_num)]; norm_num⟩

/-- C159 is violated by a quiet track: 0 and `2^-140` normalised to 0 dB and written to 24 bits without clipping are
passed on as the two extreme 32-bit codes, and clipping writes a different file. -/
theorem C159_quiet_violated [Libm F64] (h : Libm.pow (lit 10 : F64) (lit 0) = lit 1) :
    let wr : WavHeader → BitDepth → List BitDepth → Except IoErr Unit × List BitDepth := fun _ d out => (.ok (), out ++ [d])
    let tracks := [normalize (lit 0 : F64) [(lit 0 : F32), lit (pow2 (-140))]]
    writeWav wr tracks 24 [] false = .ok (.ok (), [.twentyFour [-2147483648, 2147483647]]) ∧
    writeWav wr tracks 24 [] true = .ok (.ok (), [.twentyFour [-8388607, 8388607]]) := by
  intro wr tracks
  have e : tracks = [[.inf true, .inf false]] := by
    show [normalize _ _] = _
    rw [C24_quiet_violated h]
  rw [e]
  constructor
  · have h1 : sampleToI24 (.inf true : F32) = -2147483648 := by decide +kernel
    have h2 : sampleToI24 (.inf false : F32) = 2147483647 := by decide +kernel
    show Except.ok (Except.ok (), [] ++ [BitDepth.twentyFour [sampleToI24 (.inf true : F32), sampleToI24 (.inf false : F32)]]) = _
    rw [h1, h2]; rfl
  · rw [C30_clip_first, show [[(.inf true : F32), .inf false]].map (fun t => t.map clip1) = [[-lit 1, lit 1]] by decide +kernel]
    have h1 : sampleToI24 (-lit 1 : F32) = -8388607 := by decide +kernel
    have h2 : sampleToI24 (lit 1 : F32) = 8388607 := by decide +kernel
    show Except.ok (Except.ok (), [] ++ [BitDepth.twentyFour [sampleToI24 (-lit 1 : F32), sampleToI24 (lit 1 : F32)]]) = _
    rw [h1, h2]; rfl

/-- ... and by silence: normalised to any level and written to 8 bits, clipped or not, it becomes the lowest code
throughout (silence is 128). -/
theorem C159_silence_violated [Libm F64] (db : F64) (clip : Bool) :
    writeWav (fun _ d out => (.ok (), out ++ [d])) [normalize db [(lit 0 : F32), lit 0]] 8 ([] : List BitDepth) clip =
      .ok (.ok (), [.eight [0, 0]]) := by
  have e : normalize db [(lit 0 : F32), lit 0] = [.nan, .nan] := C24_silent_violated db 2 (by norm_num) (by norm_num)
  rw [e]
  have h1 : sampleToU8 (.nan : F32) = 0 := by decide +kernel
  cases clip
  · show Except.ok (Except.ok (), [] ++ [BitDepth.eight [sampleToU8 (.nan : F32), sampleToU8 (.nan : F32)]]) = _
    rw [h1]; rfl
  · rw [C30_clip_first, show [[(.nan : F32), .nan]].map (fun t => t.map clip1) = [[.nan, .nan]] by decide +kernel]
    show Except.ok (Except.ok (), [] ++ [BitDepth.eight [sampleToU8 (.nan : F32), sampleToU8 (.nan : F32)]]) = _
    rw [h1]; rfl

end Verif
