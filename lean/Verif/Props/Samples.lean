import Verif.Proofs.Codec
import Verif.Proofs.Samples

/-! # Sample formats: C10-C17 -/

namespace Verif
open Fl

/-! ## C10 Vec conversions -/

section
variable {S : Type} [Flt S]

/-- Mono: success iff at least one element; then the first element decides. -/
theorem C10_mono (u : List UInt8) (i : List Int16) (w : List Int32) :
    (1 ≤ u.length ↔ ∃ r, Mono.tryFromU8 (S := S) u = .ok r) ∧
    (1 ≤ i.length ↔ ∃ r, Mono.tryFromI16 (S := S) i = .ok r) ∧
    (1 ≤ w.length ↔ ∃ r, Mono.tryFromI32 (S := S) w = .ok r) := by
  refine ⟨?_, ?_, ?_⟩
  · cases u <;> simp [Mono.tryFromU8]
  · cases i <;> simp [Mono.tryFromI16]
  · cases w <;> simp [Mono.tryFromI32]

/-- Mono: the element decoded is the first one. -/
theorem C10_mono_value (u : List UInt8) (i : List Int16) (w : List Int32) :
    (∀ r, Mono.tryFromU8 (S := S) u = .ok r → ∃ a, u[0]? = some a ∧ r.mono = sampleFromU8 a) ∧
    (∀ r, Mono.tryFromI16 (S := S) i = .ok r → ∃ a, i[0]? = some a ∧ r.mono = sampleFromI16 a) ∧
    (∀ r, Mono.tryFromI32 (S := S) w = .ok r → ∃ a, w[0]? = some a ∧ r.mono = sampleFromI24 a) := by
  refine ⟨?_, ?_, ?_⟩
  · cases u <;> simp [Mono.tryFromU8]
  · cases i <;> simp [Mono.tryFromI16]
  · cases w <;> simp [Mono.tryFromI32]

/-- Stereo: success iff at least two elements. -/
theorem C10_stereo (u : List UInt8) (i : List Int16) (w : List Int32) :
    (2 ≤ u.length ↔ ∃ r, Stereo.tryFromU8 (S := S) u = .ok r) ∧
    (2 ≤ i.length ↔ ∃ r, Stereo.tryFromI16 (S := S) i = .ok r) ∧
    (2 ≤ w.length ↔ ∃ r, Stereo.tryFromI32 (S := S) w = .ok r) := by
  refine ⟨?_, ?_, ?_⟩
  · rcases u with _ | ⟨_, _ | _⟩ <;> simp [Stereo.tryFromU8]
  · rcases i with _ | ⟨_, _ | _⟩ <;> simp [Stereo.tryFromI16]
  · rcases w with _ | ⟨_, _ | _⟩ <;> simp [Stereo.tryFromI32]

/-- Stereo: left is decoded from element 0, right from element 1. -/
theorem C10_stereo_value (u : List UInt8) (i : List Int16) (w : List Int32) :
    (∀ r, Stereo.tryFromU8 (S := S) u = .ok r → ∃ a b, u[0]? = some a ∧ u[1]? = some b ∧
      r.left = sampleFromU8 a ∧ r.right = sampleFromU8 b) ∧
    (∀ r, Stereo.tryFromI16 (S := S) i = .ok r → ∃ a b, i[0]? = some a ∧ i[1]? = some b ∧
      r.left = sampleFromI16 a ∧ r.right = sampleFromI16 b) ∧
    (∀ r, Stereo.tryFromI32 (S := S) w = .ok r → ∃ a b, w[0]? = some a ∧ w[1]? = some b ∧
      r.left = sampleFromI24 a ∧ r.right = sampleFromI24 b) := by
  refine ⟨?_, ?_, ?_⟩
  · rcases u with _ | ⟨_, _ | _⟩ <;> simp [Stereo.tryFromU8]
  · rcases i with _ | ⟨_, _ | _⟩ <;> simp [Stereo.tryFromI16]
  · rcases w with _ | ⟨_, _ | _⟩ <;> simp [Stereo.tryFromI32]

/-- The failure message names the given and the required length. -/
theorem C10_error (u : List UInt8) (i : List Int16) (w : List Int32) (e : String) :
    (Mono.tryFromU8 (S := S) u = .error e → e = "ERROR: Given vector was length " ++ toString u.length ++
      ". This function requires length " ++ toString 1 ++ ".") ∧
    (Mono.tryFromI16 (S := S) i = .error e → e = "ERROR: Given vector was length " ++ toString i.length ++
      ". This function requires length " ++ toString 1 ++ ".") ∧
    (Mono.tryFromI32 (S := S) w = .error e → e = "ERROR: Given vector was length " ++ toString w.length ++
      ". This function requires length " ++ toString 1 ++ ".") ∧
    (Stereo.tryFromU8 (S := S) u = .error e → e = "ERROR: Given vector was length " ++ toString u.length ++
      ". This function requires length " ++ toString 2 ++ ".") ∧
    (Stereo.tryFromI16 (S := S) i = .error e → e = "ERROR: Given vector was length " ++ toString i.length ++
      ". This function requires length " ++ toString 2 ++ ".") ∧
    (Stereo.tryFromI32 (S := S) w = .error e → e = "ERROR: Given vector was length " ++ toString w.length ++
      ". This function requires length " ++ toString 2 ++ ".") := by
  refine ⟨?_, ?_, ?_, ?_, ?_, ?_⟩
  · cases u <;> simp [Mono.tryFromU8]; rintro rfl; rfl
  · cases i <;> simp [Mono.tryFromI16]; rintro rfl; rfl
  · cases w <;> simp [Mono.tryFromI32]; rintro rfl; rfl
  · rcases u with _ | ⟨_, _ | _⟩ <;> simp [Stereo.tryFromU8] <;> rintro rfl <;> rfl
  · rcases i with _ | ⟨_, _ | _⟩ <;> simp [Stereo.tryFromI16] <;> rintro rfl <;> rfl
  · rcases w with _ | ⟨_, _ | _⟩ <;> simp [Stereo.tryFromI32] <;> rintro rfl <;> rfl

/-- Converting to a vector yields one code per channel. -/
theorem C10_into_length (m : Mono S) (s : Stereo S) :
    m.intoU8.length = Mono.numSamples ∧ m.intoI16.length = Mono.numSamples ∧
    m.intoI32.length = Mono.numSamples ∧ s.intoU8.length = Stereo.numSamples ∧
    s.intoI16.length = Stereo.numSamples ∧ s.intoI32.length = Stereo.numSamples ∧
    Mono.numSamples = 1 ∧ Stereo.numSamples = 2 := ⟨rfl, rfl, rfl, rfl, rfl, rfl, rfl, rfl⟩

/-- Converting to a vector and back requantises each channel. -/
theorem C10_requantise (m : Mono S) (s : Stereo S) :
    Mono.tryFromU8 m.intoU8 = .ok ⟨(sampleFromU8 (sampleToU8 m.mono) : S)⟩ ∧
    Mono.tryFromI16 m.intoI16 = .ok ⟨(sampleFromI16 (sampleToI16 m.mono) : S)⟩ ∧
    Mono.tryFromI32 m.intoI32 = .ok ⟨(sampleFromI24 (sampleToI24 m.mono) : S)⟩ ∧
    Stereo.tryFromU8 s.intoU8 =
      .ok ⟨(sampleFromU8 (sampleToU8 s.left) : S), sampleFromU8 (sampleToU8 s.right)⟩ ∧
    Stereo.tryFromI16 s.intoI16 =
      .ok ⟨(sampleFromI16 (sampleToI16 s.left) : S), sampleFromI16 (sampleToI16 s.right)⟩ ∧
    Stereo.tryFromI32 s.intoI32 =
      .ok ⟨(sampleFromI24 (sampleToI24 s.left) : S), sampleFromI24 (sampleToI24 s.right)⟩ :=
  ⟨rfl, rfl, rfl, rfl, rfl, rfl⟩

example : Stereo.tryFromU8 (S := F32) [0, 128, 77] = .ok ⟨-lit 1, lit 0⟩ ∧
    Stereo.tryFromU8 (S := F32) [5] =
      .error "ERROR: Given vector was length 1. This function requires length 2." := by
  constructor
  · show Except.ok _ = Except.ok _
    congr 2 <;> decide +kernel
  · rfl

end

/-! ## C11 Mono operators -/

/-- The property fails: `-` adds. `1 - 1` is `2` while `-=` leaves `0`. -/
theorem C11_mono_sub_violated : ¬ ∀ a b : Mono F32, (a.sub b).mono = (a.subAssign b).mono := by
  intro h
  have := h ⟨lit 1⟩ ⟨lit 1⟩
  revert this
  decide +kernel

/-- In fact `a - b` is always the sum. -/
theorem C11_mono_sub_is_add (a b : Mono F32) : (a.sub b).mono = a.mono + b.mono := rfl

/-- What holds: all other operators are the channel operation and agree with the assigning form, and
the assigning subtraction is right. Missing: `-`. -/
theorem C11_mono_partial (a b : Mono F32) (k : F32) (k' : F64) :
    (a.neg.mono = -a.mono) ∧
    (a.add b).mono = a.mono + b.mono ∧ a.add b = a.addAssign b ∧
    (a.subAssign b).mono = a.mono - b.mono ∧
    (a.mul b).mono = a.mono * b.mono ∧ a.mul b = a.mulAssign b ∧
    (a.mulS k).mono = a.mono * k ∧ a.mulS k = a.mulAssignS k ∧
    a.mulM k' = a.mulAssignM k' ∧ (a.mulM (SM.up k : F64)).mono = a.mono * k :=
  ⟨rfl, rfl, rfl, rfl, rfl, rfl, rfl, rfl, rfl, down_up_mul _ _⟩

/-! ## C12 Stereo operators -/

/-- The property fails for `*=` by an `f64`: the factor `2^130` is narrowed to infinity first, so
`2^-100 *= 2^130` is infinite while `2^-100 * 2^130` is `2^30`. -/
theorem C12_stereo_violated : ¬ ∀ (a : Stereo F32) (k : F64), a.mulM k = a.mulAssignM k := by
  intro h
  have := congrArg Stereo.left (h ⟨lit (1 / 2 ^ 100), lit 0⟩ (lit (2 ^ 130)))
  revert this
  decide +kernel

/-- The observable difference in that case. -/
theorem C12_stereo_violated_values :
    (Stereo.mulAssignM (⟨lit (1 / 2 ^ 100), lit 0⟩ : Stereo F32) (lit (2 ^ 130) : F64)).left = .inf false ∧
    (Stereo.mulM (⟨lit (1 / 2 ^ 100), lit 0⟩ : Stereo F32) (lit (2 ^ 130) : F64)).left = lit (2 ^ 30) := by
  decide +kernel

/-- What holds: every operator is channelwise; all agree with their assigning forms, the `f64`
product at least for factors that are `f32` values. Missing: `*=` by other `f64` factors. -/
theorem C12_stereo_partial (a b : Stereo F32) (k : F32) (k' : F64) :
    a.neg = ⟨-a.left, -a.right⟩ ∧
    a.add b = ⟨a.left + b.left, a.right + b.right⟩ ∧ a.add b = a.addAssign b ∧
    a.sub b = ⟨a.left - b.left, a.right - b.right⟩ ∧ a.sub b = a.subAssign b ∧
    a.mul b = ⟨a.left * b.left, a.right * b.right⟩ ∧ a.mul b = a.mulAssign b ∧
    a.mulS k = ⟨a.left * k, a.right * k⟩ ∧ a.mulS k = a.mulAssignS k ∧
    a.mulM (SM.up k : F64) = a.mulS k ∧
    a.mulM (SM.up k : F64) = ⟨a.left * k, a.right * k⟩ ∧
    (a.mulM k').left = ((⟨a.left⟩ : Mono F32).mulM k').mono ∧
    (a.mulM k').right = ((⟨a.right⟩ : Mono F32).mulM k').mono := by
  refine ⟨rfl, rfl, rfl, rfl, rfl, rfl, rfl, rfl, rfl, ?_, ?_, rfl, rfl⟩
  all_goals unfold Stereo.mulM; rw [down_up_mul, down_up_mul]
  rfl

/-- For every `f32` factor (NaN and infinities included) `*=` narrows the factor back to itself and
agrees with `*`. -/
theorem C12_stereo_mul_assign_f32_partial (a : Stereo F32) (k : F32) :
    a.mulM (SM.up k : F64) = a.mulAssignM (SM.up k : F64) := by
  have hk : (SM.down (SM.up k : F64) : F32) = k := by
    cases k with
    | nan => rfl
    | inf s => rfl
    | fin s q h =>
      obtain ⟨h', e⟩ := up_fin s q h
      rw [e]
      obtain ⟨h3, e3⟩ := ofQ_repr (f := b32) s (Fmt.fits_of_repr h.1 h.2.1) h.1
      show ofQ s q = _
      rw [e3]
      congr 1
      split_ifs with h1 h2
      · exact (h.2.2.1 h1).symm
      · exact (h.2.2.2 h2).symm
      · rfl
  unfold Stereo.mulM Stereo.mulAssignM
  rw [down_up_mul, down_up_mul, hk]

/-! ## C13, C14 Mono to Stereo -/

private theorem sqrt_half_pos : 0 < Real.sqrt (((1 / 2 : ℚ) : ℚ) : ℝ) := Real.sqrt_pos.mpr (by norm_num)
private theorem sqrt_half_sq : Real.sqrt ((1 / 2 : ℚ) : ℝ) * Real.sqrt ((1 / 2 : ℚ) : ℝ) = 1 / 2 := by
  rw [Real.mul_self_sqrt (by norm_num)]; norm_num

/-- The property fails: in `f32`, `1.0` comes back as `2.0`. -/
theorem C13_stereo_roundtrip_violated :
    ¬ ∀ x : F32, (Stereo.fromSample x).intoSample = x := by
  intro h
  have := h (lit 1)
  revert this
  decide +kernel

/-- In `f32` the value returned for `1.0` is `2.0` exactly. -/
theorem C13_stereo_roundtrip_violated_value : (Stereo.fromSample (lit 1 : F32)).intoSample = lit 2 := by
  decide +kernel

/-- What holds in exact arithmetic: the round trip doubles. Missing: the identity. -/
theorem C13_stereo_roundtrip_partial (x : ℝ) : (Stereo.fromSample x).intoSample = 2 * x := by
  unfold Stereo.fromSample Stereo.intoSample
  real_simp
  have := sqrt_half_pos
  field_simp
  ring

/-- Equal power: the squares of the channels add up to the square of the sample. -/
theorem C14_equal_power (x : ℝ) :
    (Stereo.fromSample x).left ^ 2 + (Stereo.fromSample x).right ^ 2 = x ^ 2 := by
  unfold Stereo.fromSample
  real_simp
  have := sqrt_half_sq
  calc _ = x ^ 2 * (2 * (Real.sqrt ((1 / 2 : ℚ) : ℝ) * Real.sqrt ((1 / 2 : ℚ) : ℝ))) := by ring
    _ = x ^ 2 := by rw [this]; ring

/-- Both channels get the same value and Mono conversion is lossless, in any arithmetic. -/
theorem C14_centred {S : Type} [Flt S] (x : S) (m : Mono S) :
    (Stereo.fromSample x).left = (Stereo.fromSample x).right ∧
    (Mono.fromSample x).intoSample = x ∧ Mono.fromSample m.intoSample = m := ⟨rfl, rfl, rfl⟩

/-! ## C15, C17 pan position -/

/-- Panning by an `f32` position is panning by the same position as `f64`, NaN and infinities included. -/
theorem C17_pan_widen [Libm F64] (s g : F32) : Stereo.panS F64 s g = Stereo.panM s (SM.up g : F64) := by
  have h0 : (SM.up (lit 0 : F32) : F64) = lit 0 := by decide +kernel
  have h1 : ((SM.up g : F64) ≤? lit 0) = (g ≤? lit 0) := by rw [← h0, up_le]
  have h2 : ((lit 0 : F64) ≤? SM.up g) = (lit 0 ≤? g) := by rw [← h0, up_le]
  unfold Stereo.panS Stereo.panM
  rw [h1, h2]

/-- Mono ignores the position. -/
theorem C17_mono {S G : Type} (s : S) (g g' : G) :
    Mono.toSampleFormat s g = Mono.toSampleFormat s g' ∧ (Mono.toSampleFormat s g).mono = s := ⟨rfl, rfl⟩

/-- Positions left of `-1` (also `-∞`) pan as `-1`. -/
theorem C15_pan_low [Libm F64] (s : F32) (g : F64) (h : (g <? -lit 1) = true) :
    Stereo.panM s g = Stereo.panM s (-lit 1 : F64) := by
  have c : ∀ y1 y2 : F64, clerp g (-lit 1) (lit 0) y1 y2 = clerp (-lit 1) (-lit 1) (lit 0) y1 y2 := by
    intro y1 y2
    have e1 : ((lit 0 : F64) <? -lit 1) = false := by decide +kernel
    have e2 : ((-lit 1 : F64) <? -lit 1) = false := by decide +kernel
    have e3 : ((-lit 1 : F64) <? lit 0) = true := by decide +kernel
    unfold clerp
    congr 1
    simp [clamp, e1, e2, not_lt_of_lt' (lt_trans' h e3), h]
  have e3 : ((-lit 1 : F64) <? lit 0) = true := by decide +kernel
  unfold Stereo.panM
  simp only [le_of_lt' (lt_trans' h e3), not_le_of_lt' (lt_trans' h e3), le_of_lt' e3, not_le_of_lt' e3,
    if_true, c]
  rfl

example [Libm F64] : Stereo.panM (lit (1 / 2) : F32) (-lit 3 : F64) = Stereo.panM (lit (1 / 2)) (-lit 1 : F64) := C15_pan_low _ _ (by decide +kernel)

/-- Positions right of `1` (also `+∞`) pan as `1`. -/
theorem C15_pan_high [Libm F64] (s : F32) (g : F64) (h : (lit 1 <? g) = true) :
    Stereo.panM s g = Stereo.panM s (lit 1 : F64) := by
  have e3 : ((lit 0 : F64) <? lit 1) = true := by decide +kernel
  have c : ∀ y1 y2 : F64, clerp g (lit 0) (lit 1) y1 y2 = clerp (lit 1) (lit 0) (lit 1) y1 y2 := by
    intro y1 y2
    have e1 : ((lit 1 : F64) <? lit 0) = false := by decide +kernel
    have e2 : ((lit 1 : F64) <? lit 1) = false := by decide +kernel
    unfold clerp
    congr 1
    simp [clamp, e1, e2, h]
  unfold Stereo.panM
  simp only [le_of_lt' (lt_trans' e3 h), not_le_of_lt' (lt_trans' e3 h), le_of_lt' e3, not_le_of_lt' e3,
    if_true, c]
  rfl

example [Libm F64] : Stereo.panM (lit (1 / 2) : F32) (.inf false : F64) = Stereo.panM (lit (1 / 2)) (lit 1 : F64) := C15_pan_high _ _ (by decide +kernel)

/-- The same for `f32` positions. -/
theorem C15_pan_f32 [Libm F64] (s g : F32) :
    ((g <? -lit 1) = true → Stereo.panS F64 s g = Stereo.panS F64 s (-lit 1)) ∧
    ((lit 1 <? g) = true → Stereo.panS F64 s g = Stereo.panS F64 s (lit 1)) := by
  have h1 : (SM.up (lit 1 : F32) : F64) = lit 1 := by decide +kernel
  have h2 : (SM.up (-lit 1 : F32) : F64) = -lit 1 := by decide +kernel
  simp only [C17_pan_widen, h1, h2]
  exact ⟨fun h => C15_pan_low _ _ (by rwa [← h2, up_lt]), fun h => C15_pan_high _ _ (by rwa [← h1, up_lt])⟩

example : ((.inf true : F64) <? -lit 1) = true ∧ ((-lit 3 : F64) <? -lit 1) = true ∧
    ((lit 1 : F64) <? lit (3 / 2)) = true ∧ ((lit 1 : F64) <? .inf false) = true := by decide +kernel

/-! ## C16 pan direction -/

/-- The gain of a level in dB. -/
noncomputable def gainOf (db : ℝ) : ℝ := (10 : ℝ) ^ (db / 20)

theorem gainOf_lt {a b : ℝ} (h : a < b) : gainOf a < gainOf b :=
  Real.rpow_lt_rpow_of_exponent_lt (by norm_num) (by linarith)

theorem gainOf_pos (a : ℝ) : 0 < gainOf a := Real.rpow_pos_of_pos (by norm_num) _

/-- The levels (left, right) the code produces at the three positions, exact arithmetic: full left
-3 and 0 dB, centre -120 and -3 dB, full right -3 and -120 dB. This is what there is; the claimed direction and
balance are false, see the `_violated` theorems. -/
theorem C16_pan_values_partial (s : ℝ) :
    Stereo.panM s (-1 : ℝ) = ⟨gainOf (-3) * s, gainOf 0 * s⟩ ∧
    Stereo.panM s (0 : ℝ) = ⟨gainOf (-120) * s, gainOf (-3) * s⟩ ∧
    Stereo.panM s (1 : ℝ) = ⟨gainOf (-3) * s, gainOf (-120) * s⟩ := by
  refine ⟨?_, ?_, ?_⟩ <;>
  · unfold Stereo.panM clerp clamp lerp dbToLinear gainOf
    real_simp
    norm_num

/-- Full left: the right channel is strictly louder, for every nonzero sample. -/
theorem C16_pan_left_violated (s : ℝ) (hs : s ≠ 0) :
    |(Stereo.panM s (-1 : ℝ)).left| < |(Stereo.panM s (-1 : ℝ)).right| := by
  rw [(C16_pan_values_partial s).1]
  simp only [abs_mul, abs_of_pos (gainOf_pos _)]
  exact mul_lt_mul_of_pos_right (gainOf_lt (by norm_num)) (abs_pos.mpr hs)

/-- Full right: the left channel is strictly louder, for every nonzero sample. -/
theorem C16_pan_right_violated (s : ℝ) (hs : s ≠ 0) :
    |(Stereo.panM s (1 : ℝ)).right| < |(Stereo.panM s (1 : ℝ)).left| := by
  rw [(C16_pan_values_partial s).2.2]
  simp only [abs_mul, abs_of_pos (gainOf_pos _)]
  exact mul_lt_mul_of_pos_right (gainOf_lt (by norm_num)) (abs_pos.mpr hs)

/-- Centre: the left channel is a millionth of the sample, the right one is louder. -/
theorem C16_pan_centre_violated (s : ℝ) (hs : s ≠ 0) :
    |(Stereo.panM s (0 : ℝ)).left| = |s| / 10 ^ 6 ∧
    |(Stereo.panM s (0 : ℝ)).left| < |(Stereo.panM s (0 : ℝ)).right| := by
  rw [(C16_pan_values_partial s).2.1]
  simp only [abs_mul, abs_of_pos (gainOf_pos _)]
  refine ⟨?_, mul_lt_mul_of_pos_right (gainOf_lt (by norm_num)) (abs_pos.mpr hs)⟩
  have : gainOf (-120) = 1 / 10 ^ 6 := by
    unfold gainOf
    rw [show ((-120 : ℝ) / 20) = ((-6 : ℤ) : ℝ) by norm_num, Real.rpow_intCast]
    norm_num
  rw [this]
  ring

/-- At every position both gains lie between -120 dB and 0 dB: panning never amplifies. -/
theorem C16_pan_bounds_partial (s g : ℝ) :
    ∃ a b : ℝ, Stereo.panM s g = ⟨a * s, b * s⟩ ∧ gainOf (-120) ≤ a ∧ a ≤ 1 ∧ gainOf (-120) ≤ b ∧ b ≤ 1 := by
  have h1 : gainOf 0 = 1 := by simp [gainOf]
  have key : ∀ x : ℝ, -120 ≤ x → x ≤ 0 → gainOf (-120) ≤ gainOf x ∧ gainOf x ≤ 1 := by
    intro x hx hx0
    rw [← h1]
    refine ⟨?_, ?_⟩ <;> exact Real.rpow_le_rpow_of_exponent_le (by norm_num) (by linarith)
  have : ∃ u v : ℝ, Stereo.panM s g = ⟨gainOf u * s, gainOf v * s⟩ ∧ -120 ≤ u ∧ u ≤ 0 ∧ -120 ≤ v ∧ v ≤ 0 := by
    unfold Stereo.panM clerp clamp lerp dbToLinear
    real_simp
    refine ⟨_, _, rfl, ?_⟩
    norm_num
    split_ifs <;> norm_num at * <;> (try split_ands) <;> linarith
  obtain ⟨u, v, h, hu1, hu2, hv1, hv2⟩ := this
  exact ⟨_, _, h, (key u hu1 hu2).1, (key u hu1 hu2).2, (key v hv1 hv2).1, (key v hv1 hv2).2⟩

end Verif
