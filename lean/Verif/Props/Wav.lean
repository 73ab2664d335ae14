import Verif.Proofs.Wav
import Verif.Props.Codec

/-! # WAV reading and writing: C25-C30

The `wav` crate is a parameter: `wr` is what it does to the destination, the reading side is its
result. -/

namespace Verif
open Fl
set_option linter.unusedSectionVars false
variable {S : Type} [Flt S]

/-- A request `write_wav` should accept. -/
def Writable (tracks : List (List S)) (bps : UInt16) : Prop :=
  tracks ≠ [] ∧ (∀ t ∈ tracks, ∀ u ∈ tracks, t.length = u.length) ∧ (bps = 8 ∨ bps = 16 ∨ bps = 24)

private theorem same_len {t0 : List S} {ts : List (List S)}
    (h : ∀ t ∈ t0 :: ts, ∀ u ∈ t0 :: ts, t.length = u.length) : ∀ t ∈ t0 :: ts, t.length = t0.length :=
  fun t ht => h t ht t0 (List.mem_cons_self ..)

private theorem clipped_len {clip : Bool} {n : ℕ} {ts : List (List S)} (h : ∀ t ∈ ts, t.length = n) :
    ∀ t ∈ ts.map (fun t => if clip then t.map clip1 else t), t.length = n := by
  intro t ht
  obtain ⟨u, hu, rfl⟩ := List.mem_map.mp ht
  cases clip <;> simp [h u hu]

/-! ## C25 -/

/-- No channels: an error, the destination is untouched. -/
theorem C25_no_channels {W : Type} (wr : WavHeader → BitDepth → W → Except IoErr Unit × W) (bps : UInt16)
    (dst : W) (clip : Bool) :
    writeWav wr ([] : List (List S)) bps dst clip = .ok (.error "No channels given, aborting.", dst) := rfl

/-- Different lengths: an error whatever the depth, the destination is untouched. -/
theorem C25_mismatch {W : Type} (wr : WavHeader → BitDepth → W → Except IoErr Unit × W) (bps : UInt16)
    (dst : W) (clip : Bool) (tracks : List (List S))
    (h : ∃ t ∈ tracks, ∃ u ∈ tracks, t.length ≠ u.length) :
    writeWav wr tracks bps dst clip =
      .ok (.error "Channels have mismatching lengths, aborting.", dst) := by
  cases tracks with
  | nil => simp at h
  | cons t0 ts =>
    have hn : ¬ ∀ t ∈ t0 :: ts, t.length = t0.length := by
      intro hall
      obtain ⟨t, ht, u, hu, hne⟩ := h
      exact hne ((hall t ht).trans (hall u hu).symm)
    unfold writeWav
    simp only [checkClip_isSome, if_neg hn]

example {W : Type} (wr : WavHeader → BitDepth → W → Except IoErr Unit × W) (dst : W) :
    writeWav wr [[(lit 0 : F32)], []] 16 dst false = .ok (.error "Channels have mismatching lengths, aborting.", dst) :=
  C25_mismatch wr 16 dst false _ ⟨[lit 0], by simp, [], by simp, by simp⟩

/-- Equal lengths but an unsupported depth: an error, the destination is untouched. -/
theorem C25_depth {W : Type} (wr : WavHeader → BitDepth → W → Except IoErr Unit × W) (bps : UInt16)
    (dst : W) (clip : Bool) (tracks : List (List S)) (hne : tracks ≠ [])
    (heq : ∀ t ∈ tracks, ∀ u ∈ tracks, t.length = u.length) (hb : bps ≠ 8 ∧ bps ≠ 16 ∧ bps ≠ 24) :
    writeWav wr tracks bps dst clip = .ok (.error "Unsupported bit depth, aborting.", dst) := by
  cases tracks with
  | nil => exact absurd rfl hne
  | cons t0 ts =>
    unfold writeWav
    simp only [checkClip_isSome, if_pos (same_len heq), hb.1, hb.2.1, hb.2.2, if_false]

example {W : Type} (wr : WavHeader → BitDepth → W → Except IoErr Unit × W) (dst : W) :
    writeWav wr [[(lit 0 : F32)], [lit 1]] 32 dst false = .ok (.error "Unsupported bit depth, aborting.", dst) :=
  C25_depth wr 32 dst false _ (by simp) (by simp) (by decide)

private theorem write_accept (clip : Bool) (tracks : List (List S)) (bps : UInt16) (h : Writable tracks bps) :
    ∃ hdr data, ∀ (W : Type) (wr : WavHeader → BitDepth → W → Except IoErr Unit × W) (dst : W),
      writeWav wr tracks bps dst clip = .ok (wr hdr data dst) := by
  obtain ⟨hne, heq, hb⟩ := h
  cases tracks with
  | nil => exact absurd rfl hne
  | cons t0 ts =>
    have hl := clipped_len (clip := clip) (same_len heq)
    rcases hb with rfl | rfl | rfl
    · obtain ⟨v, hv, -⟩ := interleave_spec sampleToU8 _ _ hl
      refine ⟨⟨1, UInt16.ofNat ((t0 :: ts).map (fun t => if clip then t.map clip1 else t)).length,
        UInt32.ofNat SAMPLE_RATE, 8⟩, .eight v, fun W wr dst => ?_⟩
      unfold writeWav
      simp only [checkClip_isSome, if_pos (same_len heq), hv, if_true]
    · obtain ⟨v, hv, -⟩ := interleave_spec sampleToI16 _ _ hl
      refine ⟨⟨1, UInt16.ofNat ((t0 :: ts).map (fun t => if clip then t.map clip1 else t)).length,
        UInt32.ofNat SAMPLE_RATE, 16⟩, .sixteen v, fun W wr dst => ?_⟩
      unfold writeWav
      simp only [checkClip_isSome, if_pos (same_len heq), hv, if_true]
      rfl
    · obtain ⟨v, hv, -⟩ := interleave_spec sampleToI24 _ _ hl
      refine ⟨⟨1, UInt16.ofNat ((t0 :: ts).map (fun t => if clip then t.map clip1 else t)).length,
        UInt32.ofNat SAMPLE_RATE, 24⟩, .twentyFour v, fun W wr dst => ?_⟩
      unfold writeWav
      simp only [checkClip_isSome, if_pos (same_len heq), hv, if_true]
      rfl

/-- The encoder is handed exactly one header and data block, and its result is the result, iff the
request is valid. In particular `write_wav` never panics on a valid request. -/
theorem C25_iff (clip : Bool) (tracks : List (List S)) (bps : UInt16) :
    Writable tracks bps ↔
    ∃ hdr data, ∀ (W : Type) (wr : WavHeader → BitDepth → W → Except IoErr Unit × W) (dst : W),
      writeWav wr tracks bps dst clip = .ok (wr hdr data dst) := by
  refine ⟨write_accept clip tracks bps, ?_⟩
  rintro ⟨hdr, data, h⟩
  have h1 := h Bool (fun _ _ _ => (.ok (), true)) false
  by_contra hw
  have : ∃ e, writeWav (fun _ _ _ => (.ok (), true)) tracks bps false clip = .ok (.error e, false) := by
    by_cases hne : tracks = []
    · subst hne; exact ⟨_, C25_no_channels _ _ _ _⟩
    by_cases heq : ∀ t ∈ tracks, ∀ u ∈ tracks, t.length = u.length
    · by_cases hb : bps = 8 ∨ bps = 16 ∨ bps = 24
      · exact absurd ⟨hne, heq, hb⟩ hw
      · push Not at hb
        exact ⟨_, C25_depth _ _ _ _ _ hne heq hb⟩
    · push Not at heq
      exact ⟨_, C25_mismatch _ _ _ _ _ heq⟩
  obtain ⟨e, he⟩ := this
  rw [he] at h1
  cases h1

/-- `write_wav` never panics. -/
theorem C25_no_panic {W : Type} (wr : WavHeader → BitDepth → W → Except IoErr Unit × W) (bps : UInt16)
    (dst : W) (clip : Bool) (tracks : List (List S)) : ∃ r, writeWav wr tracks bps dst clip = .ok r := by
  by_cases hne : tracks = []
  · subst hne; exact ⟨_, C25_no_channels _ _ _ _⟩
  by_cases heq : ∀ t ∈ tracks, ∀ u ∈ tracks, t.length = u.length
  · by_cases hb : bps = 8 ∨ bps = 16 ∨ bps = 24
    · obtain ⟨hdr, data, h⟩ := write_accept clip tracks bps ⟨hne, heq, hb⟩
      exact ⟨_, h W wr dst⟩
    · push Not at hb
      exact ⟨_, C25_depth _ _ _ _ _ hne heq hb⟩
  · push Not at heq
    exact ⟨_, C25_mismatch _ _ _ _ _ heq⟩

example : Writable [[(lit 0 : F32), lit 1], [lit 1, lit 0]] 16 :=
  ⟨by simp, by simp, by simp⟩

/-! ## C26 -/

/-- What the WAV header must say. -/
def HeaderOk (h : WavHeader) (channels : ℕ) (bits : UInt16) : Prop :=
  h.audioFormat = 1 ∧ h.channelCount.toNat = channels ∧ h.samplingRate = 48000 ∧ h.bitsPerSample = bits

/-- The interleaving requirement: entry `f*C+c` is the encoding of sample `f` of track `c`. -/
def Interleaved {D : Type} (enc : S → D) (tracks : List (List S)) (n : ℕ) (v : List D) : Prop :=
  v.length = n * tracks.length ∧
  ∀ f < n, ∀ c t s, tracks[c]? = some t → t[f]? = some s → v[f * tracks.length + c]? = some (enc s)

private theorem interleaved_of {D : Type} (enc : S → D) (ts : List (List S)) (n : ℕ) (h : ∀ t ∈ ts, t.length = n) :
    ∃ v, interleave enc ts n = .ok v ∧ Interleaved enc ts n v := by
  obtain ⟨v, h1, h2, h3⟩ := interleave_spec enc ts n h
  refine ⟨v, h1, h2, fun f hf c t s ht hs => ?_⟩
  obtain ⟨hc, -⟩ := List.getElem?_eq_some_iff.mp ht
  rw [h3 f hf c hc, ht]
  simp [hs]

private theorem header_ok (C : ℕ) (h : C < 65536) (bps : UInt16) :
    HeaderOk ⟨1, UInt16.ofNat C, UInt32.ofNat SAMPLE_RATE, bps⟩ C bps :=
  ⟨rfl, by simp [UInt16.toNat_ofNat', Nat.mod_eq_of_lt h], rfl, rfl⟩

/-- 8, 16 and 24 bit: the encoder receives a correct header and the interleaved codes. -/
theorem C26_interleaves (tracks : List (List S)) (n : ℕ) (hne : tracks ≠ []) (hC : tracks.length < 65536)
    (hlen : ∀ t ∈ tracks, t.length = n) :
    (∃ hdr v, HeaderOk hdr tracks.length 8 ∧ Interleaved sampleToU8 tracks n v ∧
      ∀ (W : Type) (wr : WavHeader → BitDepth → W → Except IoErr Unit × W) (dst : W),
        writeWav wr tracks 8 dst false = .ok (wr hdr (.eight v) dst)) ∧
    (∃ hdr v, HeaderOk hdr tracks.length 16 ∧ Interleaved sampleToI16 tracks n v ∧
      ∀ (W : Type) (wr : WavHeader → BitDepth → W → Except IoErr Unit × W) (dst : W),
        writeWav wr tracks 16 dst false = .ok (wr hdr (.sixteen v) dst)) ∧
    (∃ hdr v, HeaderOk hdr tracks.length 24 ∧ Interleaved sampleToI24 tracks n v ∧
      ∀ (W : Type) (wr : WavHeader → BitDepth → W → Except IoErr Unit × W) (dst : W),
        writeWav wr tracks 24 dst false = .ok (wr hdr (.twentyFour v) dst)) := by
  cases tracks with
  | nil => exact absurd rfl hne
  | cons t0 ts =>
    have h0 : t0.length = n := hlen t0 (List.mem_cons_self ..)
    subst h0
    refine ⟨?_, ?_, ?_⟩
    · obtain ⟨v, hv, hi⟩ := interleaved_of sampleToU8 _ _ hlen
      refine ⟨_, v, header_ok _ hC 8, hi, fun W wr dst => ?_⟩
      unfold writeWav
      simp only [checkClip_isSome, if_pos hlen, Bool.false_eq_true, if_false, List.map_id', hv, if_true]
    · obtain ⟨v, hv, hi⟩ := interleaved_of sampleToI16 _ _ hlen
      refine ⟨_, v, header_ok _ hC 16, hi, fun W wr dst => ?_⟩
      unfold writeWav
      simp only [checkClip_isSome, if_pos hlen, Bool.false_eq_true, if_false, List.map_id', hv, if_true]
      rfl
    · obtain ⟨v, hv, hi⟩ := interleaved_of sampleToI24 _ _ hlen
      refine ⟨_, v, header_ok _ hC 24, hi, fun W wr dst => ?_⟩
      unfold writeWav
      simp only [checkClip_isSome, if_pos hlen, Bool.false_eq_true, if_false, List.map_id', hv, if_true]
      rfl

example : (∀ t ∈ [[(lit 0 : F32), lit 1], [lit 1, lit 0], [lit 0, lit 0]], t.length = 2) := by simp

/-! ## C27 -/

/-- The deinterleaving requirement. -/
def Deinterleaved {D : Type} (dec : D → S) (C : ℕ) (d : List D) (tr : List (List S)) : Prop :=
  tr.length = C ∧ (tr.map List.length).sum = d.length ∧
  ∀ c < C, ∀ f, (tr[c]?.bind fun t => t[f]?) = (d[f * C + c]?).map dec

private theorem deint_full {D : Type} (dec : D → S) (C : ℕ) (hC : 0 < C) (d : List D) :
    ∃ tr, deinterleave dec C 0 d (List.replicate C ([] : List S)) = .ok tr ∧ Deinterleaved dec C d tr := by
  obtain ⟨tr, h1, h2⟩ := deinterleave_zero dec C hC d
  refine ⟨tr, h1, h2.1, ?_, h2.2⟩
  rw [deinterleave_sum dec C 0 d _ tr h1]
  simp

/-- With a positive channel count reading succeeds and deinterleaves, for data of any length (also
not a whole number of frames). -/
theorem C27_deinterleaves (h : WavHeader) (hC : 0 < h.channelCount.toNat) (d8 : List UInt8) (d16 : List Int16)
    (d24 : List Int32) :
    (∃ tr, readWav (S := S) (.ok (h, .eight d8)) = .ok (.ok (h, tr)) ∧
      Deinterleaved (S := S) sampleFromU8 h.channelCount.toNat d8 tr) ∧
    (∃ tr, readWav (S := S) (.ok (h, .sixteen d16)) = .ok (.ok (h, tr)) ∧
      Deinterleaved (S := S) sampleFromI16 h.channelCount.toNat d16 tr) ∧
    (∃ tr, readWav (S := S) (.ok (h, .twentyFour d24)) = .ok (.ok (h, tr)) ∧
      Deinterleaved (S := S) sampleFromI24 h.channelCount.toNat d24 tr) := by
  refine ⟨?_, ?_, ?_⟩
  · obtain ⟨tr, h1, h2⟩ := deint_full (S := S) sampleFromU8 _ hC d8
    exact ⟨tr, by unfold readWav; simp only [h1], h2⟩
  · obtain ⟨tr, h1, h2⟩ := deint_full (S := S) sampleFromI16 _ hC d16
    exact ⟨tr, by unfold readWav; simp only [h1], h2⟩
  · obtain ⟨tr, h1, h2⟩ := deint_full (S := S) sampleFromI24 _ hC d24
    exact ⟨tr, by unfold readWav; simp only [h1], h2⟩

/-- Other depths give empty tracks, errors are passed through. -/
theorem C27_other (h : WavHeader) (e : IoErr) :
    readWav (S := S) (.ok (h, .other)) = .ok (.ok (h, List.replicate h.channelCount.toNat [])) ∧
    readWav (S := S) (.error e) = .ok (.error e) := ⟨rfl, rfl⟩

example : (0 : ℕ) < (⟨1, 2, 48000, 8⟩ : WavHeader).channelCount.toNat := by decide

/-! ## C28 -/

/-- The property fails: a header with zero channels and any data panics (remainder by zero). -/
theorem C28_no_panic_violated :
    ¬ ∀ src : Except IoErr (WavHeader × BitDepth), ∃ r, readWav (S := S) src = .ok r := by
  intro h
  obtain ⟨r, hr⟩ := h (.ok (⟨1, 0, 48000, 8⟩, .eight [1]))
  simp [readWav, deinterleave] at hr

/-- What holds: no panic unless the header has zero channels and there is data. Missing: that case,
where it does panic. -/
theorem C28_no_panic_partial (h : WavHeader) (bd : BitDepth) (hC : 0 < h.channelCount.toNat) :
    ∃ r, readWav (S := S) (.ok (h, bd)) = .ok r := by
  cases bd with
  | eight d => obtain ⟨tr, h1, -⟩ := (C27_deinterleaves (S := S) h hC d [] []).1; exact ⟨_, h1⟩
  | sixteen d => obtain ⟨tr, h1, -⟩ := (C27_deinterleaves (S := S) h hC [] d []).2.1; exact ⟨_, h1⟩
  | twentyFour d => obtain ⟨tr, h1, -⟩ := (C27_deinterleaves (S := S) h hC [] [] d).2.2; exact ⟨_, h1⟩
  | other => exact ⟨_, rfl⟩

example (d : List Int16) : ∃ r, readWav (S := F32) (.ok (⟨1, 2, 48000, 16⟩, .sixteen d)) = .ok r := C28_no_panic_partial _ _ (by decide)

/-- Zero channels: exactly the files with data panic. -/
theorem C28_zero_channels_partial (h : WavHeader) (hC : h.channelCount.toNat = 0) (d8 : List UInt8)
    (d16 : List Int16) (d24 : List Int32) :
    ((∃ r, readWav (S := S) (.ok (h, .eight d8)) = .ok r) ↔ d8 = []) ∧
    ((∃ r, readWav (S := S) (.ok (h, .sixteen d16)) = .ok r) ↔ d16 = []) ∧
    ((∃ r, readWav (S := S) (.ok (h, .twentyFour d24)) = .ok r) ↔ d24 = []) := by
  refine ⟨?_, ?_, ?_⟩
  · cases d8 <;> simp [readWav, deinterleave, hC]
  · cases d16 <;> simp [readWav, deinterleave, hC]
  · cases d24 <;> simp [readWav, deinterleave, hC]

example : ¬ ∃ r, readWav (S := F32) (.ok (⟨1, 0, 48000, 16⟩, .sixteen [0])) = .ok r := fun h =>
  List.cons_ne_nil _ _ ((C28_zero_channels_partial ⟨1, 0, 48000, 16⟩ (by decide) [] [0] []).2.1.1 h)

/-! ## C29 -/

/-- A faithful container: writing stores header and data, reading returns them. -/
def store (h : WavHeader) (d : BitDepth) (_ : Option (WavHeader × BitDepth)) :
    Except IoErr Unit × Option (WavHeader × BitDepth) := (.ok (), some (h, d))

/-- Write then read: same shape, every sample quantised. -/
theorem C29_write_read (tracks : List (List S)) (n : ℕ) (hne : tracks ≠ []) (hC : tracks.length < 65536)
    (hlen : ∀ t ∈ tracks, t.length = n) :
    (∃ h d, writeWav store tracks 8 none false = .ok (.ok (), some (h, d)) ∧
      readWav (S := S) (.ok (h, d)) = .ok (.ok (h, tracks.map fun t => t.map fun s => sampleFromU8 (sampleToU8 s)))) ∧
    (∃ h d, writeWav store tracks 16 none false = .ok (.ok (), some (h, d)) ∧
      readWav (S := S) (.ok (h, d)) = .ok (.ok (h, tracks.map fun t => t.map fun s => sampleFromI16 (sampleToI16 s)))) ∧
    (∃ h d, writeWav store tracks 24 none false = .ok (.ok (), some (h, d)) ∧
      readWav (S := S) (.ok (h, d)) = .ok (.ok (h, tracks.map fun t => t.map fun s => sampleFromI24 (sampleToI24 s)))) := by
  cases tracks with
  | nil => exact absurd rfl hne
  | cons t0 ts =>
    have h0 : t0.length = n := hlen t0 (List.mem_cons_self ..)
    subst h0
    have hpos : 0 < (t0 :: ts).length := by simp
    have hcc : (UInt16.ofNat (t0 :: ts).length).toNat = (t0 :: ts).length := by
      rw [UInt16.toNat_ofNat', Nat.mod_eq_of_lt hC]
    refine ⟨?_, ?_, ?_⟩
    · obtain ⟨v, hv, -⟩ := interleave_spec sampleToU8 _ _ hlen
      obtain ⟨tr, h1, h2⟩ := deinterleave_zero (sampleFromU8 (S := S)) _ hpos v
      have e := deint_unique h2 (roundtrip_tracks _ sampleFromU8 _ _ hlen v hv)
      subst e
      refine ⟨⟨1, UInt16.ofNat (t0 :: ts).length, UInt32.ofNat SAMPLE_RATE, 8⟩, .eight v, ?_, ?_⟩
      · unfold writeWav
        simp only [checkClip_isSome, if_pos hlen, Bool.false_eq_true, if_false, List.map_id', hv, if_true,
          store]
      · unfold readWav
        simp only [hcc, h1]
    · obtain ⟨v, hv, -⟩ := interleave_spec sampleToI16 _ _ hlen
      obtain ⟨tr, h1, h2⟩ := deinterleave_zero (sampleFromI16 (S := S)) _ hpos v
      have e := deint_unique h2 (roundtrip_tracks _ sampleFromI16 _ _ hlen v hv)
      subst e
      refine ⟨⟨1, UInt16.ofNat (t0 :: ts).length, UInt32.ofNat SAMPLE_RATE, 16⟩, .sixteen v, ?_, ?_⟩
      · unfold writeWav
        simp only [checkClip_isSome, if_pos hlen, Bool.false_eq_true, if_false, List.map_id', hv, if_true,
          store]
        rfl
      · unfold readWav
        simp only [hcc, h1]
    · obtain ⟨v, hv, -⟩ := interleave_spec sampleToI24 _ _ hlen
      obtain ⟨tr, h1, h2⟩ := deinterleave_zero (sampleFromI24 (S := S)) _ hpos v
      have e := deint_unique h2 (roundtrip_tracks _ sampleFromI24 _ _ hlen v hv)
      subst e
      refine ⟨⟨1, UInt16.ofNat (t0 :: ts).length, UInt32.ofNat SAMPLE_RATE, 24⟩, .twentyFour v, ?_, ?_⟩
      · unfold writeWav
        simp only [checkClip_isSome, if_pos hlen, Bool.false_eq_true, if_false, List.map_id', hv, if_true,
          store]
        rfl
      · unfold readWav
        simp only [hcc, h1]

example : ∃ h d, writeWav store [[(lit 0 : F32), lit 1], [lit 1, lit 0]] 16 none false = .ok (.ok (), some (h, d)) ∧
    readWav (S := F32) (.ok (h, d)) = .ok (.ok (h, [[(lit 0 : F32), lit 1], [lit 1, lit 0]].map fun t => t.map fun s => sampleFromI16 (sampleToI16 s))) :=
  (C29_write_read _ 2 (by simp) (by simp) (by simp)).2.1

/-- Reads, then writes the tracks at the given depth. -/
def rewrite {W : Type} (wr : WavHeader → BitDepth → W → Except IoErr Unit × W) (src : WavHeader × BitDepth)
    (bps : UInt16) (dst : W) : Res (Except IoErr Unit × W) :=
  match readWav (S := F32) (.ok src) with
  | .error e => .error e
  | .ok (.error e) => .ok (.error e, dst)
  | .ok (.ok (_, tr)) => writeWav wr tr bps dst false

/-- Read then write at the same depth reproduces the data bit for bit (IEEE binary32), for any whole
number `n` of frames; 24-bit data must lie in the 24-bit range, as a WAV file's does. -/
theorem C29_read_write {W : Type} (wr : WavHeader → BitDepth → W → Except IoErr Unit × W) (dst : W)
    (h : WavHeader) (n : ℕ) (hC : 0 < h.channelCount.toNat) (d8 : List UInt8) (d16 : List Int16)
    (d24 : List Int32) (h24 : ∀ x ∈ d24, -8388608 ≤ x.toInt ∧ x.toInt ≤ 8388607) :
    (d8.length = n * h.channelCount.toNat → rewrite wr (h, .eight d8) 8 dst =
      .ok (wr ⟨1, h.channelCount, 48000, 8⟩ (.eight d8) dst)) ∧
    (d16.length = n * h.channelCount.toNat → rewrite wr (h, .sixteen d16) 16 dst =
      .ok (wr ⟨1, h.channelCount, 48000, 16⟩ (.sixteen d16) dst)) ∧
    (d24.length = n * h.channelCount.toNat → rewrite wr (h, .twentyFour d24) 24 dst =
      .ok (wr ⟨1, h.channelCount, 48000, 24⟩ (.twentyFour d24) dst)) := by
  have hdr : ∀ (C : ℕ) (bps : UInt16), C = h.channelCount.toNat →
      (⟨1, UInt16.ofNat C, UInt32.ofNat SAMPLE_RATE, bps⟩ : WavHeader) = ⟨1, h.channelCount, 48000, bps⟩ := by
    rintro C bps rfl
    congr 1
    exact UInt16.ofNat_toNat
  refine ⟨fun hd => ?_, fun hd => ?_, fun hd => ?_⟩
  · obtain ⟨tr, h1, h2⟩ := deinterleave_zero (sampleFromU8 (S := F32)) _ hC d8
    obtain ⟨h3, h4⟩ := roundtrip_data sampleToU8 sampleFromU8 _ n d8 hd tr h2
      (fun x _ => C01_u8_roundtrip x)
    unfold rewrite readWav
    simp only [h1]
    cases tr with
    | nil => have := h2.1; simp at this; omega
    | cons t0 ts =>
      have h0 : t0.length = n := h3 t0 (List.mem_cons_self ..)
      subst h0
      unfold writeWav
      simp only [checkClip_isSome, if_pos h3, Bool.false_eq_true, if_false, List.map_id', h4, if_true]
      rw [hdr _ 8 h2.1]
  · obtain ⟨tr, h1, h2⟩ := deinterleave_zero (sampleFromI16 (S := F32)) _ hC d16
    obtain ⟨h3, h4⟩ := roundtrip_data sampleToI16 sampleFromI16 _ n d16 hd tr h2
      (fun x _ => C02_i16_roundtrip x)
    unfold rewrite readWav
    simp only [h1]
    cases tr with
    | nil => have := h2.1; simp at this; omega
    | cons t0 ts =>
      have h0 : t0.length = n := h3 t0 (List.mem_cons_self ..)
      subst h0
      unfold writeWav
      simp only [checkClip_isSome, if_pos h3, Bool.false_eq_true, if_false, List.map_id', h4, if_true]
      rw [hdr _ 16 h2.1]
      rfl
  · obtain ⟨tr, h1, h2⟩ := deinterleave_zero (sampleFromI24 (S := F32)) _ hC d24
    obtain ⟨h3, h4⟩ := roundtrip_data sampleToI24 sampleFromI24 _ n d24 hd tr h2
      (fun x hx => C03_i24_roundtrip x (h24 x hx).1 (h24 x hx).2)
    unfold rewrite readWav
    simp only [h1]
    cases tr with
    | nil => have := h2.1; simp at this; omega
    | cons t0 ts =>
      have h0 : t0.length = n := h3 t0 (List.mem_cons_self ..)
      subst h0
      unfold writeWav
      simp only [checkClip_isSome, if_pos h3, Bool.false_eq_true, if_false, List.map_id', h4, if_true]
      rw [hdr _ 24 h2.1]
      rfl

example : ([1, 2, 3, 4, 5, 6] : List UInt8).length = 3 * (⟨1, 2, 44100, 8⟩ : WavHeader).channelCount.toNat ∧
    (∀ x ∈ ([-8388608, 8388607] : List Int32), -8388608 ≤ x.toInt ∧ x.toInt ≤ 8388607) := by
  decide

/-! ## C30 -/

/-- Clamping to `[-1,1]` as IEEE data: NaN stays, infinities become `±1`. -/
def ClampedTo (x y : F32) : Prop :=
  (x = .nan → y = .nan) ∧ (x = .inf false → y.Is 1) ∧ (x = .inf true → y.Is (-1)) ∧
  ∀ q, x.Is q → y.Is (max (-1) (min 1 q))

/-- The per-sample clip is the clamp. -/
theorem C30_clip_clamps (x : F32) : ClampedTo x (clip1 x) := by
  refine ⟨?_, ?_, ?_, ?_⟩
  · rintro rfl; decide +kernel
  · rintro rfl; decide +kernel
  · rintro rfl; decide +kernel
  · intro q hq
    unfold clip1
    rw [lit32_1.lt hq, hq.lt lit32_1.neg]
    by_cases h1 : 1 < q
    · simp only [h1, decide_true, if_true]
      rw [min_eq_left h1.le, max_eq_right (by norm_num)]; exact lit32_1
    · by_cases h2 : q < -1
      · simp only [h1, h2, decide_true, decide_false, if_true, Bool.false_eq_true, if_false]
        rw [min_eq_right (not_lt.mp h1), max_eq_left h2.le]; exact lit32_1.neg
      · simp only [h1, h2, decide_false, Bool.false_eq_true, if_false]
        rw [min_eq_right (not_lt.mp h1), max_eq_right (not_lt.mp h2)]; exact hq

/-- Writing with clipping is writing the clipped tracks without. -/
theorem C30_clip_first {W : Type} (wr : WavHeader → BitDepth → W → Except IoErr Unit × W)
    (tracks : List (List S)) (bps : UInt16) (dst : W) :
    writeWav wr tracks bps dst true = writeWav wr (tracks.map fun t => t.map clip1) bps dst false := by
  cases tracks with
  | nil => rfl
  | cons t0 ts =>
    rw [List.map_cons]
    unfold writeWav
    simp only [checkClip_isSome, List.length_map]
    have : (∀ t ∈ t0.map clip1 :: ts.map (fun t => t.map clip1), t.length = t0.length) ↔
        ∀ t ∈ t0 :: ts, t.length = t0.length := by
      simp
    by_cases h : ∀ t ∈ t0 :: ts, t.length = t0.length
    · rw [if_pos h, if_pos (this.mpr h)]
      simp only [if_true, Bool.false_eq_true, if_false, List.map_cons, List.map_id']
    · rw [if_neg h, if_neg (fun h' => h (this.mp h'))]

/-- Every 24-bit code written after clipping fits 24 bits. -/
theorem C30_codes (s : F32) : -8388607 ≤ (sampleToI24 (clip1 s)).toInt ∧ (sampleToI24 (clip1 s)).toInt ≤ 8388607 := by
  have key : clip1 s = .nan ∨ ∃ q, (clip1 s).Is q ∧ -1 ≤ q ∧ q ≤ 1 := by
    obtain ⟨h1, h2, h3, h4⟩ := C30_clip_clamps s
    by_cases hn : s = .nan
    · exact .inl (h1 hn)
    · right
      rcases cases_notNaN hn with h | h | ⟨q, h⟩
      · exact ⟨-1, h3 h, by norm_num, by norm_num⟩
      · exact ⟨1, h2 h, by norm_num, by norm_num⟩
      · exact ⟨_, h4 q h, le_max_left _ _, max_le (by norm_num) (min_le_left _ _)⟩
  rcases key with h | ⟨q, h, h1, h2⟩
  · rw [h]; decide +kernel
  · exact C05_i24_range_partial _ (by rw [lit32_1.neg.le h]; exact decide_eq_true h1)
      (by rw [h.le lit32_1]; exact decide_eq_true h2)

/-- When all samples are in `[-1,1]` clipping changes nothing. -/
theorem C30_noop {W : Type} (wr : WavHeader → BitDepth → W → Except IoErr Unit × W)
    (tracks : List (List F32)) (bps : UInt16) (dst : W)
    (h : ∀ t ∈ tracks, ∀ s ∈ t, (-lit 1 ≤? s) = true ∧ (s ≤? lit 1) = true) :
    writeWav wr tracks bps dst true = writeWav wr tracks bps dst false := by
  rw [C30_clip_first]
  congr 1
  conv_rhs => rw [← List.map_id tracks]
  apply List.map_congr_left
  intro t ht
  conv_rhs => rw [id, ← List.map_id t]
  apply List.map_congr_left
  intro s hs
  obtain ⟨h1, h2⟩ := h t ht s hs
  unfold clip1
  have e1 : (lit 1 <? s) = false := by
    by_contra hc
    have := not_le_of_lt'' (by simpa using hc : (lit 1 <? s) = true)
    rw [this] at h2; cases h2
  have e2 : (s <? -lit 1) = false := by
    by_contra hc
    have := not_le_of_lt'' (by simpa using hc : (s <? -lit 1) = true)
    rw [this] at h1; cases h1
  simp [e1, e2]
where
  not_le_of_lt'' {x y : F32} (h1 : (x <? y) = true) : (y ≤? x) = false := by
    cases x <;> cases y <;> simp_all [Flt.lt, Flt.le, Fl.lt, Fl.le]

example {W : Type} (wr : WavHeader → BitDepth → W → Except IoErr Unit × W) (dst : W) :
    writeWav wr [[(lit (1 / 2) : F32), -(lit 1 : F32)]] 16 dst true = writeWav wr [[(lit (1 / 2) : F32), -(lit 1 : F32)]] 16 dst false :=
  C30_noop wr [[lit (1 / 2), -lit 1]] 16 dst (by decide +kernel)

end Verif
