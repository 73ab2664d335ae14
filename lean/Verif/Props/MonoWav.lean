import Verif.Props.Resampler
import Verif.Props.Wav

/-! # Players: C114 clones, C115 WAV files -/

namespace Verif
open Fl MonoResampler

/-! ## C114 -/

section
variable {S M : Type} [Flt S] [Flt M] [SM S M]

/-- After any history a clone plays, sample by sample, what a new player with the same track, rate and loop and the speed set
last plays; the speed reported is the speed set last. Any arithmetic. -/
theorem C114_clone (t : List (Mono S)) (rate : M) (ls le : ℕ) (cs : List (GenCall M)) (r : MonoResampler S M)
    (h : runCallsR process setPlaybackSpeed cs (MonoResampler.new t rate ls le) = .ok r) :
    (∀ n, nthR process r.clone n = nthR process ((MonoResampler.new t rate ls le).setPlaybackSpeed (lastFreq (lit 1) cs)) n) ∧
    r.getPlaybackSpeed = lastFreq (lit 1) cs ∧ r.clone.getPlaybackSpeed = lastFreq (lit 1) cs := by
  have key : ∀ (cs : List (GenCall M)) (a b : MonoResampler S M), runCallsR process setPlaybackSpeed cs a = .ok b →
      b.data = a.data ∧ b.inc = a.inc ∧ b.loopStart = a.loopStart ∧ b.loopEnd = a.loopEnd ∧ b.speed = lastFreq a.speed cs := by
    intro cs
    induction cs with
    | nil => intro a b h; cases h; exact ⟨rfl, rfl, rfl, rfl, rfl⟩
    | cons c cs ih =>
      intro a b h
      cases c with
      | setFrequency f => exact ih _ _ h
      | process =>
        unfold runCallsR at h
        cases hp : a.process with
        | error e => rw [hp] at h; cases h
        | ok p =>
          rw [hp] at h
          have hk : p.2.data = a.data ∧ p.2.inc = a.inc ∧ p.2.loopStart = a.loopStart ∧ p.2.loopEnd = a.loopEnd ∧ p.2.speed = a.speed := by
            unfold process at hp
            split at hp
            · cases hp; exact ⟨rfl, rfl, rfl, rfl, rfl⟩
            · cases h1 : a.nextSample with
              | error e => rw [h1] at hp; cases hp
              | ok x =>
                rw [h1] at hp
                cases h2 : a.at' (toUsize (Flt.trunc a.ind)) with
                | error e =>
                  replace hp : (a.at' (toUsize (Flt.trunc a.ind)) >>= fun x1 => Except.ok (x1 + Flt.fract a.ind * (x - x1), a.advance)) = Except.ok p := hp
                  rw [h2] at hp; cases hp
                | ok y =>
                  replace hp : (a.at' (toUsize (Flt.trunc a.ind)) >>= fun x1 => Except.ok (x1 + Flt.fract a.ind * (x - x1), a.advance)) = Except.ok p := hp
                  rw [h2] at hp; cases hp; exact ⟨rfl, rfl, rfl, rfl, rfl⟩
          obtain ⟨k1, k2, k3, k4, k5⟩ := hk
          obtain ⟨i1, i2, i3, i4, i5⟩ := ih _ _ h
          exact ⟨i1.trans k1, i2.trans k2, i3.trans k3, i4.trans k4, by rw [i5, k5]; rfl⟩
  obtain ⟨h1, h2, h3, h4, h5⟩ := key cs _ _ h
  have e0 : (MonoResampler.new t rate ls le : MonoResampler S M).speed = lit 1 := rfl
  have e1 : (MonoResampler.new t rate ls le : MonoResampler S M).ind = lit 0 := rfl
  rw [e0] at h5
  have e : r.clone = (MonoResampler.new t rate ls le).setPlaybackSpeed (lastFreq (lit 1) cs) := by
    rw [← h5]
    cases r
    generalize hN : (MonoResampler.new t rate ls le : MonoResampler S M) = N at *
    cases N
    simp only [MonoResampler.clone, setPlaybackSpeed, MonoResampler.mk.injEq]
    exact ⟨h1, e1.symm, h2, trivial, h3, h4⟩
  exact ⟨fun n => by rw [e], h5, h5⟩

/-- The same for `MonoWav`: a clone plays the file from the start. -/
theorem C114_clone_wav (t : List (Mono S)) (rate : M) (cs : List (GenCall M)) (r : MonoResampler S M)
    (h : runCallsR process setPlaybackSpeed cs (MonoWav.fromTrack rate t).resam = .ok r) (n : ℕ) :
    nthR MonoWav.process (MonoWav.clone ⟨r⟩) n =
      nthR MonoWav.process ⟨(MonoWav.fromTrack rate t).resam.setPlaybackSpeed (lastFreq (lit 1) cs)⟩ n := by
  rw [wav_nth, wav_nth]
  exact (C114_clone t rate 0 0 cs r h).1 n
end

/-- A three-sample track played for two samples at half speed. -/
example : (runCallsR process setPlaybackSpeed [.setFrequency (lit (1 / 2)), .process, .process]
    (MonoResampler.new [⟨(lit 0 : F32)⟩, ⟨lit 1⟩, ⟨lit (1 / 4)⟩] (lit 48000 : F64) 0 0)).toOption.isSome = true := by
  decide +kernel

/-! ## C115 -/

section
variable {S M : Type} [Flt S] [Flt M] [SM S M]

private theorem source_eq (h : WavHeader) (bd : BitDepth) (t0 : List S) (ts : List (List S))
    (hr : readWav (S := S) (.ok (h, bd)) = .ok (.ok (h, t0 :: ts))) :
    (MonoWav.fromSource (.ok (h, bd)) : Res (MonoWav S M)) =
      .ok (MonoWav.fromTrack (lit (h.samplingRate.toNat : ℚ)) (t0.map Mono.fromSample)) := by
  unfold MonoWav.fromSource
  rw [hr]

omit [Flt S] in
private theorem first {D : Type} {dec : D → S} {C : ℕ} {d : List D} {tr : List (List S)} (hC : 0 < C)
    (h : Deinterleaved dec C d tr) : ∃ t0 ts, tr = t0 :: ts ∧ ∀ f, t0[f]? = (d[f * C]?).map dec := by
  obtain ⟨h1, -, h3⟩ := h
  cases tr with
  | nil => simp at h1; omega
  | cons t0 ts => exact ⟨t0, ts, rfl, fun f => by simpa using h3 0 hC f⟩

/-- A file is playable exactly if it could be read and has at least one channel; otherwise `from_source` panics. -/
theorem C115_loads (src : Except IoErr (WavHeader × BitDepth)) :
    (∃ g, (MonoWav.fromSource src : Res (MonoWav S M)) = .ok g) ↔ ∃ h bd, src = .ok (h, bd) ∧ 0 < h.channelCount.toNat := by
  constructor
  · rintro ⟨g, hg⟩
    cases src with
    | error e => simp [MonoWav.fromSource, readWav] at hg
    | ok p =>
      obtain ⟨h, bd⟩ := p
      refine ⟨h, bd, rfl, Nat.pos_of_ne_zero fun hC => ?_⟩
      unfold MonoWav.fromSource readWav at hg
      cases bd with
      | eight d => cases d <;> simp [deinterleave, hC] at hg
      | sixteen d => cases d <;> simp [deinterleave, hC] at hg
      | twentyFour d => cases d <;> simp [deinterleave, hC] at hg
      | other => simp [hC] at hg
  · rintro ⟨h, bd, rfl, hC⟩
    have key : ∀ tr : List (List S), readWav (S := S) (.ok (h, bd)) = .ok (.ok (h, tr)) → tr.length = h.channelCount.toNat →
        ∃ g, (MonoWav.fromSource (.ok (h, bd)) : Res (MonoWav S M)) = .ok g := by
      intro tr h1 h2
      cases tr with
      | nil => simp at h2; omega
      | cons t0 ts => exact ⟨_, source_eq h bd t0 ts h1⟩
    cases bd with
    | eight d => obtain ⟨tr, h1, h2⟩ := (C27_deinterleaves (S := S) h hC d [] []).1; exact key tr h1 h2.1
    | sixteen d => obtain ⟨tr, h1, h2⟩ := (C27_deinterleaves (S := S) h hC [] d []).2.1; exact key tr h1 h2.1
    | twentyFour d => obtain ⟨tr, h1, h2⟩ := (C27_deinterleaves (S := S) h hC [] [] d).2.2; exact key tr h1 h2.1
    | other => exact key _ (C27_other h "").1 (by simp)

/-- `t` is the first channel of the interleaved data `d` of `C` channels. -/
def FirstChannel {D : Type} (dec : D → S) (C : ℕ) (d : List D) (t : List S) : Prop := ∀ f, t[f]? = (d[f * C]?).map dec

private theorem sources (h : WavHeader) (hC : 0 < h.channelCount.toNat) (d8 : List UInt8) (d16 : List Int16) (d24 : List Int32) :
    (∃ t, FirstChannel sampleFromU8 h.channelCount.toNat d8 t ∧ (MonoWav.fromSource (.ok (h, .eight d8)) : Res (MonoWav S M)) =
      .ok (MonoWav.fromTrack (lit (h.samplingRate.toNat : ℚ)) (t.map Mono.fromSample))) ∧
    (∃ t, FirstChannel sampleFromI16 h.channelCount.toNat d16 t ∧ (MonoWav.fromSource (.ok (h, .sixteen d16)) : Res (MonoWav S M)) =
      .ok (MonoWav.fromTrack (lit (h.samplingRate.toNat : ℚ)) (t.map Mono.fromSample))) ∧
    (∃ t, FirstChannel sampleFromI24 h.channelCount.toNat d24 t ∧ (MonoWav.fromSource (.ok (h, .twentyFour d24)) : Res (MonoWav S M)) =
      .ok (MonoWav.fromTrack (lit (h.samplingRate.toNat : ℚ)) (t.map Mono.fromSample))) := by
  obtain ⟨⟨t8, a1, a2⟩, ⟨t16, b1, b2⟩, t24, c1, c2⟩ := C27_deinterleaves (S := S) h hC d8 d16 d24
  refine ⟨?_, ?_, ?_⟩
  · obtain ⟨t0, ts, rfl, hf⟩ := first hC a2
    exact ⟨t0, hf, source_eq h _ t0 ts a1⟩
  · obtain ⟨t0, ts, rfl, hf⟩ := first hC b2
    exact ⟨t0, hf, source_eq h _ t0 ts b1⟩
  · obtain ⟨t0, ts, rfl, hf⟩ := first hC c2
    exact ⟨t0, hf, source_eq h _ t0 ts c1⟩
end

/-- What a player of the samples `t` at `rate` yields in exact arithmetic. -/
private theorem plays (t : List ℝ) (hlen : t.length < 2 ^ 63) (rate : ℝ) (hr : 0 ≤ rate) (n : ℕ) :
    nthR MonoWav.process (MonoWav.fromTrack rate (t.map Mono.fromSample)) n =
      .ok (if n * rate / 48000 < t.length then lin t (n * rate / 48000) else 0) := by
  rw [wav_nth]
  set T : List (Mono ℝ) := t.map Mono.fromSample with hT
  have hTl : T.length = t.length := by rw [hT, List.length_map]
  have hTm : T.map Mono.mono = t := by rw [hT, List.map_map]; exact List.map_id t
  have hs : 0 ≤ rate / 48000 := by positivity
  have key : ∀ m : ℕ, ∃ ind, afterR process m (MonoWav.fromTrack rate T).resam = .ok ⟨T, ind, rate * (1 / 48000), 1, 0, 0⟩ ∧ 0 ≤ ind ∧
      (ind = m * rate / 48000 ∨ ((T.length : ℝ) ≤ ind ∧ (T.length : ℝ) ≤ m * rate / 48000)) := by
    intro m
    induction m with
    | zero =>
      refine ⟨0, ?_, le_refl _, .inl (by simp)⟩
      unfold afterR MonoWav.fromTrack MonoResampler.new
      real_simp
      simp
    | succ m ih =>
      obtain ⟨ind, h1, h2, h3⟩ := ih
      have hmono : (m : ℝ) * rate / 48000 ≤ ((m + 1 : ℕ) : ℝ) * rate / 48000 := by
        push_cast; nlinarith
      by_cases hx : ind < T.length
      · have h4 := real_process ⟨T, ind, rate * (1 / 48000), 1, 0, 0⟩ (by rw [hTl]; exact hlen) h2 rfl hx
        rw [real_advance _ rfl] at h4
        refine ⟨_, afterR_succ h1 h4, by show 0 ≤ ind + _; nlinarith, .inl ?_⟩
        rcases h3 with h3 | h3
        · show ind + rate * (1 / 48000) * 1 = _
          rw [h3]; push_cast; ring
        · linarith [h3.1]
      · have h4 := real_process_end ⟨T, ind, rate * (1 / 48000), 1, 0, 0⟩ (by rw [hTl]; exact hlen) h2 rfl (not_lt.mp hx)
        refine ⟨ind, afterR_succ h1 h4, h2, .inr ⟨not_lt.mp hx, ?_⟩⟩
        rcases h3 with h3 | h3
        · rw [h3, not_lt] at hx; linarith
        · linarith [h3.2]
  obtain ⟨ind, h1, h2, h3⟩ := key n
  unfold nthR
  rw [h1]
  by_cases hx : n * rate / 48000 < t.length
  · rw [if_pos hx]
    have e : ind = n * rate / 48000 := by
      rcases h3 with h3 | h3
      · exact h3
      · rw [hTl] at h3; linarith [h3.2]
    have h4 := real_process ⟨T, ind, rate * (1 / 48000), 1, 0, 0⟩ (by rw [hTl]; exact hlen) h2 rfl (by rw [e, hTl]; exact hx)
    simp only [h4]
    show Except.ok (lin (T.map Mono.mono) ind) = _
    rw [hTm, e]
  · rw [if_neg hx]
    have hx' : (T.length : ℝ) ≤ ind := by
      rcases h3 with h3 | h3
      · rw [h3, hTl]; exact not_lt.mp hx
      · exact h3.1
    have h4 := real_process_end ⟨T, ind, rate * (1 / 48000), 1, 0, 0⟩ (by rw [hTl]; exact hlen) h2 rfl hx'
    simp only [h4]
    rfl

/-- Exact arithmetic: playing a file of any rate, channel count and depth gives, `n/48000` s into the playback, the first channel at
that time (linearly interpolated between its samples), then silence. -/
theorem C115_pitch (h : WavHeader) (hC : 0 < h.channelCount.toNat) (d8 : List UInt8) (d16 : List Int16) (d24 : List Int32)
    (l8 : d8.length < 2 ^ 62) (l16 : d16.length < 2 ^ 62) (l24 : d24.length < 2 ^ 62) :
    (∃ (g : MonoWav ℝ ℝ) (t : List ℝ), MonoWav.fromSource (.ok (h, .eight d8)) = .ok g ∧ FirstChannel sampleFromU8 h.channelCount.toNat d8 t ∧
      ∀ n, nthR MonoWav.process g n = .ok (if n * (h.samplingRate.toNat : ℝ) / 48000 < t.length then lin t (n * h.samplingRate.toNat / 48000) else 0)) ∧
    (∃ (g : MonoWav ℝ ℝ) (t : List ℝ), MonoWav.fromSource (.ok (h, .sixteen d16)) = .ok g ∧ FirstChannel sampleFromI16 h.channelCount.toNat d16 t ∧
      ∀ n, nthR MonoWav.process g n = .ok (if n * (h.samplingRate.toNat : ℝ) / 48000 < t.length then lin t (n * h.samplingRate.toNat / 48000) else 0)) ∧
    (∃ (g : MonoWav ℝ ℝ) (t : List ℝ), MonoWav.fromSource (.ok (h, .twentyFour d24)) = .ok g ∧ FirstChannel sampleFromI24 h.channelCount.toNat d24 t ∧
      ∀ n, nthR MonoWav.process g n = .ok (if n * (h.samplingRate.toNat : ℝ) / 48000 < t.length then lin t (n * h.samplingRate.toNat / 48000) else 0)) := by
  obtain ⟨⟨t8, a1, a2⟩, ⟨t16, b1, b2⟩, t24, c1, c2⟩ := sources (S := ℝ) (M := ℝ) h hC d8 d16 d24
  have e : (lit (h.samplingRate.toNat : ℚ) : ℝ) = h.samplingRate.toNat := by
    show (((h.samplingRate.toNat : ℚ)) : ℝ) = _
    push_cast; rfl
  rw [e] at a2 b2 c2
  have len : ∀ {D : Type} (dec : D → ℝ) (d : List D) (t : List ℝ), FirstChannel dec h.channelCount.toNat d t → d.length < 2 ^ 62 → t.length < 2 ^ 63 := by
    intro D dec d t hf hd
    by_contra hge
    have h1 := hf d.length
    rw [List.getElem?_eq_none (l := d) (Nat.le_mul_of_pos_right _ hC), List.getElem?_eq_getElem (by omega)] at h1
    simp at h1
  exact ⟨⟨_, t8, a2, a1, plays t8 (len _ _ _ a1 l8) _ (by positivity)⟩, ⟨_, t16, b2, b1, plays t16 (len _ _ _ b1 l16) _ (by positivity)⟩,
    ⟨_, t24, c2, c1, plays t24 (len _ _ _ c1 l24) _ (by positivity)⟩⟩

/-- Three stereo frames at 96 kHz: the first channel is every second value. -/
example : FirstChannel (sampleFromU8 : UInt8 → ℝ) 2 [1, 2, 3, 4, 5, 6] [sampleFromU8 1, sampleFromU8 3, sampleFromU8 5] := by
  intro f
  rcases f with _ | _ | _ | f
  · rfl
  · rfl
  · rfl
  · simp; omega

/-! ### IEEE, 48 kHz -/

private theorem dec8 (x : UInt8) : ∃ q, (sampleFromU8 x : F32).Is q ∧ |q| ≤ 2 ^ 99 := by
  obtain ⟨q, h1, h2, h3⟩ := C01_u8_range x
  exact ⟨q, h1, abs_le.mpr ⟨by norm_num; linarith, by norm_num; linarith⟩⟩

private theorem dec_gen {x : F32} {q : ℚ} (h : x.Is (b32.rnd q)) (hq : |q| ≤ 2 ^ 20) : ∃ q, x.Is q ∧ |q| ≤ 2 ^ 99 :=
  ⟨_, h, (rnd32_pow2_le 20 hq).trans (by norm_num)⟩

private theorem dec16 (x : Int16) : ∃ q, (sampleFromI16 x : F32).Is q ∧ |q| ≤ 2 ^ 99 := by
  obtain ⟨h1, h2⟩ := Int16.toInt_bounds x
  have hn : |x.toInt| ≤ 32767 + 1 := by rw [abs_le]; omega
  refine dec_gen (decode_is (n := x.toInt) (c := scale16) (k := 32767) (by exact_mod_cast scale16_is) (by norm_num) hn (by norm_num)) ?_
  have hq := abs_div_le (n := x.toInt) (k := 32767) (by norm_num) hn
  exact hq.trans (by norm_num)

private theorem dec24 (x : Int32) (h1 : -8388608 ≤ x.toInt) (h2 : x.toInt ≤ 8388607) : ∃ q, (sampleFromI24 x : F32).Is q ∧ |q| ≤ 2 ^ 99 := by
  have hn : |x.toInt| ≤ 8388607 + 1 := by rw [abs_le]; omega
  refine dec_gen (decode_is (n := x.toInt) (c := scale24) (k := 8388607) (by exact_mod_cast scale24_is) (by norm_num) hn (by norm_num)) ?_
  have hq := abs_div_le (n := x.toInt) (k := 8388607) (by norm_num) hn
  exact hq.trans (by norm_num)

/-- The player of a finite track at 48 kHz, in terms of the track as a list of samples. -/
private theorem verbatim (t : List F32) (hf : ∀ x ∈ t, ∃ q, x.Is q ∧ |q| ≤ 2 ^ 99) (hlen : t.length ≤ 2 ^ 24) (n : ℕ) :
    (∀ x, t[n]? = some x → ∃ y, nthR MonoWav.process (MonoWav.fromTrack (lit 48000 : F64) (t.map Mono.fromSample)) n = .ok y ∧
      ∀ q, x.Is q → y.Is q ∧ (q ≠ 0 → y = x)) ∧
    (t[n]? = none → nthR MonoWav.process (MonoWav.fromTrack (lit 48000 : F64) (t.map Mono.fromSample)) n = .ok (lit 0)) := by
  set T : List (Mono F32) := t.map Mono.fromSample with hT
  have hTl : T.length = t.length := by rw [hT, List.length_map]
  let v : ℕ → ℚ := fun i => if h : i < t.length then Classical.choose (hf t[i] (List.getElem_mem h)) else 0
  have hv : TrackIs T v := by
    intro i hi
    have hi' : i < t.length := hTl ▸ hi
    have e : T[i].mono = t[i] := by simp [hT, Mono.fromSample]
    have := Classical.choose_spec (hf t[i] (List.getElem_mem hi'))
    simp only [v, dif_pos hi', e]
    exact this
  obtain ⟨h1, h2⟩ := C45_verbatim_partial T v hv (by rw [hTl]; exact hlen) n
  constructor
  · intro x hx
    obtain ⟨hn, rfl⟩ := List.getElem?_eq_some_iff.mp hx
    obtain ⟨y, e1, e2, e3⟩ := h1 (by rw [hTl]; exact hn)
    refine ⟨y, e1, fun q hq => ?_⟩
    have ev : v n = q := by
      have := (hv n (by rw [hTl]; exact hn)).1
      have e : T[n].mono = t[n] := by simp [hT, Mono.fromSample]
      rw [e] at this
      exact this.unique hq
    rw [← ev]
    exact ⟨e2, fun h0 => by rw [e3 h0]; simp [hT, Mono.fromSample]⟩
  · intro hn
    exact h2 (by rw [hTl]; exact List.getElem?_eq_none_iff.mp hn)

/-- IEEE: a 48 kHz file of at most `2^24` frames plays its first channel verbatim, decoded value by decoded value, then zeros. -/
theorem C115_verbatim (h : WavHeader) (hC : 0 < h.channelCount.toNat) (hrate : h.samplingRate = 48000) (d8 : List UInt8) (d16 : List Int16)
    (d24 : List Int32) (h24 : ∀ x ∈ d24, -8388608 ≤ x.toInt ∧ x.toInt ≤ 8388607) (l8 : d8.length ≤ 2 ^ 24 * h.channelCount.toNat)
    (l16 : d16.length ≤ 2 ^ 24 * h.channelCount.toNat) (l24 : d24.length ≤ 2 ^ 24 * h.channelCount.toNat) :
    (∃ g : MonoWav F32 F64, MonoWav.fromSource (.ok (h, .eight d8)) = .ok g ∧ ∀ n,
      (∀ x, d8[n * h.channelCount.toNat]? = some x → ∃ y, nthR MonoWav.process g n = .ok y ∧
        ∀ q, (sampleFromU8 x : F32).Is q → y.Is q ∧ (q ≠ 0 → y = sampleFromU8 x)) ∧
      (d8[n * h.channelCount.toNat]? = none → nthR MonoWav.process g n = .ok (lit 0))) ∧
    (∃ g : MonoWav F32 F64, MonoWav.fromSource (.ok (h, .sixteen d16)) = .ok g ∧ ∀ n,
      (∀ x, d16[n * h.channelCount.toNat]? = some x → ∃ y, nthR MonoWav.process g n = .ok y ∧
        ∀ q, (sampleFromI16 x : F32).Is q → y.Is q ∧ (q ≠ 0 → y = sampleFromI16 x)) ∧
      (d16[n * h.channelCount.toNat]? = none → nthR MonoWav.process g n = .ok (lit 0))) ∧
    (∃ g : MonoWav F32 F64, MonoWav.fromSource (.ok (h, .twentyFour d24)) = .ok g ∧ ∀ n,
      (∀ x, d24[n * h.channelCount.toNat]? = some x → ∃ y, nthR MonoWav.process g n = .ok y ∧
        ∀ q, (sampleFromI24 x : F32).Is q → y.Is q ∧ (q ≠ 0 → y = sampleFromI24 x)) ∧
      (d24[n * h.channelCount.toNat]? = none → nthR MonoWav.process g n = .ok (lit 0))) := by
  obtain ⟨⟨t8, a1, a2⟩, ⟨t16, b1, b2⟩, t24, c1, c2⟩ := sources (S := F32) (M := F64) h hC d8 d16 d24
  have e : ((h.samplingRate.toNat : ℚ)) = 48000 := by rw [hrate]; rfl
  rw [e] at a2 b2 c2
  have gen : ∀ {D : Type} (dec : D → F32) (d : List D) (t : List F32), FirstChannel dec h.channelCount.toNat d t →
      d.length ≤ 2 ^ 24 * h.channelCount.toNat → (∀ x ∈ d, ∃ q, (dec x).Is q ∧ |q| ≤ 2 ^ 99) → ∀ n,
      (∀ x, d[n * h.channelCount.toNat]? = some x →
        ∃ y, nthR MonoWav.process (MonoWav.fromTrack (lit 48000 : F64) (t.map Mono.fromSample)) n = .ok y ∧
          ∀ q, (dec x).Is q → y.Is q ∧ (q ≠ 0 → y = dec x)) ∧
      (d[n * h.channelCount.toNat]? = none →
        nthR MonoWav.process (MonoWav.fromTrack (lit 48000 : F64) (t.map Mono.fromSample)) n = .ok (lit 0)) := by
    intro D dec d t hf hd hx n
    have hl : t.length ≤ 2 ^ 24 := by
      by_contra hge
      have h1 := hf (2 ^ 24)
      rw [List.getElem?_eq_none (l := d) hd, List.getElem?_eq_getElem (by omega)] at h1
      simp at h1
    have ht : ∀ x ∈ t, ∃ q, x.Is q ∧ |q| ≤ 2 ^ 99 := by
      intro x hxt
      obtain ⟨i, hi, rfl⟩ := List.getElem_of_mem hxt
      have h1 := hf i
      rw [List.getElem?_eq_getElem hi] at h1
      cases h2 : d[i * h.channelCount.toNat]? with
      | none => rw [h2] at h1; cases h1
      | some z =>
        rw [h2] at h1
        simp only [Option.map_some, Option.some.injEq] at h1
        rw [h1]
        exact hx z (List.mem_of_getElem? h2)
    obtain ⟨v1, v2⟩ := verbatim t ht hl n
    rw [hf n] at v1 v2
    exact ⟨fun x hxx => v1 (dec x) (by rw [hxx]; rfl), fun hn => v2 (by rw [hn]; rfl)⟩
  exact ⟨⟨_, a2, gen _ _ _ a1 l8 (fun x _ => dec8 x)⟩, ⟨_, b2, gen _ _ _ b1 l16 (fun x _ => dec16 x)⟩,
    ⟨_, c2, gen _ _ _ c1 l24 (fun x hx => dec24 x (h24 x hx).1 (h24 x hx).2)⟩⟩

example : (⟨1, 2, 48000, 16⟩ : WavHeader).samplingRate = 48000 ∧ 0 < (⟨1, 2, 48000, 16⟩ : WavHeader).channelCount.toNat ∧
    [(1 : Int16), 2, 3, 4].length ≤ 2 ^ 24 * (⟨1, 2, 48000, 16⟩ : WavHeader).channelCount.toNat := by decide

/-- IEEE, end to end: a track of at most `2^24` samples in `[-1,1]` written to a file at 8, 16 or 24 bit and played back gives every
sample back up to the quantisation (`1/128`, `1/65000` and `1/8000000`), then zeros. -/
theorem C115_written (t : List F32) (hlen : t.length ≤ 2 ^ 24) (ht : ∀ s ∈ t, ∃ q, s.Is q ∧ |q| ≤ 1) :
    ∀ p ∈ [((8 : UInt16), (1 / 128 : ℚ)), (16, 1 / 65000), (24, 1 / 8000000)],
    ∃ hd d, writeWav store [t] p.1 none false = .ok (.ok (), some (hd, d)) ∧
      ∃ g : MonoWav F32 F64, MonoWav.fromSource (.ok (hd, d)) = .ok g ∧ ∀ n,
        (∀ s, t[n]? = some s → ∃ y, nthR MonoWav.process g n = .ok y ∧ ∀ q, s.Is q → ∃ r, y.Is r ∧ |r - q| ≤ p.2) ∧
        (t[n]? = none → nthR MonoWav.process g n = .ok (lit 0)) := by
  obtain ⟨⟨h8, d8, a1, a2⟩, ⟨h16, d16, b1, b2⟩, h24, d24, c1, c2⟩ := C29_write_read [t] t.length (by simp) (by simp) (by simp)
  have rate : ∀ (b : UInt16) hd d, writeWav store [t] b none false = .ok (.ok (), some (hd, d)) → hd.samplingRate.toNat = 48000 := by
    intro b hd d hw
    unfold writeWav at hw
    simp only [checkClip_isSome] at hw
    simp only [List.mem_singleton, forall_eq, if_true, Bool.false_eq_true, if_false] at hw
    split_ifs at hw
    all_goals first
      | (split at hw
         · cases hw
         · simp only [store, Except.ok.injEq, Prod.mk.injEq, Option.some.injEq, true_and] at hw
           rw [← hw.1]; rfl)
      | simp at hw
  have gen : ∀ (q8 : F32 → F32) (ε : ℚ) hd d, readWav (S := F32) (.ok (hd, d)) = .ok (.ok (hd, [t].map fun t => t.map q8)) →
      hd.samplingRate.toNat = 48000 → ε ≤ 1 → (∀ s q, s.Is q → |q| ≤ 1 → ∃ r, (q8 s).Is r ∧ |r - q| ≤ ε) →
      ∃ g : MonoWav F32 F64, MonoWav.fromSource (.ok (hd, d)) = .ok g ∧ ∀ n,
        (∀ s, t[n]? = some s → ∃ y, nthR MonoWav.process g n = .ok y ∧ ∀ q, s.Is q → ∃ r, y.Is r ∧ |r - q| ≤ ε) ∧
        (t[n]? = none → nthR MonoWav.process g n = .ok (lit 0)) := by
    intro q8 ε hd d hr hrate hε hq
    refine ⟨_, source_eq hd d _ _ hr, fun n => ?_⟩
    rw [hrate, show ((48000 : ℕ) : ℚ) = 48000 by norm_num]
    have hf : ∀ x ∈ t.map q8, ∃ q, x.Is q ∧ |q| ≤ 2 ^ 99 := by
      intro x hx
      obtain ⟨s, hs, rfl⟩ := List.mem_map.mp hx
      obtain ⟨q, h1, h2⟩ := ht s hs
      obtain ⟨r, h3, h4⟩ := hq s q h1 h2
      refine ⟨r, h3, ?_⟩
      have := abs_sub_abs_le_abs_sub r q
      exact le_trans (by linarith : |r| ≤ 2) (by norm_num)
    obtain ⟨v1, v2⟩ := verbatim (t.map q8) hf (by rw [List.length_map]; exact hlen) n
    refine ⟨fun s hs => ?_, fun hn => v2 (by rw [List.getElem?_map, hn]; rfl)⟩
    obtain ⟨y, h1, h2⟩ := v1 (q8 s) (by rw [List.getElem?_map, hs]; rfl)
    refine ⟨y, h1, fun q hsq => ?_⟩
    obtain ⟨q', h3, h4⟩ := ht s (List.mem_of_getElem? hs)
    rw [h3.unique hsq] at h4
    obtain ⟨r, h5, h6⟩ := hq s q hsq h4
    exact ⟨r, (h2 r h5).1, h6⟩
  intro p hp
  simp only [List.mem_cons, List.not_mem_nil, or_false] at hp
  rcases hp with rfl | rfl | rfl
  · exact ⟨h8, d8, a1, gen _ _ _ _ a2 (rate _ _ _ a1) (by norm_num) fun s q hs hq => C07_u8_full s q hs (abs_le.mp hq).1 (abs_le.mp hq).2⟩
  · refine ⟨h16, d16, b1, gen _ _ _ _ b2 (rate _ _ _ b1) (by norm_num) fun s q hs hq => ?_⟩
    obtain ⟨r, h1, h2⟩ := C07_i16 s q hs (abs_le.mp hq).1 (abs_le.mp hq).2
    exact ⟨r, h1, h2.trans (by norm_num)⟩
  · refine ⟨h24, d24, c1, gen _ _ _ _ c2 (rate _ _ _ c1) (by norm_num) fun s q hs hq => ?_⟩
    obtain ⟨r, h1, h2⟩ := C07_i24 s q hs (abs_le.mp hq).1 (abs_le.mp hq).2
    exact ⟨r, h1, h2.trans (by norm_num)⟩

example : ∀ s ∈ [(lit (1 / 2) : F32), lit (-1)], ∃ q, s.Is q ∧ |q| ≤ 1 := by
  intro s hs
  rcases List.mem_cons.mp hs with rfl | hs
  · exact ⟨1 / 2, by decide +kernel, by rw [abs_of_pos (by norm_num)]; norm_num⟩
  · rw [List.mem_singleton.mp hs]
    exact ⟨-1, by decide +kernel, by norm_num⟩

end Verif
