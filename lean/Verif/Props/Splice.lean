import Verif.Props.Wav

/-! # Cutting and joining recordings: C182 -/

set_option linter.unusedSectionVars false

namespace Verif
open Flt

section
variable {S : Type} [Flt S]

/-- Recordings with the same number of channels, one after the other. -/
def joined (a b : List (List S)) : List (List S) := List.zipWith (· ++ ·) a b

private theorem push_join (a b : List (List S)) (h : a.length = b.length) (c : ℕ) (x : S) :
    pushTrack (joined a b) c x = (pushTrack b c x).map (joined a) := by
  unfold pushTrack joined
  by_cases hc : c < b.length
  · have ha : c < a.length := by omega
    rw [List.getElem?_eq_getElem hc, List.getElem?_eq_getElem (by simp [hc, ha])]
    simp only [Except.map]
    congr 1
    refine List.ext_getElem (by simp [h]) fun i h1 h2 => ?_
    simp only [List.getElem_set, List.getElem_zipWith]
    by_cases hi : c = i
    · subst hi; simp
    · simp [hi]
  · have e1 : b[c]? = none := List.getElem?_eq_none (by omega)
    have e2 : (List.zipWith (· ++ ·) a b)[c]? = none := List.getElem?_eq_none (by simp only [List.length_zipWith]; omega)
    rw [e1, e2]
    rfl

private theorem push_length {b b' : List (List S)} {c : ℕ} {x : S} (h : pushTrack b c x = .ok b') : b'.length = b.length := by
  unfold pushTrack at h
  cases hc : b[c]? with
  | none => rw [hc] at h; cases h
  | some t =>
    rw [hc] at h
    rw [← Except.ok.inj h]
    simp

private theorem deint_join {D : Type} (conv : D → S) (cc : ℕ) (ds : List D) (i : ℕ) (a b : List (List S)) (h : a.length = b.length) :
    deinterleave conv cc i ds (joined a b) = (deinterleave conv cc i ds b).map (joined a) := by
  induction ds generalizing i b with
  | nil => rfl
  | cons d ds ih =>
    unfold deinterleave
    by_cases hc : cc = 0
    · rw [if_pos hc, if_pos hc]; rfl
    · rw [if_neg hc, if_neg hc, push_join a b h]
      cases hp : pushTrack b (i % cc) (conv d) with
      | error e => rfl
      | ok b' => exact ih (i + 1) b' (by rw [push_length hp, h])

private theorem deint_append {D : Type} (conv : D → S) (cc : ℕ) (d1 d2 : List D) (i : ℕ) (tr : List (List S)) :
    deinterleave conv cc i (d1 ++ d2) tr = (deinterleave conv cc i d1 tr).bind (deinterleave conv cc (i + d1.length) d2) := by
  induction d1 generalizing i tr with
  | nil => rfl
  | cons d d1 ih =>
    rw [List.cons_append, deinterleave, deinterleave]
    by_cases hc : cc = 0
    · rw [if_pos hc, if_pos hc]; rfl
    · rw [if_neg hc, if_neg hc]
      cases hp : pushTrack tr (i % cc) (conv d) with
      | error e => rfl
      | ok tr' =>
        show deinterleave conv cc (i + 1) (d1 ++ d2) tr' = _
        rw [ih, List.length_cons, show i + (d1.length + 1) = i + 1 + d1.length by omega]

private theorem deint_frames {D : Type} (conv : D → S) (cc n : ℕ) (ds : List D) (i : ℕ) (tr : List (List S)) :
    deinterleave conv cc (i + n * cc) ds tr = deinterleave conv cc i ds tr := by
  induction ds generalizing i tr with
  | nil => rfl
  | cons d ds ih =>
    rw [deinterleave, deinterleave, Nat.add_mul_mod_self_right]
    by_cases hc : cc = 0
    · rw [if_pos hc, if_pos hc]
    · rw [if_neg hc, if_neg hc]
      cases hp : pushTrack tr (i % cc) (conv d) with
      | error e => rfl
      | ok tr' =>
        show deinterleave conv cc (i + n * cc + 1) ds tr' = deinterleave conv cc (i + 1) ds tr'
        rw [show i + n * cc + 1 = i + 1 + n * cc by omega]
        exact ih _ _

private theorem joined_empty (t : List (List S)) (n : ℕ) (h : t.length = n) : joined t (List.replicate n []) = t := by
  subst h
  induction t with
  | nil => rfl
  | cons a t ih =>
    show (a ++ []) :: joined t (List.replicate t.length []) = _
    rw [ih, List.append_nil]

private theorem deint_both {D : Type} (conv : D → S) (cc n : ℕ) (hc : 0 < cc) (d1 d2 : List D) (h1 : d1.length = n * cc) :
    ∃ t1 t2, deinterleave conv cc 0 d1 (List.replicate cc ([] : List S)) = .ok t1 ∧ deinterleave conv cc 0 d2 (List.replicate cc []) = .ok t2 ∧
      deinterleave conv cc 0 (d1 ++ d2) (List.replicate cc []) = .ok (joined t1 t2) := by
  obtain ⟨t1, e1, l1⟩ := deinterleave_zero conv cc hc d1
  obtain ⟨t2, e2, l2⟩ := deinterleave_zero conv cc hc d2
  refine ⟨t1, t2, e1, e2, ?_⟩
  rw [deint_append, e1]
  show deinterleave conv cc (0 + d1.length) d2 t1 = _
  rw [h1, deint_frames]
  conv_lhs => rw [← joined_empty t1 cc l1.1]
  rw [deint_join conv cc d2 0 t1 _ (by rw [l1.1, List.length_replicate]), e2]
  rfl

/-- In any arithmetic: a file whose data is the data of two files one after the other, cut at a frame, reads as the two recordings joined
channel by channel, at every depth. The second part may end within a frame. -/
theorem C182_read (h : WavHeader) (hC : 0 < h.channelCount.toNat) (n : ℕ) :
    (∀ d1 d2 : List UInt8, d1.length = n * h.channelCount.toNat → ∃ t1 t2, readWav (S := S) (.ok (h, .eight d1)) = .ok (.ok (h, t1)) ∧
      readWav (S := S) (.ok (h, .eight d2)) = .ok (.ok (h, t2)) ∧ readWav (S := S) (.ok (h, .eight (d1 ++ d2))) = .ok (.ok (h, joined t1 t2))) ∧
    (∀ d1 d2 : List Int16, d1.length = n * h.channelCount.toNat → ∃ t1 t2, readWav (S := S) (.ok (h, .sixteen d1)) = .ok (.ok (h, t1)) ∧
      readWav (S := S) (.ok (h, .sixteen d2)) = .ok (.ok (h, t2)) ∧ readWav (S := S) (.ok (h, .sixteen (d1 ++ d2))) = .ok (.ok (h, joined t1 t2))) ∧
    (∀ d1 d2 : List Int32, d1.length = n * h.channelCount.toNat → ∃ t1 t2, readWav (S := S) (.ok (h, .twentyFour d1)) = .ok (.ok (h, t1)) ∧
      readWav (S := S) (.ok (h, .twentyFour d2)) = .ok (.ok (h, t2)) ∧ readWav (S := S) (.ok (h, .twentyFour (d1 ++ d2))) = .ok (.ok (h, joined t1 t2))) := by
  refine ⟨fun d1 d2 hd => ?_, fun d1 d2 hd => ?_, fun d1 d2 hd => ?_⟩
  · obtain ⟨t1, t2, e1, e2, e⟩ := deint_both (S := S) sampleFromU8 _ n hC d1 d2 hd
    exact ⟨t1, t2, by unfold readWav; simp only [e1], by unfold readWav; simp only [e2], by unfold readWav; simp only [e]⟩
  · obtain ⟨t1, t2, e1, e2, e⟩ := deint_both (S := S) sampleFromI16 _ n hC d1 d2 hd
    exact ⟨t1, t2, by unfold readWav; simp only [e1], by unfold readWav; simp only [e2], by unfold readWav; simp only [e]⟩
  · obtain ⟨t1, t2, e1, e2, e⟩ := deint_both (S := S) sampleFromI24 _ n hC d1 d2 hd
    exact ⟨t1, t2, by unfold readWav; simp only [e1], by unfold readWav; simp only [e2], by unfold readWav; simp only [e]⟩

private theorem row_left {D : Type} (conv : S → D) (z : S) (n i : ℕ) (hi : i < n) (a b : List (List S)) (hl : a.length = b.length)
    (ha : ∀ t ∈ a, t.length = n) : (joined a b).map (fun t => conv (t.getD i z)) = a.map (fun t => conv (t.getD i z)) := by
  induction a generalizing b with
  | nil => rfl
  | cons s a ih =>
    cases b with
    | nil => simp at hl
    | cons u b =>
      show conv ((s ++ u).getD i z) :: (joined a b).map _ = conv (s.getD i z) :: a.map _
      rw [ih b (by simpa using hl) (fun t ht => ha t (List.mem_cons_of_mem _ ht))]
      congr 2
      have : i < s.length := by rw [ha s List.mem_cons_self]; exact hi
      simp [List.getD_eq_getElem?_getD, List.getElem?_append_left this]

private theorem row_right {D : Type} (conv : S → D) (z : S) (n i : ℕ) (a b : List (List S)) (hl : a.length = b.length)
    (ha : ∀ t ∈ a, t.length = n) : (joined a b).map (fun t => conv (t.getD (n + i) z)) = b.map (fun t => conv (t.getD i z)) := by
  induction a generalizing b with
  | nil =>
    have : b = [] := List.length_eq_zero_iff.mp hl.symm
    rw [this]; rfl
  | cons s a ih =>
    cases b with
    | nil => simp at hl
    | cons u b =>
      show conv ((s ++ u).getD (n + i) z) :: (joined a b).map _ = conv (u.getD i z) :: b.map _
      rw [ih b (by simpa using hl) (fun t ht => ha t (List.mem_cons_of_mem _ ht))]
      congr 2
      have : s.length = n := ha s List.mem_cons_self
      subst this
      simp [List.getD_eq_getElem?_getD, List.getElem?_append_right]

private theorem joined_len (n m : ℕ) (a b : List (List S)) (ha : ∀ t ∈ a, t.length = n) (hb : ∀ t ∈ b, t.length = m) :
    ∀ t ∈ joined a b, t.length = n + m := by
  induction a generalizing b with
  | nil => intro t ht; cases ht
  | cons s a ih =>
    cases b with
    | nil => intro t ht; cases ht
    | cons u b =>
      intro t ht
      rcases List.mem_cons.mp ht with rfl | ht
      · rw [List.length_append, ha s List.mem_cons_self, hb u List.mem_cons_self]
      · exact ih b (fun t ht => ha t (List.mem_cons_of_mem _ ht)) (fun t ht => hb t (List.mem_cons_of_mem _ ht)) t ht

private theorem interleave_join {D : Type} (conv : S → D) (n m : ℕ) (a b : List (List S)) (hl : a.length = b.length)
    (ha : ∀ t ∈ a, t.length = n) (hb : ∀ t ∈ b, t.length = m) :
    ∃ v w, interleave conv a n = .ok v ∧ interleave conv b m = .ok w ∧ interleave conv (joined a b) (n + m) = .ok (v ++ w) := by
  refine ⟨_, _, interleave_eq conv (lit 0) a n ha, interleave_eq conv (lit 0) b m hb, ?_⟩
  rw [interleave_eq conv (lit 0) _ _ (joined_len n m a b ha hb), List.range_add, List.flatMap_append]
  congr 2
  · exact List.flatMap_congr fun i hi => row_left conv (lit 0) n i (List.mem_range.mp hi) a b hl ha
  · rw [List.flatMap_map]
    exact List.flatMap_congr fun i _ => row_right conv (lit 0) n i a b hl ha

private theorem clip_joined (clip : Bool) (a b : List (List S)) :
    (joined a b).map (fun t => if clip then t.map clip1 else t) =
      joined (a.map (fun t => if clip then t.map clip1 else t)) (b.map (fun t => if clip then t.map clip1 else t)) := by
  induction a generalizing b with
  | nil => rfl
  | cons s a ih =>
    cases b with
    | nil => rfl
    | cons u b =>
      show _ :: (joined a b).map _ = _ :: joined _ _
      rw [ih]
      congr 1
      cases clip <;> simp

private theorem clip_len (clip : Bool) (n : ℕ) (a : List (List S)) (h : ∀ t ∈ a, t.length = n) :
    ∀ t ∈ a.map (fun t => if clip then t.map clip1 else t), t.length = n := by
  intro t ht
  obtain ⟨u, hu, rfl⟩ := List.mem_map.mp ht
  cases clip <;> simp [h u hu]

private theorem write_eq {W : Type} (wr : WavHeader → BitDepth → W → Except IoErr Unit × W) (dst : W) (clip : Bool) (a : List (List S)) (n : ℕ)
    (hne : a ≠ []) (ha : ∀ t ∈ a, t.length = n) (bps : UInt16) :
    writeWav wr a bps dst clip =
      (let tr := a.map (fun t => if clip then t.map clip1 else t);
       let hdr : WavHeader := ⟨1, UInt16.ofNat a.length, UInt32.ofNat SAMPLE_RATE, bps⟩;
      if bps = 8 then
        match interleave sampleToU8 tr n with
        | .error e => .error e
        | .ok v => .ok (wr hdr (.eight v) dst)
      else if bps = 16 then
        match interleave sampleToI16 tr n with
        | .error e => .error e
        | .ok v => .ok (wr hdr (.sixteen v) dst)
      else if bps = 24 then
        match interleave sampleToI24 tr n with
        | .error e => .error e
        | .ok v => .ok (wr hdr (.twentyFour v) dst)
      else .ok (.error "Unsupported bit depth, aborting.", dst)) := by
  cases a with
  | nil => exact absurd rfl hne
  | cons t0 ts =>
    have h0 : t0.length = n := ha t0 List.mem_cons_self
    unfold writeWav
    simp only [checkClip_isSome, h0, if_pos ha, List.length_map]
    rfl

/-- In any arithmetic, with or without clipping, at every depth: recordings joined channel by channel are written as the data of the first
followed by the data of the second, under the same header. -/
theorem C182_write (clip : Bool) (a b : List (List S)) (n m : ℕ) (hne : a ≠ []) (hl : a.length = b.length)
    (ha : ∀ t ∈ a, t.length = n) (hb : ∀ t ∈ b, t.length = m) :
    (∃ h v w, ∀ (W : Type) (wr : WavHeader → BitDepth → W → Except IoErr Unit × W) (dst : W), writeWav wr a 8 dst clip = .ok (wr h (.eight v) dst) ∧
      writeWav wr b 8 dst clip = .ok (wr h (.eight w) dst) ∧ writeWav wr (joined a b) 8 dst clip = .ok (wr h (.eight (v ++ w)) dst)) ∧
    (∃ h v w, ∀ (W : Type) (wr : WavHeader → BitDepth → W → Except IoErr Unit × W) (dst : W), writeWav wr a 16 dst clip = .ok (wr h (.sixteen v) dst) ∧
      writeWav wr b 16 dst clip = .ok (wr h (.sixteen w) dst) ∧ writeWav wr (joined a b) 16 dst clip = .ok (wr h (.sixteen (v ++ w)) dst)) ∧
    (∃ h v w, ∀ (W : Type) (wr : WavHeader → BitDepth → W → Except IoErr Unit × W) (dst : W), writeWav wr a 24 dst clip = .ok (wr h (.twentyFour v) dst) ∧
      writeWav wr b 24 dst clip = .ok (wr h (.twentyFour w) dst) ∧ writeWav wr (joined a b) 24 dst clip = .ok (wr h (.twentyFour (v ++ w)) dst)) := by
  have hjl : (joined a b).length = a.length := by unfold joined; rw [List.length_zipWith, ← hl, min_self]
  have hbn : b ≠ [] := by
    rintro rfl
    exact hne (List.length_eq_zero_iff.mp hl)
  have hjn : joined a b ≠ [] := by
    intro e
    rw [e] at hjl
    exact hne (List.length_eq_zero_iff.mp hjl.symm)
  have hj := joined_len n m a b ha hb
  have hcl : (a.map (fun t => if clip then t.map clip1 else t)).length = (b.map (fun t => if clip then t.map clip1 else t)).length := by
    rw [List.length_map, List.length_map, hl]
  refine ⟨?_, ?_, ?_⟩
  · obtain ⟨v, w, e1, e2, e3⟩ := interleave_join (S := S) sampleToU8 n m _ _ hcl (clip_len clip n a ha) (clip_len clip m b hb)
    refine ⟨⟨1, UInt16.ofNat a.length, UInt32.ofNat SAMPLE_RATE, 8⟩, v, w, fun W wr dst => ⟨?_, ?_, ?_⟩⟩
    · rw [write_eq wr dst clip a n hne ha]; simp only [e1]; rfl
    · rw [write_eq wr dst clip b m hbn hb]; simp only [e2, hl]; rfl
    · rw [write_eq wr dst clip _ (n + m) hjn hj, clip_joined]; simp only [e3, hjl]; rfl
  · obtain ⟨v, w, e1, e2, e3⟩ := interleave_join (S := S) sampleToI16 n m _ _ hcl (clip_len clip n a ha) (clip_len clip m b hb)
    refine ⟨⟨1, UInt16.ofNat a.length, UInt32.ofNat SAMPLE_RATE, 16⟩, v, w, fun W wr dst => ⟨?_, ?_, ?_⟩⟩
    · rw [write_eq wr dst clip a n hne ha]; simp only [e1]; rfl
    · rw [write_eq wr dst clip b m hbn hb]; simp only [e2, hl]; rfl
    · rw [write_eq wr dst clip _ (n + m) hjn hj, clip_joined]; simp only [e3, hjl]; rfl
  · obtain ⟨v, w, e1, e2, e3⟩ := interleave_join (S := S) sampleToI24 n m _ _ hcl (clip_len clip n a ha) (clip_len clip m b hb)
    refine ⟨⟨1, UInt16.ofNat a.length, UInt32.ofNat SAMPLE_RATE, 24⟩, v, w, fun W wr dst => ⟨?_, ?_, ?_⟩⟩
    · rw [write_eq wr dst clip a n hne ha]; simp only [e1]; rfl
    · rw [write_eq wr dst clip b m hbn hb]; simp only [e2, hl]; rfl
    · rw [write_eq wr dst clip _ (n + m) hjn hj, clip_joined]; simp only [e3, hjl]; rfl
end

/-- The cut has to be between two frames: three codes of a stereo file, cut after the first, do not join to what they were. -/
theorem C182_cut_in_frame : ∃ (h : WavHeader) (d1 d2 : List UInt8) (t1 t2 t : List (List F32)),
    readWav (S := F32) (.ok (h, .eight d1)) = .ok (.ok (h, t1)) ∧ readWav (S := F32) (.ok (h, .eight d2)) = .ok (.ok (h, t2)) ∧
    readWav (S := F32) (.ok (h, .eight (d1 ++ d2))) = .ok (.ok (h, t)) ∧ t ≠ joined t1 t2 :=
  ⟨⟨1, 2, 48000, 8⟩, [0], [128, 255], [[sampleFromU8 0], []], [[sampleFromU8 128], [sampleFromU8 255]],
    [[sampleFromU8 0, sampleFromU8 255], [sampleFromU8 128]], rfl, rfl, rfl, by decide +kernel⟩

example : (0 : ℕ) < (⟨1, 2, 48000, 16⟩ : WavHeader).channelCount.toNat ∧ ([1, 2, 3, 4] : List Int16).length = 2 * (⟨1, 2, 48000, 16⟩ : WavHeader).channelCount.toNat := by
  decide
example (a b c d e f : F32) : joined [[a, b], [c, d]] [[e], [f]] = [[a, b, e], [c, d, f]] := rfl
/-- The hypotheses of `C182_write`: two frames and one frame of stereo. -/
example (a b c d e f : F32) : [[a, b], [c, d]] ≠ [] ∧ [[a, b], [c, d]].length = [[e], [f]].length ∧ (∀ t ∈ [[a, b], [c, d]], t.length = 2) ∧
    ∀ t ∈ [[e], [f]], t.length = 1 := by
  simp

end Verif
