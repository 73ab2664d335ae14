import Verif.Props.MonoWav
import Verif.Props.Budget
import Verif.Props.SimpleSound
import Verif.Props.Block
import Verif.Props.Wav
import Verif.Props.Codec

/-! # From file to file: C133 -/

namespace Verif
open Fl

/-! ## Playing a file through a sound -/

section
variable {G S : Type} [Flt S] [Generator G S]

private theorem gen_run (ig og : S) (xs : List S) : ∀ (g : G) (y : ℕ → S), (∀ n < xs.length, nthR Generator.process g n = .ok (y n)) →
    seriesRun ig og [(StandardBlock.fromGenerator g : StandardBlock G Passthrough StdInter S)] xs =
      .ok ((List.range xs.length).map (fun i => y i * og)) := by
  induction xs with
  | nil => intro g y _; rfl
  | cons x xs ih =>
    intro g y hy
    have h0 := hy 0 (by simp)
    simp only [nthR, afterR] at h0
    cases hp : (Generator.process g : Res (S × G)) with
    | error e => rw [hp] at h0; cases h0
    | ok r =>
      obtain ⟨y0, g'⟩ := r
      rw [hp] at h0
      have e0 : y0 = y 0 := Except.ok.inj h0
      have hb : (Block.process (Block.prime (StandardBlock.fromGenerator g : StandardBlock G Passthrough StdInter S) (x * ig)) :
          Res (S × StandardBlock G Passthrough StdInter S)) = .ok (y 0, StandardBlock.fromGenerator g') := by
        have := C74_process g g' (⟨⟩ : Passthrough) ⟨⟩ StdInter.gen StdInter.gen [x * ig] y0 (lit 0 + x * ig) y0 hp rfl rfl
        rw [e0] at this
        exact this
      rw [seriesRun, series, hb]
      simp only [series]
      rw [ih g' (fun n => y (n + 1)) (fun n hn => by
        have := hy (n + 1) (by simpa using hn)
        simp only [nthR, afterR, hp] at this
        exact this)]
      simp [Except.map, List.range_succ_eq_map, List.map_map, Function.comp_def]
end

/-! ## codes of samples -/

/-- The three encoders only look at the number, not at the sign of zero. -/
private theorem enc_congr {a b : F32} {q : ℚ} (ha : a.Is q) (hb : b.Is q) (hq : |q| ≤ 2) :
    sampleToU8 a = sampleToU8 b ∧ sampleToI16 a = sampleToI16 b ∧ sampleToI24 a = sampleToI24 b := by
  have hc : (scale16 : F32).Is ((32767 : ℤ) : ℚ) := by exact_mod_cast scale16_is
  have hc' : (scale24 : F32).Is ((8388607 : ℤ) : ℚ) := by exact_mod_cast scale24_is
  have hq' : |q| ≤ 2 ^ 40 := hq.trans (by norm_num)
  refine ⟨?_, ?_, ?_⟩
  · have u8 : ∀ {c : F32}, c.Is q → Flt.toInt 0 255 (Flt.round (c * lit 128 + lit 128)) =
        max 0 (min 255 (truncQ (roundAwayQ (b32.rnd (b32.rnd (q * 128) + 128))))) := by
      intro c hc
      have h1 : |q * 128| ≤ 256 := by rw [abs_mul]; norm_num; linarith
      have h2 := Is.mul hc lit32_128 (Fmt.fits32 (h1.trans (by norm_num)))
      have h3 : |b32.rnd (q * 128)| ≤ 256 := by
        rw [b32.abs_rnd]; exact b32.rnd_le_repr (Fmt.repr32_int (n := 256) (by norm_num)) h1
      have h4 := Is.add h2 lit32_128 (Fmt.fits32 (by
        have := abs_add_le (b32.rnd (q * 128)) 128
        rw [show |(128 : ℚ)| = 128 by norm_num] at this
        exact (this.trans (by linarith : _ ≤ (384 : ℚ))).trans (by norm_num)))
      exact h4.round32.toInt 0 255
    unfold sampleToU8
    rw [u8 ha, u8 hb]
  · unfold sampleToI16
    rw [encode_is ha hc hq' (by norm_num) (by norm_num), encode_is hb hc hq' (by norm_num) (by norm_num)]
  · unfold sampleToI24
    rw [encode_is ha hc' hq' (by norm_num) (by norm_num), encode_is hb hc' hq' (by norm_num) (by norm_num)]

private theorem clamp_near {a b x : ℤ} {z e : ℝ} (h1 : (a : ℝ) ≤ z) (h2 : z ≤ b) (h : |(x : ℝ) - z| ≤ e) :
    |((max a (min b x) : ℤ) : ℝ) - z| ≤ e := by
  rw [abs_le] at h ⊢
  have hab : a ≤ b := by exact_mod_cast h1.trans h2
  rcases le_total x a with c | c
  · rw [min_eq_right (c.trans hab), max_eq_left c]
    have : (x : ℝ) ≤ a := by exact_mod_cast c
    constructor <;> linarith
  · rcases le_total b x with c' | c'
    · rw [min_eq_left c', max_eq_right hab]
      have : (b : ℝ) ≤ x := by exact_mod_cast c'
      constructor <;> linarith
    · rw [min_eq_right c', max_eq_right c]; exact h

private theorem code_core {y c : F32} {q : ℚ} {k : ℤ} (hy : y.Is q) (hc : c.Is k) (hk0 : 0 < k) (hk2 : k ≤ 8388607) {lo hi : ℤ} {u : ℚ}
    (hu : |b32.rnd (q * k) - q * k| ≤ u) (hl : lo ≤ -k) (hh : k ≤ hi) {z e : ℝ} (hz : |z| ≤ 1) (he : |(q : ℝ) - z| ≤ e) (he1 : e ≤ 1) :
    |((Flt.toInt lo hi (Flt.round (y * c)) : ℤ) : ℝ) - k * z| ≤ 1 / 2 + u + k * e := by
  have k0 : (0 : ℝ) < k := by exact_mod_cast hk0
  have hq : |(q : ℝ)| ≤ 2 := by
    have := abs_sub_abs_le_abs_sub (q : ℝ) z
    linarith
  rw [encode_is hy hc (by have : |q| ≤ 2 := by exact_mod_cast hq
                          exact this.trans (by norm_num)) hk0.le hk2]
  have h1 := abs_roundAwayQ_sub_le (b32.rnd (q * k))
  have h1' : |((roundAwayQ (b32.rnd (q * k)) : ℤ) : ℝ) - (b32.rnd (q * k) : ℝ)| ≤ 1 / 2 := by
    have := Rat.cast_le (K := ℝ) |>.mpr h1
    push_cast at this
    exact this
  have hu' : |(b32.rnd (q * k) : ℝ) - q * k| ≤ u := by
    have := Rat.cast_le (K := ℝ) |>.mpr hu
    push_cast at this
    exact this
  have h2 : |(q : ℝ) * k - k * z| ≤ k * e := by
    rw [show (q : ℝ) * k - k * z = k * (q - z) by ring, abs_mul, abs_of_pos k0]
    exact mul_le_mul_of_nonneg_left he k0.le
  rw [abs_le] at hz
  refine clamp_near ?_ ?_ ?_
  · have : (lo : ℝ) ≤ -k := by exact_mod_cast hl
    nlinarith
  · have : (k : ℝ) ≤ hi := by exact_mod_cast hh
    nlinarith
  · rw [abs_le] at h1' hu' h2 ⊢
    constructor <;> linarith [h1'.1, h1'.2, hu'.1, hu'.2, h2.1, h2.2]

/-- The 16-bit code of a sample within `e` of a number `z` in `[-1,1]` is within `1/2 + 2^-9 + 32767 e` of `32767 z`. -/
theorem C133_code16 {y : F32} {q : ℚ} (hy : y.Is q) {z e : ℝ} (hz : |z| ≤ 1) (he : |(q : ℝ) - z| ≤ e) (he1 : e ≤ 1) :
    |((sampleToI16 y).toInt : ℝ) - 32767 * z| ≤ 1 / 2 + 1 / 512 + 32767 * e := by
  have hq : |q| ≤ 2 := by
    have := abs_sub_abs_le_abs_sub (q : ℝ) z
    have : |(q : ℝ)| ≤ 2 := by linarith
    exact_mod_cast this
  have hc : (scale16 : F32).Is ((32767 : ℤ) : ℚ) := by exact_mod_cast scale16_is
  have hu := b32.abs_rnd_sub_le_of_abs_le (q := q * ((32767 : ℤ) : ℚ)) (k := 16) (by norm_num [b32]) (by
    rw [abs_mul, pow2_eq]
    calc |q| * |((32767 : ℤ) : ℚ)| ≤ 2 * 32767 := mul_le_mul hq (by norm_num) (abs_nonneg _) (by norm_num)
      _ ≤ _ := by norm_num)
  have h := code_core hy hc (by norm_num) (by norm_num) (lo := -32768) (hi := 32767) hu (by norm_num) (by norm_num) hz he he1
  obtain ⟨h1, h2⟩ := toInt_mem (lo := -32768) (hi := 32767) (by norm_num) (by norm_num) (Flt.round (y * scale16))
  have e1 : (sampleToI16 y).toInt = Flt.toInt (-32768) 32767 (Flt.round (y * scale16)) := by
    unfold sampleToI16
    exact Int16.toInt_ofInt_of_le h1 (by omega)
  rw [e1]
  have e2 : pow2 (max (16 - (b32.p : ℤ)) b32.emin - 1) = 1 / 512 := by decide +kernel
  rw [e2] at h
  push_cast at h ⊢
  exact h

/-- The 24-bit code is within `1 + 8388607 e`. -/
theorem C133_code24 {y : F32} {q : ℚ} (hy : y.Is q) {z e : ℝ} (hz : |z| ≤ 1) (he : |(q : ℝ) - z| ≤ e) (he1 : e ≤ 1) :
    |((sampleToI24 y).toInt : ℝ) - 8388607 * z| ≤ 1 + 8388607 * e := by
  have hq : |q| ≤ 2 := by
    have := abs_sub_abs_le_abs_sub (q : ℝ) z
    have : |(q : ℝ)| ≤ 2 := by linarith
    exact_mod_cast this
  have hc : (scale24 : F32).Is ((8388607 : ℤ) : ℚ) := by exact_mod_cast scale24_is
  have hu := b32.abs_rnd_sub_le_of_abs_le (q := q * ((8388607 : ℤ) : ℚ)) (k := 24) (by norm_num [b32]) (by
    rw [abs_mul, pow2_eq]
    calc |q| * |((8388607 : ℤ) : ℚ)| ≤ 2 * 8388607 := mul_le_mul hq (by norm_num) (abs_nonneg _) (by norm_num)
      _ ≤ _ := by norm_num)
  have h := code_core hy hc (by norm_num) (by norm_num) (lo := -2147483648) (hi := 2147483647) hu (by norm_num) (by norm_num) hz he he1
  obtain ⟨h1, h2⟩ := toInt_mem (lo := -2147483648) (hi := 2147483647) (by norm_num) (by norm_num) (Flt.round (y * scale24))
  have e1 : (sampleToI24 y).toInt = Flt.toInt (-2147483648) 2147483647 (Flt.round (y * scale24)) := by
    unfold sampleToI24
    exact Int32.toInt_ofInt_of_le h1 (by omega)
  rw [e1]
  have e2 : pow2 (max (24 - (b32.p : ℤ)) b32.emin - 1) = 1 / 2 := by decide +kernel
  rw [e2] at h
  push_cast at h ⊢
  linarith

/-- The 8-bit code of a sample within `e` of a number `z` between -1 and the largest 8-bit value is within `1/2 + 2^-15 + 128 e` of `128 z + 128`. -/
theorem C133_code8 {y : F32} {q : ℚ} (hy : y.Is q) {z e : ℝ} (hz : -1 ≤ z) (hz1 : z ≤ 127 / 128) (he : |(q : ℝ) - z| ≤ e) (he1 : e ≤ 1) :
    |((sampleToU8 y).toNat : ℝ) - (128 * z + 128)| ≤ 1 / 2 + (2 ^ 15)⁻¹ + 128 * e := by
  have hq : |q| ≤ 2 := by
    have h0 : |z| ≤ 1 := abs_le.mpr ⟨hz, by linarith⟩
    have := abs_sub_abs_le_abs_sub (q : ℝ) z
    have : |(q : ℝ)| ≤ 2 := by linarith
    exact_mod_cast this
  have h1 : |q * 128| ≤ 256 := by rw [abs_mul, abs_of_pos (by norm_num : (0 : ℚ) < 128)]; linarith
  have h2 := Is.mul hy lit32_128 (Fmt.fits32 (h1.trans (by norm_num)))
  have h3 : |b32.rnd (q * 128)| ≤ 256 := by
    rw [b32.abs_rnd]; exact b32.rnd_le_repr (Fmt.repr32_int (n := 256) (by norm_num)) h1
  have h384 : |b32.rnd (q * 128) + 128| ≤ 384 := by
    have := abs_add_le (b32.rnd (q * 128)) 128
    rw [show |(128 : ℚ)| = 128 by norm_num] at this
    linarith
  have h4 := Is.add h2 lit32_128 (Fmt.fits32 (h384.trans (by norm_num)))
  have h5 := h4.round32.toInt 0 255
  have u1 := b32.abs_rnd_sub_le_of_abs_le (q := q * 128) (k := 8) (by norm_num [b32]) (h1.trans (by rw [pow2_eq]; norm_num))
  have u2 := b32.abs_rnd_sub_le_of_abs_le (q := b32.rnd (q * 128) + 128) (k := 9) (by norm_num [b32]) (h384.trans (by rw [pow2_eq]; norm_num))
  have e1 : pow2 (max (8 - (b32.p : ℤ)) b32.emin - 1) = (2 ^ 17)⁻¹ := by decide +kernel
  have e2 : pow2 (max (9 - (b32.p : ℤ)) b32.emin - 1) = (2 ^ 16)⁻¹ := by decide +kernel
  rw [e1] at u1
  rw [e2] at u2
  obtain ⟨c1, c2⟩ := toInt_mem (lo := 0) (hi := 255) (by norm_num) (by norm_num) (Flt.round (y * lit 128 + lit 128))
  have e3 : ((sampleToU8 y).toNat : ℤ) = Flt.toInt 0 255 (Flt.round (y * lit 128 + lit 128)) := by
    unfold sampleToU8
    rw [UInt8.toNat_ofNat']
    omega
  have e4 : ((sampleToU8 y).toNat : ℝ) = (((sampleToU8 y).toNat : ℤ) : ℝ) := by push_cast; rfl
  rw [e4, e3, h5, truncQ_int]
  have h6 := abs_roundAwayQ_sub_le (b32.rnd (b32.rnd (q * 128) + 128))
  have cast : ∀ {a b : ℚ}, |a| ≤ b → |(a : ℝ)| ≤ b := fun h => by exact_mod_cast h
  have v1 := cast u1
  have v2 := cast u2
  have v3 := cast h6
  push_cast at v1 v2 v3
  have v4 : |128 * ((q : ℝ) - z)| ≤ 128 * e := by
    rw [abs_mul, abs_of_pos (by norm_num : (0 : ℝ) < 128)]
    linarith
  refine clamp_near ?_ ?_ ?_
  · push_cast; linarith
  · push_cast; linarith
  · rw [abs_le] at v1 v2 v3 v4 ⊢
    constructor <;> linarith [v1.1, v1.2, v2.1, v2.2, v3.1, v3.2, v4.1, v4.2]

/-! ## writing one track -/

private theorem one_track (ys : List F32) :
    writeWav store [ys] 8 none false = .ok (.ok (), some (⟨1, 1, 48000, 8⟩, .eight (ys.map sampleToU8))) ∧
    writeWav store [ys] 16 none false = .ok (.ok (), some (⟨1, 1, 48000, 16⟩, .sixteen (ys.map sampleToI16))) ∧
    writeWav store [ys] 24 none false = .ok (.ok (), some (⟨1, 1, 48000, 24⟩, .twentyFour (ys.map sampleToI24))) := by
  have il : ∀ {D : Type} (enc : F32 → D) (v : List D), Interleaved enc [ys] ys.length v → v = ys.map enc := by
    intro D enc v ⟨h1, h2⟩
    refine List.ext_getElem? fun i => ?_
    by_cases hi : i < ys.length
    · have := h2 i hi 0 ys ys[i] rfl (by simp [hi])
      simp only [List.length_singleton, mul_one, add_zero] at this
      rw [this]; simp [hi]
    · rw [List.getElem?_eq_none (by simp at h1; omega), List.getElem?_eq_none (by simpa using hi)]
  have hd : ∀ {h : WavHeader} {b : UInt16}, HeaderOk h 1 b → h = ⟨1, 1, 48000, b⟩ := by
    rintro ⟨a, c, r, b'⟩ b ⟨h1, h2, h3, h4⟩
    simp only at h1 h2 h3 h4
    have : c = 1 := UInt16.toNat_inj.mp h2
    subst h1 h3 h4 this
    rfl
  obtain ⟨⟨h8, v8, a1, a2, a3⟩, ⟨h16, v16, b1, b2, b3⟩, ⟨h24, v24, c1, c2, c3⟩⟩ := C26_interleaves [ys] ys.length (by simp) (by simp) (by simp)
  refine ⟨?_, ?_, ?_⟩
  · rw [a3, hd a1, il _ _ a2]; rfl
  · rw [b3, hd b1, il _ _ b2]; rfl
  · rw [c3, hd c1, il _ _ c2]; rfl

/-! ## unity gain -/

private theorem unity_core {D : Type} {enc : F32 → D} {dec : D → F32} (g : MonoWav F32 F64) (d : List D) (C n : ℕ) (hd : d.length = n * C) (hC : 0 < C)
    (hrt : ∀ x ∈ d, enc (dec x) = x) (hdec : ∀ x ∈ d, ∃ q, (dec x).Is q ∧ |q| ≤ 2)
    (hcongr : ∀ {a b : F32} {q : ℚ}, a.Is q → b.Is q → |q| ≤ 2 → enc a = enc b)
    (hg : ∀ k x, d[k * C]? = some x → ∃ y, nthR MonoWav.process g k = .ok y ∧ ∀ q, (dec x).Is q → y.Is q ∧ (q ≠ 0 → y = dec x))
    (xs : List F32) (hx : xs.length = n) :
    ∃ ys, SimpleSound.outputs (SimpleSound.new (lit 1 : F64) (lit 1) 0) [⟨(StandardBlock.fromGenerator g : StandardBlock _ _ _ F32), 1⟩] xs = .ok ys ∧
      ys.length = n ∧ ∀ i < n, (ys.map enc)[i]? = d[i * C]? := by
  have hlt : ∀ i < n, i * C < d.length := fun i hi => by rw [hd]; exact Nat.mul_lt_mul_of_pos_right hi hC
  have key : ∀ i, ∃ y : F32, i < n → nthR MonoWav.process g i = .ok y ∧ ∃ q x, d[i * C]? = some x ∧ (dec x).Is q ∧ |q| ≤ 2 ∧ y.Is q := by
    intro i
    by_cases hi : i < n
    · have e : d[i * C]? = some (d[i * C]'(hlt i hi)) := List.getElem?_eq_getElem (hlt i hi)
      obtain ⟨y, h1, h2⟩ := hg i _ e
      obtain ⟨q, h3, h4⟩ := hdec _ (List.getElem_mem (hlt i hi))
      exact ⟨y, fun _ => ⟨h1, q, _, e, h3, h4, (h2 q h3).1⟩⟩
    · exact ⟨lit 0, fun h => absurd h hi⟩
  choose y hy using key
  have hrun := C76_run [⟨(StandardBlock.fromGenerator g : StandardBlock _ _ _ F32), 1⟩] (SimpleSound.new (lit 1 : F64) (lit 1) 0) [StandardBlock.fromGenerator g]
    ⟨by simp [SimpleSound.new], by simp [SimpleSound.new]⟩ rfl rfl xs
  refine ⟨_, hrun.trans (gen_run _ _ xs g y fun i hi => (hy i (hx ▸ hi)).1), by simp [hx], fun i hi => ?_⟩
  obtain ⟨-, q, x, h1, h2, h3, h4⟩ := hy i hi
  have hone : (SM.down (lit 1 : F64) : F32).Is 1 := by decide +kernel
  have h5 := Is.mul h4 hone (by rw [mul_one]; exact Fmt.fits32 (h3.trans (by norm_num)))
  rw [mul_one, h4.rnd] at h5
  rw [h1]
  simp only [List.map_map, List.getElem?_map, List.getElem?_range (hx ▸ hi), Option.map_some, Function.comp_apply]
  refine congrArg some ?_
  rw [show (SimpleSound.new (lit 1 : F64) (lit 1) 0 : SimpleSound F32).outputGain = SM.down (lit 1 : F64) from rfl]
  exact (hcongr h5 h2 h3).trans (hrt x (List.mem_of_getElem? h1))

/-- A file of 48 kHz and at most `2^24` frames, loaded into a MonoWav that is the generator of a SimpleSound with both gains 1, rendered to
the length of the file and written at the depth of the file: whatever the inputs of the sound, the data written is the first channel of
the data read, code by code, under a mono 48 kHz header. -/
theorem C133_unity (h : WavHeader) (hC : 0 < h.channelCount.toNat) (hrate : h.samplingRate = 48000) (n : ℕ) (hn : n ≤ 2 ^ 24)
    (d8 : List UInt8) (d16 : List Int16) (d24 : List Int32) (h24 : ∀ x ∈ d24, -8388608 ≤ x.toInt ∧ x.toInt ≤ 8388607)
    (xs : List F32) (hx : xs.length = n) :
    (d8.length = n * h.channelCount.toNat → ∃ (g : MonoWav F32 F64) (ys : List F32) (v : List UInt8), MonoWav.fromSource (.ok (h, .eight d8)) = .ok g ∧
      SimpleSound.outputs (SimpleSound.new (lit 1 : F64) (lit 1) 0) [⟨(StandardBlock.fromGenerator g : StandardBlock _ _ _ F32), 1⟩] xs = .ok ys ∧
      writeWav store [ys] 8 none false = .ok (.ok (), some (⟨1, 1, 48000, 8⟩, .eight v)) ∧ v.length = n ∧
      ∀ i < n, v[i]? = d8[i * h.channelCount.toNat]?) ∧
    (d16.length = n * h.channelCount.toNat → ∃ (g : MonoWav F32 F64) (ys : List F32) (v : List Int16), MonoWav.fromSource (.ok (h, .sixteen d16)) = .ok g ∧
      SimpleSound.outputs (SimpleSound.new (lit 1 : F64) (lit 1) 0) [⟨(StandardBlock.fromGenerator g : StandardBlock _ _ _ F32), 1⟩] xs = .ok ys ∧
      writeWav store [ys] 16 none false = .ok (.ok (), some (⟨1, 1, 48000, 16⟩, .sixteen v)) ∧ v.length = n ∧
      ∀ i < n, v[i]? = d16[i * h.channelCount.toNat]?) ∧
    (d24.length = n * h.channelCount.toNat → ∃ (g : MonoWav F32 F64) (ys : List F32) (v : List Int32), MonoWav.fromSource (.ok (h, .twentyFour d24)) = .ok g ∧
      SimpleSound.outputs (SimpleSound.new (lit 1 : F64) (lit 1) 0) [⟨(StandardBlock.fromGenerator g : StandardBlock _ _ _ F32), 1⟩] xs = .ok ys ∧
      writeWav store [ys] 24 none false = .ok (.ok (), some (⟨1, 1, 48000, 24⟩, .twentyFour v)) ∧ v.length = n ∧
      ∀ i < n, v[i]? = d24[i * h.channelCount.toNat]?) := by
  have hk : n * h.channelCount.toNat ≤ 2 ^ 24 * h.channelCount.toNat := Nat.mul_le_mul_right _ hn
  have rnd2 : ∀ {m k : ℤ}, 32767 ≤ k → |m| ≤ k + 1 → |b32.rnd ((m : ℚ) / k)| ≤ 2 := by
    intro m k h1 h2
    rw [b32.abs_rnd]
    exact b32.rnd_le_repr (Fmt.repr32_int (n := 2) (by norm_num)) (abs_div_le h1 h2)
  refine ⟨fun hd => ?_, fun hd => ?_, fun hd => ?_⟩
  · obtain ⟨⟨g, e1, e2⟩, -, -⟩ := C115_verbatim h hC hrate d8 [] [] (by simp) (hd ▸ hk) (by simp) (by simp)
    obtain ⟨ys, f1, f2, f3⟩ := unity_core (enc := sampleToU8) (dec := sampleFromU8) g d8 _ n hd hC (fun x _ => C01_u8_roundtrip x) (fun x _ => by
        refine ⟨_, C01_u8_value x, ?_⟩
        have h1 : (x.toNat : ℚ) ≤ 255 := by exact_mod_cast Nat.lt_succ_iff.mp x.toNat_lt
        have h2 : (0 : ℚ) ≤ x.toNat := by positivity
        rw [abs_le]; constructor <;> linarith)
      (fun a b c => (enc_congr a b c).1) (fun k => (e2 k).1) xs hx
    exact ⟨g, ys, _, e1, f1, (one_track ys).1, by simpa using f2, f3⟩
  · obtain ⟨-, ⟨g, e1, e2⟩, -⟩ := C115_verbatim h hC hrate [] d16 [] (by simp) (by simp) (hd ▸ hk) (by simp)
    obtain ⟨ys, f1, f2, f3⟩ := unity_core (enc := sampleToI16) (dec := sampleFromI16) g d16 _ n hd hC (fun x _ => C02_i16_roundtrip x) (fun x _ => by
        have hb : |x.toInt| ≤ 32767 + 1 := by
          obtain ⟨h1, h2⟩ := Int16.toInt_bounds x
          rw [abs_le]; omega
        exact ⟨_, decode_is (n := x.toInt) (c := scale16) (k := 32767) (by exact_mod_cast scale16_is) (by norm_num) hb (by norm_num),
          rnd2 (by norm_num) hb⟩)
      (fun a b c => (enc_congr a b c).2.1) (fun k => (e2 k).1) xs hx
    exact ⟨g, ys, _, e1, f1, (one_track ys).2.1, by simpa using f2, f3⟩
  · obtain ⟨-, -, ⟨g, e1, e2⟩⟩ := C115_verbatim h hC hrate [] [] d24 h24 (by simp) (by simp) (hd ▸ hk)
    obtain ⟨ys, f1, f2, f3⟩ := unity_core (enc := sampleToI24) (dec := sampleFromI24) g d24 _ n hd hC (fun x hx => C03_i24_roundtrip x (h24 x hx).1 (h24 x hx).2) (fun x hx => by
        have hb : |x.toInt| ≤ 8388607 + 1 := by
          obtain ⟨h1, h2⟩ := h24 x hx
          rw [abs_le]; omega
        exact ⟨_, decode_is (n := x.toInt) (c := scale24) (k := 8388607) (by exact_mod_cast scale24_is) (by norm_num) hb (by norm_num),
          rnd2 (by norm_num) hb⟩)
      (fun a b c => (enc_congr a b c).2.2) (fun k => (e2 k).1) xs hx
    exact ⟨g, ys, _, e1, f1, (one_track ys).2.2, by simpa using f2, f3⟩

/-! ## effects -/

/-- A generator in a block ignores its inputs. -/
private theorem modOut_gen {G S : Type} [Flt S] [Generator G S] (x : ℕ → S) (n : ℕ) (g : G) (y : S) (h : nthR Generator.process g n = .ok y) :
    modOut blockStep x (StandardBlock.fromGenerator g : StandardBlock G Passthrough StdInter S) n = .ok y := by
  rw [← C75_from_generator g (fun k => [x k]) n y h]
  have : ∀ n, modAfter blockStep x (StandardBlock.fromGenerator g : StandardBlock G Passthrough StdInter S) n =
      blockAfter StandardBlock.primeInput StandardBlock.process (fun k => [x k]) (StandardBlock.fromGenerator g) n := by
    intro n
    induction n with
    | zero => rfl
    | succ n ih => rw [modAfter, blockAfter, ih]; rfl
  rw [modOut, blockOut, this]
  rfl

section
variable {B S : Type} [Flt S] [Block B S]

private theorem outputs_modOut (s : SimpleSound S) (us : List S) : ∀ (h : Heap B) (x y : ℕ → S), (∀ i u, us[i]? = some u → x i = u) →
    (∀ n < us.length, modOut (fun h x => SimpleSound.process h s x) x h n = .ok (y n)) → s.outputs h us = .ok ((List.range us.length).map y) := by
  induction us with
  | nil => intro h x y _ _; rfl
  | cons u us ih =>
    intro h x y hx hy
    have h0 := hy 0 (by simp)
    have x0 : x 0 = u := hx 0 u rfl
    simp only [modOut, modAfter, x0] at h0
    rw [SimpleSound.outputs]
    cases hp : SimpleSound.process h s u with
    | error e => rw [hp] at h0; cases h0
    | ok r =>
      rw [hp] at h0
      have e0 : r.1 = y 0 := Except.ok.inj h0
      have sh : ∀ n, modAfter (fun h x => SimpleSound.process h s x) x h (n + 1) = modAfter (fun h x => SimpleSound.process h s x) (fun n => x (n + 1)) r.2 n := by
        intro n
        induction n with
        | zero => simp only [modAfter, x0, hp]; rfl
        | succ n ih => rw [modAfter, ih, modAfter]
      have := ih r.2 (fun n => x (n + 1)) (fun n => y (n + 1)) (fun i v hv => hx (i + 1) v (by simpa using hv)) (fun n hn => by
        have := hy (n + 1) (by simpa using hn)
        rw [modOut, sh] at this
        rw [modOut]; exact this)
      simp only [this]
      simp [Except.map, e0, List.range_succ_eq_map, List.map_map, Function.comp_def]
end

/-- A sound whose first block emits samples `x` whatever it is given, followed by effects that track exact ones (C129): rendered for
any inputs and any number of samples and written as one track, every 8-bit code is within `1/2 + 2^-15 + 128 E` of 128 times the exact
output (plus 128, wherever that is a code), every 16-bit code is within `1/2 + 2^-9 + 32767 E` of 32767 times the
exact output, and every 24-bit code within `1 + 8388607 E` of 8388607 times it, wherever the exact output is in `[-1,1]`; `E` is the
rounding budget of the effects. -/
theorem C133_effects {K K' : Type} [Block K F32] [Block K' ℝ] (b0 : K) (x : ℕ → F32) (hb0 : ∀ u n, modOut blockStep u b0 n = .ok (x n))
    {v : ℕ → ℝ} {M d : ℝ} (hM0 : (2 ^ 80)⁻¹ ≤ M) (hd0 : 0 ≤ d) (hv : Follows x v d) (hM : ∀ n, |v n| ≤ M) {ks : List K} {ks' : List K'} {B C E : ℝ}
    (hk : TracksAll ks ks' B C) (hE : C * (1 + (2 ^ 23)⁻¹) * (M + d) - B * M ≤ E) (hE1 : E ≤ 1) (hsize : C * (1 + (2 ^ 23)⁻¹) * (M + d) ≤ 2 ^ 80) :
    ∃ z : ℕ → ℝ, (∀ n, modOut series v ks' n = .ok (z n)) ∧ ∀ (h : Heap K) (s : SimpleSound F32) (b : ℚ), Owns h (s.generator :: s.modifierList) (b0 :: ks) → s.paused = false →
      s.muted = false → s.outputGain.Is b → |b| ≤ 1 → ∀ us : List F32, ∃ (ys : List F32) (v8 : List UInt8) (v16 : List Int16) (v24 : List Int32), s.outputs h us = .ok ys ∧
      writeWav store [ys] 8 none false = .ok (.ok (), some (⟨1, 1, 48000, 8⟩, .eight v8)) ∧
      writeWav store [ys] 16 none false = .ok (.ok (), some (⟨1, 1, 48000, 16⟩, .sixteen v16)) ∧
      writeWav store [ys] 24 none false = .ok (.ok (), some (⟨1, 1, 48000, 24⟩, .twentyFour v24)) ∧ v8.length = us.length ∧ v16.length = us.length ∧ v24.length = us.length ∧
      (∀ i c, v8[i]? = some c → -1 ≤ z i * b → z i * b ≤ 127 / 128 → |(c.toNat : ℝ) - (128 * (z i * b) + 128)| ≤ 1 / 2 + (2 ^ 15)⁻¹ + 128 * E) ∧
      (∀ i c, v16[i]? = some c → |z i * b| ≤ 1 → |(c.toInt : ℝ) - 32767 * (z i * b)| ≤ 1 / 2 + 1 / 512 + 32767 * E) ∧
      (∀ i c, v24[i]? = some c → |z i * b| ≤ 1 → |(c.toInt : ℝ) - 8388607 * (z i * b)| ≤ 1 + 8388607 * E) := by
  obtain ⟨-, -, hser⟩ := C129_series hk
  have hMd : C * (M + d) ≤ C * (1 + (2 ^ 23)⁻¹) * (M + d) := by
    have h1 : (1 : ℝ) ≤ 1 + (2 ^ 23)⁻¹ := by norm_num
    have hC : 0 ≤ C := by linarith [(C129_series hk).1, (C129_series hk).2.1]
    refine mul_le_mul_of_nonneg_right (le_mul_of_one_le_right hC h1) ?_
    have : (0 : ℝ) < (2 ^ 80)⁻¹ := by positivity
    linarith
  obtain ⟨y', z, b1, b2, -, -⟩ := hser x v M d hM0 hd0 (hMd.trans hsize) hv hM
  have gain : ∀ {S : Type} [Flt S] (g : S) (x : ℕ → S) (n : ℕ), modOut Modifier.process x (Gain.new g) n = .ok (x n * g) := by
    intro S _ g x n
    have : modAfter Modifier.process x (Gain.new g) n = .ok (Gain.new g) := by
      induction n with
      | zero => rfl
      | succ n ih => exact modAfter_succ (y := x n * g) ih rfl
    exact modOut_of this rfl
  refine ⟨z, b2, fun h s b ho hp hm hb hb1 us => ?_⟩
  have gb := C129_gain hb le_rfl (by exact_mod_cast hb1 : |(b : ℝ)| ≤ 1)
  have ht := (C129_series hk).andThen gb
  obtain ⟨t1, t2, ht⟩ := ht
  have e1 : C * (1 * (1 + (2 ^ 23)⁻¹)) = C * (1 + (2 ^ 23)⁻¹) := by ring
  rw [e1] at ht
  obtain ⟨y, w, a1, a2, a3, a4⟩ := ht x v M d hM0 hd0 hsize hv hM
  have hw : ∀ n, w n = z n * b := fun n => by
    have := modOut_andThen b2 (gain (b : ℝ) z) n
    rw [a2] at this
    exact Except.ok.inj this
  set u : ℕ → F32 := fun i => us.getD i (lit 0) with hu
  have out : ∀ n, modOut (fun h x => SimpleSound.process h s x) u h n = .ok (y n) := by
    intro n
    rw [modOut_sound h s ho hp hm, ← a1 n, modOut_andThen b1 (gain s.outputGain y') n]
    exact modOut_andThen (modOut_andThen (gain s.inputGain u) (fun n => (modOut_series_cons b0 ks _ n).trans (modOut_andThen (hb0 _) b1 n)))
      (gain s.outputGain y') n
  have hrun := outputs_modOut s us h u y (fun i v hi => by simp [hu, List.getD_eq_getElem?_getD, hi]) (fun n _ => out n)
  have near : ∀ i, ∃ q : ℚ, (y i).Is q ∧ |(q : ℝ) - z i * b| ≤ E := by
    intro i
    obtain ⟨q, h1, h2⟩ := a4 i
    rw [hw, mul_one] at h2
    exact ⟨q, h1, h2.trans hE⟩
  refine ⟨_, _, _, _, hrun, (one_track _).1, (one_track _).2.1, (one_track _).2.2, by simp, by simp, by simp, fun i c hc hz hz1 => ?_, fun i c hc hz => ?_,
    fun i c hc hz => ?_⟩
  · obtain ⟨q, h1, h2⟩ := near i
    have : c = sampleToU8 (y i) := by
      obtain ⟨hi, rfl⟩ := List.getElem?_eq_some_iff.mp hc
      simp
    rw [this]
    exact C133_code8 h1 hz hz1 h2 hE1
  · obtain ⟨q, h1, h2⟩ := near i
    have : c = sampleToI16 (y i) := by
      obtain ⟨hi, rfl⟩ := List.getElem?_eq_some_iff.mp hc
      simp
    rw [this]
    exact C133_code16 h1 hz h2 hE1
  · obtain ⟨q, h1, h2⟩ := near i
    have : c = sampleToI24 (y i) := by
      obtain ⟨hi, rfl⟩ := List.getElem?_eq_some_iff.mp hc
      simp
    rw [this]
    exact C133_code24 h1 hz h2 hE1

/-- The number a file means at frame `n`: the code divided by the largest code, and 0 after the end. -/
noncomputable def fileSignal (k : ℤ) (codes : List ℤ) (C : ℕ) (n : ℕ) : ℝ := (codes.getD (n * C) 0 : ℝ) / k

private theorem file_core {D : Type} {dec : D → F32} {val : D → ℤ} {k : ℤ} (hk0 : 32767 ≤ k) (g : MonoWav F32 F64) (d : List D) (C : ℕ)
    (hdec : ∀ x ∈ d, (dec x).Is (b32.rnd ((val x : ℚ) / k)) ∧ |val x| ≤ k + 1)
    (hg : ∀ n, (∀ x, d[n * C]? = some x → ∃ y, nthR MonoWav.process g n = .ok y ∧ ∀ q, (dec x).Is q → y.Is q ∧ (q ≠ 0 → y = dec x)) ∧
      (d[n * C]? = none → nthR MonoWav.process g n = .ok (lit 0))) :
    ∃ x : ℕ → F32, (∀ n, nthR MonoWav.process g n = .ok (x n)) ∧ Follows x (fileSignal k (d.map val) C) (2 ^ 24)⁻¹ ∧
      ∀ n, |fileSignal k (d.map val) C n| ≤ 32768 / 32767 := by
  have k0 : (0 : ℚ) < k := by exact_mod_cast (by omega : 0 < k)
  have bound : ∀ m : ℤ, |m| ≤ k + 1 → |(m : ℚ) / k| ≤ 32768 / 32767 := by
    intro m hm
    rw [abs_div, abs_of_pos k0, div_le_iff₀ k0]
    have h1 : |(m : ℚ)| ≤ k + 1 := by exact_mod_cast hm
    have h2 : (32767 : ℚ) ≤ k := by exact_mod_cast hk0
    linarith
  have key : ∀ n, ∃ y : F32, nthR MonoWav.process g n = .ok y ∧ (∃ q : ℚ, y.Is q ∧ |(q : ℝ) - fileSignal k (d.map val) C n| ≤ (2 ^ 24)⁻¹) ∧
      |fileSignal k (d.map val) C n| ≤ 32768 / 32767 := by
    intro n
    cases hd : d[n * C]? with
    | none =>
      have e : fileSignal k (d.map val) C n = 0 := by simp [fileSignal, List.getD_eq_getElem?_getD, hd]
      refine ⟨_, (hg n).2 hd, ⟨0, by decide +kernel, ?_⟩, ?_⟩
      · rw [e]; norm_num
      · rw [e]; norm_num
    | some c =>
      obtain ⟨y, h1, h2⟩ := (hg n).1 c hd
      obtain ⟨h3, h4⟩ := hdec c (List.mem_of_getElem? hd)
      have e : fileSignal k (d.map val) C n = (((val c : ℚ) / k : ℚ) : ℝ) := by simp [fileSignal, List.getD_eq_getElem?_getD, hd]
      have hb := bound _ h4
      refine ⟨y, h1, ⟨_, (h2 _ h3).1, ?_⟩, ?_⟩
      · have h5 := b32.abs_rnd_sub_le_of_abs_le (q := (val c : ℚ) / k) (k := 1) (by norm_num [b32]) (hb.trans (by rw [pow2_eq]; norm_num))
        have e2 : pow2 (max (1 - (b32.p : ℤ)) b32.emin - 1) = (2 ^ 24)⁻¹ := by decide +kernel
        rw [e2] at h5
        rw [e]
        have := Rat.cast_le (K := ℝ) |>.mpr h5
        push_cast at this ⊢
        exact this
      · rw [e]
        have := Rat.cast_le (K := ℝ) |>.mpr hb
        push_cast at this ⊢
        exact this
  choose x hx using key
  exact ⟨x, fun n => (hx n).1, fun n => (hx n).2.1, fun n => (hx n).2.2⟩

private theorem built (ig og : F64) (a : ℕ) (l : List ModAdd) : ∀ m : List ℕ,
    l.foldl SimpleSound.add ({ (SimpleSound.new ig og a : SimpleSound F32) with modifierList := m }) =
      { (SimpleSound.new ig og a : SimpleSound F32) with modifierList := m ++ added l } := by
  induction l with
  | nil => intro m; simp [added]
  | cons c l ih =>
    intro m
    rw [List.foldl_cons]
    cases c with
    | one c => rw [added, List.append_cons]; exact ih _
    | list as => rw [added, ← List.append_assoc]; exact ih _

/-- A 16-bit or 24-bit file of 48 kHz and at most `2^24` frames, played by the first block of a sound, with effects that track exact ones
behind it: the exact chain of effects is fed the numbers in the file (first channel, then zeros), and every code written is that close to
what the exact chain gives, for as many frames as are rendered. -/
theorem C133_file (h : WavHeader) (hC : 0 < h.channelCount.toNat) (hrate : h.samplingRate = 48000) (d16 : List Int16) (d24 : List Int32)
    (h24 : ∀ x ∈ d24, -8388608 ≤ x.toInt ∧ x.toInt ≤ 8388607) (l16 : d16.length ≤ 2 ^ 24 * h.channelCount.toNat)
    (l24 : d24.length ≤ 2 ^ 24 * h.channelCount.toNat) {K K' : Type} [Block K F32] [Block K' ℝ]
    {ks : List (StandardBlock (MonoWav F32 F64) Passthrough StdInter F32 ⊕ K)} {ks' : List K'} {B C E : ℝ} (hk : TracksAll ks ks' B C)
    {og : F64} {b : ℚ} (hb : (SM.down og : F32).Is b) (hb1 : |b| ≤ 1) (ig : F64) (l : List ModAdd)
    (hE : C * (1 + (2 ^ 23)⁻¹) * (32768 / 32767 + (2 ^ 24)⁻¹) - B * (32768 / 32767) ≤ E) (hE1 : E ≤ 1)
    (hsize : C * (1 + (2 ^ 23)⁻¹) * (32768 / 32767 + (2 ^ 24)⁻¹) ≤ 2 ^ 80) :
    (∃ g : MonoWav F32 F64, MonoWav.fromSource (.ok (h, .sixteen d16)) = .ok g ∧ ∃ z : ℕ → ℝ,
      (∀ n, modOut series (fileSignal 32767 (d16.map Int16.toInt) h.channelCount.toNat) ks' n = .ok (z n)) ∧
      ∀ (hp : Heap (StandardBlock (MonoWav F32 F64) Passthrough StdInter F32 ⊕ K)) (a : ℕ), Owns hp (a :: added l) (.inl (StandardBlock.fromGenerator g) :: ks) →
        ∀ us : List F32, ∃ (ys : List F32) (v16 : List Int16), SimpleSound.outputs (l.foldl SimpleSound.add (SimpleSound.new ig og a)) hp us = .ok ys ∧
          writeWav store [ys] 16 none false = .ok (.ok (), some (⟨1, 1, 48000, 16⟩, .sixteen v16)) ∧ v16.length = us.length ∧
          ∀ i c, v16[i]? = some c → |z i * b| ≤ 1 → |(c.toInt : ℝ) - 32767 * (z i * b)| ≤ 1 / 2 + 1 / 512 + 32767 * E) ∧
    (∃ g : MonoWav F32 F64, MonoWav.fromSource (.ok (h, .twentyFour d24)) = .ok g ∧ ∃ z : ℕ → ℝ,
      (∀ n, modOut series (fileSignal 8388607 (d24.map Int32.toInt) h.channelCount.toNat) ks' n = .ok (z n)) ∧
      ∀ (hp : Heap (StandardBlock (MonoWav F32 F64) Passthrough StdInter F32 ⊕ K)) (a : ℕ), Owns hp (a :: added l) (.inl (StandardBlock.fromGenerator g) :: ks) →
        ∀ us : List F32, ∃ (ys : List F32) (v24 : List Int32), SimpleSound.outputs (l.foldl SimpleSound.add (SimpleSound.new ig og a)) hp us = .ok ys ∧
          writeWav store [ys] 24 none false = .ok (.ok (), some (⟨1, 1, 48000, 24⟩, .twentyFour v24)) ∧ v24.length = us.length ∧
          ∀ i c, v24[i]? = some c → |z i * b| ≤ 1 → |(c.toInt : ℝ) - 8388607 * (z i * b)| ≤ 1 + 8388607 * E) := by
  obtain ⟨-, ⟨g, e1, e2⟩, ⟨g', e1', e2'⟩⟩ := C115_verbatim h hC hrate [] d16 d24 h24 (by simp) l16 l24
  constructor
  · obtain ⟨x, f1, f2, f3⟩ := file_core (k := 32767) (val := Int16.toInt) (by norm_num) g d16 _ (fun c _ => by
      have hb : |c.toInt| ≤ 32767 + 1 := by
        obtain ⟨h1, h2⟩ := Int16.toInt_bounds c
        rw [abs_le]; omega
      exact ⟨decode_is (n := c.toInt) (c := scale16) (k := 32767) (by exact_mod_cast scale16_is) (by norm_num) hb (by norm_num), hb⟩) e2
    obtain ⟨z, k1, k2⟩ := C133_effects (.inl (StandardBlock.fromGenerator g)) x (fun u n => (modOut_inl _ u n).trans (modOut_gen u n g _ (f1 n)))
      (by norm_num) (by norm_num) f2 f3 hk hE hE1 hsize
    refine ⟨g, e1, z, k1, fun hp a ho us => ?_⟩
    have hs := built ig og a l []
    rw [show ({ (SimpleSound.new ig og a : SimpleSound F32) with modifierList := [] }) = SimpleSound.new ig og a from rfl, List.nil_append] at hs
    rw [hs]
    obtain ⟨ys, v8, v16, v24, m1, -, m2, -, -, m3, -, -, m4, -⟩ := k2 hp { (SimpleSound.new ig og a : SimpleSound F32) with modifierList := added l } b ho rfl rfl hb hb1 us
    exact ⟨ys, v16, m1, m2, m3, m4⟩
  · obtain ⟨x, f1, f2, f3⟩ := file_core (k := 8388607) (val := Int32.toInt) (by norm_num) g' d24 _ (fun c hc => by
      have hb : |c.toInt| ≤ 8388607 + 1 := by
        obtain ⟨h1, h2⟩ := h24 c hc
        rw [abs_le]; omega
      exact ⟨decode_is (n := c.toInt) (c := scale24) (k := 8388607) (by exact_mod_cast scale24_is) (by norm_num) hb (by norm_num), hb⟩) e2'
    obtain ⟨z, k1, k2⟩ := C133_effects (.inl (StandardBlock.fromGenerator g')) x (fun u n => (modOut_inl _ u n).trans (modOut_gen u n g' _ (f1 n)))
      (by norm_num) (by norm_num) f2 f3 hk hE hE1 hsize
    refine ⟨g', e1', z, k1, fun hp a ho us => ?_⟩
    have hs := built ig og a l []
    rw [show ({ (SimpleSound.new ig og a : SimpleSound F32) with modifierList := [] }) = SimpleSound.new ig og a from rfl, List.nil_append] at hs
    rw [hs]
    obtain ⟨ys, v8, v16, v24, m1, -, -, m2, -, -, m3, -, -, m4⟩ := k2 hp { (SimpleSound.new ig og a : SimpleSound F32) with modifierList := added l } b ho rfl rfl hb hb1 us
    exact ⟨ys, v24, m1, m2, m3, m4⟩

/-- The number an 8-bit file means at frame `n`: the distance of the code from 128, divided by 128, and 0 after the end. -/
noncomputable def fileSignal8 (codes : List UInt8) (C : ℕ) (n : ℕ) : ℝ := (((codes.getD (n * C) 128).toNat : ℝ) - 128) / 128

/-- The same for a file of 8 bits. -/
theorem C133_file8 (h : WavHeader) (hC : 0 < h.channelCount.toNat) (hrate : h.samplingRate = 48000) (d8 : List UInt8)
    (l8 : d8.length ≤ 2 ^ 24 * h.channelCount.toNat) {K K' : Type} [Block K F32] [Block K' ℝ]
    {ks : List (StandardBlock (MonoWav F32 F64) Passthrough StdInter F32 ⊕ K)} {ks' : List K'} {B C E : ℝ} (hk : TracksAll ks ks' B C)
    {og : F64} {b : ℚ} (hb : (SM.down og : F32).Is b) (hb1 : |b| ≤ 1) (ig : F64) (l : List ModAdd)
    (hE : C * (1 + (2 ^ 23)⁻¹) - B ≤ E) (hE1 : E ≤ 1) (hsize : C * (1 + (2 ^ 23)⁻¹) ≤ 2 ^ 80) :
    ∃ g : MonoWav F32 F64, MonoWav.fromSource (.ok (h, .eight d8)) = .ok g ∧ ∃ z : ℕ → ℝ,
      (∀ n, modOut series (fileSignal8 d8 h.channelCount.toNat) ks' n = .ok (z n)) ∧
      ∀ (hp : Heap (StandardBlock (MonoWav F32 F64) Passthrough StdInter F32 ⊕ K)) (a : ℕ), Owns hp (a :: added l) (.inl (StandardBlock.fromGenerator g) :: ks) →
        ∀ us : List F32, ∃ (ys : List F32) (v8 : List UInt8), SimpleSound.outputs (l.foldl SimpleSound.add (SimpleSound.new ig og a)) hp us = .ok ys ∧
          writeWav store [ys] 8 none false = .ok (.ok (), some (⟨1, 1, 48000, 8⟩, .eight v8)) ∧ v8.length = us.length ∧
          ∀ i c, v8[i]? = some c → -1 ≤ z i * b → z i * b ≤ 127 / 128 → |(c.toNat : ℝ) - (128 * (z i * b) + 128)| ≤ 1 / 2 + (2 ^ 15)⁻¹ + 128 * E := by
  obtain ⟨⟨g, e1, e2⟩, -, -⟩ := C115_verbatim h hC hrate d8 [] [] (by simp) l8 (by simp) (by simp)
  have hdec : ∀ c : UInt8, (sampleFromU8 c : F32).Is (((c.toNat : ℚ) - 128) / 128) ∧ |((c.toNat : ℚ) - 128) / 128| ≤ 1 := fun c => by
    refine ⟨C01_u8_value c, ?_⟩
    have h1 : (c.toNat : ℚ) ≤ 255 := by exact_mod_cast Nat.lt_succ_iff.mp c.toNat_lt
    have h2 : (0 : ℚ) ≤ c.toNat := by positivity
    rw [abs_le]
    constructor <;> linarith
  have key : ∀ n, ∃ y : F32, nthR MonoWav.process g n = .ok y ∧ (∃ q : ℚ, y.Is q ∧ |(q : ℝ) - fileSignal8 d8 h.channelCount.toNat n| ≤ 0) ∧
      |fileSignal8 d8 h.channelCount.toNat n| ≤ 1 := by
    intro n
    cases hd : d8[n * h.channelCount.toNat]? with
    | none =>
      have e : fileSignal8 d8 h.channelCount.toNat n = 0 := by simp [fileSignal8, List.getD_eq_getElem?_getD, hd]
      refine ⟨_, (e2 n).2 hd, ⟨0, by decide +kernel, ?_⟩, ?_⟩
      · rw [e]; norm_num
      · rw [e]; norm_num
    | some c =>
      obtain ⟨y, h1, h2⟩ := (e2 n).1 c hd
      obtain ⟨h3, h4⟩ := hdec c
      have e : fileSignal8 d8 h.channelCount.toNat n = ((((c.toNat : ℚ) - 128) / 128 : ℚ) : ℝ) := by simp [fileSignal8, List.getD_eq_getElem?_getD, hd]
      refine ⟨y, h1, ⟨_, (h2 _ h3).1, by rw [e, sub_self, abs_zero]⟩, ?_⟩
      rw [e]
      exact_mod_cast h4
  choose x hx using key
  obtain ⟨z, k1, k2⟩ := C133_effects (.inl (StandardBlock.fromGenerator g)) x (fun u n => (modOut_inl _ u n).trans (modOut_gen u n g _ (hx n).1))
    (M := 1) (d := 0) (by norm_num) le_rfl (fun n => (hx n).2.1) (fun n => (hx n).2.2) hk (by simpa using hE) hE1 (by simpa using hsize)
  refine ⟨g, e1, z, k1, fun hp a ho us => ?_⟩
  have hs := built ig og a l []
  rw [show ({ (SimpleSound.new ig og a : SimpleSound F32) with modifierList := [] }) = SimpleSound.new ig og a from rfl, List.nil_append] at hs
  rw [hs]
  obtain ⟨ys, v8, v16, v24, m1, m2, -, -, m3, -, -, m4, -⟩ := k2 hp { (SimpleSound.new ig og a : SimpleSound F32) with modifierList := added l } b ho rfl rfl hb hb1 us
  exact ⟨ys, v8, m1, m2, m3, m4⟩

/-- The conditions of `C133_file8` for an echo of gain 1/2 and delay 3 at output gain 1/2: the codes are off by less than 1. -/
example : ∃ B C : ℝ, TracksAll [(.inr (StandardBlock.fromModifier ⟨List.replicate 3 (lit 0), lit (1 / 2)⟩) :
      StandardBlock (MonoWav F32 F64) Passthrough StdInter F32 ⊕ StandardBlock Zero (Echo F32) StdInter F32)]
      [(.inr (StandardBlock.fromModifier ⟨List.replicate 3 0, 1 / 2⟩) : StandardBlock Zero (Echo ℝ) StdInter ℝ ⊕ StandardBlock Zero (Echo ℝ) StdInter ℝ)] B C ∧ C * (1 + (2 ^ 23)⁻¹) - B ≤ 1 / 131072 ∧
    C * (1 + (2 ^ 23)⁻¹) ≤ 2 ^ 80 ∧ (SM.down (lit (1 / 2) : F64) : F32).Is (1 / 2) ∧ (1 / 2 : ℝ) + (2 ^ 15)⁻¹ + 128 * (1 / 131072) < 1 := by
  have hhalf : ((1 / 2 : ℚ) : ℝ) = 1 / 2 := by norm_num
  have hecho := C129_block (C129_echo (⟨List.replicate 3 (lit 0), lit (1 / 2)⟩ : Echo F32) (⟨List.replicate 3 0, 1 / 2⟩ : Echo ℝ) 3 (by norm_num) rfl rfl
    (γ := 1 / 2) (show (lit (1 / 2) : F32).Is (1 / 2) by decide +kernel) hhalf.symm (by rw [hhalf, abs_of_pos (by norm_num)]; norm_num))
  rw [hhalf, abs_of_pos (by norm_num : (0 : ℝ) < 1 / 2)] at hecho
  have hk := TracksAll.cons ((C129_sum (A := StandardBlock (MonoWav F32 F64) Passthrough StdInter F32) (A' := StandardBlock Zero (Echo ℝ) StdInter ℝ)).2 _ _ _ _ hecho) .nil
  exact ⟨_, _, hk, by norm_num, by norm_num, by decide +kernel, by norm_num⟩

/-- Instance: any such 16-bit file through an echo of gain 1/2 and any delay at an output gain of 1/2. The codes are off by less than 1
from what exact arithmetic gives, at every frame where that fits. -/
theorem C133_echo_file (D : ℕ) (hD : 0 < D) (h : WavHeader) (hC : 0 < h.channelCount.toNat) (hrate : h.samplingRate = 48000) (d16 : List Int16)
    (l16 : d16.length ≤ 2 ^ 24 * h.channelCount.toNat) :
    ∃ g : MonoWav F32 F64, MonoWav.fromSource (.ok (h, .sixteen d16)) = .ok g ∧ ∃ z : ℕ → ℝ,
      (∀ n, modOut Modifier.process (fileSignal 32767 (d16.map Int16.toInt) h.channelCount.toNat) (⟨List.replicate D 0, 1 / 2⟩ : Echo ℝ) n = .ok (z n)) ∧
      ∀ us : List F32, ∃ (ys : List F32) (v16 : List Int16), SimpleSound.outputs ((SimpleSound.new (lit 1 : F64) (lit (1 / 2)) 0 : SimpleSound F32).addModifier 1)
          [⟨(.inl (StandardBlock.fromGenerator g) : StandardBlock (MonoWav F32 F64) Passthrough StdInter F32 ⊕ StandardBlock Zero (Echo F32) StdInter F32), 1⟩,
            ⟨.inr (StandardBlock.fromModifier ⟨List.replicate D (lit 0), lit (1 / 2)⟩), 1⟩] us = .ok ys ∧
        writeWav store [ys] 16 none false = .ok (.ok (), some (⟨1, 1, 48000, 16⟩, .sixteen v16)) ∧ v16.length = us.length ∧
        ∀ i c, v16[i]? = some c → |z i / 2| ≤ 1 → |(c.toInt : ℝ) - 32767 * (z i / 2)| < 1 := by
  have hhalf : ((1 / 2 : ℚ) : ℝ) = 1 / 2 := by norm_num
  have hecho := C129_block (C129_echo (⟨List.replicate D (lit 0), lit (1 / 2)⟩ : Echo F32) (⟨List.replicate D 0, 1 / 2⟩ : Echo ℝ) D hD rfl rfl
    (γ := 1 / 2) (show (lit (1 / 2) : F32).Is (1 / 2) by decide +kernel) hhalf.symm (by rw [hhalf, abs_of_pos (by norm_num)]; norm_num))
  rw [hhalf, abs_of_pos (by norm_num : (0 : ℝ) < 1 / 2)] at hecho
  have hk := TracksAll.cons ((C129_sum (A := StandardBlock (MonoWav F32 F64) Passthrough StdInter F32) (A' := StandardBlock Zero (Echo ℝ) StdInter ℝ)).2 _ _ _ _ hecho) .nil
  have hE : 1 / (1 - 1 / 2 - ((2 : ℝ) ^ 22)⁻¹) * 1 * (1 + (2 ^ 23)⁻¹) * (32768 / 32767 + (2 ^ 24)⁻¹) - 1 / (1 - 1 / 2) * 1 * (32768 / 32767) ≤ 1 / 131072 := by norm_num
  obtain ⟨⟨g, e1, z, e2, e3⟩, -⟩ := C133_file h hC hrate d16 [] (by simp) l16 (by simp) hk (og := lit (1 / 2)) (b := 1 / 2) (by decide +kernel) (by norm_num [abs_of_pos])
    (lit 1) [.one 1] hE (by norm_num) (by norm_num)
  refine ⟨g, e1, z, fun n => ?_, fun us => ?_⟩
  · obtain ⟨w, hw⟩ := C54_echo (⟨List.replicate D 0, 1 / 2⟩ : Echo ℝ) D hD (by simp [lit]) (fileSignal 32767 (d16.map Int16.toInt) h.channelCount.toNat)
    have e : (fun n => (dflt : ℝ) + fileSignal 32767 (d16.map Int16.toInt) h.channelCount.toNat n) = fileSignal 32767 (d16.map Int16.toInt) h.channelCount.toNat :=
      funext fun n => by unfold dflt; real_simp; ring
    have := e2 n
    rw [modOut_series_cons, modOut_andThen (y := w) (z := w) (fun n => by
      rw [modOut_inr, modOut_block, e]; exact (hw n).1) (modOut_series_nil w) n] at this
    exact ((hw n).1).trans this
  · obtain ⟨ys, v16, m1, m2, m3, m4⟩ := e3 [⟨.inl (StandardBlock.fromGenerator g), 1⟩, ⟨.inr (StandardBlock.fromModifier ⟨List.replicate D (lit 0), lit (1 / 2)⟩), 1⟩] 0
      ⟨by simp [added], .cons rfl (.cons rfl .nil)⟩ us
    refine ⟨ys, v16, m1, m2, m3, fun i c hc hz => ?_⟩
    have e : z i * ((1 / 2 : ℚ) : ℝ) = z i / 2 := by rw [hhalf]; ring
    have := m4 i c hc (by rw [e]; exact hz)
    rw [e] at this
    refine lt_of_le_of_lt this (by norm_num)

example : ∃ h : WavHeader, 0 < h.channelCount.toNat ∧ h.samplingRate = 48000 ∧ [(1000 : Int16), -2000, 32767, -32768].length ≤ 2 ^ 24 * h.channelCount.toNat ∧
    [(1000 : Int16), -2000, 32767, -32768].length = 2 * h.channelCount.toNat := ⟨⟨1, 2, 48000, 16⟩, by decide, rfl, by decide, by decide⟩

end Verif
