import Verif.Float.Order
import Verif.Model.ArithReal
import Verif.Model.Stereo

/-! # Helper lemmas for the sample formats -/

set_option linter.unnecessarySeqFocus false

namespace Verif
namespace Fl

theorem ofQ_sign {f : Fmt} (z z' : Bool) (q : ℚ) (h : q = 0 → z = z') : (ofQ z q : Fl f) = ofQ z' q := by
  unfold ofQ
  by_cases hq : q = 0
  · rw [h hq]
  · rcases lt_or_gt_of_ne hq with h1 | h1 <;> simp [h1, not_lt.mpr h1.le]

theorem ofQ_repr {f : Fmt} (z : Bool) {q : ℚ} (h : f.Fits q) (hr : f.Repr q) :
    ∃ h', (ofQ z q : Fl f) = .fin (if q < 0 then true else if 0 < q then false else z) q h' := by
  unfold ofQ Fmt.Fits at *
  simp only [f.rnd_of_repr hr]
  rw [f.rnd_of_repr hr] at h
  rw [dif_pos h]
  have := ok_rnd (f := f) z q (by rwa [f.rnd_of_repr hr])
  rw [f.rnd_of_repr hr] at this
  exact ⟨this, rfl⟩

theorem up_fin (s : Bool) (q : ℚ) (h : b32.Ok s q) : ∃ h', (SM.up (.fin s q h : F32) : F64) = .fin s q h' := by
  have hr := Fmt.repr64_of_repr32 h.1
  have hf : b64.Fits q := Fmt.fits_of_repr hr (h.2.1.trans (pow2_lt (by decide)))
  obtain ⟨h', e⟩ := ofQ_repr (f := b64) s hf hr
  have hs : (if q < 0 then true else if 0 < q then false else s) = s := by
    split_ifs with h1 h2
    · exact (h.2.2.1 h1).symm
    · exact (h.2.2.2 h2).symm
    · rfl
  refine ⟨hs ▸ h', ?_⟩
  show ofQ s q = _
  rw [e]
  congr 1

/-- Multiplying in `f64` and narrowing is the `f32` product: the `f64` product of two `f32` is exact. -/
theorem down_up_mul (a k : F32) : (SM.down ((SM.up a : F64) * SM.up k) : F32) = a * k := by
  cases a with
  | nan => rfl
  | inf s =>
    cases k with
    | nan => rfl
    | inf t => rfl
    | fin t b hb =>
      obtain ⟨h', e⟩ := up_fin t b hb
      rw [e]
      show (Fl.conv (if b = 0 then (.nan : F64) else _) : F32) = (if b = 0 then (.nan : F32) else _)
      split_ifs <;> rfl
  | fin s a ha =>
    obtain ⟨h', e⟩ := up_fin s a ha
    rw [e]
    cases k with
    | nan => rfl
    | inf t =>
      show (Fl.conv (if a = 0 then (.nan : F64) else _) : F32) = (if a = 0 then (.nan : F32) else _)
      split_ifs <;> rfl
    | fin t b hb =>
      obtain ⟨h2, e2⟩ := up_fin t b hb
      rw [e2, mul_fin, mul_fin]
      have hr : b64.Repr (a * b) := by
        obtain ⟨m1, e1, rfl, hm1, he1⟩ := ha.1
        obtain ⟨m2, e3, rfl, hm2, he2⟩ := hb.1
        refine ⟨m1 * m2, e1 + e3, by push_cast; rw [pow2_add]; ring, ?_, ?_⟩
        · rw [abs_mul]
          simp only [b32, b64] at *
          nlinarith [abs_nonneg m1, abs_nonneg m2]
        · simp only [b32, b64] at *
          omega
      have hf : b64.Fits (a * b) := Fmt.fits64 (by
        rw [abs_mul]
        have h1 : |a| ≤ 2 ^ 128 := by
          refine ha.2.1.le.trans ?_
          rw [pow2_eq]; norm_num [b32]
        have h2 : |b| ≤ 2 ^ 128 := by
          refine hb.2.1.le.trans ?_
          rw [pow2_eq]; norm_num [b32]
        calc |a| * |b| ≤ 2 ^ 128 * 2 ^ 128 := mul_le_mul h1 h2 (abs_nonneg _) (by positivity)
          _ = 2 ^ 256 := by rw [← pow_add]
          _ ≤ _ := pow_le_pow_right₀ (by norm_num) (by norm_num))
      obtain ⟨h3, e3⟩ := ofQ_repr (f := b64) (xor s t) hf hr
      rw [e3]
      show ofQ _ _ = ofQ _ _
      exact ofQ_sign _ _ _ (fun h => by simp [h])

theorem up_le (x y : F32) : ((SM.up x : F64) ≤? SM.up y) = (x ≤? y) := by
  cases x with
  | nan => rfl
  | inf s =>
    cases y with
    | nan => rfl
    | inf t => rfl
    | fin t b hb => obtain ⟨h', e⟩ := up_fin t b hb; rw [e]; rfl
  | fin s a ha =>
    obtain ⟨h', e⟩ := up_fin s a ha
    rw [e]
    cases y with
    | nan => rfl
    | inf t => rfl
    | fin t b hb => obtain ⟨h', e⟩ := up_fin t b hb; rw [e]; rfl

theorem up_lt (x y : F32) : ((SM.up x : F64) <? SM.up y) = (x <? y) := by
  cases x with
  | nan => rfl
  | inf s =>
    cases y with
    | nan => rfl
    | inf t => rfl
    | fin t b hb => obtain ⟨h', e⟩ := up_fin t b hb; rw [e]; rfl
  | fin s a ha =>
    obtain ⟨h', e⟩ := up_fin s a ha
    rw [e]
    cases y with
    | nan => rfl
    | inf t => rfl
    | fin t b hb => obtain ⟨h', e⟩ := up_fin t b hb; rw [e]; rfl

theorem lt_trans' {f : Fmt} {x y z : Fl f} (h1 : (x <? y) = true) (h2 : (y <? z) = true) : (x <? z) = true := by
  cases x <;> cases y <;> cases z <;> simp_all [Flt.lt, Fl.lt] <;> linarith

theorem lt_of_lt_of_le' {f : Fmt} {x y z : Fl f} (h1 : (x <? y) = true) (h2 : (y ≤? z) = true) :
    (x <? z) = true := by
  cases x <;> cases y <;> cases z <;> simp_all [Flt.lt, Flt.le, Fl.lt, Fl.le] <;> linarith

theorem not_le_of_lt' {f : Fmt} {x y : Fl f} (h1 : (x <? y) = true) : (y ≤? x) = false := by
  cases x <;> cases y <;> simp_all [Flt.lt, Flt.le, Fl.lt, Fl.le]

theorem not_lt_of_lt' {f : Fmt} {x y : Fl f} (h1 : (x <? y) = true) : (y <? x) = false := by
  cases x <;> cases y <;> simp_all [Flt.lt, Fl.lt]
  linarith

end Fl
end Verif
