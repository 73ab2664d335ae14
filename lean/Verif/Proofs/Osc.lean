import Verif.Proofs.Time
import Verif.Proofs.Samples
import Verif.Model.Generators

/-! # Lemmas for the oscillators -/

namespace Verif
open Fl

/-- `fl(1/48000)` in binary64. -/
def isr64 : ℚ := b64.rnd (1 / 48000)

theorem isr64_bounds : 0 < isr64 ∧ isr64 ≤ 1 := by decide +kernel

theorem invSR64 : (invSR : F64).Is isr64 := by
  unfold invSR isr64
  have := Is.div lit64_1 srM64 (by norm_num) (fits64' 0 (by norm_num) (by rw [abs_of_pos (by norm_num)]; norm_num))
  exact this

theorem lit64_2 : (lit 2 : F64).Is 2 := lit64_nat (n := 2) (by norm_num)
theorem lit64_4 : (lit 4 : F64).Is 4 := lit64_nat (n := 4) (by norm_num)
theorem lit64_10 : (lit 10 : F64).Is 10 := lit64_nat (n := 10) (by norm_num)

/-- `k*f*INV_SAMPLE_RATE` for `k = 2, 4` and `0 ≤ f ≤ 24000`: between `0` and `k/2`. -/
theorem rate_in {x f : F64} {k : ℚ} (hk : k = 2 ∨ k = 4) (hx : x.Is k) (hf : f.In 0 24000) :
    (x * f * invSR).In 0 (k / 2) := by
  obtain ⟨q, hq, h0, h1⟩ := hf
  have hk2 : 0 ≤ k ∧ k ≤ 4 := by rcases hk with rfl | rfl <;> norm_num
  have hkq : 0 ≤ k * q ∧ k * q ≤ k * 24000 := ⟨mul_nonneg hk2.1 h0, mul_le_mul_of_nonneg_left h1 hk2.1⟩
  have hr : b64.Repr (k * 24000) := by
    rcases hk with rfl | rfl
    · exact_mod_cast Fmt.repr64_int (n := 48000) (by norm_num)
    · exact_mod_cast Fmt.repr64_int (n := 96000) (by norm_num)
  have hm := Is.mul hx hq (fits64' 20 (by norm_num) (abs_le_of_mem _ hkq.1 hkq.2 (by norm_num) (by nlinarith)))
  obtain ⟨g0, g1⟩ := rnd_in hkq.1 hkq.2 b64.repr_zero hr
  set p := b64.rnd (k * q)
  have i0 := isr64_bounds
  have hp : 0 ≤ p * isr64 ∧ p * isr64 ≤ k * 24000 * isr64 :=
    ⟨mul_nonneg g0 i0.1.le, mul_le_mul_of_nonneg_right g1 i0.1.le⟩
  have hm2 := Is.mul hm invSR64 (fits64' 20 (by norm_num)
    (abs_le_of_mem _ hp.1 hp.2 (by norm_num) (by nlinarith)))
  refine ⟨_, hm2, b64.rnd_nonneg hp.1, (b64.rnd_mono hp.2).trans ?_⟩
  rcases hk with rfl | rfl <;> decide +kernel

theorem repr64_of_nat (n : ℤ) (h : |n| ≤ 9007199254740992) : b64.Repr (n : ℚ) := Fmt.repr64_int h

theorem down_in {x : F64} {n : ℤ} (hn : |n| ≤ 16777216) (h : x.In (-n) n) : (SM.down x : F32).In (-n) n := by
  obtain ⟨q, hq, h0, h1⟩ := h
  have hr := Fmt.repr32_int hn
  have hnb : (n : ℚ) ≤ 2 ^ 100 := by
    have : n ≤ 2 ^ 100 := by
      have := (abs_le.mp hn).2
      omega
    exact_mod_cast this
  have hf : b32.Fits q := fits32' 100 (by norm_num) (abs_le.mpr ⟨by linarith, by linarith⟩)
  refine ⟨_, hq.down hf, ?_, b32.rnd_le_repr hr h1⟩
  exact b32.repr_le_rnd (b32.repr_neg hr) h0

theorem rne_even {x : ℚ} {w : ℤ} (h : |x - (2 * w : ℤ)| ≤ 1 / 2) : rne x = 2 * w := by
  rcases h.lt_or_eq with h | h
  · exact rne_eq_of_abs_lt h
  · rcases (abs_eq (by norm_num)).mp h with h | h
    · have hx : x = ((2 * w : ℤ) : ℚ) + 1 / 2 := by linarith
      have hf : x.floor = 2 * w := by
        rw [rat_floor, Int.floor_eq_iff]; constructor <;> rw [hx] <;> push_cast <;> linarith
      have : x - ((2 * w : ℤ) : ℚ) = 1 / 2 := by linarith
      unfold rne
      rw [hf]
      simp only [this, lt_irrefl, if_false]
      rw [if_pos (by omega)]
    · have hx : x = ((2 * w - 1 : ℤ) : ℚ) + 1 / 2 := by push_cast at h ⊢; linarith
      have hf : x.floor = 2 * w - 1 := by
        rw [rat_floor, Int.floor_eq_iff]; constructor <;> rw [hx] <;> push_cast <;> linarith
      have : x - ((2 * w - 1 : ℤ) : ℚ) = 1 / 2 := by linarith
      unfold rne
      rw [hf]
      simp only [this, lt_irrefl, if_false]
      rw [if_neg (by omega)]
      omega

/-- Dividing by ten and multiplying back is exact for values with at most 52 significant bits. -/
theorem rnd_div_ten_mul {q : ℚ} (hq : 0 < q) {m k : ℤ} (hqm : q = m * pow2 k) (hm : m < 2 ^ 52)
    (hlow : pow2 (-1000) ≤ q) : b64.rnd (b64.rnd (q / 10) * 10) = q := by
  have hz : q / 10 ≠ 0 := by positivity
  obtain ⟨e1, e2⟩ := ilog2_spec hz
  rw [abs_of_pos (by positivity)] at e1 e2
  have hE : -1004 ≤ ilog2 (q / 10) := by
    refine le_ilog2_of hz ?_
    rw [abs_of_pos (by positivity)]
    have : pow2 (-1000) = pow2 (-1004) * 16 := by
      rw [show (-1000 : ℤ) = -1004 + 4 by norm_num, pow2_add]; congr 1
    have hp := pow2_pos (-1004)
    linarith
  set E := ilog2 (q / 10) with hEdef
  have hue : b64.ue (q / 10) = E - 52 := by
    show max (E - ((53 : ℕ) - 1 : ℤ)) (-1074) = E - 52
    rw [max_eq_left (by norm_num; omega)]; norm_num
  have hk : E - 48 ≤ k := by
    by_contra hlt
    have hle : pow2 k ≤ pow2 (E - 49) := pow2_le (by omega)
    have hm' : (m : ℚ) < 2 ^ 52 := by exact_mod_cast hm
    have h1 : q < 2 ^ 52 * pow2 (E - 49) := by
      rw [hqm]
      calc (m : ℚ) * pow2 k < 2 ^ 52 * pow2 k := mul_lt_mul_of_pos_right hm' (pow2_pos _)
        _ ≤ _ := mul_le_mul_of_nonneg_left hle (by positivity)
    have h2 : (2 : ℚ) ^ 52 * pow2 (E - 49) = 8 * pow2 E := by
      rw [show E - 49 = E + (-49) by ring, pow2_add, pow2_eq (-49)]; norm_num; ring
    have := pow2_pos E
    linarith
  obtain ⟨j, hj, -⟩ := pow2_nonneg_int (e := k - E + 48) (by omega)
  set u := pow2 (E - 52) with hu
  have hupos : 0 < u := pow2_pos _
  have hqw : q = 16 * ((m * j : ℤ) : ℚ) * u := by
    rw [hqm]
    push_cast
    rw [← hj, hu]
    have : pow2 k = 16 * (pow2 (k - E + 48) * pow2 (E - 52)) := by
      rw [← pow2_add, show (16 : ℚ) = pow2 4 by rfl, ← pow2_add]
      congr 1; ring
    rw [this]; ring
  set w := m * j
  have hrnd : b64.rnd (q / 10) = rne (8 * (w : ℚ) / 5) * u := by
    unfold Fmt.rnd
    rw [hue, ← hu]
    congr 3
    rw [hqw, pow2_neg, ← hu]
    field_simp
    ring
  have hN := abs_rne_sub_le (8 * (w : ℚ) / 5)
  set N := rne (8 * (w : ℚ) / 5)
  have hd : |10 * N - 16 * w| ≤ 4 := by
    have h1 : |(5 * N - 8 * w : ℚ)| ≤ 5 / 2 := by
      rw [show (5 * N - 8 * w : ℚ) = 5 * (N - 8 * w / 5) by ring, abs_mul, abs_of_pos (by norm_num : (0 : ℚ) < 5)]
      linarith
    have h2 : |5 * N - 8 * w| < 3 := by
      have : ((|5 * N - 8 * w| : ℤ) : ℚ) < 3 := by push_cast; linarith
      exact_mod_cast this
    rw [abs_lt] at h2
    rw [abs_le]
    constructor <;> omega
  have hb1 : pow2 E ≤ b64.rnd (q / 10) := b64.pow2_le_rnd (by show (-1074 : ℤ) ≤ E; omega) e1
  have hb2 : b64.rnd (q / 10) ≤ pow2 (E + 1) := b64.rnd_le_pow2 (by show (-1074 : ℤ) ≤ E + 1; omega) e2.le
  set r := b64.rnd (q / 10)
  have hp := pow2_pos E
  have hp1 : pow2 (E + 1) = pow2 E * 2 := by rw [pow2_add, pow2_one]
  have hrpos : 0 < r * 10 := by linarith
  have hF1 : E + 3 ≤ ilog2 (r * 10) := by
    refine le_ilog2_of hrpos.ne' ?_
    rw [abs_of_pos hrpos, pow2_add, show pow2 3 = 8 by rfl]; linarith
  have hF2 : ilog2 (r * 10) < E + 5 := by
    refine ilog2_lt_of hrpos.ne' ?_
    rw [abs_of_pos hrpos, pow2_add, show pow2 5 = 32 by rfl]; linarith
  have hue2 : b64.ue (r * 10) = ilog2 (r * 10) - 52 := by
    show max (ilog2 (r * 10) - ((53 : ℕ) - 1 : ℤ)) (-1074) = _
    rw [max_eq_left (by norm_num; omega)]; norm_num
  have hx : r * 10 = (10 * N : ℤ) * u := by rw [hrnd]; push_cast; ring
  have hd' : |(10 * N - 16 * w : ℚ)| ≤ 4 := by exact_mod_cast hd
  unfold Fmt.rnd
  rw [hue2]
  rcases (show ilog2 (r * 10) = E + 3 ∨ ilog2 (r * 10) = E + 4 by omega) with hF | hF
  · rw [hF]
    have hu8 : pow2 (E + 3 - 52) = 8 * u := by
      rw [hu, show E + 3 - 52 = 3 + (E - 52) by ring, pow2_add, show pow2 3 = 8 by rfl]
    rw [pow2_neg, hu8, hx]
    rw [rne_even (w := w)]
    · rw [hqw]; push_cast; ring
    · rw [show (((10 * N : ℤ) : ℚ) * u * (8 * u)⁻¹ - (2 * w : ℤ)) = (10 * N - 16 * w) / 8 by
        push_cast; field_simp; ring, abs_div, abs_of_pos (by norm_num : (0 : ℚ) < 8)]
      linarith
  · rw [hF]
    have hu16 : pow2 (E + 4 - 52) = 16 * u := by
      rw [hu, show E + 4 - 52 = 4 + (E - 52) by ring, pow2_add, show pow2 4 = 16 by rfl]
    rw [pow2_neg, hu16, hx]
    rw [rne_eq_of_abs_lt (n := w)]
    · rw [hqw]; ring
    · rw [show (((10 * N : ℤ) : ℚ) * u * (16 * u)⁻¹ - (w : ℤ)) = (10 * N - 16 * w) / 16 by
        push_cast; field_simp, abs_div, abs_of_pos (by norm_num : (0 : ℚ) < 16)]
      linarith

end Verif
