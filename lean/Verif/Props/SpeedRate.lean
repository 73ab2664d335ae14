import Verif.Props.SpeedF32

/-! # A rate is a speed: C183 -/

set_option linter.unusedSectionVars false

namespace Verif
open Flt MonoResampler

/-! ## Specification -/

section
variable {S M : Type} [Flt S] [Flt M] [SM S M]

/-- The first `n` samples played, or the panic that ends them. -/
def heard (r : MonoResampler S M) : ℕ → Res (List S)
  | 0 => .ok []
  | n + 1 => match r.process with
    | .error e => .error e
    | .ok (y, r') => (heard r' n).map (y :: ·)

/-- Distance from one sample to the next, as the code computes it. -/
def stride (r : MonoResampler S M) : S := r.inc * SM.down r.speed

/-! ## Any arithmetic -/

private structure Same (a b : MonoResampler S M) : Prop where
  data : a.data = b.data
  ind : a.ind = b.ind
  ls : a.loopStart = b.loopStart
  le : a.loopEnd = b.loopEnd
  st : stride a = stride b

private theorem Same.adv {a b : MonoResampler S M} (h : Same a b) : Same a.advance b.advance := by
  obtain ⟨d, i, n, v, s, e⟩ := a
  obtain ⟨d', i', n', v', s', e'⟩ := b
  obtain ⟨h1, h2, h3, h4, h5⟩ := h
  simp only at h1 h2 h3 h4
  subst h1 h2 h3 h4
  refine ⟨rfl, ?_, rfl, rfl, h5⟩
  unfold stride at h5
  simp only at h5
  unfold advance
  simp only [h5]

private theorem Same.next {a b : MonoResampler S M} (h : Same a b) :
    a.process.map Prod.fst = b.process.map Prod.fst ∧ ∀ y a', a.process = .ok (y, a') → ∃ b', b.process = .ok (y, b') ∧ Same a' b' := by
  have hat : ∀ i, a.at' i = b.at' i := fun i => by unfold at'; rw [h.data]
  have hn : a.nextSample = b.nextSample := by unfold nextSample; simp only [h.ind, h.data, h.ls, h.le, hat]
  unfold process
  rw [hn, h.ind, h.data, h.le, hat]
  split_ifs
  · exact ⟨rfl, fun y a' e => ⟨b, by rw [← (Prod.mk.inj (Except.ok.inj e)).1], by rw [← (Prod.mk.inj (Except.ok.inj e)).2]; exact h⟩⟩
  · cases b.nextSample with
    | error e => exact ⟨rfl, fun y a' e => by cases e⟩
    | ok p =>
      cases b.at' (toUsize (trunc b.ind)) with
      | error e => exact ⟨rfl, fun y a' e => by cases e⟩
      | ok x =>
        refine ⟨rfl, fun y a' e => ⟨b.advance, ?_, ?_⟩⟩
        · rw [← (Prod.mk.inj (Except.ok.inj e)).1]; rfl
        · rw [← (Prod.mk.inj (Except.ok.inj e)).2]; exact h.adv

/-- Any arithmetic: of rate and speed only the stride is heard. Two players of the same track, at the same place in the same loop, with the
same stride play the same samples and panic at the same one. -/
theorem C183_stride (a b : MonoResampler S M) (hd : a.data = b.data) (hi : a.ind = b.ind) (hs : a.loopStart = b.loopStart)
    (he : a.loopEnd = b.loopEnd) (h : stride a = stride b) (n : ℕ) : heard a n = heard b n := by
  have hS : Same a b := ⟨hd, hi, hs, he, h⟩
  clear hd hi hs he h
  induction n generalizing a b with
  | zero => rfl
  | succ n ih =>
    obtain ⟨h1, h2⟩ := hS.next
    rw [heard, heard]
    cases ea : a.process with
    | error e =>
      rw [ea] at h1
      cases eb : b.process with
      | error e' => rw [eb] at h1; simpa [Except.map] using h1
      | ok p => rw [eb] at h1; simp [Except.map] at h1
    | ok p =>
      obtain ⟨y, a'⟩ := p
      obtain ⟨b', e', hS'⟩ := h2 y a' ea
      rw [e']
      simp only
      rw [ih a' b' hS']

private theorem new_fields (t : List (Mono S)) (r1 r2 : M) (ls le : ℕ) (v : M) (n : ℕ)
    (h : SM.down (r1 * invSR) * SM.down v = (SM.down (r2 * invSR) * SM.down (lit 1 : M) : S)) :
    heard ((new t r1 ls le).setPlaybackSpeed v) n = heard (new t r2 ls le) n := by
  unfold new setPlaybackSpeed
  by_cases hl : le < ls
  · simp only [if_pos hl]
    apply C183_stride
    exacts [rfl, rfl, rfl, rfl, h]
  · simp only [if_neg hl]
    apply C183_stride
    exacts [rfl, rfl, rfl, rfl, h]
end

example (t : List (Mono F32)) (n : ℕ) : heard (S := F32) (M := F64) ⟨t, lit (1 / 2), lit 3, lit (1 / 2), 1, 4⟩ n =
    heard (S := F32) (M := F64) ⟨t, lit (1 / 2), lit (3 / 4), lit 2, 1, 4⟩ n := by
  apply C183_stride
  exacts [rfl, rfl, rfl, rfl, show (lit 3 : F32) * SM.down (lit (1 / 2) : F64) = lit (3 / 4) * SM.down (lit 2 : F64) by decide +kernel]

/-! ## Exact arithmetic -/

/-- Exact arithmetic: a track of rate `R` at speed `v` is the track of rate `R * v`. -/
theorem C183_rate_exact (t : List (Mono ℝ)) (R v : ℝ) (ls le n : ℕ) :
    heard ((new t R ls le).setPlaybackSpeed v) n = heard (new t (R * v) ls le) n := by
  apply new_fields
  real_simp
  ring

example : heard ((new [⟨0⟩, ⟨1⟩, ⟨4⟩] 48000 0 0).setPlaybackSpeed (1 / 2 : ℝ)) 4 = heard (new [⟨(0 : ℝ)⟩, ⟨1⟩, ⟨4⟩] (24000 : ℝ) 0 0) 4 := by
  rw [C183_rate_exact]; norm_num

/-! ## IEEE -/

private theorem ilog2_scale {q : ℚ} (h : q ≠ 0) (k : ℤ) : ilog2 (q * pow2 k) = ilog2 q + k := by
  have h0 : q * pow2 k ≠ 0 := mul_ne_zero h (pow2_ne k)
  obtain ⟨h1, h2⟩ := ilog2_spec h
  have ha : |q * pow2 k| = |q| * pow2 k := by rw [abs_mul, abs_of_pos (pow2_pos k)]
  have l1 := le_ilog2_of h0 (k := ilog2 q + k) (by rw [ha, pow2_add]; exact mul_le_mul_of_nonneg_right h1 (pow2_pos k).le)
  have l2 := ilog2_lt_of h0 (k := ilog2 q + 1 + k) (by rw [ha, pow2_add]; exact mul_lt_mul_of_pos_right h2 (pow2_pos k))
  omega

/-- Rounding commutes with powers of two away from the subnormals. -/
private theorem rnd_scale (f : Fmt) {q : ℚ} {j : ℤ} (hq : pow2 j ≤ q) (k : ℤ) (h1 : f.emin + (f.p - 1) ≤ j) (h2 : f.emin + (f.p - 1) ≤ j + k) :
    f.rnd (q * pow2 k) = f.rnd q * pow2 k := by
  have q0 : 0 < q := lt_of_lt_of_le (pow2_pos j) hq
  have hj : j ≤ ilog2 q := le_ilog2_of q0.ne' (by rwa [abs_of_pos q0])
  have u1 : f.ue q = ilog2 q - (f.p - 1) := by unfold Fmt.ue; rw [max_eq_left (by omega)]
  have u2 : f.ue (q * pow2 k) = f.ue q + k := by
    rw [u1]; unfold Fmt.ue; rw [ilog2_scale q0.ne', max_eq_left (by omega)]; ring
  have e : q * pow2 k * pow2 (-(f.ue q + k)) = q * pow2 (-(f.ue q)) := by
    rw [neg_add, pow2_add]
    have := pow2_mul_neg k
    linear_combination q * pow2 (-(f.ue q)) * this
  unfold Fmt.rnd
  rw [u2, e, pow2_add]
  ring

/-- IEEE: whole octaves. At speed `2^k` a track of rate `R` plays bit for bit as one of rate `R * 2^k`, for ever, looping or not. Missing: other
speeds, see below. -/
theorem C183_octaves_partial (t : List (Mono F32)) {rate rate' v : F64} {R : ℚ} {k : ℤ} (hR : rate.Is R) (hR0 : 1 ≤ R) (hR1 : R ≤ 2 ^ 30)
    (hk0 : -20 ≤ k) (hk1 : k ≤ 20) (hv : v.Is (2 ^ k)) (hR' : rate'.Is (R * 2 ^ k)) (ls le n : ℕ) :
    heard ((new t rate ls le).setPlaybackSpeed v) n = heard (new t rate' ls le) n := by
  apply new_fields
  rw [← pow2_eq] at hv hR'
  have i0 : pow2 (-16) ≤ isr64 := by decide +kernel
  have i1 : isr64 ≤ 1 := by decide +kernel
  have K0 := pow2_pos k
  have K1 : pow2 k ≤ 2 ^ 20 := by
    have := pow2_le hk1
    rwa [show pow2 20 = 2 ^ 20 by decide +kernel] at this
  have p16 := pow2_pos (-16)
  have a0 : pow2 (-16) ≤ R * isr64 := by nlinarith
  have a1 : R * isr64 ≤ pow2 30 := by rw [show pow2 30 = 2 ^ 30 by decide +kernel]; nlinarith
  generalize hA : b64.rnd (R * isr64) = A at *
  have A0 : pow2 (-16) ≤ A := hA ▸ b64.pow2_le_rnd (by decide) a0
  have A1 : A ≤ pow2 30 := hA ▸ b64.rnd_le_pow2 (by decide) a1
  generalize hB : b32.rnd A = B at *
  have B0 : pow2 (-16) ≤ B := hB ▸ b32.pow2_le_rnd (by decide) A0
  have B1 : B ≤ pow2 30 := hB ▸ b32.rnd_le_pow2 (by decide) A1
  rw [show pow2 30 = 2 ^ 30 by decide +kernel] at a1 A1 B1
  have ab : ∀ q : ℚ, pow2 (-16) ≤ q → q ≤ 2 ^ 30 → |q| ≤ 2 ^ 30 ∧ |q * pow2 k| ≤ 2 ^ 50 := by
    intro q h1 h2
    have q0 : 0 < q := lt_of_lt_of_le p16 h1
    rw [abs_of_pos q0, abs_of_pos (mul_pos q0 K0)]
    refine ⟨h2, ?_⟩
    calc q * pow2 k ≤ 2 ^ 30 * 2 ^ 20 := mul_le_mul h2 K1 K0.le (by norm_num)
      _ = 2 ^ 50 := by norm_num
  have f64 : ∀ q : ℚ, |q| ≤ 2 ^ 50 → b64.Fits q := fun q h => fits64' 50 (by norm_num) h
  have f32 : ∀ q : ℚ, |q| ≤ 2 ^ 50 → b32.Fits q := fun q h => Fmt.fits32 (h.trans (by norm_num))
  have up : ∀ q : ℚ, |q| ≤ 2 ^ 30 → |q| ≤ 2 ^ 50 := fun q h => h.trans (by norm_num)
  have rk : b32.Repr (pow2 k) := b32.repr_pow2 (by show (-149 : ℤ) ≤ k; omega)
  have d1 : (SM.down v : F32).Is (pow2 k) := by
    have := hv.conv (g := b32) (f32 _ (by rw [abs_of_pos K0]; exact K1.trans (by norm_num)))
    rwa [b32.rnd_of_repr rk] at this
  have l1 := hR.mul invSR64 (f64 _ (up _ (ab _ a0 a1).1))
  rw [hA] at l1
  have l2 := l1.conv (g := b32) (f32 _ (up _ (ab _ A0 A1).1))
  rw [hB] at l2
  have hBr : b32.rnd B = B := l2.rnd
  have l3 := l2.mul d1 (f32 _ (ab _ B0 B1).2)
  rw [rnd_scale b32 B0 k (by decide) (by show (-149 : ℤ) + ((24 : ℕ) - 1) ≤ _; push_cast; omega), hBr] at l3
  have e1 : R * pow2 k * isr64 = R * isr64 * pow2 k := by ring
  have r1 := hR'.mul invSR64 (f64 _ (by rw [e1]; exact (ab _ a0 a1).2))
  rw [e1, rnd_scale b64 a0 k (by decide) (by show (-1074 : ℤ) + ((53 : ℕ) - 1) ≤ _; push_cast; omega), hA] at r1
  have r2 := r1.conv (g := b32) (f32 _ (ab _ A0 A1).2)
  rw [rnd_scale b32 A0 k (by decide) (by show (-149 : ℤ) + ((24 : ℕ) - 1) ≤ _; push_cast; omega), hB] at r2
  have one : (SM.down (lit 1 : F64) : F32).Is 1 := by decide +kernel
  have r3 := r2.mul one (f32 _ (by rw [mul_one]; exact (ab _ B0 B1).2))
  rw [mul_one, rnd_scale b32 B0 k (by decide) (by show (-149 : ℤ) + ((24 : ℕ) - 1) ≤ _; push_cast; omega), hBr] at r3
  exact l3.eq_of_ne r3 (mul_pos (lt_of_lt_of_le p16 B0) K0).ne'

example (t : List (Mono F32)) (n : ℕ) : heard ((new t (lit 44100 : F64) 3 9).setPlaybackSpeed (lit (1 / 4))) n = heard (new t (lit 11025 : F64) 3 9) n :=
  C183_octaves_partial t (R := 44100) (k := -2) (by decide +kernel) (by norm_num) (by norm_num) (by norm_num) (by norm_num)
    (by norm_num; decide +kernel) (by norm_num; decide +kernel) 3 9 n

/-- The code violates C183: a recording of rate 8000 at speed 7 is not the same recording at rate 56000; the second sample already differs. -/
theorem C183_violated : heard ((new [⟨lit 0⟩, ⟨lit 0⟩, ⟨lit 1⟩] (lit 8000 : F64) 0 0).setPlaybackSpeed (lit 7)) 2 ≠
    heard (new [⟨(lit 0 : F32)⟩, ⟨lit 0⟩, ⟨lit 1⟩] (lit 56000 : F64) 0 0) 2 := by
  decide +kernel

end Verif
