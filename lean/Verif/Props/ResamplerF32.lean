import Verif.Props.Resampler
import Verif.Proofs.Rel

/-! # The resampler in floating point: C107, C108 -/

namespace Verif
open Fl MonoResampler

/-! ## One step -/

private theorem usize_floor {x : F32} {p : ℚ} (hx : x.Is p) (h0 : 0 ≤ p) (h1 : p ≤ 2 ^ 25) :
    toUsize x = ⌊p⌋₊ ∧ toUsize (Flt.trunc x) = ⌊p⌋₊ := by
  have hf : ⌊p⌋ < 2 ^ 26 := Int.floor_lt.mpr (by push_cast; norm_num at h1 ⊢; linarith)
  have hf0 : 0 ≤ ⌊p⌋ := Int.floor_nonneg.mpr h0
  have e : (⌊p⌋₊ : ℤ) = ⌊p⌋ := Int.natCast_floor_eq_floor h0
  constructor
  · rw [hx.toUsize, truncQ_of_nonneg h0]; omega
  · rw [hx.trunc.toUsize, truncQ_int, truncQ_of_nonneg h0]; omega

/-- The output, from the samples at `⌊p⌋` and at the index the code computes for the next one. -/
theorem resam_output (r : MonoResampler F32 F64) (hl : r.loopEnd = 0) (hlen : r.data.length ≤ 2 ^ 24) {p : ℚ}
    (hp : r.ind.Is p) (h0 : 0 ≤ p) (h1 : p + 3 ≤ r.data.length) :
    ⌊b32.rnd (p + 1)⌋₊ ≤ ⌊p⌋₊ + 2 ∧ ∃ (hi : ⌊p⌋₊ < r.data.length) (hj : ⌊b32.rnd (p + 1)⌋₊ < r.data.length),
      r.process = .ok (r.data[⌊p⌋₊].mono + Flt.fract r.ind * (r.data[⌊b32.rnd (p + 1)⌋₊].mono - r.data[⌊p⌋₊].mono), r.advance) := by
  have hlenq : (r.data.length : ℚ) ≤ 16777216 := by exact_mod_cast hlen
  obtain ⟨u1, u2⟩ := usize_floor hp h0 (by norm_num; linarith)
  have hfl : ⌊p⌋₊ + 3 ≤ r.data.length := by
    have := Nat.floor_le h0
    have h2 : ((⌊p⌋₊ + 3 : ℕ) : ℚ) ≤ r.data.length := by push_cast; linarith
    exact_mod_cast h2
  have hj : b32.rnd (p + 1) ≤ ((⌊p⌋₊ + 2 : ℕ) : ℤ) := by
    refine b32.rnd_le_repr (Fmt.repr32_int (by rw [abs_le]; omega)) ?_
    push_cast
    linarith [Nat.lt_floor_add_one p]
  have hj0 : 0 ≤ b32.rnd (p + 1) := b32.rnd_nonneg (by linarith)
  have hj2 : ⌊b32.rnd (p + 1)⌋₊ ≤ ⌊p⌋₊ + 2 := Nat.floor_le_of_le (by exact_mod_cast hj)
  have hadd := Is.add hp lit32_1 (fits32' 25 (by norm_num) (abs_le.mpr ⟨by linarith, by norm_num; linarith⟩))
  have hjq : b32.rnd (p + 1) ≤ 2 ^ 25 := by
    have : ((⌊p⌋₊ + 2 : ℕ) : ℚ) ≤ 2 ^ 24 := by exact_mod_cast (by omega : ⌊p⌋₊ + 2 ≤ 2 ^ 24)
    refine hj.trans ?_
    push_cast at this ⊢
    linarith
  obtain ⟨-, u4⟩ := usize_floor hadd hj0 hjq
  refine ⟨hj2, by omega, by omega, ?_⟩
  refine process_eq r (by rw [u1]; omega) ?_ ?_
  · unfold nextSample
    simp only [u2]
    rw [if_neg (by omega), if_neg (by tauto), if_neg (by omega), u4]
    exact at'_ok r (by omega)
  · rw [u2]
    exact at'_ok r (by omega)

theorem resam_advance (r : MonoResampler F32 F64) (hl : r.loopEnd = 0) :
    r.advance = { r with ind := r.ind + r.inc * SM.down r.speed } := by
  unfold advance
  simp [hl]

/-- A resampler over `t` that does not loop, with the step `s`. -/
structure ResamSt (t : List (Mono F32)) (s : ℚ) (r : MonoResampler F32 F64) : Prop where
  data : r.data = t
  step : (r.inc * SM.down r.speed).Is s
  le : r.loopEnd = 0

theorem ResamSt.next {t : List (Mono F32)} {s : ℚ} {r : MonoResampler F32 F64} (h : ResamSt t s r) (hlen : t.length ≤ 2 ^ 24)
    (hs0 : 0 ≤ s) (hs1 : s ≤ 2 ^ 24) {p : ℚ} (hp : r.ind.Is p) (h0 : 0 ≤ p) (h1 : p + 3 ≤ t.length) :
    ∃ y r', r.process = .ok (y, r') ∧ ResamSt t s r' ∧ r'.ind.Is (b32.rnd (p + s)) := by
  obtain ⟨hd, hs, hl⟩ := h
  subst hd
  have hlenq : (r.data.length : ℚ) ≤ 16777216 := by exact_mod_cast hlen
  obtain ⟨_, _, _, hy⟩ := resam_output r hl hlen hp h0 h1
  refine ⟨_, _, hy, ?_, ?_⟩
  · rw [resam_advance r hl]; exact ⟨rfl, hs, hl⟩
  · rw [resam_advance r hl]
    exact Is.add hp hs (fits32' 25 (by norm_num) (abs_le.mpr ⟨by linarith, by norm_num at hs1 ⊢; linarith⟩))

/-! ## C107 -/

/-- Errors add up: while the position stays below `2^k`, each step is off by at most `2^(k-25)`. -/
private theorem drift {t : List (Mono F32)} {s : ℚ} {r : MonoResampler F32 F64} (h : ResamSt t s r) (hlen : t.length ≤ 2 ^ 24)
    (hs0 : 0 ≤ s) (h0 : r.ind.Is 0) (k : ℕ) (hk : k ≤ 24) (n : ℕ)
    (hn1 : n * (s + 2 ^ ((k : ℤ) - 25)) ≤ 2 ^ k) (hn2 : n * (s + 2 ^ ((k : ℤ) - 25)) + 3 ≤ t.length) :
    ∃ r' p, afterR process n r = .ok r' ∧ ResamSt t s r' ∧ r'.ind.Is p ∧ 0 ≤ p ∧ |p - n * s| ≤ n * 2 ^ ((k : ℤ) - 25) := by
  have he : (0 : ℚ) < 2 ^ ((k : ℤ) - 25) := by positivity
  have hk24 : (2 : ℚ) ^ k ≤ 2 ^ 24 := two_pow_le _ _ hk
  generalize hE : (2 : ℚ) ^ ((k : ℤ) - 25) = e at *
  induction n with
  | zero => exact ⟨r, 0, rfl, h, h0, le_refl _, by simp⟩
  | succ n ih =>
    push_cast at hn1 hn2 ⊢
    obtain ⟨r', p, h1, h2, h3, h4, h5⟩ := ih (by nlinarith) (by nlinarith)
    have h6 := (abs_le.mp h5).2
    have hps : p + s ≤ 2 ^ k := by nlinarith
    obtain ⟨y, r'', g1, g2, g3⟩ := h2.next hlen hs0 (by nlinarith) h3 h4 (by nlinarith)
    refine ⟨r'', _, afterR_succ h1 g1, g2, g3, b32.rnd_nonneg (by linarith), ?_⟩
    have herr := err32 (q := p + s) (k : ℤ) (by omega) (by rw [abs_of_nonneg (by linarith), zpow_natCast]; exact hps)
    rw [hE] at herr
    calc |b32.rnd (p + s) - (n + 1) * s| = |(b32.rnd (p + s) - (p + s)) + (p - n * s)| := by congr 1; ring
      _ ≤ e + n * e := (abs_add_le _ _).trans (add_le_add herr h5)
      _ = (n + 1) * e := by ring

/-- The step the code computes. -/
theorem resam_step (t : List (Mono F32)) {rate v : F64} {R V : ℚ} (hR : rate.Is R) (hV : v.Is V) (hR0 : 1 ≤ R) (hR1 : R ≤ 2 ^ 30)
    (hV0 : (2 ^ 20)⁻¹ ≤ V) (hV1 : V ≤ 2 ^ 20) :
    ∃ s, ResamSt t s ((MonoResampler.new t rate 0 0).setPlaybackSpeed v) ∧ 0 ≤ s ∧ |s - R * V / 48000| ≤ (2 ^ 22)⁻¹ * (R * V / 48000) := by
  have Rp : 0 < R := by linarith
  have Vp : 0 < V := lt_of_lt_of_le (by positivity) hV0
  have ri : Rel (2 ^ 53)⁻¹ isr64 (1 / 48000) := by
    have := Rel.rnd64 (q := 1 / 48000) (.inr (by norm_num))
    exact this
  have i01 := ri.bounds (by norm_num) (by norm_num)
  -- rate / 48000
  have m1 : Rel ((2 ^ 53)⁻¹) (R * isr64) (R * (1 / 48000)) := by
    unfold Rel at *
    rw [← mul_sub, abs_mul, abs_of_pos Rp]
    calc R * |isr64 - 1 / 48000| ≤ R * ((2 ^ 53)⁻¹ * (1 / 48000)) := mul_le_mul_of_nonneg_left ri Rp.le
      _ = _ := by ring
  have b1 := m1.bounds (by positivity) (by norm_num)
  have h1 := Is.mul hR invSR64 (fits64' 40 (by norm_num) (by
    rw [abs_of_nonneg (by linarith [mul_pos Rp (show (0 : ℚ) < 1 / 48000 by norm_num)])]
    norm_num at b1 hR1 ⊢; linarith))
  have m2 : Rel _ (b64.rnd (R * isr64)) (R * (1 / 48000)) := m1.trans (δ := (2 ^ 53)⁻¹) (by positivity)
    (Rel.rnd64 (.inr (by norm_num at b1 ⊢; linarith)))
  have b2 := m2.bounds (by positivity) (by norm_num)
  have h2 := Is.down h1 (fits32' 40 (by norm_num) (by
    rw [abs_of_nonneg (by linarith [mul_pos Rp (show (0 : ℚ) < 1 / 48000 by norm_num)])]
    norm_num at b2 hR1 ⊢; linarith))
  have m3 : Rel _ (b32.rnd (b64.rnd (R * isr64))) (R * (1 / 48000)) := m2.trans (δ := (2 ^ 24)⁻¹) (by positivity)
    (Rel.rnd32 (.inr (by norm_num at b2 ⊢; linarith)))
  -- speed
  have h3 := Is.down hV (fits32' 20 (by norm_num) (by rw [abs_of_pos Vp]; exact hV1))
  have m4 : Rel (2 ^ 24)⁻¹ (b32.rnd V) V := Rel.rnd32 (.inr (le_trans (by norm_num) hV0))
  have m5 := m3.mul (by positivity) Vp (by positivity) m4
  have σ0 : 0 < R * (1 / 48000) * V := by positivity
  have σ1 : (2 ^ 40)⁻¹ ≤ R * (1 / 48000) * V := by
    calc ((2 : ℚ) ^ 40)⁻¹ ≤ 1 * (1 / 48000) * (2 ^ 20)⁻¹ := by norm_num
      _ ≤ _ := by gcongr
  have σ2 : R * (1 / 48000) * V ≤ 2 ^ 35 := by
    calc R * (1 / 48000) * V ≤ (2 : ℚ) ^ 30 * (1 / 48000) * 2 ^ 20 := by gcongr
      _ ≤ _ := by norm_num
  have b5 := m5.bounds σ0 (by norm_num)
  have h5 := Is.mul h2 h3 (fits32' 36 (by norm_num) (by rw [abs_of_nonneg (by linarith)]; norm_num at b5 σ2 ⊢; linarith))
  have m6 := m5.trans (δ := (2 ^ 24)⁻¹) (by positivity) (Rel.rnd32 (.inr (by norm_num at b5 σ1 ⊢; linarith)))
  refine ⟨_, ⟨rfl, h5, rfl⟩, b32.rnd_nonneg (by linarith), ?_⟩
  unfold Rel at m6
  rw [show R * V / 48000 = R * (1 / 48000) * V by ring]
  generalize R * (1 / 48000) * V = σ at m6 σ0 ⊢
  generalize b32.rnd (b32.rnd (b64.rnd (R * isr64)) * b32.rnd V) = s at m6 ⊢
  norm_num at m6 ⊢
  linarith

/-- The position after `n` samples. -/
theorem resam_drift (t : List (Mono F32)) (hlen : t.length ≤ 2 ^ 24) {rate v : F64} {R V : ℚ} (hR : rate.Is R) (hV : v.Is V)
    (hR0 : 1 ≤ R) (hR1 : R ≤ 2 ^ 30) (hV0 : (2 ^ 20)⁻¹ ≤ V) (hV1 : V ≤ 2 ^ 20) (k : ℕ) (hk : k ≤ 24) (n : ℕ)
    (hn1 : n * (R * V / 48000 * (1 + (2 ^ 22)⁻¹) + 2 ^ ((k : ℤ) - 25)) ≤ 2 ^ k)
    (hn2 : n * (R * V / 48000 * (1 + (2 ^ 22)⁻¹) + 2 ^ ((k : ℤ) - 25)) + 3 ≤ t.length) :
    ∃ r p, afterR process n ((MonoResampler.new t rate 0 0).setPlaybackSpeed v) = .ok r ∧ r.data = t ∧ r.loopEnd = 0 ∧ r.ind.Is p ∧ 0 ≤ p ∧
      |p - n * (R * V / 48000)| ≤ n * (2 ^ ((k : ℤ) - 25) + (2 ^ 22)⁻¹ * (R * V / 48000)) := by
  obtain ⟨s, hs, s0, hse⟩ := resam_step t hR hV hR0 hR1 hV0 hV1
  have n0 : (0 : ℚ) ≤ n := by positivity
  have hs1 : n * (s + 2 ^ ((k : ℤ) - 25)) ≤ n * (R * V / 48000 * (1 + (2 ^ 22)⁻¹) + 2 ^ ((k : ℤ) - 25)) :=
    mul_le_mul_of_nonneg_left (by linarith [(abs_le.mp hse).2]) n0
  obtain ⟨r, p, h1, hst, h2, h3, h4⟩ := drift hs hlen s0 lit32_0 k hk n (hs1.trans hn1) ((add_le_add hs1 le_rfl).trans hn2)
  refine ⟨r, p, h1, hst.data, hst.le, h2, h3, ?_⟩
  calc |p - n * (R * V / 48000)| = |(p - n * s) + n * (s - R * V / 48000)| := by congr 1; ring
    _ ≤ n * 2 ^ ((k : ℤ) - 25) + n * ((2 ^ 22)⁻¹ * (R * V / 48000)) := by
      refine (abs_add_le _ _).trans (add_le_add h4 ?_)
      rw [abs_mul, abs_of_nonneg n0]
      exact mul_le_mul_of_nonneg_left hse n0
    _ = _ := by ring

/-- What holds (IEEE): with source rate `R` and speed `V`, as long as the position stays below `2^k` and three samples away from the end,
playback does not panic and after `n` samples the position differs from `n·R·V/48000` by at most `n` times
`2^(k-25) + 2^-22·R·V/48000`. Missing: a bound independent of the position, which does not hold. -/
theorem C107_drift_partial (t : List (Mono F32)) (hlen : t.length ≤ 2 ^ 24) {rate v : F64} {R V : ℚ} (hR : rate.Is R) (hV : v.Is V)
    (hR0 : 1 ≤ R) (hR1 : R ≤ 2 ^ 30) (hV0 : (2 ^ 20)⁻¹ ≤ V) (hV1 : V ≤ 2 ^ 20) (k : ℕ) (hk : k ≤ 24) (n : ℕ)
    (hn1 : n * (R * V / 48000 * (1 + (2 ^ 22)⁻¹) + 2 ^ ((k : ℤ) - 25)) ≤ 2 ^ k)
    (hn2 : n * (R * V / 48000 * (1 + (2 ^ 22)⁻¹) + 2 ^ ((k : ℤ) - 25)) + 3 ≤ t.length) :
    ∃ r p, afterR process n ((MonoResampler.new t rate 0 0).setPlaybackSpeed v) = .ok r ∧ r.ind.Is p ∧ 0 ≤ p ∧
      |p - n * (R * V / 48000)| ≤ n * (2 ^ ((k : ℤ) - 25) + (2 ^ 22)⁻¹ * (R * V / 48000)) := by
  obtain ⟨r, p, h1, -, -, h2, h3, h4⟩ := resam_drift t hlen hR hV hR0 hR1 hV0 hV1 k hk n hn1 hn2
  exact ⟨r, p, h1, h2, h3, h4⟩

/-- One second of a 44.1 kHz track of 2^16 samples, at normal speed: the position is right to 94 samples. -/
example : (48000 : ℚ) * (44100 * 1 / 48000 * (1 + (2 ^ 22)⁻¹) + 2 ^ ((16 : ℕ) - 25 : ℤ)) ≤ 2 ^ 16 ∧
    (48000 : ℚ) * (44100 * 1 / 48000 * (1 + (2 ^ 22)⁻¹) + 2 ^ ((16 : ℕ) - 25 : ℤ)) + 3 ≤ 65536 ∧
    (48000 : ℚ) * (2 ^ ((16 : ℕ) - 25 : ℤ) + (2 ^ 22)⁻¹ * (44100 * 1 / 48000)) ≤ 94 := by norm_num

/-- The step of a 44.1 kHz track at normal speed. -/
private theorem st44 (t : List (Mono F32)) : ResamSt t (15414067 / 16777216) (MonoWav.fromTrack (lit 44100 : F64) t).resam := by
  refine ⟨rfl, ?_, rfl⟩
  show ((SM.down ((lit 44100 : F64) * invSR) : F32) * SM.down (lit 1 : F64)).Is _
  decide +kernel

/-- Between `2^k` and `2^(k+1)` each step advances by at most `c` units `2^(k-23)`, if that is the multiple closest to the step. -/
private theorem stage {t : List (Mono F32)} {s : ℚ} (hlen : t.length ≤ 2 ^ 24) (hs0 : 0 ≤ s) (hs1 : s ≤ 2 ^ 24) (k : ℤ) (hk : -120 ≤ k) (c : ℕ)
    (hc : |s / 2 ^ (k - 23) - c| < 1 / 2) (hkl : 2 ^ 24 * (2 : ℚ) ^ (k - 23) + 3 ≤ t.length) {r : MonoResampler F32 F64} (h : ResamSt t s r) {p : ℚ}
    (hp : r.ind.Is p) (h0 : 0 ≤ p) (h1 : p ≤ 2 ^ 23 * (2 : ℚ) ^ (k - 23)) (j : ℕ) (hj : 2 ^ 23 + j * c + 1 ≤ 2 ^ 24) :
    ∃ r' p', afterR process j r = .ok r' ∧ ResamSt t s r' ∧ r'.ind.Is p' ∧ 0 ≤ p' ∧ p' ≤ (2 ^ 23 + j * c : ℕ) * (2 : ℚ) ^ (k - 23) := by
  have g0 : (0 : ℚ) < 2 ^ (k - 23) := by positivity
  induction j with
  | zero => exact ⟨r, p, rfl, h, hp, h0, by norm_num at h1 ⊢; exact h1⟩
  | succ j ih =>
    have hjc : (j + 1) * c = j * c + c := by ring
    obtain ⟨r', p', g1, g2, g3, g4, g5⟩ := ih (by omega)
    have hle : ((2 ^ 23 + j * c : ℕ) : ℚ) ≤ 2 ^ 24 := by exact_mod_cast (by omega : 2 ^ 23 + j * c ≤ 2 ^ 24)
    obtain ⟨y, r'', f1, f2, f3⟩ := g2.next hlen hs0 hs1 g3 g4 (by nlinarith)
    refine ⟨r'', _, afterR_succ g1 f1, f2, f3, b32.rnd_nonneg (by linarith), ?_⟩
    rw [hjc, ← Nat.add_assoc]
    exact rnd_add_le hk hc hs0 (by omega) (by omega) g5

private theorem afterR_add {G S E : Type} {p : G → Except E (S × G)} {m n : ℕ} {g h : G} (h1 : afterR p m g = .ok h) :
    afterR p (m + n) g = afterR p n h := by
  induction m generalizing g with
  | zero => cases h1; rw [Nat.zero_add]
  | succ m ih =>
    rw [Nat.add_right_comm, afterR]
    unfold afterR at h1
    split at h1
    · cases h1
    · exact ih h1

/-- IEEE, any 44.1 kHz track of more than `2^21` samples: after 2331049 output samples (48.6 s) the playback position is
at most `2^21`, more than 44499 samples (one second) behind where it should be. -/
theorem C107_pitch_violated (t : List (Mono F32)) (h0 : 2 ^ 21 + 3 ≤ t.length) (h1 : t.length ≤ 2 ^ 24) :
    ∃ r p, afterR process 2331049 (MonoWav.fromTrack (lit 44100 : F64) t).resam = .ok r ∧ r.data = t ∧ r.loopEnd = 0 ∧ r.ind.Is p ∧ 0 ≤ p ∧
      p ≤ 2 ^ 21 ∧ p + 44499 ≤ 2331049 * (44100 / 48000) := by
  have hl : (2097155 : ℚ) ≤ t.length := by exact_mod_cast h0
  obtain ⟨r1, p1, a1, a2, a3, a4, a5⟩ := drift (st44 t) h1 (by norm_num) lit32_0 17 (by norm_num) 142000 (by norm_num) (by norm_num; linarith)
  have a6 : p1 ≤ 2 ^ 17 := by
    have := (abs_le.mp a5).2
    norm_num at this ⊢
    linarith
  obtain ⟨r2, p2, b1, b2, b3, b4, b5⟩ := stage h1 (by norm_num) (by norm_num) 17 (by norm_num) 59 (by rw [abs_lt]; norm_num) (by norm_num; linarith)
    a2 a3 a4 (by norm_num at a6 ⊢; linarith) 142178 (by norm_num)
  obtain ⟨r3, p3, c1, c2, c3, c4, c5⟩ := stage h1 (by norm_num) (by norm_num) 18 (by norm_num) 29 (by rw [abs_lt]; norm_num) (by norm_num; linarith)
    b2 b3 b4 (by norm_num at b5 ⊢; linarith) 289261 (by norm_num)
  obtain ⟨r4, p4, d1, d2, d3, d4, d5⟩ := stage h1 (by norm_num) (by norm_num) 19 (by norm_num) 15 (by rw [abs_lt]; norm_num) (by norm_num; linarith)
    c2 c3 c4 (by norm_num at c5 ⊢; linarith) 559239 (by norm_num)
  obtain ⟨r5, p5, e1, e2, e3, e4, e5⟩ := stage h1 (by norm_num) (by norm_num) 20 (by norm_num) 7 (by rw [abs_lt]; norm_num) (by norm_num; linarith)
    d2 d3 d4 (by norm_num at d5 ⊢; linarith) 1198371 (by norm_num)
  refine ⟨r5, p5, ?_, e2.data, e2.le, e3, e4, by norm_num at e5 ⊢; linarith, by norm_num at e5 ⊢; linarith⟩
  rw [show 2331049 = 142000 + (142178 + (289261 + (559239 + 1198371))) by norm_num, afterR_add a1, afterR_add b1, afterR_add c1, afterR_add d1, e1]

/-- IEEE, as heard: a 44.1 kHz track that is silent up to sample `2^21 + 2` and 1 from there on is due to be at sample
2141651, where it has long been 1, but still plays 0. -/
theorem C107_onset_violated (t : List (Mono F32)) (h0 : 2141653 < t.length) (h1 : t.length ≤ 2 ^ 24)
    (hz : ∀ i (h : i < t.length), (t[i]).mono = if i < 2 ^ 21 + 3 then lit 0 else lit 1) :
    (∃ y, nthR MonoWav.process (MonoWav.fromTrack (lit 44100 : F64) t) 2331049 = .ok y ∧ y.Is 0) ∧
    ⌊(2331049 * (44100 / 48000) : ℚ)⌋₊ = 2141651 ∧ (t[2141651]).mono = lit 1 ∧ (t[2141652]).mono = lit 1 := by
  obtain ⟨r, p, g1, g2, g3, g4, g5, g6, -⟩ := C107_pitch_violated t (by omega) h1
  subst g2
  refine ⟨?_, ?_, ?_, ?_⟩
  · obtain ⟨k2, hi, hj, hy⟩ := resam_output r g3 h1 g4 g5 (by
      have : (2141653 : ℚ) ≤ r.data.length := by exact_mod_cast h0.le
      norm_num at g6; linarith)
    have k1 : ⌊p⌋₊ ≤ 2 ^ 21 := Nat.floor_le_of_le (by exact_mod_cast g6)
    rw [hz _ hi, hz _ hj, if_pos (by omega), if_pos (by omega)] at hy
    rw [wav_nth]
    unfold nthR
    rw [g1]
    simp only [hy]
    refine ⟨_, rfl, ?_⟩
    obtain ⟨f, hf⟩ : ∃ f, (Flt.fract r.ind).Is f := by
      have htr := g4.trunc
      refine ⟨_, Is.sub g4 htr (fits32' 0 (by norm_num) ?_)⟩
      rw [abs_sub_comm]
      exact (abs_truncQ_sub_lt p).le
    have hd := Is.sub lit32_0 lit32_0 (by rw [sub_self]; exact fits32' 0 (by norm_num) (by norm_num))
    rw [sub_self, b32.rnd_zero] at hd
    have hm := Is.mul hf hd (by rw [mul_zero]; exact fits32' 0 (by norm_num) (by norm_num))
    rw [mul_zero, b32.rnd_zero] at hm
    have hs := Is.add lit32_0 hm (by rw [add_zero]; exact fits32' 0 (by norm_num) (by norm_num))
    rwa [add_zero, b32.rnd_zero] at hs
  · rw [Nat.floor_eq_iff (by norm_num)]; norm_num
  · rw [hz _ (by omega), if_neg (by norm_num)]
  · rw [hz _ (by omega), if_neg (by norm_num)]

/-- Such a track exists. -/
example : ∃ t : List (Mono F32), 2141653 < t.length ∧ t.length ≤ 2 ^ 24 ∧
    ∀ i (h : i < t.length), (t[i]).mono = if i < 2 ^ 21 + 3 then lit 0 else lit 1 :=
  ⟨List.ofFn fun i : Fin 2200000 => ⟨if i.val < 2 ^ 21 + 3 then lit 0 else lit 1⟩, by rw [List.length_ofFn]; norm_num,
    by rw [List.length_ofFn]; norm_num, fun i h => by rw [List.getElem_ofFn]⟩

/-! ## C108 -/

/-- IEEE: the property fails. Playing three samples 0, 0, 1 at speed `1 - 2^-24`, the second output is read just below position 1,
between two samples that are 0, and is `1 - 2^-24`. -/
theorem C108_glitch_violated :
    (nthR process ((MonoResampler.new [⟨(lit 0 : F32)⟩, ⟨lit 0⟩, ⟨lit 1⟩] (lit 48000 : F64) 0 0).setPlaybackSpeed (lit (1 - 1 / 2 ^ 24))) 1).toOption
      = some (lit (1 - 1 / 2 ^ 24)) ∧
    (afterR process 1 ((MonoResampler.new [⟨(lit 0 : F32)⟩, ⟨lit 0⟩, ⟨lit 1⟩] (lit 48000 : F64) 0 0).setPlaybackSpeed (lit (1 - 1 / 2 ^ 24)))).toOption.map (·.ind)
      = some (lit (1 - 1 / 2 ^ 24)) := by
  decide +kernel

/-- Unless the next sample number is a power of two, `p + 1` is exact. -/
private theorem next_exact {p : ℚ} (hr : b32.Repr p) (h0 : 0 ≤ p) (h1 : p < 2 ^ 24) (hn : ∀ j : ℕ, ⌊p⌋₊ + 1 ≠ 2 ^ j) : b32.rnd (p + 1) = p + 1 := by
  have p1 : 1 ≤ p := by
    by_contra h
    exact hn 0 (by rw [Nat.floor_eq_zero.mpr (not_le.mp h)]; norm_num)
  have pp : 0 < p := by linarith
  obtain ⟨i1, i2⟩ := ilog2_spec pp.ne'
  rw [abs_of_pos pp] at i1 i2
  have j0 : 0 ≤ ilog2 p := le_ilog2_of pp.ne' (by rw [abs_of_pos pp, pow2_zero]; exact p1)
  have j24 : ilog2 p < 24 := ilog2_lt_of pp.ne' (by rw [abs_of_pos pp]; exact lt_of_lt_of_le h1 (by decide +kernel))
  obtain ⟨j, hj⟩ := Int.eq_ofNat_of_zero_le j0
  rw [hj] at i1 i2 j24
  rw [show ((j : ℤ) + 1) = ((j + 1 : ℕ) : ℤ) by push_cast; rfl, pow2_eq, zpow_natCast] at i2
  rw [pow2_eq, zpow_natCast] at i1
  -- one more sample still lies in the same binade
  have f1 : ⌊p⌋₊ + 2 ≤ 2 ^ (j + 1) := by
    have : ⌊p⌋₊ < 2 ^ (j + 1) := by
      rw [Nat.floor_lt h0]; exact_mod_cast i2
    have := hn (j + 1)
    omega
  have f2 : p + 1 < 2 ^ (j + 1) := by
    have h3 : ((⌊p⌋₊ + 2 : ℕ) : ℚ) ≤ 2 ^ (j + 1) := by exact_mod_cast f1
    push_cast at h3
    linarith [Nat.lt_floor_add_one p]
  have hu : b32.ue p = (j : ℤ) - 23 := by
    unfold Fmt.ue
    rw [hj]
    show max ((j : ℤ) - ((24 : ℕ) - 1)) (-149) = _
    push_cast
    omega
  have hp := b32.rnd_of_repr hr
  unfold Fmt.rnd at hp
  rw [hu] at hp
  generalize rne (p * pow2 (-((j : ℤ) - 23))) = m at hp
  have hg : pow2 ((j : ℤ) - 23) * 2 ^ (23 - j) = 1 := by
    rw [← zpow_natCast, ← pow2_eq, ← pow2_add, show (j : ℤ) - 23 + ((23 - j : ℕ) : ℤ) = 0 by omega, pow2_zero]
  have e : p + 1 = ((m + 2 ^ (23 - j) : ℤ) : ℚ) * pow2 ((j : ℤ) - 23) := by
    push_cast
    rw [add_mul, hp, mul_comm ((2 : ℚ) ^ (23 - j)), hg]
  refine b32.rnd_of_repr ⟨m + 2 ^ (23 - j), (j : ℤ) - 23, e, ?_, by show (-149 : ℤ) ≤ _; omega⟩
  have gp := pow2_pos ((j : ℤ) - 23)
  have h24 : (2 : ℚ) ^ (j + 1) = 2 ^ 24 * pow2 ((j : ℤ) - 23) := by
    rw [← zpow_natCast, ← zpow_natCast, ← pow2_eq, ← pow2_eq, ← pow2_add]
    congr 1
    push_cast
    ring
  have h4 : ((m + 2 ^ (23 - j) : ℤ) : ℚ) < 2 ^ 24 := by
    rw [e, h24] at f2
    exact lt_of_mul_lt_mul_right f2 gp.le
  have h5 : 0 < ((m + 2 ^ (23 - j) : ℤ) : ℚ) := by
    have : 0 < p + 1 := by linarith
    rw [e] at this
    exact (pos_iff_pos_of_mul_pos this).mpr gp
  have h6 : m + 2 ^ (23 - j) < 2 ^ 24 := by exact_mod_cast h4
  have h7 : 0 < m + 2 ^ (23 - j) := by exact_mod_cast h5
  rw [abs_of_pos h7]
  exact h6.le

/-- Rounding errors of `a + f*(b-a)`. -/
theorem resam_interp_err {x y w : F32} {a b f X : ℚ} (hx : x.Is a) (hy : y.Is b) (hw : w.Is (b32.rnd f)) (f0 : 0 ≤ f) (f1 : f ≤ 1)
    (hX : X ≤ 2 ^ 90) (ha : |a| ≤ X) (hb : |b| ≤ X) :
    ∃ z, (x + w * (y - x)).Is z ∧ |z - ((1 - f) * a + f * b)| ≤ (2 ^ 21)⁻¹ * X + (2 ^ 140)⁻¹ := by
  have X0 : 0 ≤ X := (abs_nonneg _).trans ha
  have dX : |b - a| ≤ 2 * X := (abs_sub _ _).trans (by linarith)
  have e1 : |b32.rnd f - f| ≤ (2 ^ 25)⁻¹ := by
    have := err32 (q := f) 0 (by norm_num) (by rw [abs_of_nonneg f0]; simpa using f1)
    rwa [show (2 : ℚ) ^ ((0 : ℤ) - 25) = (2 ^ 25)⁻¹ by norm_num] at this
  have F0 := b32.rnd_nonneg f0
  have F1 : b32.rnd f ≤ 1 := by
    have := rnd32_pow2_le 0 (q := f) (by rw [abs_of_nonneg f0]; simpa using f1)
    rwa [abs_of_nonneg F0, pow_zero] at this
  have i1 := Is.sub hy hx (fits32' 91 (by norm_num) (dX.trans (by norm_num at hX ⊢; linarith)))
  have e2 := mixed32 (b - a)
  generalize b32.rnd (b - a) = D at *
  have hD : |D| ≤ 9 / 4 * X + (2 ^ 149)⁻¹ := by
    have := abs_sub_abs_le_abs_sub D (b - a)
    norm_num at e2 ⊢; linarith
  generalize b32.rnd f = F at *
  have hFD : |F * D| ≤ |D| := by
    rw [abs_mul, abs_of_nonneg F0]; exact mul_le_of_le_one_left (abs_nonneg _) F1
  have i2 := Is.mul hw i1 (fits32' 93 (by norm_num) (hFD.trans (hD.trans (by norm_num at hX ⊢; linarith))))
  have e3 := (mixed32 (F * D)).trans (add_le_add (mul_le_mul_of_nonneg_left hFD (by positivity)) le_rfl)
  generalize b32.rnd (F * D) = P at *
  -- the product
  have e4 : |F * D - f * (b - a)| ≤ (2 ^ 25)⁻¹ * |D| + |D - (b - a)| := by
    rw [show F * D - f * (b - a) = (F - f) * D + f * (D - (b - a)) by ring]
    refine (abs_add_le _ _).trans (add_le_add ?_ ?_)
    · rw [abs_mul]; exact mul_le_mul_of_nonneg_right e1 (abs_nonneg _)
    · rw [abs_mul, abs_of_nonneg f0]; exact mul_le_of_le_one_left (abs_nonneg _) f1
  have e5 : |P - f * (b - a)| ≤ |P - F * D| + |F * D - f * (b - a)| := abs_sub_le _ _ _
  have exact' : |(1 - f) * a + f * b| ≤ X := by
    refine (abs_add_le _ _).trans ?_
    rw [abs_mul, abs_mul, abs_of_nonneg f0, abs_of_nonneg (by linarith : 0 ≤ 1 - f)]
    nlinarith
  have e6 : |a + P| ≤ 2 * X + (2 ^ 148)⁻¹ := by
    have : |a + P| ≤ |(1 - f) * a + f * b| + |P - f * (b - a)| := by
      rw [show a + P = ((1 - f) * a + f * b) + (P - f * (b - a)) by ring]; exact abs_add_le _ _
    norm_num at e2 e3 e4 hD ⊢
    linarith
  have i3 := Is.add hx i2 (fits32' 93 (by norm_num) (e6.trans (by norm_num at hX ⊢; linarith)))
  have e7 := mixed32 (a + P)
  refine ⟨_, i3, ?_⟩
  have e8 : |b32.rnd (a + P) - ((1 - f) * a + f * b)| ≤ |b32.rnd (a + P) - (a + P)| + |P - f * (b - a)| := by
    rw [show b32.rnd (a + P) - ((1 - f) * a + f * b) = (b32.rnd (a + P) - (a + P)) + (P - f * (b - a)) by ring]; exact abs_add_le _ _
  norm_num at e2 e3 e4 e6 e7 hD ⊢
  linarith

/-- What holds (IEEE): at any position `p` at least three samples from the end whose next sample number is not a power of two, the output
is the linear interpolation of the track at `p` up to `2^-21` times the peak. Missing: the positions just before sample number `2^j`
(where the next sample may be skipped) and the last three samples. -/
theorem C108_output_partial (r : MonoResampler F32 F64) (hl : r.loopEnd = 0) (hlen : r.data.length ≤ 2 ^ 24) {p : ℚ}
    (hp : r.ind.Is p) (h0 : 0 ≤ p) (h1 : p + 3 ≤ r.data.length) (hn : ∀ j : ℕ, ⌊p⌋₊ + 1 ≠ 2 ^ j) (v : ℕ → ℚ) {X : ℚ} (hX : X ≤ 2 ^ 90)
    (hv : ∀ i (h : i < r.data.length), (r.data[i]).mono.Is (v i) ∧ |v i| ≤ X) :
    ∃ y z r', r.process = .ok (y, r') ∧ y.Is z ∧
      |z - ((1 - Int.fract p) * v ⌊p⌋₊ + Int.fract p * v (⌊p⌋₊ + 1))| ≤ (2 ^ 21)⁻¹ * X + (2 ^ 140)⁻¹ := by
  have hlenq : (r.data.length : ℚ) ≤ 16777216 := by exact_mod_cast hlen
  obtain ⟨_, hi, hj, hy⟩ := resam_output r hl hlen hp h0 h1
  have hidx : ⌊b32.rnd (p + 1)⌋₊ = ⌊p⌋₊ + 1 := by
    rw [next_exact hp.repr h0 (by norm_num; linarith) hn, Nat.floor_add_one h0]
  obtain ⟨a1, a2⟩ := hv _ hi
  obtain ⟨b1, b2⟩ := hv _ hj
  rw [hidx] at b2
  rw [show v ⌊b32.rnd (p + 1)⌋₊ = v (⌊p⌋₊ + 1) by rw [hidx]] at b1
  have hfr : (Flt.fract r.ind).Is (b32.rnd (Int.fract p)) := by
    have hs := Is.sub hp hp.trunc (fits32' 0 (by norm_num) (by rw [abs_sub_comm]; exact (abs_truncQ_sub_lt p).le))
    rwa [truncQ_of_nonneg h0] at hs
  obtain ⟨z, z1, z2⟩ := resam_interp_err a1 b1 hfr (Int.fract_nonneg p) (Int.fract_lt_one p).le hX a2 b2
  exact ⟨_, z, _, hy, z1, z2⟩

/-- A concrete state: position 9/2 in a track of eight samples 1/2. -/
example : ∃ (r : MonoResampler F32 F64) (p : ℚ), r.loopEnd = 0 ∧ r.data.length ≤ 2 ^ 24 ∧ r.ind.Is p ∧ 0 ≤ p ∧ p + 3 ≤ r.data.length ∧
    (∀ j : ℕ, ⌊p⌋₊ + 1 ≠ 2 ^ j) ∧ ∀ i (h : i < r.data.length), (r.data[i]).mono.Is (1 / 2) ∧ |(1 / 2 : ℚ)| ≤ 1 := by
  have hf : ⌊(9 / 2 : ℚ)⌋₊ = 4 := by rw [Nat.floor_eq_iff (by norm_num)]; norm_num
  refine ⟨⟨List.replicate 8 ⟨lit (1 / 2)⟩, lit (9 / 2), lit 1, lit 1, 0, 0⟩, 9 / 2, rfl, by simp, by decide +kernel, by norm_num,
    by simp; norm_num, fun j => ?_, fun i h => ⟨?_, by norm_num⟩⟩
  · rw [hf]
    intro h
    rcases j with _ | j
    · simp at h
    · rw [pow_succ] at h; omega
  · simp only [List.getElem_replicate]
    decide +kernel

end Verif
