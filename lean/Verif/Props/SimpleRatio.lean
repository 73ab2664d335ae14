import Verif.Props.ResamplerF32

/-! # Tracks whose rate is a simple ratio: C166

44.1 kHz tracks drift and may glitch in `f32` (C107, C108). When the step per sample is a fraction with a power of two below,
`a/2^k`, as for 96, 24 or 72 kHz, or for 48 kHz at half, double or one and a half speed, there is no drift: sample number `n`
is the track at exactly `n·a/2^k`, from the first sample to the last, and then silence. -/

namespace Verif
open Fl MonoResampler

/-! ## Lemmas -/

private theorem dy_repr {m k : ℕ} (hm : m ≤ 2 ^ 24) (hk : k ≤ 24) : b32.Repr ((m : ℚ) / 2 ^ k) := by
  refine ⟨m, -(k : ℤ), ?_, by rw [abs_of_nonneg (by positivity)]; exact_mod_cast hm, by show (-149 : ℤ) ≤ _; omega⟩
  rw [pow2_eq, zpow_neg, zpow_natCast, div_eq_mul_inv]
  push_cast
  rfl

private theorem dy_floor (m k : ℕ) : ⌊(m : ℚ) / 2 ^ k⌋ = ((m / 2 ^ k : ℕ) : ℤ) := by
  rw [Int.floor_eq_iff]
  have h0 : (0 : ℚ) < 2 ^ k := by positivity
  rw [le_div_iff₀ h0, div_lt_iff₀ h0]
  push_cast
  constructor
  · exact_mod_cast Nat.div_mul_le_self m (2 ^ k)
  · have := Nat.lt_div_mul_add (a := m) (b := 2 ^ k) (by positivity)
    have h2 : m < (m / 2 ^ k + 1) * 2 ^ k := by rw [add_mul, one_mul]; exact this
    exact_mod_cast h2

private theorem dy_fract (m k : ℕ) : Int.fract ((m : ℚ) / 2 ^ k) = ((m % 2 ^ k : ℕ) : ℚ) / 2 ^ k := by
  have h0 : (0 : ℚ) < 2 ^ k := by positivity
  unfold Int.fract
  rw [dy_floor, eq_div_iff h0.ne', sub_mul, div_mul_cancel₀ _ h0.ne']
  have := Nat.div_add_mod' m (2 ^ k)
  have h2 : ((m / 2 ^ k : ℕ) : ℚ) * 2 ^ k + ((m % 2 ^ k : ℕ) : ℚ) = m := by exact_mod_cast this
  rw [Int.cast_natCast]
  linarith

private theorem dy_usize {x : F32} {m k : ℕ} (hx : x.Is ((m : ℚ) / 2 ^ k)) (hm : m < 2 ^ 64) :
    toUsize x = m / 2 ^ k ∧ toUsize (Flt.trunc x) = m / 2 ^ k := by
  have h0 : (0 : ℚ) ≤ (m : ℚ) / 2 ^ k := by positivity
  have hlt : m / 2 ^ k < 2 ^ 64 := lt_of_le_of_lt (Nat.div_le_self _ _) hm
  constructor
  · rw [hx.toUsize, truncQ_of_nonneg h0, dy_floor]
    generalize m / 2 ^ k = j at *
    omega
  · rw [hx.trunc.toUsize, truncQ_int, truncQ_of_nonneg h0, dy_floor]
    generalize m / 2 ^ k = j at *
    omega

/-- One sample from the position `m/2^k` inside the track. -/
private theorem dy_step {t : List (Mono F32)} {v : ℕ → ℚ} {X : ℚ} (hX : X ≤ 2 ^ 90) (hv : ∀ i (h : i < t.length), (t[i]).mono.Is (v i) ∧ |v i| ≤ X)
    {a k m : ℕ} (hk : k ≤ 24) (hlen : t.length * 2 ^ k + a ≤ 2 ^ 24) {r : MonoResampler F32 F64} (hr : ResamSt t ((a : ℚ) / 2 ^ k) r)
    (hi : r.ind.Is ((m : ℚ) / 2 ^ k)) (hm : m < t.length * 2 ^ k) :
    ∃ y z r', r.process = .ok (y, r') ∧ y.Is z ∧
      |z - ((1 - ((m % 2 ^ k : ℕ) : ℚ) / 2 ^ k) * v (m / 2 ^ k) + ((m % 2 ^ k : ℕ) : ℚ) / 2 ^ k * v (min (m / 2 ^ k + 1) (t.length - 1)))| ≤
        (2 ^ 21)⁻¹ * X + (2 ^ 140)⁻¹ ∧
      (m % 2 ^ k = 0 → z = v (m / 2 ^ k) ∧ (z ≠ 0 → ∀ h : m / 2 ^ k < t.length, y = t[m / 2 ^ k].mono)) ∧
      ResamSt t ((a : ℚ) / 2 ^ k) r' ∧ r'.ind.Is (((m + a : ℕ) : ℚ) / 2 ^ k) := by
  obtain ⟨hd, hs, hl⟩ := hr
  subst hd
  have h2k : 0 < 2 ^ k := by positivity
  have h2q : (0 : ℚ) < 2 ^ k := by positivity
  have h2q1 : (1 : ℚ) ≤ 2 ^ k := one_le_pow₀ (by norm_num)
  have hq : m / 2 ^ k < r.data.length := Nat.div_lt_of_lt_mul (by rwa [mul_comm])
  obtain ⟨u1, u2⟩ := dy_usize hi (by omega)
  have hsmall : ∀ j : ℕ, j ≤ 2 ^ 24 → |(j : ℚ) / 2 ^ k| ≤ 2 ^ 24 := by
    intro j hj
    rw [abs_of_nonneg (by positivity)]
    have : (j : ℚ) ≤ 2 ^ 24 := by exact_mod_cast hj
    exact (div_le_self (by positivity) h2q1).trans this
  have hlen2 : r.data.length ≤ r.data.length * 2 ^ k := Nat.le_mul_of_pos_right _ h2k
  have hnext : r.nextSample = .ok (r.data[min (m / 2 ^ k + 1) (r.data.length - 1)]'(by omega)).mono := by
    unfold nextSample
    simp only [u2]
    rw [if_neg (by omega), if_neg (by tauto)]
    by_cases hlast : m / 2 ^ k + 1 ≥ r.data.length
    · rw [if_pos hlast]
      have e : min (m / 2 ^ k + 1) (r.data.length - 1) = m / 2 ^ k := by omega
      simp only [e]
      exact at'_ok r hq
    · rw [if_neg hlast]
      have hm1 : m + 2 ^ k ≤ 2 ^ 24 := by
        have h1 : (m / 2 ^ k + 2) * 2 ^ k ≤ r.data.length * 2 ^ k := Nat.mul_le_mul_right _ (by omega)
        have h2 := Nat.lt_div_mul_add (a := m) h2k
        rw [add_mul] at h1
        omega
      have he : (m : ℚ) / 2 ^ k + 1 = ((m + 2 ^ k : ℕ) : ℚ) / 2 ^ k := by
        push_cast
        rw [add_div, div_self h2q.ne']
      have hadd := Is.add hi lit32_1 (by rw [he]; exact fits32' 24 (by norm_num) (hsmall _ hm1))
      rw [he, b32.rnd_of_repr (dy_repr hm1 hk)] at hadd
      rw [(dy_usize hadd (by omega)).2, Nat.add_div_right _ h2k]
      have e : min (m / 2 ^ k + 1) (r.data.length - 1) = m / 2 ^ k + 1 := by omega
      simp only [e]
      exact at'_ok r (by omega)
  have h1 : r.at' (toUsize (Flt.trunc r.ind)) = .ok r.data[m / 2 ^ k].mono := by rw [u2]; exact at'_ok r hq
  obtain ⟨x1, x2⟩ := hv _ hq
  obtain ⟨w1, w2⟩ := hv (min (m / 2 ^ k + 1) (r.data.length - 1)) (by omega)
  have h0 : (0 : ℚ) ≤ (m : ℚ) / 2 ^ k := by positivity
  have hfr : (Flt.fract r.ind).Is (b32.rnd (Int.fract ((m : ℚ) / 2 ^ k))) := by
    have hs := Is.sub hi hi.trunc (fits32' 0 (by norm_num) (by rw [abs_sub_comm]; exact (abs_truncQ_sub_lt _).le))
    rwa [truncQ_of_nonneg h0] at hs
  obtain ⟨z, z1, z2⟩ := resam_interp_err x1 w1 hfr (Int.fract_nonneg _) (Int.fract_lt_one _).le hX x2 w2
  rw [dy_fract] at z2 hfr
  refine ⟨_, z, _, process_eq r (by rw [u1]; omega) hnext h1, z1, z2, ?_, ?_, ?_⟩
  · intro hz
    rw [hz] at hfr
    rw [show ((0 : ℕ) : ℚ) / 2 ^ k = 0 by simp, b32.rnd_zero] at hfr
    have hdiff := Is.sub w1 x1 (Fmt.fits32 ((abs_sub _ _).trans (by
      calc _ ≤ X + X := add_le_add w2 x2
        _ ≤ 2 ^ 90 + 2 ^ 90 := add_le_add hX hX
        _ ≤ 2 ^ 100 := by norm_num)))
    have hmul := Is.mul hfr hdiff (by rw [zero_mul]; exact fits32' 0 (by norm_num) (by norm_num))
    rw [zero_mul, b32.rnd_zero] at hmul
    have hy := Is.add x1 hmul (by rw [add_zero]; exact x1.fits)
    rw [add_zero, x1.rnd] at hy
    have hzv : z = v (m / 2 ^ k) := z1.unique hy
    exact ⟨hzv, fun h0 _ => Is.eq_of_ne hy x1 (hzv ▸ h0)⟩
  · rw [resam_advance r hl]; exact ⟨rfl, hs, hl⟩
  · rw [resam_advance r hl]
    have he : (m : ℚ) / 2 ^ k + (a : ℚ) / 2 ^ k = ((m + a : ℕ) : ℚ) / 2 ^ k := by
      push_cast
      rw [add_div]
    have hadd := Is.add hi hs (by rw [he]; exact fits32' 24 (by norm_num) (hsmall _ (by omega)))
    rwa [he, b32.rnd_of_repr (dy_repr (by omega) hk)] at hadd

private theorem dy_after {t : List (Mono F32)} {v : ℕ → ℚ} {X : ℚ} (hX : X ≤ 2 ^ 90) (hv : ∀ i (h : i < t.length), (t[i]).mono.Is (v i) ∧ |v i| ≤ X)
    {a k : ℕ} (hk : k ≤ 24) (hlen : t.length * 2 ^ k + a ≤ 2 ^ 24) {r : MonoResampler F32 F64} (hr : ResamSt t ((a : ℚ) / 2 ^ k) r) (h0 : r.ind.Is 0) (n : ℕ) :
    ∃ (r' : MonoResampler F32 F64) (m : ℕ), afterR process n r = .ok r' ∧ ResamSt t ((a : ℚ) / 2 ^ k) r' ∧ r'.ind.Is ((m : ℚ) / 2 ^ k) ∧ m ≤ 2 ^ 24 ∧
      (n * a < t.length * 2 ^ k → m = n * a) ∧ (t.length * 2 ^ k ≤ n * a → t.length * 2 ^ k ≤ m) := by
  induction n with
  | zero => exact ⟨r, 0, rfl, hr, by simpa using h0, by omega, by simp, by omega⟩
  | succ n ih =>
    obtain ⟨r', m, h1, h2, h3, h4, h5, h6⟩ := ih
    have h2k : 0 < 2 ^ k := by positivity
    by_cases hin : n * a < t.length * 2 ^ k
    · have hm := h5 hin
      obtain ⟨y, z, r'', e1, -, -, -, e2, e3⟩ := dy_step hX hv hk hlen h2 h3 (by omega)
      have e : m + a = (n + 1) * a := by rw [hm, add_mul, one_mul]
      exact ⟨r'', m + a, afterR_succ h1 e1, e2, e3, by omega, fun _ => e, fun h => e ▸ h⟩
    · have hm := h6 (not_lt.mp hin)
      have hn : n * a ≤ (n + 1) * a := Nat.mul_le_mul_right _ (by omega)
      have hsil : toUsize r'.ind ≥ r'.data.length := by
        rw [(dy_usize h3 (by omega)).1, h2.data]
        exact (Nat.le_div_iff_mul_le h2k).mpr hm
      exact ⟨r', m, afterR_succ h1 (process_silent r' ⟨hsil, h2.le⟩), h2, h3, h4, fun h => by omega, fun _ => hm⟩

/-! ## Theorems -/

/-- A track played with the step `a/2^k`, if its length in steps of `2^-k` (and one step beyond) is at most `2^24`. Sample
number `n` is the straight line between the two samples around `n·a/2^k`, up to `2^-21` times the peak; where that is a whole
number it is the sample of the track bit for bit (but `-0.0` may come out as `0.0`). In the last interval the last sample is
held. From the end of the track on there is silence. -/
theorem C166_play (t : List (Mono F32)) (v : ℕ → ℚ) (X : ℚ) (hX : X ≤ 2 ^ 90) (hv : ∀ i (h : i < t.length), (t[i]).mono.Is (v i) ∧ |v i| ≤ X)
    (rate speed : F64) (a k : ℕ) (hk : k ≤ 24) (hst : (SM.down (rate * invSR) * SM.down speed : F32).Is ((a : ℚ) / 2 ^ k))
    (hlen : t.length * 2 ^ k + a ≤ 2 ^ 24) (n : ℕ) :
    (∀ h : n * a / 2 ^ k < t.length, ∃ y z, nthR process ((MonoResampler.new t rate 0 0).setPlaybackSpeed speed) n = .ok y ∧ y.Is z ∧
      |z - ((1 - ((n * a % 2 ^ k : ℕ) : ℚ) / 2 ^ k) * v (n * a / 2 ^ k) +
        ((n * a % 2 ^ k : ℕ) : ℚ) / 2 ^ k * v (min (n * a / 2 ^ k + 1) (t.length - 1)))| ≤ (2 ^ 21)⁻¹ * X + (2 ^ 140)⁻¹ ∧
      (n * a % 2 ^ k = 0 → z = v (n * a / 2 ^ k) ∧ (z ≠ 0 → y = t[n * a / 2 ^ k].mono))) ∧
    (t.length ≤ n * a / 2 ^ k → nthR process ((MonoResampler.new t rate 0 0).setPlaybackSpeed speed) n = .ok (lit 0)) := by
  have h2k : 0 < 2 ^ k := by positivity
  obtain ⟨r, m, h1, h2, h3, h4, h5, h6⟩ := dy_after (r := (MonoResampler.new t rate 0 0).setPlaybackSpeed speed) hX hv hk hlen ⟨rfl, hst, rfl⟩ lit32_0 n
  unfold nthR
  rw [h1]
  constructor
  · intro h
    have hin : n * a < t.length * 2 ^ k := (Nat.div_lt_iff_lt_mul h2k).mp h
    have hm := h5 hin
    subst hm
    obtain ⟨y, z, r', e1, e2, e3, e4, -, -⟩ := dy_step hX hv hk hlen h2 h3 hin
    exact ⟨y, z, by simp only [e1]; rfl, e2, e3, fun h0 => ⟨(e4 h0).1, fun hz => (e4 h0).2 hz h⟩⟩
  · intro h
    have hm := h6 ((Nat.le_div_iff_mul_le h2k).mp h)
    have hsil : toUsize r.ind ≥ r.data.length := by
      rw [(dy_usize h3 (by omega)).1, h2.data]
      exact (Nat.le_div_iff_mul_le h2k).mpr hm
    simp only [process_silent r ⟨hsil, h2.le⟩]
    rfl

/-- Source rates and speeds with such steps: rate, speed, `a`, `k`. -/
def simpleRatios : List (ℚ × ℚ × ℕ × ℕ) :=
  [(48000, 1, 1, 0), (96000, 1, 2, 0), (192000, 1, 4, 0), (384000, 1, 8, 0), (24000, 1, 1, 1), (12000, 1, 1, 2), (6000, 1, 1, 3), (72000, 1, 3, 1),
    (36000, 1, 3, 2), (18000, 1, 3, 3), (48000, 1 / 2, 1, 1), (48000, 1 / 4, 1, 2), (48000, 3 / 4, 3, 2), (48000, 5 / 4, 5, 2), (48000, 3 / 2, 3, 1),
    (48000, 2, 2, 0), (48000, 3, 3, 0), (48000, 4, 4, 0), (96000, 1 / 2, 1, 0), (24000, 2, 1, 0), (24000, 3 / 2, 3, 2)]

/-- `1.0/48000.0` is rounded, but for these rates and speeds the step comes out exactly. -/
theorem C166_steps : ∀ p ∈ simpleRatios, (SM.down ((lit p.1 : F64) * invSR) * SM.down (lit p.2.1 : F64) : F32).Is ((p.2.2.1 : ℚ) / 2 ^ p.2.2.2) ∧
    p.1 * p.2.1 / 48000 = (p.2.2.1 : ℚ) / 2 ^ p.2.2.2 ∧ p.2.2.2 ≤ 24 := by
  decide +kernel

/-- A 96 kHz track of up to 5.8 minutes divided by two plays every other sample, bit for bit. -/
theorem C166_double (t : List (Mono F32)) (v : ℕ → ℚ) (hv : ∀ i (h : i < t.length), (t[i]).mono.Is (v i) ∧ |v i| ≤ 2 ^ 90)
    (hlen : t.length + 2 ≤ 2 ^ 24) (n : ℕ) :
    (∀ h : 2 * n < t.length, ∃ y, nthR MonoWav.process (MonoWav.fromTrack (lit 96000 : F64) t) n = .ok y ∧ y.Is (v (2 * n)) ∧
      (v (2 * n) ≠ 0 → y = t[2 * n].mono)) ∧
    (t.length ≤ 2 * n → nthR MonoWav.process (MonoWav.fromTrack (lit 96000 : F64) t) n = .ok (lit 0)) := by
  have hs := (C166_steps (96000, 1, 2, 0) (by decide)).1
  obtain ⟨k1, k2⟩ := C166_play t v (2 ^ 90) le_rfl hv (lit 96000) (lit 1) 2 0 (by omega) hs (by simpa using hlen) n
  have e : (MonoResampler.new t (lit 96000 : F64) 0 0).setPlaybackSpeed (lit 1 : F64) = (MonoWav.fromTrack (lit 96000 : F64) t).resam := rfl
  have e2 : n * 2 / 2 ^ 0 = 2 * n := by omega
  rw [e] at k1 k2
  rw [wav_nth]
  simp only [e2] at k1 k2
  refine ⟨fun h => ?_, k2⟩
  obtain ⟨y, z, y1, y2, -, y3⟩ := k1 h
  obtain ⟨y4, y5⟩ := y3 (by omega)
  exact ⟨y, y1, y4 ▸ y2, fun h0 => y5 (y4 ▸ h0)⟩

/-- Non-vacuity: three samples at half speed. -/
example : ∃ (t : List (Mono F32)) (v : ℕ → ℚ), (∀ i (h : i < t.length), (t[i]).mono.Is (v i) ∧ |v i| ≤ 1) ∧ (1 : ℚ) ≤ 2 ^ 90 ∧
    (SM.down ((lit 48000 : F64) * invSR) * SM.down (lit (1 / 2) : F64) : F32).Is (((1 : ℕ) : ℚ) / 2 ^ 1) ∧ t.length * 2 ^ 1 + 1 ≤ 2 ^ 24 ∧
    ((List.range 7).map fun n => (nthR process ((MonoResampler.new t (lit 48000 : F64) 0 0).setPlaybackSpeed (lit (1 / 2))) n).toOption) =
      [some (lit 1), some (lit (1 / 2)), some (lit 0), some (lit (-1 / 4)), some (lit (-1 / 2)), some (lit (-1 / 2)), some (lit 0)] := by
  refine ⟨[⟨lit 1⟩, ⟨lit 0⟩, ⟨lit (-1 / 2)⟩], fun i => [1, 0, -1 / 2].getD i 0, ?_, by norm_num, by decide +kernel, by decide, by decide +kernel⟩
  intro i h
  have : ∀ i < 3, ∀ x, ([⟨lit 1⟩, ⟨lit 0⟩, ⟨lit (-1 / 2)⟩] : List (Mono F32))[i]? = some x → x.mono.Is (([1, 0, -1 / 2] : List ℚ).getD i 0) ∧
      |([1, 0, -1 / 2] : List ℚ).getD i 0| ≤ 1 := by
    intro i hi x hx
    match i, hi with
    | 0, _ => cases hx; exact ⟨by decide +kernel, by norm_num⟩
    | 1, _ => cases hx; exact ⟨by decide +kernel, by norm_num⟩
    | 2, _ => cases hx; exact ⟨by decide +kernel, by norm_num⟩
  exact this i h _ (List.getElem?_eq_getElem h)

end Verif
