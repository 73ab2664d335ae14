import Verif.Props.ResamplerLoop

/-! # Loops at an integer step in floating point: C121 -/

namespace Verif
open Fl MonoResampler

/-! ## Specification -/

/-- Position after `n` steps of `s` samples in a track whose loop is `[ls, le)`: straight up to the loop end, round the loop after it. -/
def loopPos (ls le s n : ℕ) : ℕ := if n * s < le then n * s else ls + (n * s - ls) % (le - ls)

/-! ## Lemmas -/

private structure LoopAt (t : List (Mono F32)) (ls le s n : ℕ) (r : MonoResampler F32 F64) : Prop where
  data : r.data = t
  ind : r.ind.Is n
  step : (r.inc * SM.down r.speed).Is s
  hls : r.loopStart = ls
  hle : r.loopEnd = le

private theorem nat_usize {f : Fmt} {x : Fl f} {n : ℕ} (hx : x.Is n) (h : n < 2 ^ 64) : toUsize x = n := by
  have := Is.toUsize_int (n := (n : ℤ)) (by exact_mod_cast hx) (by exact_mod_cast h)
  simpa using this

private theorem nat_trunc {f : Fmt} {x : Fl f} {n : ℕ} (hx : x.Is n) : (Flt.trunc x).Is n := by
  have := hx.trunc
  rw [show truncQ (n : ℚ) = n by exact_mod_cast truncQ_int n] at this
  exact_mod_cast this

private theorem loop_step {t : List (Mono F32)} {v : ℕ → ℚ} (ht : TrackIs t v) {ls le s n : ℕ} {r : MonoResampler F32 F64}
    (hr : LoopAt t ls le s n r) (h1 : ls < le) (h2 : le ≤ t.length) (hlen : t.length ≤ 2 ^ 24) (hb : le + s ≤ 2 ^ 24 + 1) (hn : n < le) :
    ∃ y r', r.process = .ok (y, r') ∧ y.Is (v n) ∧ (v n ≠ 0 → ∀ h : n < t.length, y = t[n].mono) ∧
      LoopAt t ls le s (if n + s < le then n + s else n + s - (le - ls)) r' := by
  obtain ⟨hd, hi, hst, hls, hle⟩ := hr
  subst hd
  have hnt : n < r.data.length := by omega
  have hut : toUsize (Flt.trunc r.ind) = n := nat_usize (nat_trunc hi) (by omega)
  have radd : ∀ k : ℕ, n + k ≤ 2 ^ 24 → b32.rnd ((n : ℚ) + k) = (n + k : ℕ) := by
    intro k hk
    rw [show ((n : ℚ) + k) = (((n : ℤ) + k : ℤ) : ℚ) by push_cast; ring, b32.rnd_of_repr (Fmt.repr32_int (by rw [abs_le]; omega))]
    push_cast; ring
  have fadd : ∀ k : ℕ, n + k ≤ 2 ^ 24 → b32.Fits ((n : ℚ) + k) := by
    intro k hk
    have h : ((n + k : ℕ) : ℚ) ≤ 2 ^ 24 := by exact_mod_cast hk
    push_cast at h
    exact fits32' 24 (by norm_num) (by rw [abs_of_nonneg (by positivity)]; exact h)
  have hadv : (r.ind + r.inc * SM.down r.speed).Is (n + s : ℕ) := by
    have := Is.add hi hst (fadd s (by omega))
    rwa [radd s (by omega)] at this
  have hx1 := (ht n hnt).1
  have hat : r.at' (toUsize (Flt.trunc r.ind)) = .ok r.data[n].mono := by rw [hut, at'_ok r hnt]
  have hL : (lit ((r.loopEnd - r.loopStart : ℕ) : ℚ) : F32).Is (le - ls : ℕ) := by
    rw [hle, hls]; exact lit32_nat (by omega)
  have hnext : ∃ k, ∃ hk : k < r.data.length, r.nextSample = .ok r.data[k].mono := by
    unfold nextSample
    simp only [hut]
    rw [if_neg (by omega)]
    by_cases hlast : n + 1 ≥ r.data.length
    · rw [if_pos ⟨hlast, by omega⟩]
      have hnle : n + 1 = le := by omega
      have hsub := Is.sub hi hL (fits32' 24 (by norm_num) (by
        have a : (n : ℚ) ≤ 2 ^ 24 := by exact_mod_cast (show n ≤ 2 ^ 24 by omega)
        have b : ((le - ls : ℕ) : ℚ) ≤ 2 ^ 24 := by exact_mod_cast (show le - ls ≤ 2 ^ 24 by omega)
        have a0 : (0 : ℚ) ≤ n := by positivity
        have b0 : (0 : ℚ) ≤ (le - ls : ℕ) := by positivity
        rw [abs_le]; constructor <;> linarith))
      have e : (n : ℚ) - (le - ls : ℕ) = (((n : ℤ) - (le - ls : ℕ) : ℤ) : ℚ) := by push_cast; ring
      rw [e, b32.rnd_of_repr (Fmt.repr32_int (by rw [abs_le]; omega))] at hsub
      have hus := hsub.toUsize
      rw [truncQ_int] at hus
      have hk : toUsize (r.ind - lit ((r.loopEnd - r.loopStart : ℕ) : ℚ)) < r.data.length := by
        rw [hus]
        omega
      exact ⟨_, hk, at'_ok r hk⟩
    · rw [if_neg (by tauto), if_neg hlast]
      have hadd1 : (r.ind + lit 1).Is (n + 1 : ℕ) := by
        have := Is.add hi (show (lit 1 : F32).Is ((1 : ℕ) : ℚ) by exact_mod_cast lit32_1) (fadd 1 (by omega))
        rwa [radd 1 (by omega)] at this
      rw [nat_usize (nat_trunc hadd1) (by omega)]
      exact ⟨_, by omega, at'_ok r (by omega)⟩
  obtain ⟨k, hk, hnx⟩ := hnext
  have hx2 := (ht k hk).1
  have hfr : (Flt.fract r.ind).Is 0 := by
    have := Is.sub hi (nat_trunc hi) (by rw [sub_self]; exact fits32' 0 (by norm_num) (by norm_num))
    rw [sub_self, b32.rnd_zero] at this
    exact this
  have hdiff := Is.sub hx2 hx1 (Fmt.fits32 ((abs_sub _ _).trans (by
    have a := (ht k hk).2
    have b := (ht n hnt).2
    calc |v k| + |v n| ≤ 2 ^ 99 + 2 ^ 99 := add_le_add a b
      _ = 2 ^ 100 := by norm_num)))
  have hmul := Is.mul hfr hdiff (by rw [zero_mul]; exact fits32' 0 (by norm_num) (by norm_num))
  rw [zero_mul, b32.rnd_zero] at hmul
  have hy := Is.add hx1 hmul (by rw [add_zero]; exact hx1.fits)
  rw [add_zero, hx1.rnd] at hy
  refine ⟨_, _, process_eq r (fun h => by rw [hle] at h; omega) hnx hat, hy, fun h0 _ => Is.eq_of_ne hy hx1 h0, rfl, ?_, hst, hls, hle⟩
  show (if (lit (r.loopEnd : ℚ) ≤? r.ind + r.inc * SM.down r.speed) && decide (r.loopEnd ≠ 0)
    then r.ind + r.inc * SM.down r.speed - lit ((r.loopEnd - r.loopStart : ℕ) : ℚ) else r.ind + r.inc * SM.down r.speed).Is _
  have hc : (lit (r.loopEnd : ℚ) ≤? r.ind + r.inc * SM.down r.speed) = decide (((le : ℕ) : ℚ) ≤ (n + s : ℕ)) := by
    rw [hle]; exact Is.le (lit32_nat (by omega)) hadv
  rw [hc]
  by_cases hw : n + s < le
  · rw [decide_eq_false (by rw [Nat.cast_le]; omega), Bool.false_and, if_neg (by simp), if_pos hw]
    exact hadv
  · rw [decide_eq_true (by rw [Nat.cast_le]; omega), decide_eq_true (by omega), Bool.and_self, if_pos rfl, if_neg hw]
    have hsub := Is.sub hadv hL (fits32' 24 (by norm_num) (by
      rw [← Nat.cast_sub (by omega), abs_of_nonneg (by positivity)]
      exact_mod_cast (show n + s - (le - ls) ≤ 2 ^ 24 by omega)))
    rw [← Nat.cast_sub (by omega), show ((n + s - (le - ls) : ℕ) : ℚ) = ((n + s - (le - ls) : ℕ) : ℤ) by push_cast; rfl,
      b32.rnd_of_repr (Fmt.repr32_int (by rw [abs_le]; omega))] at hsub
    exact_mod_cast hsub

private theorem loopPos_lt {ls le s n : ℕ} (h1 : ls < le) : loopPos ls le s n < le := by
  unfold loopPos
  split_ifs with h
  · exact h
  · have := Nat.mod_lt (n * s - ls) (show 0 < le - ls by omega)
    omega

private theorem loopPos_succ {ls le s n : ℕ} (h1 : ls < le) (hs : s ≤ le - ls) :
    loopPos ls le s (n + 1) = if loopPos ls le s n + s < le then loopPos ls le s n + s else loopPos ls le s n + s - (le - ls) := by
  unfold loopPos
  have e : (n + 1) * s = n * s + s := by ring
  rw [e]
  generalize n * s = m
  have hL : 0 < le - ls := by omega
  obtain ⟨L, hLe⟩ : ∃ L, le = ls + L := ⟨le - ls, by omega⟩
  subst hLe
  have hLL : ls + L - ls = L := by omega
  rw [hLL] at hs ⊢
  have hL0 : 0 < L := by omega
  by_cases ha : m < ls + L
  · rw [if_pos ha]
    by_cases hb : m + s < ls + L
    · rw [if_pos hb, if_pos hb]
    · rw [if_neg hb, if_neg hb]
      have : m + s - ls = (m + s - ls - L) + L := by omega
      rw [this, Nat.add_mod_right, Nat.mod_eq_of_lt (by omega)]
      omega
  · rw [if_neg ha, if_neg (by omega)]
    have h3 := Nat.mod_lt (m - ls) hL0
    have : m + s - ls = (m - ls) + s := by omega
    rw [this]
    have h4 := Nat.div_add_mod (m - ls) L
    by_cases hb : ls + (m - ls) % L + s < ls + L
    · rw [if_pos hb]
      have : ((m - ls) + s) % L = (m - ls) % L + s := by
        conv_lhs => rw [← h4]
        rw [show L * ((m - ls) / L) + (m - ls) % L + s = ((m - ls) % L + s) + L * ((m - ls) / L) by omega,
          Nat.add_mul_mod_self_left, Nat.mod_eq_of_lt (by omega)]
      rw [this]; omega
    · rw [if_neg hb]
      have : ((m - ls) + s) % L = (m - ls) % L + s - L := by
        conv_lhs => rw [← h4]
        rw [show L * ((m - ls) / L) + (m - ls) % L + s = ((m - ls) % L + s - L) + L * ((m - ls) / L + 1) by
          rw [Nat.mul_add]; omega, Nat.add_mul_mod_self_left, Nat.mod_eq_of_lt (by omega)]
      rw [this]; omega

private theorem loop_after {t : List (Mono F32)} {v : ℕ → ℚ} (ht : TrackIs t v) {rate speed : F64} {ls le s : ℕ} (h1 : ls < le) (h2 : le ≤ t.length)
    (hlen : t.length ≤ 2 ^ 24) (hst : (SM.down (rate * invSR) * SM.down speed : F32).Is s) (hs : s ≤ le - ls) (hb : le + s ≤ 2 ^ 24 + 1) (n : ℕ) :
    ∃ r, afterR process n ((MonoResampler.new t rate ls le).setPlaybackSpeed speed) = .ok r ∧ LoopAt t ls le s (loopPos ls le s n) r := by
  induction n with
  | zero =>
    refine ⟨_, rfl, ?_⟩
    have e : MonoResampler.new t rate ls le = ⟨t, lit 0, SM.down (rate * invSR), lit 1, ls, le⟩ := by
      unfold MonoResampler.new
      rw [if_neg (by omega)]
    rw [e]
    refine ⟨rfl, ?_, hst, rfl, rfl⟩
    have : loopPos ls le s 0 = 0 := by
      unfold loopPos
      rw [if_pos (by omega), Nat.zero_mul]
    rw [this]
    exact_mod_cast lit32_0
  | succ n ih =>
    obtain ⟨r, i1, i2⟩ := ih
    obtain ⟨y, r', e1, -, -, e2⟩ := loop_step ht i2 h1 h2 hlen hb (loopPos_lt h1)
    rw [← loopPos_succ h1 hs] at e2
    exact ⟨r', afterR_succ i1 e1, e2⟩

/-! ## C121 -/

/-- IEEE: a track of at most `2^24` samples, each finite with `|s| ≤ 2^99`, looped over `[ls, le)` and played with a step of
`s` samples, gives for ever the samples at the positions `loopPos`: bit-exactly, except that `-0.0` may come out as `0.0`. In
particular nothing panics and neither drift nor rounding errors arise. -/
theorem C121_loops (t : List (Mono F32)) (v : ℕ → ℚ) (ht : TrackIs t v) (hlen : t.length ≤ 2 ^ 24) (rate speed : F64) (ls le s : ℕ)
    (h1 : ls < le) (h2 : le ≤ t.length) (hst : (SM.down (rate * invSR) * SM.down speed : F32).Is s) (hs : s ≤ le - ls) (hb : le + s ≤ 2 ^ 24 + 1) (n : ℕ) :
    ∃ y, nthR process ((MonoResampler.new t rate ls le).setPlaybackSpeed speed) n = .ok y ∧ y.Is (v (loopPos ls le s n)) ∧
      (v (loopPos ls le s n) ≠ 0 → ∀ h : loopPos ls le s n < t.length, y = t[loopPos ls le s n].mono) := by
  obtain ⟨r, i1, i2⟩ := loop_after ht h1 h2 hlen hst hs hb n
  obtain ⟨y, r', e1, e2, e3, -⟩ := loop_step ht i2 h1 h2 hlen hb (loopPos_lt h1)
  refine ⟨y, ?_, e2, e3⟩
  unfold nthR
  rw [i1]
  simp only [e1]
  rfl

/-- At 48 kHz: the track up to the loop end, then the loop again and again. -/
theorem C121_verbatim (t : List (Mono F32)) (v : ℕ → ℚ) (ht : TrackIs t v) (hlen : t.length ≤ 2 ^ 24) (ls le : ℕ) (h1 : ls < le) (h2 : le ≤ t.length) :
    (∀ n < le, ∃ y, nthR process (MonoResampler.new t (lit 48000 : F64) ls le) n = .ok y ∧ y.Is (v n) ∧ (v n ≠ 0 → ∀ h : n < t.length, y = t[n].mono)) ∧
    ∀ k i : ℕ, i < le - ls → ∃ y, nthR process (MonoResampler.new t (lit 48000 : F64) ls le) (ls + k * (le - ls) + i) = .ok y ∧ y.Is (v (ls + i)) ∧
      (v (ls + i) ≠ 0 → ∀ h : ls + i < t.length, y = t[ls + i].mono) := by
  have hst : (SM.down ((lit 48000 : F64) * invSR) * SM.down (lit 1 : F64) : F32).Is (1 : ℕ) := by decide +kernel
  have e : (MonoResampler.new t (lit 48000 : F64) ls le).setPlaybackSpeed (lit 1 : F64) = MonoResampler.new t (lit 48000 : F64) ls le := by
    unfold MonoResampler.new
    rfl
  have key := fun n => C121_loops t v ht hlen (lit 48000) (lit 1) ls le 1 h1 h2 hst (by omega) (by omega) n
  rw [e] at key
  constructor
  · intro n hn
    have := key n
    rwa [show loopPos ls le 1 n = n by unfold loopPos; rw [Nat.mul_one, if_pos hn]] at this
  · intro k i hi
    have := key (ls + k * (le - ls) + i)
    have hp : loopPos ls le 1 (ls + k * (le - ls) + i) = ls + i := by
      unfold loopPos
      rw [Nat.mul_one]
      split_ifs with h
      · have : k = 0 := by
          by_contra hk
          have := Nat.mul_le_mul_right (le - ls) (Nat.one_le_iff_ne_zero.mpr hk)
          omega
        rw [this]; omega
      · rw [show ls + k * (le - ls) + i - ls = i + (le - ls) * k by rw [Nat.mul_comm k]; omega, Nat.add_mul_mod_self_left, Nat.mod_eq_of_lt hi]
    rwa [hp] at this

/-! ## Examples -/

/-- A track of three samples, looped over its last two, at 48 kHz and (step 2) at 96 kHz. -/
example : TrackIs [⟨lit 1⟩, ⟨lit 2⟩, ⟨lit 3⟩] (fun i => i + 1) ∧
    (SM.down ((lit 96000 : F64) * invSR) * SM.down (lit 1 : F64) : F32).Is (2 : ℕ) ∧
    (List.range 7).map (loopPos 1 3 1) = [0, 1, 2, 1, 2, 1, 2] ∧ (List.range 4).map (loopPos 1 3 2) = [0, 2, 2, 2] := by
  refine ⟨?_, by decide +kernel, by decide, by decide⟩
  intro i h
  have : i = 0 ∨ i = 1 ∨ i = 2 := by simp at h; omega
  rcases this with rfl | rfl | rfl
  · exact ⟨by show (lit 1 : F32).Is _; decide +kernel, by norm_num⟩
  · exact ⟨by show (lit 2 : F32).Is _; decide +kernel, by norm_num⟩
  · exact ⟨by show (lit 3 : F32).Is _; decide +kernel, by norm_num⟩

end Verif
