import Verif.Proofs.Resampler

/-! # Resampler and MonoWav: C45-C50 -/

namespace Verif
open Fl MonoResampler

/-! ## C45 -/

/-- The samples of a track as floats of given values. -/
def TrackIs (t : List (Mono F32)) (v : ℕ → ℚ) : Prop := ∀ i (h : i < t.length), (t[i]).mono.Is (v i) ∧ |v i| ≤ 2 ^ 99

/-- Resampler state at integer position `n` with step 1 and no loop. -/
private structure At (t : List (Mono F32)) (n : ℕ) (r : MonoResampler F32 F64) : Prop where
  data : r.data = t
  ind : r.ind.Is n
  inc : r.inc.Is 1
  speed : (SM.down r.speed : F32).Is 1
  le : r.loopEnd = 0

private theorem at_new (t : List (Mono F32)) : At t 0 (MonoWav.fromTrack (lit 48000 : F64) t).resam := by
  refine ⟨rfl, ?_, ?_, ?_, rfl⟩
  · exact_mod_cast lit32_0
  · show (SM.down ((lit 48000 : F64) * invSR) : F32).Is 1
    decide +kernel
  · show (SM.down (lit 1 : F64) : F32).Is 1
    decide +kernel

private theorem nat_toUsize {f : Fmt} {x : Fl f} {n : ℕ} (hx : x.Is n) (h : n < 2 ^ 64) : toUsize x = n := by
  have := Is.toUsize_int (n := (n : ℤ)) (by exact_mod_cast hx) (by exact_mod_cast h)
  simpa using this

private theorem at_step {t : List (Mono F32)} {v : ℕ → ℚ} (ht : TrackIs t v) (hlen : t.length < 2 ^ 63) {n : ℕ}
    {r : MonoResampler F32 F64} (hr : At t n r) (hn : n < t.length) (hn2 : n ≤ 2 ^ 24) :
    ∃ y r', r.process = .ok (y, r') ∧ y.Is (v n) ∧ (v n ≠ 0 → y = t[n].mono) ∧ At t (min (n + 1) (2 ^ 24)) r' := by
  obtain ⟨hd, hi, hc, hs, hl⟩ := hr
  subst hd
  have htr : (Flt.trunc r.ind).Is n := by
    have := hi.trunc
    rw [show truncQ (n : ℚ) = n by exact_mod_cast truncQ_int n] at this
    exact_mod_cast this
  have hu : toUsize r.ind = n := nat_toUsize hi (by omega)
  have hut : toUsize (Flt.trunc r.ind) = n := nat_toUsize htr (by omega)
  have hnq : (n : ℚ) ≤ 2 ^ 24 := by exact_mod_cast hn2
  have hnq0 : (0 : ℚ) ≤ n := by positivity
  have radd : b32.rnd ((n : ℚ) + 1) = (min (n + 1) (2 ^ 24) : ℕ) := by
    rcases Nat.lt_or_ge n (2 ^ 24) with h | h
    · rw [min_eq_left (by omega), show ((n : ℚ) + 1) = (((n : ℤ) + 1 : ℤ) : ℚ) by push_cast; ring,
        b32.rnd_of_repr (Fmt.repr32_int (by rw [abs_le]; omega))]
      push_cast; ring
    · have : n = 2 ^ 24 := by omega
      subst this
      rw [min_eq_right (by omega)]
      decide +kernel
  have hadd1 : (r.ind + lit 1).Is (min (n + 1) (2 ^ 24) : ℕ) := by
    have := Is.add hi lit32_1 (fits32' 25 (by norm_num) (abs_le.mpr ⟨by linarith, le_trans (add_le_add hnq (le_refl 1)) (by norm_num)⟩))
    rwa [radd] at this
  have hadv : (r.ind + r.inc * SM.down r.speed).Is (min (n + 1) (2 ^ 24) : ℕ) := by
    have hm := Is.mul hc hs (fits32' 0 (by norm_num) (by norm_num))
    rw [show b32.rnd (1 * 1) = 1 by decide +kernel] at hm
    have := Is.add hi hm (fits32' 25 (by norm_num) (abs_le.mpr ⟨by linarith, le_trans (add_le_add hnq (le_refl 1)) (by norm_num)⟩))
    rwa [radd] at this
  have hx1 := (ht n hn).1
  have h1 : r.at' (toUsize (Flt.trunc r.ind)) = .ok r.data[n].mono := by rw [hut, at'_ok r hn]
  have hnext : ∃ k, ∃ hk : k < r.data.length, r.nextSample = .ok r.data[k].mono := by
    unfold nextSample
    simp only [hut]
    rw [if_neg (by omega), if_neg (by tauto)]
    by_cases hlast : n + 1 ≥ r.data.length
    · rw [if_pos hlast]
      exact ⟨n, hn, at'_ok r hn⟩
    · rw [if_neg hlast]
      have htr1 : (Flt.trunc (r.ind + lit 1)).Is (min (n + 1) (2 ^ 24) : ℕ) := by
        have := hadd1.trunc
        rw [show truncQ ((min (n + 1) (2 ^ 24) : ℕ) : ℚ) = (min (n + 1) (2 ^ 24) : ℕ) by exact_mod_cast truncQ_int (min (n + 1) (2 ^ 24) : ℕ)] at this
        exact_mod_cast this
      rw [nat_toUsize htr1 (by omega)]
      have hk : min (n + 1) (2 ^ 24) < r.data.length := by omega
      exact ⟨_, hk, at'_ok r hk⟩
  obtain ⟨k, hk, h2⟩ := hnext
  have hx2 := (ht k hk).1
  have hfr : (Flt.fract r.ind).Is 0 := by
    have := Is.sub hi htr (by rw [sub_self]; exact fits32' 0 (by norm_num) (by norm_num))
    rw [sub_self, b32.rnd_zero] at this
    exact this
  have hdiff := Is.sub hx2 hx1 (Fmt.fits32 ((abs_sub _ _).trans (by
    have a := (ht k hk).2
    have b := (ht n hn).2
    calc |v k| + |v n| ≤ 2 ^ 99 + 2 ^ 99 := add_le_add a b
      _ = 2 ^ 100 := by norm_num)))
  have hmul := Is.mul hfr hdiff (by rw [zero_mul]; exact fits32' 0 (by norm_num) (by norm_num))
  rw [zero_mul, b32.rnd_zero] at hmul
  have hy := Is.add hx1 hmul (by rw [add_zero]; exact hx1.fits)
  rw [add_zero, hx1.rnd] at hy
  refine ⟨_, _, process_eq r (by rw [hu]; omega) h2 h1, hy, fun h0 => Is.eq_of_ne hy hx1 h0, ?_⟩
  refine ⟨rfl, ?_, hc, hs, hl⟩
  show (if (lit (r.loopEnd : ℚ) ≤? r.ind + r.inc * SM.down r.speed) && decide (r.loopEnd ≠ 0) then _ else
    r.ind + r.inc * SM.down r.speed).Is _
  rw [if_neg (by simp [hl])]
  exact hadv

private theorem at_after {t : List (Mono F32)} {v : ℕ → ℚ} (ht : TrackIs t v) (hlen : t.length < 2 ^ 63) (n : ℕ) :
    ∃ r, afterR process n (MonoWav.fromTrack (lit 48000 : F64) t).resam = .ok r ∧ At t (min n (min t.length (2 ^ 24))) r := by
  induction n with
  | zero => exact ⟨_, rfl, by simpa using at_new t⟩
  | succ n ih =>
    obtain ⟨r, h1, h2⟩ := ih
    by_cases hlt : min n (min t.length (2 ^ 24)) < t.length
    · obtain ⟨y, r', e1, -, -, e2⟩ := at_step ht hlen h2 hlt (by omega)
      refine ⟨r', afterR_succ h1 e1, ?_⟩
      have : min (min n (min t.length (2 ^ 24)) + 1) (2 ^ 24) = min (n + 1) (min t.length (2 ^ 24)) := by omega
      rwa [this] at e2
    · have hm : min n (min t.length (2 ^ 24)) = min (n + 1) (min t.length (2 ^ 24)) := by omega
      have : toUsize r.ind ≥ r.data.length := by
        rw [nat_toUsize h2.ind (by omega), h2.data]; omega
      exact ⟨r, afterR_succ h1 (process_silent r ⟨this, h2.le⟩), hm ▸ h2⟩

theorem wav_nth {S M : Type} [Flt S] [Flt M] [SM S M] (g : MonoWav S M) (n : ℕ) :
    nthR MonoWav.process g n = nthR process g.resam n := by
  have h : ∀ n (g : MonoWav S M), afterR MonoWav.process n g = (afterR process n g.resam).map MonoWav.mk := by
    intro n
    induction n with
    | zero => intro g; rfl
    | succ n ih =>
      intro g
      unfold afterR
      unfold MonoWav.process
      cases h : g.resam.process with
      | error e => rfl
      | ok p => exact ih ⟨p.2⟩
  unfold nthR
  rw [h]
  cases h2 : afterR process n g.resam with
  | error e => rfl
  | ok r =>
    show (MonoWav.process ⟨r⟩).map Prod.fst = _
    unfold MonoWav.process
    cases h3 : r.process with
    | error e => simp only [h3]; rfl
    | ok p => simp only [h3]; rfl

/-- What holds (IEEE): a track of at most `2^24` samples (5.8 minutes), each finite with `|s| ≤ 2^99`, played
at 48 kHz gives the track sample by sample (bit-exactly except that `-0.0` may come out as `0.0`), then `0.0`
for ever. Missing: longer tracks, infinities, NaN and gigantic samples, the sign of zero. -/
theorem C45_verbatim_partial (t : List (Mono F32)) (v : ℕ → ℚ) (ht : TrackIs t v) (hlen : t.length ≤ 2 ^ 24) (n : ℕ) :
    (∀ h : n < t.length, ∃ y, nthR MonoWav.process (MonoWav.fromTrack (lit 48000 : F64) t) n = .ok y ∧
      y.Is (v n) ∧ (v n ≠ 0 → y = t[n].mono)) ∧
    (t.length ≤ n → nthR MonoWav.process (MonoWav.fromTrack (lit 48000 : F64) t) n = .ok (lit 0)) := by
  rw [wav_nth]
  obtain ⟨r, h1, h2⟩ := at_after ht (by omega) n
  unfold nthR
  rw [h1]
  constructor
  · intro h
    rw [show min n (min t.length (2 ^ 24)) = n by omega] at h2
    obtain ⟨y, r', e1, e2, e3, -⟩ := at_step ht (by omega) h2 h (by omega)
    exact ⟨y, by simp only [e1]; rfl, e2, e3⟩
  · intro h
    rw [show min n (min t.length (2 ^ 24)) = t.length by omega] at h2
    have : toUsize r.ind ≥ r.data.length := by
      rw [nat_toUsize h2.ind (by omega), h2.data]
    simp only [process_silent r ⟨this, h2.le⟩]
    rfl

example : TrackIs [⟨lit (1 / 2)⟩, ⟨lit (-1)⟩] (fun i => if i = 0 then 1 / 2 else -1) := by
  intro i h
  have : i = 0 ∨ i = 1 := by simp at h; omega
  rcases this with rfl | rfl
  · exact ⟨by show (lit (1 / 2) : F32).Is _; decide +kernel, by norm_num⟩
  · exact ⟨by show (lit (-1) : F32).Is _; decide +kernel, by norm_num⟩

/-- The property fails for every longer track: from sample `2^24` on the position no longer advances and
sample `2^24` is repeated for ever. -/
theorem C45_stall_violated (t : List (Mono F32)) (v : ℕ → ℚ) (ht : TrackIs t v) (hlen : t.length < 2 ^ 63)
    (hlong : 2 ^ 24 < t.length) (n : ℕ) (hn : 2 ^ 24 ≤ n) :
    ∃ y, nthR MonoWav.process (MonoWav.fromTrack (lit 48000 : F64) t) n = .ok y ∧ y.Is (v (2 ^ 24)) := by
  rw [wav_nth]
  obtain ⟨r, h1, h2⟩ := at_after ht hlen n
  rw [show min n (min t.length (2 ^ 24)) = 2 ^ 24 by omega] at h2
  obtain ⟨y, r', e1, e2, -, -⟩ := at_step ht hlen h2 hlong (by omega)
  unfold nthR
  rw [h1]
  exact ⟨y, by simp only [e1]; rfl, e2⟩

/-- The property fails for finite samples far apart: the first output is NaN. And `-0.0` is not kept. -/
theorem C45_values_violated :
    (nthR MonoWav.process (MonoWav.fromTrack (lit 48000 : F64) [⟨lit (2 ^ 127 * (3 / 2))⟩, ⟨lit (-2 ^ 127 * (3 / 2))⟩]) 0).toOption
      = some (.nan : F32) ∧
    (nthR MonoWav.process (MonoWav.fromTrack (lit 48000 : F64) [⟨(-lit 0 : F32)⟩]) 0).toOption = some (lit 0) ∧
    (-lit 0 : F32) ≠ lit 0 := by
  decide +kernel

/-! ## C46 -/

/-- In any arithmetic: once the position is past the end of a non-looping track every later sample is
`0.0`, whatever speeds are set meanwhile, and nothing panics. -/
theorem C46_silence {S M : Type} [Flt S] [Flt M] [SM S M] (r : MonoResampler S M) (hl : r.loopEnd = 0)
    (h : r.data.length ≤ toUsize r.ind) (cs : List (GenCall M)) :
    ∃ r', runCallsR process setPlaybackSpeed cs r = .ok r' ∧ ∃ r'', r'.process = .ok (lit 0, r'') := by
  obtain ⟨r', h1, h2, h3⟩ := runCallsR_inv (p := process) (set := setPlaybackSpeed) (P := fun _ => True)
    (fun r : MonoResampler S M => r.loopEnd = 0 ∧ r.data.length ≤ toUsize r.ind)
    (fun g hg => ⟨_, _, process_silent g ⟨hg.2, hg.1⟩, hg⟩) (fun g f _ hg => hg) cs (fun _ _ => trivial) r ⟨hl, h⟩
  exact ⟨r', h1, _, process_silent r' ⟨h3, h2⟩⟩

/-- The property fails in IEEE arithmetic: a two-sample track at 48 kHz with speed `1 - 2^-24` panics on its
second sample, because `0.99999994 + 1.0` rounds to `2.0`. -/
theorem C46_panic_violated :
    (runCallsR process setPlaybackSpeed [.setFrequency (lit (1 - 1 / 2 ^ 24)), .process, .process]
      (MonoResampler.new [⟨(lit 0 : F32)⟩, ⟨lit 1⟩] (lit 48000 : F64) 0 0)).toOption.isNone = true := by
  decide +kernel

/-- What holds in IEEE arithmetic, for any state of a non-looping resampler (track up to `2^24` samples): the only
possible panic is that one, reading past the end from between the last two samples because `ind + 1` was rounded up
to the track length. -/
theorem C46_ieee_partial (r : MonoResampler F32 F64) (hl : r.loopEnd = 0) (hlen : r.data.length ≤ 2 ^ 24) :
    (∃ y r', r.process = .ok (y, r')) ∨
    (r.process = .error .index ∧ toUsize r.ind + 2 = r.data.length ∧
      toUsize (Flt.trunc (r.ind + lit 1)) = r.data.length) := by
  by_cases hsil : toUsize r.ind ≥ r.data.length
  · exact .inl ⟨_, _, process_silent r ⟨hsil, hl⟩⟩
  have hsil' : ¬ (toUsize r.ind ≥ r.data.length ∧ r.loopEnd = 0) := fun h => hsil h.1
  have key : toUsize (Flt.trunc r.ind) = toUsize r.ind ∧
      (toUsize r.ind + 1 < r.data.length → toUsize (Flt.trunc (r.ind + lit 1)) ≤ toUsize r.ind + 2) := by
    cases hr : r.ind with
    | nan => exact ⟨rfl, fun _ => by show (0 : ℕ) ≤ _; omega⟩
    | inf s =>
      cases s
      · exfalso
        rw [hr] at hsil
        have : toUsize (Fl.inf false : F32) = 2 ^ 64 - 1 := by decide +kernel
        omega
      · exact ⟨rfl, fun _ => by
          have : toUsize (Flt.trunc ((Fl.inf true : F32) + lit 1)) = 0 := by decide +kernel
          rw [this]; omega⟩
    | fin s a ha =>
      have hi : (Fl.fin s a ha : F32).Is a := rfl
      have e1 : toUsize (Flt.trunc (Fl.fin s a ha : F32)) = toUsize (Fl.fin s a ha : F32) := by
        rw [hi.trunc.toUsize, truncQ_int, ← hi.toUsize]
      refine ⟨e1, fun hlt => ?_⟩
      rw [hr] at hsil
      rw [hi.toUsize] at hsil hlt ⊢
      by_cases hneg : a < 0
      · have hfit : b32.Fits (a + 1) := by
          rcases le_or_gt a (-1) with h | h
          · exact Fmt.Fits.of_abs_le hi.fits (by rw [abs_of_nonpos (by linarith), abs_of_neg hneg]; linarith)
          · exact fits32' 0 (by norm_num) (abs_le.mpr ⟨by norm_num; linarith, by norm_num; linarith⟩)
        have hadd := Is.add hi lit32_1 hfit
        have hle : b32.rnd (a + 1) ≤ (1 : ℤ) := b32.rnd_le_repr (Fmt.repr32_int (by norm_num)) (by push_cast; linarith)
        have := truncQ_mono hle
        rw [truncQ_int] at this
        rw [hadd.trunc.toUsize, truncQ_int]
        omega
      · rw [not_lt] at hneg
        rw [truncQ_of_nonneg hneg] at hlt ⊢
        have hf0 : 0 ≤ ⌊a⌋ := Int.floor_nonneg.mpr hneg
        have hf1 : ⌊a⌋ + 2 ≤ 2 ^ 24 := by omega
        have ha1 : a + 1 ≤ ((⌊a⌋ + 2 : ℤ) : ℚ) := by push_cast; linarith [Int.lt_floor_add_one a]
        have hb : ((⌊a⌋ + 2 : ℤ) : ℚ) ≤ 2 ^ 24 := by exact_mod_cast hf1
        have hadd := Is.add hi lit32_1 (fits32' 24 (by norm_num) (abs_le.mpr ⟨by linarith, by linarith⟩))
        have hle : b32.rnd (a + 1) ≤ ((⌊a⌋ + 2 : ℤ) : ℚ) := b32.rnd_le_repr (Fmt.repr32_int (by rw [abs_le]; omega)) ha1
        have := truncQ_mono hle
        rw [truncQ_int] at this
        rw [hadd.trunc.toUsize, truncQ_int]
        omega
  obtain ⟨k1, k2⟩ := key
  have hin : toUsize r.ind < r.data.length := by omega
  have h1 : r.at' (toUsize (Flt.trunc r.ind)) = .ok r.data[toUsize r.ind].mono := by rw [k1, at'_ok r hin]
  by_cases hlast : toUsize r.ind + 1 ≥ r.data.length
  · left
    have h2 : r.nextSample = .ok r.data[toUsize r.ind].mono := by
      unfold nextSample
      simp only [k1]
      rw [if_neg (by omega), if_neg (by tauto), if_pos hlast, at'_ok r hin]
    exact ⟨_, _, process_eq r hsil' h2 h1⟩
  · have hlast' : toUsize r.ind + 1 < r.data.length := by omega
    have hns : r.nextSample = r.at' (toUsize (Flt.trunc (r.ind + lit 1))) := by
      unfold nextSample
      simp only [k1]
      rw [if_neg (by omega), if_neg (by tauto), if_neg hlast]
    by_cases hb : toUsize (Flt.trunc (r.ind + lit 1)) < r.data.length
    · left
      rw [at'_ok r hb] at hns
      exact ⟨_, _, process_eq r hsil' hns h1⟩
    · right
      have := k2 hlast'
      refine ⟨?_, by omega, by omega⟩
      unfold process
      rw [if_neg hsil', hns, at'_err r (by omega)]
      rfl

/-- The exact-arithmetic invariant. -/
private def RealInv (len : ℕ) (r : MonoResampler ℝ ℝ) : Prop :=
  r.data.length = len ∧ r.loopEnd = 0 ∧ 0 ≤ r.ind ∧ 0 ≤ r.inc ∧ 0 ≤ r.speed

/-- Exact arithmetic: with a non-negative rate and non-negative speeds a non-looping resampler never
panics, for any track and any history. -/
theorem C46_exact (t : List (Mono ℝ)) (hlen : t.length < 2 ^ 63) (rate : ℝ) (hr : 0 ≤ rate) (cs : List (GenCall ℝ))
    (hcs : FreqsOk (fun v => 0 ≤ v) cs) :
    ∃ r, runCallsR process setPlaybackSpeed cs (MonoResampler.new t rate 0 0) = .ok r := by
  obtain ⟨r, h, -⟩ := runCallsR_inv (p := process) (set := setPlaybackSpeed) (P := fun v : ℝ => 0 ≤ v)
    (RealInv t.length) (fun r hr => by
      obtain ⟨h1, h2, h3, h4, h5⟩ := hr
      by_cases hx : r.ind < r.data.length
      · refine ⟨_, _, real_process r (by omega) h3 h2 hx, ?_⟩
        rw [real_advance r h2]
        exact ⟨h1, h2, by positivity, h4, h5⟩
      · exact ⟨_, _, real_process_end r (by omega) h3 h2 (not_lt.mp hx), h1, h2, h3, h4, h5⟩)
    (fun r v hv hr => ⟨hr.1, hr.2.1, hr.2.2.1, hr.2.2.2.1, hv⟩) cs hcs (MonoResampler.new t rate 0 0)
    (by
      refine ⟨rfl, rfl, ?_, ?_, ?_⟩
      · show (0 : ℝ) ≤ ((0 : ℚ) : ℝ); norm_num
      · show (0 : ℝ) ≤ rate * invSR; rw [real_inv]; positivity
      · show (0 : ℝ) ≤ ((1 : ℚ) : ℝ); norm_num)
  exact ⟨r, h⟩

example (cs : List (GenCall F64)) :
    ∃ r', runCallsR MonoResampler.process MonoResampler.setPlaybackSpeed cs (MonoResampler.new [] (lit 48000) 0 0 : MonoResampler F32 F64) = .ok r' ∧
      ∃ r'', r'.process = .ok (lit 0, r'') := C46_silence _ rfl (Nat.zero_le _) cs

example : FreqsOk (fun v : ℝ => 0 ≤ v) [.process, .setFrequency 2, .process] := by
  intro f hf; simp at hf; subst hf; norm_num

/-! ## C48 -/

/-- Exact arithmetic, no loop, speed `v` set at the start: while the position is inside the track, sample `n` is the
linear interpolation at position `n*rate*v/48000`, and lies between the two neighbouring samples. -/
theorem C48_interpolates (t : List (Mono ℝ)) (hlen : t.length < 2 ^ 63) (rate v : ℝ) (hr : 0 ≤ rate) (hv : 0 ≤ v) (n : ℕ)
    (hn : n * (rate * v / 48000) < t.length) :
    let d := t.map Mono.mono
    let p := n * (rate * v / 48000)
    let a := d.getD ⌊p⌋₊ 0
    let b := d.getD (min (⌊p⌋₊ + 1) (d.length - 1)) 0
    nthR process ((MonoResampler.new t rate 0 0).setPlaybackSpeed v) n = .ok (lin d p) ∧
    min a b ≤ lin d p ∧ lin d p ≤ max a b := by
  intro d p a b
  have hs : 0 ≤ rate * v / 48000 := by positivity
  have key : ∀ m : ℕ, m ≤ n → afterR process m ((MonoResampler.new t rate 0 0).setPlaybackSpeed v) =
      .ok ⟨t, m * (rate * v / 48000), rate * (1 / 48000), v, 0, 0⟩ := by
    intro m
    induction m with
    | zero =>
      intro _
      unfold afterR setPlaybackSpeed MonoResampler.new
      real_simp
      simp
    | succ m ih =>
      intro hm
      have h1 := ih (by omega)
      have hlt : (m : ℝ) * (rate * v / 48000) < t.length := by
        refine lt_of_le_of_lt ?_ hn
        exact mul_le_mul_of_nonneg_right (by exact_mod_cast (by omega : m ≤ n)) hs
      have h2 := real_process ⟨t, m * (rate * v / 48000), rate * (1 / 48000), v, 0, 0⟩ hlen (by positivity) rfl hlt
      rw [real_advance _ rfl] at h2
      rw [afterR_succ h1 h2]
      simp only [Except.ok.injEq, MonoResampler.mk.injEq, true_and, and_true]
      push_cast
      ring
  refine ⟨?_, ?_⟩
  · unfold nthR
    rw [key n (le_refl _)]
    have h2 := real_process ⟨t, n * (rate * v / 48000), rate * (1 / 48000), v, 0, 0⟩ hlen (by positivity) rfl hn
    simp only [h2]
    rfl
  · have f0 := Int.fract_nonneg p
    have f1 := (Int.fract_lt_one p).le
    have e : lin d p = a + Int.fract p * (b - a) := rfl
    rw [e]
    rcases le_total a b with h | h
    · rw [min_eq_left h, max_eq_right h]
      constructor <;> nlinarith
    · rw [min_eq_right h, max_eq_left h]
      constructor <;> nlinarith

example : nthR MonoResampler.process ((MonoResampler.new [⟨0⟩, ⟨10⟩, ⟨20⟩] (48000 : ℝ) 0 0).setPlaybackSpeed (1 / 2)) 3 = .ok (lin [0, 10, 20] (3 * (48000 * (1 / 2) / 48000))) :=
  (C48_interpolates [⟨0⟩, ⟨10⟩, ⟨20⟩] (by simp) 48000 (1 / 2) (by norm_num) (by norm_num) 3 (by norm_num)).1

example : lin [0, 10, 20] (3 / 2) = 15 := by
  have h1 : ⌊(3 / 2 : ℝ)⌋₊ = 1 := by rw [Nat.floor_eq_iff (by norm_num)]; norm_num
  have h2 : Int.fract (3 / 2 : ℝ) = 1 / 2 := by rw [Int.fract_eq_iff]; exact ⟨by norm_num, by norm_num, 1, by norm_num⟩
  unfold lin
  rw [h1, h2]
  norm_num

/-! ## C47 -/

/-- Exact arithmetic: `process` inside a loop. -/
theorem real_process_loop (r : MonoResampler ℝ ℝ) (hlen : r.data.length < 2 ^ 63) (h0 : 0 ≤ r.ind)
    (hl : 0 < r.loopEnd) (hl2 : r.loopEnd ≤ r.data.length) (_hs : r.loopStart < r.loopEnd) (hx : r.ind < r.loopEnd) :
    ∃ (j : ℕ) (hi : ⌊r.ind⌋₊ < r.data.length) (hj : j < r.data.length),
      r.process = .ok (r.data[⌊r.ind⌋₊].mono + Int.fract r.ind * (r.data[j].mono - r.data[⌊r.ind⌋₊].mono), r.advance) ∧
      (⌊r.ind⌋₊ + 1 < r.data.length → j = ⌊r.ind⌋₊ + 1) ∧
      (⌊r.ind⌋₊ + 1 = r.data.length → j = toUsize (r.ind - (r.loopEnd - r.loopStart : ℕ))) := by
  have hx' : r.ind < r.data.length := lt_of_lt_of_le hx (by exact_mod_cast hl2)
  obtain ⟨e1, e2, e3, e4, hf⟩ := real_index h0 hlen hx'
  have h1 : r.at' (toUsize (Flt.trunc r.ind)) = .ok r.data[⌊r.ind⌋₊].mono := by rw [e2, at'_ok r hf]
  have hsil : ¬ (toUsize r.ind ≥ r.data.length ∧ r.loopEnd = 0) := fun h => by omega
  by_cases hlast : ⌊r.ind⌋₊ + 1 ≥ r.data.length
  · have hjl : toUsize (r.ind - ((r.loopEnd - r.loopStart : ℕ) : ℝ)) < r.data.length := by
      by_cases hneg : r.ind - ((r.loopEnd - r.loopStart : ℕ) : ℝ) < 0
      · rw [real_toUsize_neg hneg]; omega
      · rw [not_lt] at hneg
        rw [real_toUsize_floor hneg]
        have : ⌊r.ind - ((r.loopEnd - r.loopStart : ℕ) : ℝ)⌋₊ ≤ ⌊r.ind⌋₊ :=
          Nat.floor_le_floor (by linarith [show (0 : ℝ) ≤ ((r.loopEnd - r.loopStart : ℕ) : ℝ) by positivity])
        omega
    have h2 : r.nextSample = .ok r.data[toUsize (r.ind - ((r.loopEnd - r.loopStart : ℕ) : ℝ))].mono := by
      unfold nextSample
      simp only [e2]
      rw [if_neg (by omega), if_pos ⟨hlast, by omega⟩]
      have : (r.ind - lit ((r.loopEnd - r.loopStart : ℕ) : ℚ) : ℝ) = r.ind - ((r.loopEnd - r.loopStart : ℕ) : ℝ) := by
        real_simp
      have e := at'_ok r hjl
      rw [← e]
      congr 2
    have hp := process_eq r hsil h2 h1
    rw [e4] at hp
    exact ⟨_, hf, hjl, hp, fun h => by omega, fun _ => rfl⟩
  · have hlt : ⌊r.ind⌋₊ + 1 < r.data.length := by omega
    have h2 : r.nextSample = .ok r.data[⌊r.ind⌋₊ + 1].mono := by
      unfold nextSample
      simp only [e2]
      have : (r.ind + lit 1 : ℝ) = r.ind + 1 := by real_simp
      rw [if_neg (by omega), if_neg (by tauto), if_neg hlast]
      rw [show @HAdd.hAdd ℝ ℝ ℝ (@instHAdd ℝ Flt.toAdd) r.ind (lit 1) = r.ind + 1 by real_simp, e3, at'_ok r hlt]
    have hp := process_eq r hsil h2 h1
    rw [e4] at hp
    exact ⟨_, hf, hlt, hp, fun _ => rfl, fun h => by omega⟩

/-- What holds (exact arithmetic): with `0 < loop_end ≤ len`, `loop_start < loop_end` and steps between 0 and the loop
length, no history panics, and the position stays below `loop_end`. Missing: IEEE arithmetic, where it is false. -/
theorem C47_loop_partial (t : List (Mono ℝ)) (hlen : t.length < 2 ^ 63) (rate : ℝ) (ls le : ℕ) (h1 : ls < le)
    (h2 : le ≤ t.length) (h3 : 0 ≤ rate / 48000 ∧ rate / 48000 ≤ (le - ls : ℕ)) (cs : List (GenCall ℝ))
    (hcs : FreqsOk (fun v => 0 ≤ rate / 48000 * v ∧ rate / 48000 * v ≤ (le - ls : ℕ)) cs) :
    ∃ r, runCallsR process setPlaybackSpeed cs (MonoResampler.new t rate ls le) = .ok r ∧ 0 ≤ r.ind ∧ r.ind < le := by
  obtain ⟨r, h, -, -, -, -, h4, h5, -⟩ := runCallsR_inv (p := process) (set := setPlaybackSpeed)
    (P := fun v : ℝ => 0 ≤ rate / 48000 * v ∧ rate / 48000 * v ≤ (le - ls : ℕ))
    (fun r : MonoResampler ℝ ℝ => r.data = t ∧ r.inc = rate / 48000 ∧ r.loopStart = ls ∧ r.loopEnd = le ∧
      0 ≤ r.ind ∧ r.ind < le ∧ 0 ≤ rate / 48000 * r.speed ∧ rate / 48000 * r.speed ≤ (le - ls : ℕ))
    (fun r hr => by
      obtain ⟨a1, a2, a3, a4, a5, a6, a7, a8⟩ := hr
      obtain ⟨j, hi, hj, hp, -⟩ := real_process_loop r (by rw [a1]; exact hlen) a5 (by omega) (by rw [a1]; omega)
        (by omega) (by rw [a4]; exact a6)
      refine ⟨_, _, hp, ?_⟩
      rw [real_advance_loop r (by omega)]
      have hd : ((le - ls : ℕ) : ℝ) = le - ls := by rw [Nat.cast_sub h1.le]
      have hls : (0 : ℝ) ≤ ls := by positivity
      refine ⟨a1, a2, a3, a4, ?_, ?_, a7, a8⟩
      · simp only [a2, a3, a4]
        split_ifs with h
        · rw [hd]; linarith
        · linarith
      · simp only [a2, a3, a4]
        split_ifs with h
        · linarith
        · exact not_le.mp h)
    (fun r v hv hr => ⟨hr.1, hr.2.1, hr.2.2.1, hr.2.2.2.1, hr.2.2.2.2.1, hr.2.2.2.2.2.1, hv⟩) cs hcs
    (MonoResampler.new t rate ls le)
    (by
      unfold MonoResampler.new
      rw [if_neg (by omega)]
      real_simp
      refine ⟨trivial, by ring, trivial, trivial, le_refl _, by exact_mod_cast (by omega : 0 < le), by simpa using h3⟩)
  exact ⟨r, h, h4, h5⟩

example : ∃ r, runCallsR MonoResampler.process MonoResampler.setPlaybackSpeed [.process, .process, .process] (MonoResampler.new [⟨0⟩, ⟨10⟩, ⟨20⟩] 48000 1 3 : MonoResampler ℝ ℝ) = .ok r ∧
    0 ≤ r.ind ∧ r.ind < 3 :=
  C47_loop_partial [⟨0⟩, ⟨10⟩, ⟨20⟩] (by simp) 48000 1 3 (by norm_num) (by simp) (by norm_num) [.process, .process, .process] (by simp [FreqsOk])

example : (0 : ℝ) ≤ 48000 / 48000 ∧ (48000 : ℝ) / 48000 ≤ (2 - 0 : ℕ) := by norm_num

/-- In IEEE arithmetic the property fails: looping over both samples of a two-sample track at speed `1 - 2^-24`
panics on the second sample. -/
theorem C47_loop_violated :
    (runCallsR process setPlaybackSpeed [.setFrequency (lit (1 - 1 / 2 ^ 24)), .process, .process]
      (MonoResampler.new [⟨(lit 0 : F32)⟩, ⟨lit 1⟩] (lit 48000 : F64) 0 2)).toOption.isNone = true := by
  decide +kernel

/-- The side conditions are needed: an empty loop (`loop_start = loop_end ≠ 0`) or `loop_end > len` panics. -/
theorem C47_conditions_needed :
    (afterR process 4 (MonoResampler.new [⟨(lit 0 : F32)⟩, ⟨lit 1⟩, ⟨lit 1⟩] (lit 48000 : F64) 1 1)).toOption.isNone = true ∧
    (afterR process 4 (MonoResampler.new [⟨(lit 0 : F32)⟩, ⟨lit 1⟩, ⟨lit 1⟩] (lit 48000 : F64) 0 4)).toOption.isNone = true := by
  decide +kernel

/-! ## C49 -/

/-- The five-sample track of ones. -/
private def ones5 : List (Mono F32) := [⟨lit 1⟩, ⟨lit 1⟩, ⟨lit 1⟩, ⟨lit 1⟩, ⟨lit 1⟩]

private def st5 (k : ℚ) : MonoResampler F32 F64 :=
  ⟨ones5, lit k, SM.down ((lit 48000 : F64) * invSR), lit 1, 0, 5⟩

/-- The property fails (IEEE): five samples of 1.0 with `loop_start = 5`, `loop_end = 0` play 1.0 for ever. -/
theorem C49_loop_end_zero_violated (n : ℕ) :
    nthR process (MonoResampler.new ones5 (lit 48000 : F64) 5 0) n = .ok (lit 1 : F32) := by
  have adv : ∀ k : ℕ, k < 5 → (st5 k).process = .ok (lit 1, st5 ((k + 1) % 5 : ℕ)) := by
    intro k hk
    have h : ∀ k : ℕ, k < 5 → (st5 k).process.toOption.map Prod.fst = some (lit 1) ∧
        (st5 k).advance.ind = lit ((k + 1) % 5 : ℕ) := by decide +kernel
    obtain ⟨e1, e2⟩ := h k hk
    have hsil : ¬ (toUsize (st5 k).ind ≥ (st5 k).data.length ∧ (st5 k).loopEnd = 0) := fun h => by
      have := h.2
      simp [st5] at this
    unfold process at e1 ⊢
    rw [if_neg hsil] at e1 ⊢
    have hadv : (st5 k).advance = st5 ((k + 1) % 5 : ℕ) := by
      have : (st5 k).advance = { st5 k with ind := (st5 k).advance.ind } := rfl
      rw [this, e2]; rfl
    cases h1 : (st5 k).nextSample with
    | error e => simp [h1, bind, Except.bind, Except.toOption] at e1
    | ok a =>
      cases h2 : (st5 k).at' (toUsize (Flt.trunc (st5 k).ind)) with
      | error e => simp [h1, h2, bind, Except.bind, Except.toOption] at e1
      | ok b =>
        simp [h1, h2, bind, Except.bind, Except.toOption] at e1 ⊢
        exact ⟨e1, hadv⟩
  have key : ∀ n : ℕ, afterR process n (MonoResampler.new ones5 (lit 48000 : F64) 5 0) = .ok (st5 (n % 5 : ℕ)) := by
    intro n
    induction n with
    | zero => rfl
    | succ n ih =>
      rw [afterR_succ ih (adv (n % 5) (Nat.mod_lt _ (by norm_num)))]
      congr 3
      omega
  unfold nthR
  rw [key n]
  simp only [adv (n % 5) (Nat.mod_lt _ (by norm_num))]
  rfl

/-- What holds (exact arithmetic): with `loop_start = 0` too, a positive rate ends in silence: from the first `n` with
`n*rate/48000 ≥ len` on every sample is 0. Missing: `loop_start > 0`, where the two are swapped and the track loops. -/
theorem C49_loop_end_zero_partial (t : List (Mono ℝ)) (hlen : t.length < 2 ^ 63) (rate : ℝ) (hr : 0 < rate) (n : ℕ)
    (hn : t.length ≤ n * (rate / 48000)) : nthR process (MonoResampler.new t rate 0 0) n = .ok 0 := by
  have hs : 0 < rate / 48000 := by positivity
  have key : ∀ m : ℕ, ∃ x, afterR process m (MonoResampler.new t rate 0 0) = .ok ⟨t, x, rate / 48000, 1, 0, 0⟩ ∧
      0 ≤ x ∧ (x = m * (rate / 48000) ∨ t.length ≤ x) := by
    intro m
    induction m with
    | zero =>
      refine ⟨0, ?_, le_refl _, .inl (by simp)⟩
      unfold afterR MonoResampler.new
      real_simp
      simp [div_eq_mul_inv]
    | succ m ih =>
      obtain ⟨x, h1, h2, h3⟩ := ih
      by_cases hx : x < t.length
      · have hp := real_process ⟨t, x, rate / 48000, 1, 0, 0⟩ hlen h2 rfl hx
        rw [real_advance _ rfl] at hp
        refine ⟨_, afterR_succ h1 hp, by positivity, .inl ?_⟩
        rcases h3 with h3 | h3
        · rw [h3]; push_cast; ring
        · linarith
      · exact ⟨x, afterR_succ h1 (real_process_end ⟨t, x, rate / 48000, 1, 0, 0⟩ hlen h2 rfl (not_lt.mp hx)), h2, .inr (not_lt.mp hx)⟩
  obtain ⟨x, h1, h2, h3⟩ := key n
  unfold nthR
  rw [h1]
  have hx : (t.length : ℝ) ≤ x := by
    rcases h3 with h3 | h3
    · rw [h3]; exact hn
    · exact h3
  simp only [real_process_end ⟨t, x, rate / 48000, 1, 0, 0⟩ hlen h2 rfl hx]
  rfl

example : nthR MonoResampler.process (MonoResampler.new [⟨1⟩, ⟨1⟩] 24000 0 0 : MonoResampler ℝ ℝ) 4 = .ok 0 :=
  C49_loop_end_zero_partial [⟨1⟩, ⟨1⟩] (by simp) 24000 (by norm_num) 4 (by norm_num)

/-! ## C50 -/

/-- The property fails (IEEE): looping `[0,1,2]` over `[1,3)` at half speed, position 2.5 gives `1` (partner: the sample
before the loop) instead of `1.5`; looping `[0,1,2,3]` over `[0,2)`, position 1.5 gives `1.5` (partner: the sample after the
loop) instead of `0.5`. -/
theorem C50_seamless_violated :
    (nthR process ((MonoResampler.new [⟨(lit 0 : F32)⟩, ⟨lit 1⟩, ⟨lit 2⟩] (lit 48000 : F64) 1 3).setPlaybackSpeed (lit (1 / 2))) 5).toOption
      = some (lit 1) ∧
    (nthR process ((MonoResampler.new [⟨(lit 0 : F32)⟩, ⟨lit 1⟩, ⟨lit 2⟩, ⟨lit 3⟩] (lit 48000 : F64) 0 2).setPlaybackSpeed (lit (1 / 2))) 3).toOption
      = some (lit (3 / 2)) := by
  decide +kernel

/-- What holds (exact arithmetic): looping over the whole track is seamless, sample `n` being the interpolation of the
periodic extension at `n*rate*v/48000`. Missing: loops over part of the track, where it is false. -/
theorem C50_seamless_partial (t : List (Mono ℝ)) (hlen : t.length < 2 ^ 63) (hpos : 0 < t.length) (rate v : ℝ)
    (h0 : 0 ≤ rate * v / 48000) (h1 : rate * v / 48000 ≤ t.length) (n : ℕ) :
    nthR process ((MonoResampler.new t rate 0 t.length).setPlaybackSpeed v) n =
      .ok (linPer (t.map Mono.mono) (n * (rate * v / 48000))) := by
  set s := rate * v / 48000 with hs
  have key : ∀ m : ℕ, ∃ x, afterR process m ((MonoResampler.new t rate 0 t.length).setPlaybackSpeed v) =
      .ok ⟨t, x, rate / 48000, v, 0, t.length⟩ ∧ 0 ≤ x ∧ x < t.length ∧ ∃ k : ℕ, m * s = x + k * t.length := by
    intro m
    induction m with
    | zero =>
      refine ⟨0, ?_, le_refl _, by exact_mod_cast hpos, 0, by simp⟩
      unfold afterR setPlaybackSpeed MonoResampler.new
      rw [if_neg (by omega)]
      real_simp
      simp [div_eq_mul_inv]
    | succ m ih =>
      obtain ⟨x, a1, a2, a3, k, a4⟩ := ih
      obtain ⟨j, hi, hj, hp, -⟩ := real_process_loop ⟨t, x, rate / 48000, v, 0, t.length⟩ hlen a2 hpos (le_refl _) hpos a3
      rw [real_advance_loop _ (by simpa using hpos.ne')] at hp
      have e : rate / 48000 * v = s := by rw [hs]; ring
      simp only [e, Nat.sub_zero] at hp
      refine ⟨_, afterR_succ a1 hp, ?_, ?_, ?_⟩
      · split_ifs with h <;> linarith
      · split_ifs with h
        · linarith
        · exact not_le.mp h
      · split_ifs with h
        · exact ⟨k + 1, by push_cast; linarith⟩
        · exact ⟨k, by push_cast; linarith⟩
  obtain ⟨x, a1, a2, a3, k, a4⟩ := key n
  obtain ⟨j, hi, hj, hp, hj1, hj2⟩ := real_process_loop ⟨t, x, rate / 48000, v, 0, t.length⟩ hlen a2 hpos (le_refl _) hpos a3
  unfold nthR
  rw [a1]
  simp only [hp]
  have hfl : ⌊(n : ℝ) * s⌋₊ = ⌊x⌋₊ + k * t.length := by
    rw [a4, show (k : ℝ) * t.length = ((k * t.length : ℕ) : ℝ) by push_cast; ring, Nat.floor_add_natCast a2]
  have hfr : Int.fract ((n : ℝ) * s) = Int.fract x := by
    rw [a4, show (k : ℝ) * t.length = ((k * t.length : ℕ) : ℝ) by push_cast; ring, Int.fract_add_natCast]
  have hg : ∀ i (h : i < t.length), (t.map Mono.mono).getD i 0 = t[i].mono := by
    intro i h
    simp [List.getD_eq_getElem?_getD, h]
  have hi' : ⌊x⌋₊ < t.length := hi
  unfold linPer
  simp only [hfl, hfr, List.length_map]
  rw [Nat.add_mul_mod_self_right, Nat.mod_eq_of_lt hi', hg _ hi']
  have hjj : (⌊x⌋₊ + k * t.length + 1) % t.length = j := by
    rw [show ⌊x⌋₊ + k * t.length + 1 = (⌊x⌋₊ + 1) + k * t.length by ring, Nat.add_mul_mod_self_right]
    rcases Nat.lt_or_ge (⌊x⌋₊ + 1) t.length with h | h
    · rw [Nat.mod_eq_of_lt h, hj1 h]
    · have e : ⌊x⌋₊ + 1 = t.length := by omega
      rw [hj2 e, e, Nat.mod_self]
      simp only [Nat.sub_zero]
      exact (real_toUsize_neg (by linarith)).symm
  rw [hjj, hg _ hj]
  rfl

example : nthR MonoResampler.process ((MonoResampler.new [⟨0⟩, ⟨10⟩, ⟨20⟩] (48000 : ℝ) 0 3).setPlaybackSpeed (1 / 2)) 5 = .ok (linPer [0, 10, 20] (5 * (48000 * (1 / 2) / 48000))) :=
  C50_seamless_partial [⟨0⟩, ⟨10⟩, ⟨20⟩] (by simp) (by simp) 48000 (1 / 2) (by norm_num) (by norm_num) 5

example : (0 : ℝ) ≤ 48000 * (1 / 2) / 48000 ∧ (48000 : ℝ) * (1 / 2) / 48000 ≤ (3 : ℕ) := by norm_num

end Verif
