import Verif.Props.Resampler

/-! # Looping resampler in floating point: C47 -/

namespace Verif
open Fl MonoResampler

/-- Inside the loop `[ls, le)` of a track with samples `t`: the position has a value in `[0, le)`, and one step advances by at
least zero and at most the loop length less one sample. -/
structure InLoop (t : List (Mono F32)) (inc : F32) (ls le : ℕ) (r : MonoResampler F32 F64) : Prop where
  hdata : r.data = t
  hinc : r.inc = inc
  hls : r.loopStart = ls
  hle : r.loopEnd = le
  pos : ∃ p : ℚ, r.ind.Is p ∧ 0 ≤ p ∧ p < le
  step : ∃ s : ℚ, (inc * SM.down r.speed).Is s ∧ 0 ≤ s ∧ s + 1 ≤ (le - ls : ℕ)

private theorem lit32_nat' {n : ℕ} (h : n ≤ 2 ^ 24) : (lit ((n : ℕ) : ℚ) : F32).Is n := lit32_nat h

/-- The next position is again inside the loop. -/
private theorem advance_in {t : List (Mono F32)} {inc : F32} {ls le : ℕ} {r : MonoResampler F32 F64} (h : InLoop t inc ls le r)
    (hle : le ≤ 2 ^ 23) : InLoop t inc ls le r.advance := by
  obtain ⟨p, hp, p0, p1⟩ := h.pos
  obtain ⟨s, hs, s0, s1⟩ := h.step
  have hL : le - ls ≤ 2 ^ 23 := by omega
  have hLq : ((le - ls : ℕ) : ℚ) ≤ 2 ^ 23 := by exact_mod_cast hL
  have hleq : (le : ℚ) ≤ 2 ^ 23 := by exact_mod_cast hle
  have hlpos : 0 < le - ls := by
    rcases Nat.eq_zero_or_pos (le - ls) with h0 | h0
    · rw [h0] at s1; norm_num at s1; linarith
    · exact h0
  have hadd : (r.ind + r.inc * SM.down r.speed).Is (b32.rnd (p + s)) := by
    rw [h.hinc]
    exact Is.add hp hs (fits32' 24 (by norm_num) (by rw [abs_of_nonneg (by linarith)]; linarith))
  have hr0 : 0 ≤ b32.rnd (p + s) := b32.rnd_nonneg (by linarith)
  -- the sum stays one below `le + (le - ls)`
  have hr1 : b32.rnd (p + s) ≤ ((le + (le - ls) - 1 : ℤ) : ℚ) := by
    refine b32.rnd_le_repr (Fmt.repr32_int (by rw [abs_le]; omega)) ?_
    have : ((le - ls : ℕ) : ℤ) = (le : ℤ) - ls := by omega
    have e : ((le - ls : ℕ) : ℚ) = ((le : ℤ) - ls : ℤ) := by rw [← this]; push_cast; rfl
    push_cast at e ⊢
    linarith
  have e : ((le - ls : ℕ) : ℚ) = (le : ℚ) - ls := by
    rw [Nat.cast_sub (by omega)]
  push_cast at hr1
  refine ⟨h.hdata, h.hinc, h.hls, h.hle, ?_, h.step⟩
  show ∃ p : ℚ, (if (lit (r.loopEnd : ℚ) ≤? r.ind + r.inc * SM.down r.speed) && decide (r.loopEnd ≠ 0)
    then r.ind + r.inc * SM.down r.speed - lit ((r.loopEnd - r.loopStart : ℕ) : ℚ) else r.ind + r.inc * SM.down r.speed).Is p ∧ _
  have hc : (lit (r.loopEnd : ℚ) ≤? r.ind + r.inc * SM.down r.speed) = decide ((le : ℚ) ≤ b32.rnd (p + s)) := by
    rw [h.hle]; exact Is.le (lit32_nat' (by omega)) hadd
  rw [hc]
  by_cases hw : (le : ℚ) ≤ b32.rnd (p + s)
  · have hne : r.loopEnd ≠ 0 := by rw [h.hle]; omega
    rw [decide_eq_true hw, decide_eq_true hne, Bool.and_self, if_pos rfl, h.hle, h.hls]
    refine ⟨_, Is.sub hadd (lit32_nat' (by omega)) (fits32' 24 (by norm_num) ?_), ?_, ?_⟩
    · rw [abs_of_nonneg (by rw [e]; linarith [show (0:ℚ) ≤ ls from Nat.cast_nonneg _])]; rw [e] at *; linarith
    · exact b32.rnd_nonneg (by rw [e]; linarith [show (0:ℚ) ≤ ls from Nat.cast_nonneg _])
    · have : b32.rnd (b32.rnd (p + s) - (le - ls : ℕ)) ≤ ((le - 1 : ℤ) : ℚ) :=
        b32.rnd_le_repr (Fmt.repr32_int (by rw [abs_le]; omega)) (by push_cast; linarith)
      push_cast at this
      linarith
  · rw [decide_eq_false hw, Bool.false_and, if_neg (by simp)]
    exact ⟨_, hadd, hr0, not_le.mp hw⟩

/-- One sample: it is produced, or the track is read one past its end because `ind + 1` was rounded up to its length. -/
private theorem process_in {t : List (Mono F32)} {inc : F32} {ls le : ℕ} {r : MonoResampler F32 F64} (h : InLoop t inc ls le r)
    (hle : le ≤ t.length) (hlen : t.length ≤ 2 ^ 23) :
    (∃ y, r.process = .ok (y, r.advance)) ∨
    (r.process = .error .index ∧ toUsize r.ind + 2 = t.length ∧ toUsize (Flt.trunc (r.ind + lit 1)) = t.length) := by
  obtain ⟨p, hp, p0, p1⟩ := h.pos
  obtain ⟨s, -, s0, s1⟩ := h.step
  have hlpos : 0 < le - ls := by
    rcases Nat.eq_zero_or_pos (le - ls) with h0 | h0
    · rw [h0] at s1; norm_num at s1; linarith
    · exact h0
  have hf0 : 0 ≤ ⌊p⌋ := Int.floor_nonneg.mpr p0
  have hf1 : ⌊p⌋ < le := Int.floor_lt.mpr (by exact_mod_cast p1)
  have hleq : (le : ℚ) ≤ 2 ^ 23 := by exact_mod_cast (hle.trans hlen)
  have k1 : toUsize (Flt.trunc r.ind) = toUsize r.ind := by rw [hp.trunc.toUsize, truncQ_int, ← hp.toUsize]
  have ki : (toUsize r.ind : ℤ) = ⌊p⌋ := by
    rw [hp.toUsize, truncQ_of_nonneg p0]; omega
  have hin : toUsize r.ind < r.data.length := by rw [h.hdata]; omega
  have hsil : ¬ (toUsize r.ind ≥ r.data.length ∧ r.loopEnd = 0) := by omega
  have h1 : r.at' (toUsize (Flt.trunc r.ind)) = .ok r.data[toUsize r.ind].mono := by rw [k1, at'_ok r hin]
  have hne : r.loopEnd ≠ 0 := by rw [h.hle]; omega
  have hdl : r.data.length = t.length := by rw [h.hdata]
  by_cases hlast : toUsize r.ind + 1 ≥ r.data.length
  · left
    have hns : r.nextSample = r.at' (toUsize (r.ind - lit ((le - ls : ℕ) : ℚ))) := by
      unfold nextSample
      simp only [k1, h.hle, h.hls]
      rw [if_neg (by omega), if_pos ⟨hlast, by omega⟩]
    have e : ((le - ls : ℕ) : ℚ) = (le : ℚ) - ls := by rw [Nat.cast_sub (by omega)]
    have hL0 : (0 : ℚ) ≤ (le - ls : ℕ) := Nat.cast_nonneg _
    have hL1 : ((le - ls : ℕ) : ℚ) ≤ 2 ^ 23 := by exact_mod_cast (show le - ls ≤ 2 ^ 23 by omega)
    have hsub : (r.ind - lit ((le - ls : ℕ) : ℚ)).Is (b32.rnd (p - (le - ls : ℕ))) :=
      Is.sub hp (lit32_nat' (by omega)) (fits32' 24 (by norm_num) (by rw [abs_le]; constructor <;> linarith))
    have hr : b32.rnd (p - (le - ls : ℕ)) ≤ ((ls : ℤ) : ℚ) :=
      b32.rnd_le_repr (Fmt.repr32_int (by rw [abs_le]; omega)) (by rw [e]; push_cast; linarith)
    have hidx : toUsize (r.ind - lit ((le - ls : ℕ) : ℚ)) ≤ ls := by
      rw [hsub.toUsize]
      have := truncQ_mono hr
      rw [truncQ_int] at this
      omega
    have hb : toUsize (r.ind - lit ((le - ls : ℕ) : ℚ)) < r.data.length := by omega
    rw [at'_ok r hb] at hns
    exact ⟨_, process_eq r hsil hns h1⟩
  · have hns : r.nextSample = r.at' (toUsize (Flt.trunc (r.ind + lit 1))) := by
      unfold nextSample
      simp only [k1]
      rw [if_neg (by omega), if_neg (by tauto), if_neg hlast]
    have k2 : toUsize (Flt.trunc (r.ind + lit 1)) ≤ toUsize r.ind + 2 := by
      have hadd := Is.add hp lit32_1 (fits32' 24 (by norm_num) (by rw [abs_of_nonneg (by linarith)]; linarith))
      have hr : b32.rnd (p + 1) ≤ ((⌊p⌋ + 2 : ℤ) : ℚ) :=
        b32.rnd_le_repr (Fmt.repr32_int (by rw [abs_le]; omega)) (by push_cast; linarith [Int.lt_floor_add_one p])
      have := truncQ_mono hr
      rw [truncQ_int] at this
      rw [hadd.trunc.toUsize, truncQ_int]
      omega
    by_cases hb : toUsize (Flt.trunc (r.ind + lit 1)) < r.data.length
    · left
      rw [at'_ok r hb] at hns
      exact ⟨_, process_eq r hsil hns h1⟩
    · right
      refine ⟨?_, by omega, by omega⟩
      unfold process
      rw [if_neg hsil, hns, at'_err r (by omega)]
      rfl

/-- One step of `rate` at speed `v`, as computed: at least zero and at most the loop length less one sample. -/
def LoopStep (rate : F64) (ls le : ℕ) (v : F64) : Prop :=
  ∃ s : ℚ, ((SM.down (rate * invSR) : F32) * SM.down v).Is s ∧ 0 ≤ s ∧ s + 1 ≤ (le - ls : ℕ)

private theorem new_in (t : List (Mono F32)) {rate : F64} {ls le : ℕ} (h1 : ls < le) (hr : LoopStep rate ls le (lit 1)) :
    InLoop t (SM.down (rate * invSR)) ls le (MonoResampler.new t rate ls le) := by
  have e : MonoResampler.new t rate ls le = ⟨t, lit 0, SM.down (rate * invSR), lit 1, ls, le⟩ := by
    unfold MonoResampler.new; rw [if_neg (by omega)]
  rw [e]
  exact ⟨rfl, rfl, rfl, rfl, ⟨0, lit32_0, le_rfl, by exact_mod_cast (show 0 < le by omega)⟩, hr⟩

/-- What holds in IEEE arithmetic for every history of a looping resampler (track up to `2^23` samples, steps at most the loop
length less one): it ends with the position inside the loop, unless it met a position between the last two samples of the
track from which `ind + 1` rounds up to the track length; that is the only panic. Missing: steps between the loop length
less one and the loop length, where a rounding can leave the position at the loop end. -/
theorem C47_ieee_partial (t : List (Mono F32)) (hlen : t.length ≤ 2 ^ 23) (rate : F64) (ls le : ℕ) (h1 : ls < le) (h2 : le ≤ t.length)
    (hr : LoopStep rate ls le (lit 1)) (cs : List (GenCall F64)) (hcs : FreqsOk (LoopStep rate ls le) cs) :
    (∃ r, runCallsR process setPlaybackSpeed cs (MonoResampler.new t rate ls le) = .ok r ∧ ∃ p : ℚ, r.ind.Is p ∧ 0 ≤ p ∧ p < le) ∨
    (runCallsR process setPlaybackSpeed cs (MonoResampler.new t rate ls le) = .error .index ∧
      ∃ pre r, pre <+: cs ∧ runCallsR process setPlaybackSpeed pre (MonoResampler.new t rate ls le) = .ok r ∧
        toUsize r.ind + 2 = t.length ∧ toUsize (Flt.trunc (r.ind + lit 1)) = t.length) := by
  have key : ∀ (cs : List (GenCall F64)), FreqsOk (LoopStep rate ls le) cs → ∀ g, InLoop t (SM.down (rate * invSR)) ls le g →
      (∃ r, runCallsR process setPlaybackSpeed cs g = .ok r ∧ InLoop t (SM.down (rate * invSR)) ls le r) ∨
      (runCallsR process setPlaybackSpeed cs g = .error .index ∧
        ∃ pre r, pre <+: cs ∧ runCallsR process setPlaybackSpeed pre g = .ok r ∧
          toUsize r.ind + 2 = t.length ∧ toUsize (Flt.trunc (r.ind + lit 1)) = t.length) := by
    intro cs
    induction cs with
    | nil => exact fun _ g hg => .inl ⟨g, rfl, hg⟩
    | cons c cs ih =>
      intro hcs g hg
      have hcs' : FreqsOk (LoopStep rate ls le) cs := fun f h => hcs f (List.mem_cons_of_mem _ h)
      cases c with
      | process =>
        rcases process_in hg h2 hlen with ⟨y, hy⟩ | ⟨he, ha, hb⟩
        · rcases ih hcs' _ (advance_in hg (h2.trans hlen)) with ⟨r, k1, k2⟩ | ⟨k1, pre, r, k2, k3, k4⟩
          · exact .inl ⟨r, by simp only [runCallsR, hy, k1], k2⟩
          · exact .inr ⟨by simp only [runCallsR, hy, k1], .process :: pre, r, by simpa using k2, by simp only [runCallsR, hy, k3], k4⟩
        · exact .inr ⟨by simp only [runCallsR, he], [], g, List.nil_prefix, rfl, ha, hb⟩
      | setFrequency f =>
        have hg' : InLoop t (SM.down (rate * invSR)) ls le (g.setPlaybackSpeed f) :=
          ⟨hg.hdata, hg.hinc, hg.hls, hg.hle, hg.pos, hcs f (List.mem_cons_self ..)⟩
        rcases ih hcs' _ hg' with ⟨r, k1, k2⟩ | ⟨k1, pre, r, k2, k3, k4⟩
        · exact .inl ⟨r, by simp only [runCallsR, k1], k2⟩
        · exact .inr ⟨by simp only [runCallsR, k1], .setFrequency f :: pre, r, by simpa using k2, by simp only [runCallsR, k3], k4⟩
  rcases key cs hcs _ (new_in t h1 hr) with ⟨r, k1, k2⟩ | k
  · exact .inl ⟨r, k1, k2.pos⟩
  · exact .inr k

/-- The steps 1 and 3/4 in a loop of two samples. -/
example : LoopStep (lit 48000) 1 3 (lit 1) ∧ FreqsOk (LoopStep (lit 48000) 1 3) [.process, .setFrequency (lit (3 / 4)), .process] := by
  have h : ((SM.down ((lit 48000 : F64) * invSR) : F32) * SM.down (lit 1 : F64)).Is 1 := by decide +kernel
  have h' : ((SM.down ((lit 48000 : F64) * invSR) : F32) * SM.down (lit (3 / 4) : F64)).Is (3 / 4) := by decide +kernel
  refine ⟨⟨1, h, by norm_num, by norm_num⟩, fun f hf => ?_⟩
  simp only [List.mem_cons, reduceCtorEq, GenCall.setFrequency.injEq, List.not_mem_nil, or_false, false_or] at hf
  rw [hf]
  exact ⟨3 / 4, h', by norm_num, by norm_num⟩

/-- A loop that ends two samples or more before the end of the track never panics in IEEE arithmetic, in any history, and the
position stays below the loop end. -/
theorem C47_ieee_inner_partial (t : List (Mono F32)) (hlen : t.length ≤ 2 ^ 23) (rate : F64) (ls le : ℕ) (h1 : ls < le) (h2 : le + 2 ≤ t.length)
    (hr : LoopStep rate ls le (lit 1)) (cs : List (GenCall F64)) (hcs : FreqsOk (LoopStep rate ls le) cs) :
    ∃ r, runCallsR process setPlaybackSpeed cs (MonoResampler.new t rate ls le) = .ok r ∧ ∃ p : ℚ, r.ind.Is p ∧ 0 ≤ p ∧ p < le := by
  rcases C47_ieee_partial t hlen rate ls le h1 (by omega) hr cs hcs with h | ⟨-, pre, r, k1, k2, k3, -⟩
  · exact h
  · exfalso
    have hpre : FreqsOk (LoopStep rate ls le) pre := fun f hf => hcs f (k1.subset hf)
    rcases C47_ieee_partial t hlen rate ls le h1 (by omega) hr pre hpre with ⟨r', e, p, hp, p0, p1⟩ | ⟨e, -⟩
    · rw [k2] at e
      obtain rfl := Except.ok.inj e
      have hf1 : ⌊p⌋ < le := Int.floor_lt.mpr (by exact_mod_cast p1)
      rw [hp.toUsize, truncQ_of_nonneg p0] at k3
      omega
    · rw [k2] at e; cases e

example : ∃ r, runCallsR MonoResampler.process MonoResampler.setPlaybackSpeed [.process, .process, .process]
      (MonoResampler.new [⟨lit 0⟩, ⟨lit 1⟩, ⟨lit 2⟩, ⟨lit 3⟩, ⟨lit 4⟩] (lit 48000) 1 3 : MonoResampler F32 F64) = .ok r ∧ ∃ p : ℚ, r.ind.Is p ∧ 0 ≤ p ∧ p < 3 := by
  have h : ((SM.down ((lit 48000 : F64) * invSR) : F32) * SM.down (lit 1 : F64)).Is 1 := by decide +kernel
  exact C47_ieee_inner_partial _ (by simp) _ 1 3 (by norm_num) (by simp) ⟨1, h, by norm_num, by norm_num⟩ _ (by simp [FreqsOk])

/-- Outside the range of steps covered: a loop of one sample played from `1 - 2^-24` with step 1 arrives at the loop end, past
the track, and the next sample panics. -/
theorem C47_ieee_long_step_violated :
    (runCallsR process setPlaybackSpeed [.setFrequency (lit (1 - 1 / 2 ^ 24)), .process, .setFrequency (lit 1), .process, .process]
      (MonoResampler.new [⟨(lit 0 : F32)⟩] (lit 48000 : F64) 0 1)).toOption.isNone = true ∧
    (runCallsR process setPlaybackSpeed [.setFrequency (lit (1 - 1 / 2 ^ 24)), .process, .setFrequency (lit 1), .process]
      (MonoResampler.new [⟨(lit 0 : F32)⟩] (lit 48000 : F64) 0 1)).toOption.map (fun r => r.ind) = some (lit 1) := by
  decide +kernel

/-! ## C49: what a loop end of 0 does -/

/-- In any arithmetic, a loop end of 0 with a positive loop start `n` is the loop over the first `n` samples: "no looping" holds
exactly when the loop start is 0 as well. -/
theorem C49_swapped_violated {S M : Type} [Flt S] [Flt M] [SM S M] (t : List (Mono S)) (rate : M) (n : ℕ) (hn : 0 < n) :
    MonoResampler.new t rate n 0 = MonoResampler.new t rate 0 n ∧
    (MonoResampler.new t rate n 0).loopEnd = n ∧ (MonoResampler.new t rate 0 0).loopEnd = 0 := by
  unfold MonoResampler.new
  rw [if_pos hn, if_neg (by omega), if_neg (by omega)]
  exact ⟨rfl, rfl, rfl⟩

example : (MonoResampler.new [⟨lit 0⟩, ⟨lit 1⟩] (lit 48000) 2 0 : MonoResampler F32 F64) = MonoResampler.new [⟨lit 0⟩, ⟨lit 1⟩] (lit 48000) 0 2 :=
  (C49_swapped_violated _ _ 2 (by norm_num)).1

/-! ## C50: loops over part of the track -/

/-- What holds for every loop (exact arithmetic): sample `n` is the seamless loop's, at distance `n*rate*v/48000`, except
between the last sample of the loop and the loop end, where the sample interpolated to is the one after the loop (loop
ending inside the track) or the one before the loop start (loop ending with the track) instead of the loop start. -/
theorem C50_loop_partial (t : List (Mono ℝ)) (hlen : t.length < 2 ^ 63) (rate v : ℝ) (ls le : ℕ) (h1 : ls < le) (h2 : le ≤ t.length)
    (h0 : 0 ≤ rate * v / 48000) (h3 : rate * v / 48000 ≤ (le - ls : ℕ)) (n : ℕ) :
    let d := t.map Mono.mono
    let x := loopAt ls le (n * (rate * v / 48000))
    nthR process ((MonoResampler.new t rate ls le).setPlaybackSpeed v) n =
      .ok (if ⌊x⌋₊ + 1 = le then
        d.getD (le - 1) 0 + Int.fract x * (d.getD (if le < t.length then le else ls - 1) 0 - d.getD (le - 1) 0)
      else linLoop d ls le x) := by
  intro d x
  set s := rate * v / 48000 with hs
  have eL : ((le - ls : ℕ) : ℝ) = (le : ℝ) - ls := by rw [Nat.cast_sub h1.le]
  have hL : (0 : ℝ) < (le : ℝ) - ls := by rw [← eL]; exact_mod_cast (show 0 < le - ls by omega)
  have ls0 : (0 : ℝ) ≤ ls := Nat.cast_nonneg _
  have key : ∀ m : ℕ, ∃ x, afterR process m ((MonoResampler.new t rate ls le).setPlaybackSpeed v) =
      .ok ⟨t, x, rate / 48000, v, ls, le⟩ ∧ 0 ≤ x ∧ x < le ∧ ∃ k : ℕ, m * s = x + k * ((le : ℝ) - ls) ∧ (k ≠ 0 → ls ≤ x) := by
    intro m
    induction m with
    | zero =>
      refine ⟨0, ?_, le_refl _, by exact_mod_cast (show 0 < le by omega), 0, by simp⟩
      unfold afterR setPlaybackSpeed MonoResampler.new
      rw [if_neg (by omega)]
      real_simp
      simp [div_eq_mul_inv]
    | succ m ih =>
      obtain ⟨x, a1, a2, a3, k, a4, a5⟩ := ih
      obtain ⟨j, hi, hj, hp, -⟩ := real_process_loop ⟨t, x, rate / 48000, v, ls, le⟩ hlen a2 (by show 0 < le; omega) h2 h1 a3
      rw [real_advance_loop _ (by show le ≠ 0; omega)] at hp
      have e : rate / 48000 * v = s := by rw [hs]; ring
      simp only [e] at hp
      rw [eL] at hp h3
      refine ⟨_, afterR_succ a1 hp, ?_, ?_, ?_⟩
      · split_ifs with h <;> linarith
      · split_ifs with h
        · linarith
        · exact not_le.mp h
      · split_ifs with h
        · exact ⟨k + 1, by push_cast; linarith, fun _ => by linarith⟩
        · exact ⟨k, by push_cast; linarith, fun hk => by linarith [a5 hk]⟩
  obtain ⟨y, a1, a2, a3, k, a4, a5⟩ := key n
  -- the position is the one of the specification
  have hx : x = y := by
    show (if (n : ℝ) * s < le then (n : ℝ) * s else ls + Int.fract (((n : ℝ) * s - ls) / (le - ls)) * (le - ls)) = y
    by_cases hk : k = 0
    · rw [hk] at a4
      rw [if_pos (by push_cast at a4; linarith)]
      push_cast at a4; linarith
    · have hk1 : (1 : ℝ) ≤ k := by exact_mod_cast Nat.one_le_iff_ne_zero.mpr hk
      have hge : (le : ℝ) ≤ n * s := by
        rw [a4]; nlinarith [a5 hk]
      rw [if_neg (not_lt.mpr hge), a4, show (y + k * ((le : ℝ) - ls) - ls) / (le - ls) = (y - ls) / (le - ls) + k by field_simp; ring,
        Int.fract_add_natCast, Int.fract_eq_self.mpr ⟨div_nonneg (by linarith [a5 hk]) hL.le, (div_lt_one hL).mpr (by linarith)⟩,
        div_mul_cancel₀ _ hL.ne']
      ring
  clear_value x
  subst hx
  obtain ⟨j, hi, hj, hp, hj1, hj2⟩ := real_process_loop ⟨t, x, rate / 48000, v, ls, le⟩ hlen a2 (by show 0 < le; omega) h2 h1 a3
  unfold nthR
  rw [a1]
  simp only [hp]
  have hg : ∀ i (h : i < t.length), d.getD i 0 = t[i].mono := by
    intro i h
    simp [d, List.getD_eq_getElem?_getD, h]
  have hi' : ⌊x⌋₊ < t.length := hi
  have hfl : ⌊x⌋₊ < le := (Nat.floor_lt a2).mpr a3
  show Except.ok (t[⌊x⌋₊].mono + Int.fract x * (t[j].mono - t[⌊x⌋₊].mono)) = _
  congr 1
  split_ifs with hl hle
  · have ej : j = ⌊x⌋₊ + 1 := hj1 (by show ⌊x⌋₊ + 1 < t.length; omega)
    have e1 : le - 1 = ⌊x⌋₊ := by omega
    have e2 : le = j := by omega
    rw [e1, hg _ hi', e2, hg _ hj]
  · have e0 : ⌊x⌋₊ + 1 = t.length := by omega
    have ej := hj2 e0
    simp only at ej
    have e1 : le - 1 = ⌊x⌋₊ := by omega
    have e3 : ls - 1 = j := by
      rw [ej, eL]
      have hx1 : (le : ℝ) - 1 ≤ x := by
        have := Nat.floor_le a2
        have e : ((⌊x⌋₊ : ℕ) : ℝ) = le - 1 := by rw [← e1, Nat.cast_sub (by omega)]; simp
        linarith
      rcases Nat.eq_zero_or_pos ls with hz | hz
      · rw [hz, real_toUsize_neg (by push_cast; linarith)]
      · have hls1 : (1 : ℝ) ≤ ls := by exact_mod_cast hz
        have ef : ⌊x - ((le : ℝ) - ls)⌋₊ = ls - 1 := by
          rw [Nat.floor_eq_iff (by linarith), Nat.cast_sub hz]
          push_cast
          constructor <;> linarith
        rw [real_toUsize_floor (by linarith), ef]
        omega
    rw [e1, hg _ hi', e3, hg _ hj]
  · unfold linLoop
    rw [if_neg hl, hg _ hi']
    by_cases hlast : ⌊x⌋₊ + 1 < t.length
    · rw [hg _ hlast]
      have ej : j = ⌊x⌋₊ + 1 := hj1 hlast
      subst ej
      rfl
    · omega

example : (1 : ℕ) < 3 ∧ (3 : ℕ) ≤ 4 ∧ (0 : ℝ) ≤ 48000 * (1 / 2) / 48000 ∧ (48000 : ℝ) * (1 / 2) / 48000 ≤ (3 - 1 : ℕ) := by norm_num

end Verif
