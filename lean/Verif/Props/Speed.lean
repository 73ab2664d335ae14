import Verif.Props.Resampler
import Verif.Spec.Filter
import Mathlib.Tactic.IntervalCases

/-! # Changing the playback speed while playing: C132 -/

namespace Verif
open MonoResampler

/-! ## Specification -/

/-- One step of a player whose speed is set before every sample. -/
noncomputable def playAt (g : MonoWav ℝ ℝ) (v : ℝ) : Res (ℝ × MonoWav ℝ ℝ) := (g.getMut (fun r => r.setPlaybackSpeed v)).process

/-- Distance travelled before sample `n`: speed `v k` for the duration of sample `k`. -/
noncomputable def travelled (rate : ℝ) (v : ℕ → ℝ) : ℕ → ℝ
  | 0 => 0
  | n + 1 => travelled rate v n + rate * v n / 48000

/-! ## Lemmas -/

private theorem trunc_neg {x : ℝ} (h : x < 0) : toUsize (Flt.trunc x) = 0 := by
  have e : (Flt.trunc x : ℝ) = (⌈x⌉ : ℤ) := by
    show (if x < 0 then (⌈x⌉ : ℝ) else (⌊x⌋ : ℝ)) = _
    rw [if_pos h]
  rw [e]
  have h1 : ⌈x⌉ ≤ 0 := Int.ceil_le.mpr (by simpa using h.le)
  rcases h1.lt_or_eq with h2 | h2
  · exact real_toUsize_neg (by exact_mod_cast h2)
  · rw [h2, real_toUsize_floor (by norm_num)]
    simp

/-- Before the start, the first sample. -/
private theorem process_before (r : MonoResampler ℝ ℝ) (hlen : r.data.length < 2 ^ 63) (h0 : r.ind < 0) (hl : r.loopEnd = 0)
    (hd : 0 < r.data.length) : r.process = .ok (r.data[0].mono, r.advance) := by
  have e1 : toUsize r.ind = 0 := real_toUsize_neg h0
  have e2 : toUsize (Flt.trunc r.ind) = 0 := trunc_neg h0
  have h1 : r.at' (toUsize (Flt.trunc r.ind)) = .ok r.data[0].mono := by rw [e2, at'_ok r hd]
  have h2 : r.nextSample = .ok r.data[0].mono := by
    unfold nextSample
    simp only [e2]
    rw [if_neg (by omega), if_neg (by tauto)]
    split_ifs
    · rw [at'_ok r hd]
    · have : toUsize (Flt.trunc (r.ind + lit 1)) = 0 := by
        have e : (r.ind + lit 1 : ℝ) = r.ind + 1 := by real_simp
        rcases lt_or_ge (r.ind + 1) 0 with h | h
        · rw [show @HAdd.hAdd ℝ ℝ ℝ (@instHAdd ℝ Flt.toAdd) r.ind (lit 1) = r.ind + 1 by real_simp]
          exact trunc_neg h
        · rw [show @HAdd.hAdd ℝ ℝ ℝ (@instHAdd ℝ Flt.toAdd) r.ind (lit 1) = r.ind + 1 by real_simp]
          rw [real_trunc_nonneg h]
          have : ⌊r.ind + 1⌋ = 0 := by rw [Int.floor_eq_iff]; constructor <;> push_cast <;> linarith
          rw [this, real_toUsize_floor (by norm_num)]
          simp
      rw [this, at'_ok r hd]
  rw [process_eq r (by omega) h2 h1]
  congr 2
  real_simp
  ring

private theorem state_after (t : List (Mono ℝ)) (hlen : t.length < 2 ^ 63) (rate : ℝ) (v : ℕ → ℝ) (n : ℕ)
    (hn : ∀ m < n, travelled rate v m < t.length) :
    ∃ s, modAfter playAt v (MonoWav.fromTrack rate t) n = .ok ⟨⟨t, travelled rate v n, rate * (1 / 48000), s, 0, 0⟩⟩ := by
  induction n with
  | zero =>
    refine ⟨1, ?_⟩
    unfold modAfter MonoWav.fromTrack MonoResampler.new travelled
    real_simp
    simp
  | succ n ih =>
    obtain ⟨s, hs⟩ := ih (fun m hm => hn m (by omega))
    have hlt := hn n (by omega)
    refine ⟨v n, ?_⟩
    have hpos : 0 < t.length := by
      have := hn 0 (by omega)
      unfold travelled at this
      exact_mod_cast this
    have hp : ∃ y, playAt ⟨⟨t, travelled rate v n, rate * (1 / 48000), s, 0, 0⟩⟩ (v n) =
        .ok (y, ⟨(⟨t, travelled rate v n, rate * (1 / 48000), v n, 0, 0⟩ : MonoResampler ℝ ℝ).advance⟩) := by
      unfold playAt MonoWav.getMut MonoWav.process setPlaybackSpeed
      rcases lt_or_ge (travelled rate v n) 0 with h | h
      · rw [process_before _ hlen h rfl hpos]
        exact ⟨_, rfl⟩
      · rw [real_process _ hlen h rfl hlt]
        exact ⟨_, rfl⟩
    obtain ⟨y, hy⟩ := hp
    rw [modAfter_succ hs hy, real_advance _ rfl]
    simp only [travelled]
    congr 4
    ring

/-- Exact arithmetic, no loop, a speed set before every sample, forwards, backwards or 0: as long as the end was not
reached, sample `n` is the linear interpolation of the track at the distance travelled; before the start, the first sample.
Missing: silence before the start, which is false. -/
theorem C132_position_partial (t : List (Mono ℝ)) (hlen : t.length < 2 ^ 63) (rate : ℝ) (v : ℕ → ℝ) (n : ℕ)
    (hn : ∀ m ≤ n, travelled rate v m < t.length) :
    modOut playAt v (MonoWav.fromTrack rate t) n = .ok (lin (t.map Mono.mono) (max 0 (travelled rate v n))) := by
  obtain ⟨s, hs⟩ := state_after t hlen rate v n (fun m hm => hn m hm.le)
  have hlt := hn n le_rfl
  have hpos : 0 < t.length := by
    have := hn 0 (by omega)
    unfold travelled at this
    exact_mod_cast this
  rw [modOut, hs]
  simp only [playAt, MonoWav.getMut, MonoWav.process, setPlaybackSpeed]
  rcases lt_or_ge (travelled rate v n) 0 with h | h
  · rw [process_before _ hlen h rfl hpos, max_eq_left h.le]
    show Except.ok _ = _
    simp [lin, hpos]
  · rw [real_process _ hlen h rfl hlt, max_eq_right h]
    rfl

/-- Once the end is reached there is silence for ever, whatever speed is set: playing backwards does not bring it back. -/
theorem C132_end (t : List (Mono ℝ)) (hlen : t.length < 2 ^ 63) (rate : ℝ) (v : ℕ → ℝ) (m n : ℕ)
    (hm : ∀ k < m, travelled rate v k < t.length) (he : t.length ≤ travelled rate v m) (hn : m ≤ n) :
    modOut playAt v (MonoWav.fromTrack rate t) n = .ok 0 := by
  obtain ⟨s, hs⟩ := state_after t hlen rate v m hm
  have h0 : 0 ≤ travelled rate v m := le_trans (by positivity) he
  have hp : ∀ (s w : ℝ), playAt ⟨⟨t, travelled rate v m, rate * (1 / 48000), s, 0, 0⟩⟩ w =
      .ok (0, ⟨⟨t, travelled rate v m, rate * (1 / 48000), w, 0, 0⟩⟩) := by
    intro s w
    unfold playAt MonoWav.getMut MonoWav.process setPlaybackSpeed
    rw [real_process_end _ hlen h0 rfl he]
    rfl
  have key : ∀ j, ∃ s, modAfter playAt v (MonoWav.fromTrack rate t) (m + j) = .ok ⟨⟨t, travelled rate v m, rate * (1 / 48000), s, 0, 0⟩⟩ := by
    intro j
    induction j with
    | zero => exact ⟨s, hs⟩
    | succ j ih =>
      obtain ⟨s', hs'⟩ := ih
      exact ⟨v (m + j), modAfter_succ hs' (hp s' _)⟩
  obtain ⟨s', hs'⟩ := key (n - m)
  rw [show m + (n - m) = n by omega] at hs'
  exact modOut_of hs' (hp s' _)

/-- A track of two samples at double speed is over after one sample. -/
example : modOut playAt (fun _ => 2) (MonoWav.fromTrack 48000 [⟨1⟩, ⟨1⟩]) 7 = .ok (0 : ℝ) := by
  refine C132_end _ (by simp) _ _ 1 7 (fun k hk => ?_) ?_ (by norm_num)
  · interval_cases k
    norm_num [travelled]
  · norm_num [travelled]

/-- The code violates C132: played backwards from the start, a track does not fall silent but holds its first sample for
ever. -/
theorem C132_backwards_violated (t : List (Mono ℝ)) (hlen : t.length < 2 ^ 63) (hpos : 0 < t.length) (rate v : ℝ) (hr : 0 < rate)
    (hv : v < 0) (n : ℕ) : modOut playAt (fun _ => v) (MonoWav.fromTrack rate t) n = .ok t[0].mono := by
  have hneg : ∀ m, travelled rate (fun _ => v) m ≤ 0 := by
    intro m
    induction m with
    | zero => exact le_rfl
    | succ m ih =>
      have : rate * v / 48000 < 0 := div_neg_of_neg_of_pos (mul_neg_of_pos_of_neg hr hv) (by norm_num)
      rw [travelled]
      linarith
  rw [C132_position_partial t hlen rate _ n (fun m _ => lt_of_le_of_lt (hneg m) (by exact_mod_cast hpos)), max_eq_left (hneg n)]
  simp [lin, hpos]

example (n : ℕ) : modOut playAt (fun _ => -1) (MonoWav.fromTrack 48000 [⟨1⟩, ⟨5⟩]) n = .ok (1 : ℝ) :=
  C132_backwards_violated [⟨1⟩, ⟨5⟩] (by simp) (by simp) 48000 (-1) (by norm_num) (by norm_num) n

/-! ## No clicks -/

private theorem lin_nat (d : List ℝ) (k : ℕ) : lin d k = d.getD k 0 := by
  unfold lin
  rw [Nat.floor_natCast, Int.fract_natCast, zero_mul, add_zero]

private theorem step_le {d : List ℝ} {D : ℝ} (hD0 : 0 ≤ D) (hD : ∀ i, i + 1 < d.length → |d.getD (i + 1) 0 - d.getD i 0| ≤ D) (i : ℕ)
    (hi : i < d.length) : |d.getD (min (i + 1) (d.length - 1)) 0 - d.getD i 0| ≤ D := by
  rcases lt_or_ge (i + 1) d.length with h | h
  · rw [min_eq_left (by omega)]; exact hD i h
  · rw [min_eq_right (by omega), show d.length - 1 = i by omega, sub_self, abs_zero]; exact hD0

private theorem lin_cell {d : List ℝ} {D : ℝ} (hD0 : 0 ≤ D) (hD : ∀ i, i + 1 < d.length → |d.getD (i + 1) 0 - d.getD i 0| ≤ D) (k : ℕ)
    {x y : ℝ} (hk : k ≤ x) (hxy : x ≤ y) (hy : y ≤ k + 1) (hyl : y < d.length) : |lin d y - lin d x| ≤ D * (y - x) := by
  have hkl : k < d.length := by exact_mod_cast lt_of_le_of_lt (hk.trans hxy) hyl
  have form : ∀ z : ℝ, k ≤ z → z ≤ k + 1 → z < d.length → lin d z = d.getD k 0 + (z - k) * (d.getD (min (k + 1) (d.length - 1)) 0 - d.getD k 0) := by
    intro z h1 h2 h3
    rcases h2.lt_or_eq with h | h
    · have e : ⌊z⌋₊ = k := by
        rw [Nat.floor_eq_iff (le_trans (by positivity) h1)]; exact ⟨h1, h⟩
      have e2 : Int.fract z = z - k := by
        have : ⌊z⌋ = k := by rw [Int.floor_eq_iff]; exact ⟨by exact_mod_cast h1, by exact_mod_cast h⟩
        rw [Int.fract, this]; simp
      rw [lin, e, e2]
    · have h4 : k + 1 < d.length := by
        have : ((k + 1 : ℕ) : ℝ) < d.length := by push_cast; rw [← h]; exact h3
        exact_mod_cast this
      have hz : z = ((k + 1 : ℕ) : ℝ) := by rw [h]; push_cast; ring
      rw [hz, lin_nat, min_eq_left (by omega)]
      push_cast
      ring
  rw [form y (hk.trans hxy) hy hyl, form x hk (hxy.trans hy) (lt_of_le_of_lt hxy hyl)]
  have h1 := step_le hD0 hD k hkl
  rw [show ∀ a b : ℝ, a + (y - k) * b - (a + (x - k) * b) = b * (y - x) from fun a b => by ring, abs_mul, abs_of_nonneg (sub_nonneg.mpr hxy)]
  exact mul_le_mul_of_nonneg_right h1 (sub_nonneg.mpr hxy)

private theorem lin_lip {d : List ℝ} {D : ℝ} (hD0 : 0 ≤ D) (hD : ∀ i, i + 1 < d.length → |d.getD (i + 1) 0 - d.getD i 0| ≤ D) (j : ℕ) :
    ∀ (x y : ℝ), 0 ≤ x → x ≤ y → y < d.length → ⌊y⌋₊ = ⌊x⌋₊ + j → |lin d y - lin d x| ≤ D * (y - x) := by
  induction j with
  | zero =>
    intro x y hx hxy hy hf
    refine lin_cell hD0 hD ⌊x⌋₊ (Nat.floor_le hx) hxy ?_ hy
    rw [← Nat.add_zero ⌊x⌋₊, ← hf]
    exact (Nat.lt_floor_add_one y).le
  | succ j ih =>
    intro x y hx hxy hy hf
    obtain ⟨z, hz⟩ : ∃ z : ℝ, z = ((⌊y⌋₊ : ℕ) : ℝ) := ⟨_, rfl⟩
    have hy0 := hx.trans hxy
    have hzy : z ≤ y := hz ▸ Nat.floor_le hy0
    obtain ⟨w, hw⟩ : ∃ w : ℝ, w = ((⌊x⌋₊ + 1 : ℕ) : ℝ) := ⟨_, rfl⟩
    have hxw : x ≤ w := by rw [hw]; push_cast; exact (Nat.lt_floor_add_one x).le
    have hwy : w ≤ y := le_trans (by rw [hw, hz]; exact_mod_cast (by omega)) hzy
    have h1 : |lin d w - lin d x| ≤ D * (w - x) :=
      lin_cell hD0 hD ⌊x⌋₊ (Nat.floor_le hx) hxw (by rw [hw]; push_cast; exact le_rfl) (lt_of_le_of_lt hwy hy)
    have h2 : |lin d y - lin d w| ≤ D * (y - w) := ih w y (hx.trans hxw) hwy hy (by rw [hw, Nat.floor_natCast]; omega)
    have h3 := abs_sub_le (lin d y) (lin d w) (lin d x)
    linarith

theorem lin_lipschitz {d : List ℝ} {D : ℝ} (hD0 : 0 ≤ D) (hD : ∀ i, i + 1 < d.length → |d.getD (i + 1) 0 - d.getD i 0| ≤ D)
    {x y : ℝ} (hx : 0 ≤ x) (hy : 0 ≤ y) (hxl : x < d.length) (hyl : y < d.length) : |lin d y - lin d x| ≤ D * |y - x| := by
  rcases le_total x y with h | h
  · rw [abs_of_nonneg (sub_nonneg.mpr h)]
    exact lin_lip hD0 hD (⌊y⌋₊ - ⌊x⌋₊) x y hx h hyl (by have := Nat.floor_le_floor h; omega)
  · rw [abs_sub_comm, abs_sub_comm y x, abs_of_nonneg (sub_nonneg.mpr h)]
    exact lin_lip hD0 hD (⌊x⌋₊ - ⌊y⌋₊) y x hy h hxl (by have := Nat.floor_le_floor h; omega)

/-- Changing the speed makes no clicks: if neighbouring samples of the track differ by at most `D`, consecutive output
samples differ by at most `D` times the step taken, whatever speeds are set. -/
theorem C132_no_click (t : List (Mono ℝ)) (hlen : t.length < 2 ^ 63) (rate : ℝ) (v : ℕ → ℝ) (D : ℝ) (hD0 : 0 ≤ D)
    (hD : ∀ i (h : i + 1 < t.length), |t[i + 1].mono - t[i].mono| ≤ D) (n : ℕ) (hn : ∀ m ≤ n + 1, travelled rate v m < t.length) :
    ∃ a b, modOut playAt v (MonoWav.fromTrack rate t) n = .ok a ∧ modOut playAt v (MonoWav.fromTrack rate t) (n + 1) = .ok b ∧
      |b - a| ≤ D * |rate * v n / 48000| := by
  refine ⟨_, _, C132_position_partial t hlen rate v n (fun m hm => hn m (by omega)), C132_position_partial t hlen rate v (n + 1) hn, ?_⟩
  have hpos : (0 : ℝ) < t.length := by
    have := hn 0 (by omega)
    unfold travelled at this
    exact this
  have hl : ((t.map Mono.mono).length : ℝ) = t.length := by rw [List.length_map]
  have h := lin_lipschitz (d := t.map Mono.mono) hD0 (fun i hi => by
    rw [List.length_map] at hi
    have := hD i hi
    simpa [List.getD_eq_getElem?_getD, hi, (by omega : i < t.length)] using this)
    (le_max_left 0 (travelled rate v n)) (le_max_left 0 (travelled rate v (n + 1)))
    (by rw [hl]; exact max_lt hpos (hn n (by omega))) (by rw [hl]; exact max_lt hpos (hn (n + 1) le_rfl))
  refine h.trans (mul_le_mul_of_nonneg_left ?_ hD0)
  have e := abs_max_sub_max_le_abs (travelled rate v (n + 1)) (travelled rate v n) 0
  rw [max_comm 0, max_comm 0]
  refine e.trans (le_of_eq ?_)
  rw [travelled]
  congr 1
  ring

/-- Two steps forwards at half speed, then backwards: the third sample is the one at position 1. -/
example : modOut playAt (fun k => if k < 3 then 1 / 2 else -(1 / 2)) (MonoWav.fromTrack 48000 [⟨0⟩, ⟨1⟩, ⟨5⟩]) 4 = .ok 1 := by
  have e : ∀ m, m ≤ 4 → travelled 48000 (fun k => if k < 3 then (1 / 2 : ℝ) else -(1 / 2)) m = if m ≤ 3 then (m : ℝ) / 2 else 1 := by
    intro m hm
    interval_cases m <;> norm_num [travelled]
  rw [C132_position_partial _ (by simp) _ _ 4 (fun m hm => by rw [e m hm]; interval_cases m <;> norm_num), e 4 le_rfl]
  have : max (0 : ℝ) (if 4 ≤ 3 then ((4 : ℕ) : ℝ) / 2 else 1) = ((1 : ℕ) : ℝ) := by norm_num
  rw [this, lin_nat]
  rfl

end Verif
