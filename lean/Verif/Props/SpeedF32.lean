import Verif.Props.ResamplerF32
import Verif.Props.Speed

/-! # Changing the playback speed while playing, in floating point: C132 -/

namespace Verif
open Fl MonoResampler

/-! ## Specification -/

/-- One step of a player whose speed is set just before. -/
def playAt32 (g : MonoWav F32 F64) (v : F64) : Res (F32 × MonoWav F32 F64) := (g.getMut (fun r => r.setPlaybackSpeed v)).process

/-- The player after `n` samples, the speed set to `v k` before sample `k`. -/
def steered (v : ℕ → F64) (g : MonoWav F32 F64) : ℕ → Res (MonoWav F32 F64)
  | 0 => .ok g
  | n + 1 => match steered v g n with
    | .error e => .error e
    | .ok g' => (playAt32 g' (v n)).map Prod.snd

/-- Sample `n` of that player. -/
def steeredOut (v : ℕ → F64) (g : MonoWav F32 F64) (n : ℕ) : Res F32 :=
  match steered v g n with
  | .error e => .error e
  | .ok g' => (playAt32 g' (v n)).map Prod.fst

/-- Distance travelled before sample `n`, exactly. -/
def distance (R : ℚ) (V : ℕ → ℚ) : ℕ → ℚ
  | 0 => 0
  | n + 1 => distance R V n + R * V n / 48000

/-! ## Position -/

/-- A player of `t` at source rate `rate`, not looping. -/
private structure Pl (t : List (Mono F32)) (rate : F64) (g : MonoWav F32 F64) : Prop where
  data : g.resam.data = t
  inc : g.resam.inc = (MonoResampler.new (S := F32) t rate 0 0).inc
  le : g.resam.loopEnd = 0

private theorem Pl.step {t : List (Mono F32)} {rate : F64} {g : MonoWav F32 F64} (h : Pl t rate g) {v : F64} {R V : ℚ} (hR : rate.Is R) (hV : v.Is V)
    (hR0 : 1 ≤ R) (hR1 : R ≤ 2 ^ 30) (hV0 : (2 ^ 20)⁻¹ ≤ V) (hV1 : V ≤ 2 ^ 20) :
    ∃ s, ResamSt t s (g.resam.setPlaybackSpeed v) ∧ 0 ≤ s ∧ |s - R * V / 48000| ≤ (2 ^ 22)⁻¹ * (R * V / 48000) := by
  obtain ⟨s, hs, h0, h1⟩ := resam_step t hR hV hR0 hR1 hV0 hV1
  refine ⟨s, ⟨h.data, ?_, h.le⟩, h0, h1⟩
  have := hs.step
  show (g.resam.inc * SM.down v).Is s
  rw [h.inc]
  exact this

private theorem distance_nonneg {R : ℚ} {V : ℕ → ℚ} (hR : 0 ≤ R) (hV : ∀ n, 0 ≤ V n) (n : ℕ) : 0 ≤ distance R V n := by
  induction n with
  | zero => exact le_rfl
  | succ n ih => exact add_nonneg ih (div_nonneg (mul_nonneg hR (hV n)) (by norm_num))

private theorem position (t : List (Mono F32)) (hlen : t.length ≤ 2 ^ 24) {rate : F64} {v : ℕ → F64} {R : ℚ} {V : ℕ → ℚ} (hR : rate.Is R)
    (hV : ∀ n, (v n).Is (V n)) (hR0 : 1 ≤ R) (hR1 : R ≤ 2 ^ 30) (hV0 : ∀ n, (2 ^ 20)⁻¹ ≤ V n) (hV1 : ∀ n, V n ≤ 2 ^ 20) (k : ℕ) (hk : k ≤ 24) (n : ℕ)
    (hn1 : distance R V n * (1 + (2 ^ 22)⁻¹) + n * 2 ^ ((k : ℤ) - 25) ≤ 2 ^ k)
    (hn2 : distance R V n * (1 + (2 ^ 22)⁻¹) + n * 2 ^ ((k : ℤ) - 25) + 3 ≤ t.length) :
    ∃ g p, steered v (MonoWav.fromTrack rate t) n = .ok g ∧ Pl t rate g ∧ g.resam.ind.Is p ∧ 0 ≤ p ∧
      |p - distance R V n| ≤ n * 2 ^ ((k : ℤ) - 25) + (2 ^ 22)⁻¹ * distance R V n := by
  have he : (0 : ℚ) < 2 ^ ((k : ℤ) - 25) := by positivity
  have hk24 : (2 : ℚ) ^ k ≤ 2 ^ 24 := two_pow_le _ _ hk
  have hVn : ∀ n, 0 ≤ V n := fun n => le_trans (by positivity) (hV0 n)
  generalize hE : (2 : ℚ) ^ ((k : ℤ) - 25) = e at *
  induction n with
  | zero => exact ⟨_, 0, rfl, ⟨rfl, rfl, rfl⟩, lit32_0, le_rfl, by simp [distance]⟩
  | succ n ih =>
    have hd := distance_nonneg (V := V) (by linarith : 0 ≤ R) hVn n
    have hσ : 0 ≤ R * V n / 48000 := div_nonneg (mul_nonneg (by linarith) (hVn n)) (by norm_num)
    simp only [distance] at hn1 hn2 ⊢
    push_cast at hn1 hn2 ⊢
    generalize hs' : R * V n / 48000 = σ at *
    obtain ⟨g, p, h1, h2, h3, h4, h5⟩ := ih (by nlinarith) (by nlinarith)
    obtain ⟨s, s1, s2, s3⟩ := h2.step hR (hV n) hR0 hR1 (hV0 n) (hV1 n)
    rw [hs'] at s3
    have h6 := (abs_le.mp h5).2
    have s4 := (abs_le.mp s3).2
    have hps : p + s ≤ 2 ^ k := by linarith
    obtain ⟨y, r', g1, g2, g3⟩ := s1.next hlen s2 (by linarith) (p := p) h3 h4 (by linarith)
    have hstep : playAt32 g (v n) = .ok (y, ⟨r'⟩) := by
      unfold playAt32 MonoWav.getMut MonoWav.process
      rw [g1]
      rfl
    refine ⟨⟨r'⟩, _, ?_, ⟨g2.data, ?_, g2.le⟩, g3, b32.rnd_nonneg (by linarith), ?_⟩
    · rw [steered, h1]; simp only [hstep]; rfl
    · obtain ⟨_, _, _, hy⟩ := resam_output (g.resam.setPlaybackSpeed (v n)) h2.le (by rw [s1.data]; exact hlen) (p := p) h3 h4 (by rw [s1.data]; linarith)
      rw [hy, resam_advance (g.resam.setPlaybackSpeed (v n)) h2.le] at g1
      simp only [Except.ok.injEq, Prod.mk.injEq] at g1
      rw [← g1.2]
      exact h2.inc
    · have herr := err32 (q := p + s) (k : ℤ) (by omega) (by rw [abs_of_nonneg (by linarith), zpow_natCast]; exact hps)
      rw [hE] at herr
      calc |b32.rnd (p + s) - (distance R V n + σ)| = |(b32.rnd (p + s) - (p + s)) + ((p - distance R V n) + (s - σ))| := by congr 1; ring
        _ ≤ e + ((n * e + (2 ^ 22)⁻¹ * distance R V n) + (2 ^ 22)⁻¹ * σ) :=
          (abs_add_le _ _).trans (add_le_add herr ((abs_add_le _ _).trans (add_le_add h5 s3)))
        _ = (n + 1) * e + (2 ^ 22)⁻¹ * (distance R V n + σ) := by ring

/-- IEEE, a positive speed set before every sample, as long as the position stays below `2^k` and three samples away from the end: the position
never differs from the distance travelled by more than `2^(k-25)` per sample and `2^-22` of the distance. Missing: a bound
independent of the position (C107), and playing backwards. -/
theorem C132_drift_f32_partial (t : List (Mono F32)) (hlen : t.length ≤ 2 ^ 24) {rate : F64} {v : ℕ → F64} {R : ℚ} {V : ℕ → ℚ} (hR : rate.Is R)
    (hV : ∀ n, (v n).Is (V n)) (hR0 : 1 ≤ R) (hR1 : R ≤ 2 ^ 30) (hV0 : ∀ n, (2 ^ 20)⁻¹ ≤ V n) (hV1 : ∀ n, V n ≤ 2 ^ 20) (k : ℕ) (hk : k ≤ 24) (n : ℕ)
    (hn1 : distance R V n * (1 + (2 ^ 22)⁻¹) + n * 2 ^ ((k : ℤ) - 25) ≤ 2 ^ k)
    (hn2 : distance R V n * (1 + (2 ^ 22)⁻¹) + n * 2 ^ ((k : ℤ) - 25) + 3 ≤ t.length) :
    ∃ g p, steered v (MonoWav.fromTrack rate t) n = .ok g ∧ g.resam.ind.Is p ∧ 0 ≤ p ∧
      |p - distance R V n| ≤ n * 2 ^ ((k : ℤ) - 25) + (2 ^ 22)⁻¹ * distance R V n := by
  obtain ⟨g, p, h1, -, h2, h3, h4⟩ := position t hlen hR hV hR0 hR1 hV0 hV1 k hk n hn1 hn2
  exact ⟨g, p, h1, h2, h3, h4⟩

/-! ## Output -/

/-- The output at any position: between the sample at `⌊p⌋` and one of the next two. -/
private theorem output_any (r : MonoResampler F32 F64) (hl : r.loopEnd = 0) (hlen : r.data.length ≤ 2 ^ 24) {p : ℚ}
    (hp : r.ind.Is p) (h0 : 0 ≤ p) (h1 : p + 3 ≤ r.data.length) (x : ℕ → ℚ) {X D : ℚ} (hX : X ≤ 2 ^ 90)
    (hx : ∀ i (h : i < r.data.length), (r.data[i]).mono.Is (x i) ∧ |x i| ≤ X) (hD : ∀ i, i + 1 < r.data.length → |x (i + 1) - x i| ≤ D) :
    ∃ y z r', r.process = .ok (y, r') ∧ y.Is z ∧
      |z - ((1 - Int.fract p) * x ⌊p⌋₊ + Int.fract p * x (⌊p⌋₊ + 1))| ≤ (2 ^ 21)⁻¹ * X + (2 ^ 140)⁻¹ + D := by
  have hlenq : (r.data.length : ℚ) ≤ 16777216 := by exact_mod_cast hlen
  have hfl : ⌊p⌋₊ + 3 ≤ r.data.length := by
    have := Nat.floor_le h0
    have h2 : ((⌊p⌋₊ + 3 : ℕ) : ℚ) ≤ r.data.length := by push_cast; linarith
    exact_mod_cast h2
  have D0 : 0 ≤ D := (abs_nonneg _).trans (hD 0 (by omega))
  obtain ⟨hj2, hi, hj, hy⟩ := resam_output r hl hlen hp h0 h1
  have hj1 : ⌊p⌋₊ + 1 ≤ ⌊b32.rnd (p + 1)⌋₊ := by
    refine Nat.le_floor ?_
    have := b32.repr_le_rnd (Fmt.repr32_int (n := ((⌊p⌋₊ + 1 : ℕ) : ℤ)) (by rw [abs_le]; omega)) (x := p + 1) (by
      push_cast
      linarith [Nat.floor_le h0])
    exact_mod_cast this
  obtain ⟨a1, a2⟩ := hx _ hi
  obtain ⟨b1, b2⟩ := hx _ hj
  have hfr : (Flt.fract r.ind).Is (b32.rnd (Int.fract p)) := by
    have hs := Is.sub hp hp.trunc (fits32' 0 (by norm_num) (by rw [abs_sub_comm]; exact (abs_truncQ_sub_lt p).le))
    rwa [truncQ_of_nonneg h0] at hs
  obtain ⟨z, z1, z2⟩ := resam_interp_err a1 b1 hfr (Int.fract_nonneg p) (Int.fract_lt_one p).le hX a2 b2
  refine ⟨_, z, _, hy, z1, ?_⟩
  have hd : |x ⌊b32.rnd (p + 1)⌋₊ - x (⌊p⌋₊ + 1)| ≤ D := by
    rcases (by omega : ⌊b32.rnd (p + 1)⌋₊ = ⌊p⌋₊ + 1 ∨ ⌊b32.rnd (p + 1)⌋₊ = ⌊p⌋₊ + 1 + 1) with e | e
    · rw [e, sub_self, abs_zero]; exact D0
    · rw [e]; exact hD _ (by omega)
  generalize x ⌊b32.rnd (p + 1)⌋₊ = b at *
  have hf0 := Int.fract_nonneg p
  have hf1 := (Int.fract_lt_one p).le
  generalize Int.fract p = f at *
  have h5 : |f * (b - x (⌊p⌋₊ + 1))| ≤ D := by
    rw [abs_mul, abs_of_nonneg hf0]
    exact (mul_le_of_le_one_left (abs_nonneg _) hf1).trans hd
  calc |z - ((1 - f) * x ⌊p⌋₊ + f * x (⌊p⌋₊ + 1))| = |(z - ((1 - f) * x ⌊p⌋₊ + f * b)) + f * (b - x (⌊p⌋₊ + 1))| := by congr 1; ring
    _ ≤ _ := (abs_add_le _ _).trans (add_le_add z2 h5)

/-- The values of the track, as real numbers. -/
def reals (x : ℕ → ℚ) (n : ℕ) : List ℝ := (List.range n).map fun i => (x i : ℝ)

private theorem lin_reals (x : ℕ → ℚ) (n : ℕ) {p : ℚ} (h0 : 0 ≤ p) (h1 : ⌊p⌋₊ + 1 < n) :
    lin (reals x n) (p : ℝ) = (((1 - Int.fract p) * x ⌊p⌋₊ + Int.fract p * x (⌊p⌋₊ + 1) : ℚ) : ℝ) := by
  have e1 : ⌊(p : ℝ)⌋₊ = ⌊p⌋₊ := by
    rw [Nat.floor_eq_iff (by exact_mod_cast h0)]
    exact ⟨by exact_mod_cast Nat.floor_le h0, by exact_mod_cast Nat.lt_floor_add_one p⟩
  have e2 : Int.fract (p : ℝ) = ((Int.fract p : ℚ) : ℝ) := by
    rw [Int.fract, Int.fract, Rat.floor_cast]; push_cast; rfl
  have g : ∀ i < n, (reals x n).getD i 0 = (x i : ℝ) := by
    intro i hi
    simp [reals, List.getD_eq_getElem?_getD, hi]
  have hl : (reals x n).length = n := by simp [reals]
  rw [lin, e1, e2, hl, min_eq_left (by omega), g _ (by omega), g _ h1]
  push_cast
  ring

/-- IEEE, as heard: under the same conditions the output at sample `n` is the linear interpolation of the track at the distance
travelled, up to rounding (`2^-21` of the peak) and the difference `D` between neighbouring samples times one plus the drift.
Missing: as in `C132_drift_f32_partial`. -/
theorem C132_output_f32_partial (t : List (Mono F32)) (hlen : t.length ≤ 2 ^ 24) {rate : F64} {v : ℕ → F64} {R : ℚ} {V : ℕ → ℚ} (hR : rate.Is R)
    (hV : ∀ n, (v n).Is (V n)) (hR0 : 1 ≤ R) (hR1 : R ≤ 2 ^ 30) (hV0 : ∀ n, (2 ^ 20)⁻¹ ≤ V n) (hV1 : ∀ n, V n ≤ 2 ^ 20) (k : ℕ) (hk : k ≤ 24) (n : ℕ)
    (hn1 : distance R V n * (1 + (2 ^ 22)⁻¹) + n * 2 ^ ((k : ℤ) - 25) ≤ 2 ^ k)
    (hn2 : distance R V n * (1 + (2 ^ 22)⁻¹) + n * 2 ^ ((k : ℤ) - 25) + 3 ≤ t.length) (x : ℕ → ℚ) {X D : ℚ} (hX : X ≤ 2 ^ 90)
    (hx : ∀ i (h : i < t.length), (t[i]).mono.Is (x i) ∧ |x i| ≤ X) (hD : ∀ i, i + 1 < t.length → |x (i + 1) - x i| ≤ D) :
    ∃ y z, steeredOut v (MonoWav.fromTrack rate t) n = .ok y ∧ y.Is z ∧
      |(z : ℝ) - lin (reals x t.length) (distance R V n : ℚ)| ≤
        (((2 ^ 21)⁻¹ * X + (2 ^ 140)⁻¹ + D * (1 + (n * 2 ^ ((k : ℤ) - 25) + (2 ^ 22)⁻¹ * distance R V n)) : ℚ) : ℝ) := by
  obtain ⟨g, p, h1, h2, h3, h4, h5⟩ := position t hlen hR hV hR0 hR1 hV0 hV1 k hk n hn1 hn2
  have hE0 : (0 : ℚ) ≤ n * 2 ^ ((k : ℤ) - 25) := by positivity
  have hd0 := distance_nonneg (V := V) (by linarith : 0 ≤ R) (fun n => le_trans (by positivity) (hV0 n)) n
  generalize (n : ℚ) * 2 ^ ((k : ℤ) - 25) = E at *
  generalize distance R V n = d at *
  have hp3 : p + 3 ≤ t.length := by linarith [(abs_le.mp h5).2]
  have hd3 : d + 3 ≤ t.length := by linarith [mul_nonneg hd0 (show (0 : ℚ) ≤ (2 ^ 22)⁻¹ by positivity)]
  have hl3 : 3 ≤ t.length := by
    have : ((3 : ℕ) : ℚ) ≤ t.length := by push_cast; linarith
    exact_mod_cast this
  have D0 : 0 ≤ D := (abs_nonneg _).trans (hD 0 (by omega))
  have hdat : (g.resam.setPlaybackSpeed (v n)).data = t := h2.data
  obtain ⟨y, z, r', y1, y2, y3⟩ := output_any (g.resam.setPlaybackSpeed (v n)) h2.le (by rw [hdat]; exact hlen) (p := p) h3 h4
    (by rw [hdat]; exact hp3) x (D := D) hX (by rw [hdat]; exact hx) (by rw [hdat]; exact hD)
  have hfl : ⌊p⌋₊ + 1 < t.length := by
    have : ((⌊p⌋₊ + 1 : ℕ) : ℚ) < t.length := by push_cast; linarith [Nat.floor_le h4]
    exact_mod_cast this
  refine ⟨y, z, ?_, y2, ?_⟩
  · unfold steeredOut
    rw [h1]
    simp only [playAt32, MonoWav.getMut, MonoWav.process, y1]
    rfl
  have hlr : (reals x t.length).length = t.length := by simp [reals]
  have l1 := lin_lipschitz (d := reals x t.length) (D := (D : ℝ)) (by exact_mod_cast D0) (fun i hi => by
      rw [hlr] at hi
      have := hD i hi
      simp only [reals, List.getD_eq_getElem?_getD, List.getElem?_map, List.getElem?_range hi, List.getElem?_range (by omega : i < t.length),
        Option.map_some, Option.getD_some]
      exact_mod_cast this)
    (x := ((d : ℚ) : ℝ)) (y := ((p : ℚ) : ℝ)) (by exact_mod_cast hd0) (by exact_mod_cast h4)
    (by rw [hlr]; exact_mod_cast (by linarith : d < t.length)) (by rw [hlr]; exact_mod_cast (by linarith : p < t.length))
  rw [lin_reals x t.length h4 hfl] at l1
  generalize hI : (1 - Int.fract p) * x ⌊p⌋₊ + Int.fract p * x (⌊p⌋₊ + 1) = I at *
  have a1 : |(z : ℝ) - I| ≤ (((2 ^ 21)⁻¹ * X + (2 ^ 140)⁻¹ + D : ℚ) : ℝ) := by exact_mod_cast y3
  have a2 : |(p : ℝ) - d| ≤ ((E + (2 ^ 22)⁻¹ * d : ℚ) : ℝ) := by exact_mod_cast h5
  have a3 : (D : ℝ) * |(p : ℝ) - d| ≤ D * ((E + (2 ^ 22)⁻¹ * d : ℚ) : ℝ) := mul_le_mul_of_nonneg_left a2 (by exact_mod_cast D0)
  refine (abs_sub_le _ (I : ℝ) _).trans ((add_le_add a1 (l1.trans a3)).trans (le_of_eq ?_))
  push_cast
  ring

/-- Eight samples 1/2, the first step at normal speed, the second at double speed. -/
example : ∃ (t : List (Mono F32)) (v : ℕ → F64) (V : ℕ → ℚ) (x : ℕ → ℚ), t.length ≤ 2 ^ 24 ∧ (∀ n, (v n).Is (V n)) ∧
    (∀ n, (2 ^ 20)⁻¹ ≤ V n) ∧ (∀ n, V n ≤ 2 ^ 20) ∧ V 0 ≠ V 1 ∧ distance 48000 V 2 = 3 ∧
    distance 48000 V 2 * (1 + (2 ^ 22)⁻¹) + (2 : ℕ) * 2 ^ ((3 : ℕ) - 25 : ℤ) ≤ 2 ^ 3 ∧
    distance 48000 V 2 * (1 + (2 ^ 22)⁻¹) + (2 : ℕ) * 2 ^ ((3 : ℕ) - 25 : ℤ) + 3 ≤ t.length ∧
    (∀ i (h : i < t.length), (t[i]).mono.Is (x i) ∧ |x i| ≤ 1) ∧ ∀ i, i + 1 < t.length → |x (i + 1) - x i| ≤ 1 := by
  refine ⟨List.replicate 8 ⟨lit (1 / 2)⟩, fun n => if n = 0 then lit 1 else lit 2, fun n => if n = 0 then 1 else 2, fun _ => 1 / 2, by simp,
    fun n => ?_, fun n => ?_, fun n => ?_, by norm_num, by norm_num [distance], by norm_num [distance], by norm_num [distance], fun i h => ⟨?_, by norm_num⟩, fun i h => by norm_num⟩
  · dsimp only; split_ifs <;> decide +kernel
  · dsimp only; split_ifs <;> norm_num
  · dsimp only; split_ifs <;> norm_num
  · simp only [List.getElem_replicate]; decide +kernel

end Verif
