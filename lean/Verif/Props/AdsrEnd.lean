import Verif.Props.AdsrF32

/-! # Released notes and slopes of the envelope: C136, C137 -/

namespace Verif
open Fl

/-! ## adding a small rate -/

/-- From `2^-k` on, taking away `2^-(25+k)` or less changes nothing. -/
private theorem stuck {k : ℕ} (hk : k ≤ 90) {g ρ : ℚ} (hg : b32.Repr g) (h : (2 ^ k : ℚ)⁻¹ ≤ g) (hg1 : g ≤ 1) (h0 : 0 ≤ ρ) (hρ : ρ ≤ (2 ^ (25 + k) : ℚ)⁻¹) :
    b32.rnd (g + -ρ) = g := by
  have gp : 0 < g := lt_of_lt_of_le (by positivity) h
  obtain ⟨e, he1, he2⟩ : ∃ e : ℤ, (2 : ℚ) ^ e ≤ g ∧ g < 2 ^ (e + 1) := by
    have := ilog2_spec gp.ne'
    rw [pow2_eq, pow2_eq, abs_of_pos gp] at this
    exact ⟨_, this⟩
  have hek : -(k : ℤ) ≤ e := by
    have : (2 : ℚ) ^ (-(k : ℤ)) < 2 ^ (e + 1) := by
      refine lt_of_le_of_lt ?_ he2
      rw [zpow_neg, zpow_natCast]; exact h
    have := (zpow_lt_zpow_iff_right₀ (by norm_num : (1 : ℚ) < 2)).mp this
    omega
  have hek' : -120 ≤ e - 1 := by omega
  have up : (0 : ℚ) < 2 ^ (e - 23) := by positivity
  have s1 : (2 : ℚ) ^ e = 2 ^ 23 * 2 ^ (e - 23) := by
    rw [← zpow_natCast, ← zpow_add₀ (by norm_num)]; congr 1; push_cast; ring
  have s2 : (2 : ℚ) ^ (e - 1) = 2 ^ 22 * 2 ^ (e - 23) := by
    rw [← zpow_natCast, ← zpow_add₀ (by norm_num)]; congr 1; push_cast; ring
  have s3 : (2 : ℚ) ^ (e - 1 - 23) = 2 ^ (e - 23) / 2 := by
    rw [show e - 23 = (e - 1 - 23) + 1 by ring, zpow_add_one₀ (by norm_num)]; ring
  have hρe : ρ ≤ 2 ^ (e - 23) / 4 := by
    refine hρ.trans ?_
    rw [show ((2 : ℚ) ^ (25 + k))⁻¹ = 2 ^ (-(k : ℤ) - 23) / 4 by
      rw [show (-(k : ℤ) - 23) = -((23 + k : ℕ) : ℤ) by push_cast; ring, zpow_neg, zpow_natCast, show 25 + k = (23 + k) + 2 by ring, pow_add]
      field_simp; norm_num]
    have : (2 : ℚ) ^ (-(k : ℤ) - 23) ≤ 2 ^ (e - 23) := zpow_le_zpow_right₀ (by norm_num) (by omega)
    linarith
  obtain ⟨j, hj⟩ : ∃ j : ℤ, g = j * 2 ^ (e - 23) := by
    have hl : ilog2 g = e := by
      have a1 := le_ilog2_of gp.ne' (k := e) (by rw [pow2_eq, abs_of_pos gp]; exact he1)
      have a2 := ilog2_lt_of gp.ne' (k := e + 1) (by rw [pow2_eq, abs_of_pos gp]; exact he2)
      omega
    have hu : b32.ue g = e - 23 := by
      unfold Fmt.ue
      rw [hl]
      show max (e - ((24 : ℕ) - 1)) (-149) = _
      push_cast
      omega
    have := (b32.rnd_of_repr hg).symm
    unfold Fmt.rnd at this
    rw [hu, pow2_eq, pow2_eq] at this
    exact ⟨_, this⟩
  generalize hu : (2 : ℚ) ^ (e - 23) = u at *
  have j0 : (2 ^ 23 : ℚ) ≤ j := by rw [s1, hj] at he1; exact le_of_mul_le_mul_right he1 up
  have j0' : (2 ^ 23 : ℤ) ≤ j := by exact_mod_cast j0
  rcases h0.eq_or_lt with rfl | h0
  · rw [neg_zero, add_zero]; exact b32.rnd_of_repr hg
  rcases j0'.eq_or_lt with hj23 | hj23
  · have hg2 : g = 2 ^ e := by rw [hj, ← hj23, s1]; norm_num
    have z0 : (2 : ℚ) ^ (e - 1) ≤ g + -ρ := by rw [hg2, s1, s2]; linarith
    have z1 : g + -ρ < 2 ^ e := by rw [hg2]; linarith
    have zp : 0 < g + -ρ := lt_of_lt_of_le (by positivity) z0
    have hl : ilog2 (g + -ρ) = e - 1 := by
      have a1 := le_ilog2_of zp.ne' (k := e - 1) (by rw [pow2_eq, abs_of_pos zp]; exact z0)
      have a2 := ilog2_lt_of zp.ne' (k := e) (by rw [pow2_eq, abs_of_pos zp]; exact z1)
      omega
    have hu' : b32.ue (g + -ρ) = e - 1 - 23 := by
      unfold Fmt.ue
      rw [hl]
      show max (e - 1 - ((24 : ℕ) - 1)) (-149) = _
      push_cast
      omega
    unfold Fmt.rnd
    rw [hu', pow2_neg, pow2_eq, s3, rne_even (w := 2 ^ 23)]
    · rw [hg2, s1]; push_cast; ring
    · rw [hg2, s1]
      have : (2 ^ 23 * u + -ρ) * (u / 2)⁻¹ - ((2 * 2 ^ 23 : ℤ) : ℚ) = -(ρ / (u / 2)) := by
        push_cast; field_simp; ring
      rw [this, abs_neg, abs_of_pos (by positivity), div_le_iff₀ (by linarith)]
      linarith
  · have j1 : (2 ^ 23 + 1 : ℚ) ≤ j := by exact_mod_cast hj23
    rw [rnd_binade (k := e) (by omega) j (g + -ρ) (by rw [s1, hj]; nlinarith) (by linarith), hu, ← hj]
    rw [hu, hj]
    have : (j * u + -ρ) / u - j = -(ρ / u) := by field_simp; ring
    rw [this, abs_neg, abs_of_pos (by positivity), div_lt_iff₀ up]
    linarith

/-- The value of a falling rate. -/
private theorem rate_is {n : F64} {D : ℚ} (hn : n.Is (-D)) (h0 : 0 ≤ D) (h1 : D ≤ 1) {d : Duration} (hd : d.total ≠ 0) :
    (SM.down (n / ((d.asSecs : F64) * srM)) : F32).Is (-b32.rnd (b64.rnd (D / d.samp64))) ∧ 0 ≤ b32.rnd (b64.rnd (D / d.samp64)) ∧
      b32.rnd (b64.rnd (D / d.samp64)) ≤ 2 ^ 15 := by
  have hs := Duration.samp64_pos hd
  have hs' : 0 < d.samp64 := lt_of_lt_of_le (by norm_num) hs
  have q0 : 0 ≤ D / d.samp64 := div_nonneg h0 hs'.le
  have q1 : D / d.samp64 ≤ 2 ^ 15 := by rw [div_le_iff₀ hs']; norm_num at hs ⊢; linarith
  have qa : |-D / d.samp64| ≤ 2 ^ 15 := by rw [neg_div, abs_neg, abs_of_nonneg q0]; exact q1
  have v1 := Is.div hn d.samp_is hs'.ne' (fits64' 15 (by norm_num) qa)
  have v2 := Is.down v1 (fits32' 15 (by norm_num) (rnd64_pow2_le 15 qa))
  rw [neg_div, b64.rnd_neg, b32.rnd_neg] at v2
  refine ⟨v2, b32.rnd_nonneg (b64.rnd_nonneg q0), ?_⟩
  have := rnd32_pow2_le 15 (rnd64_pow2_le 15 qa)
  rw [neg_div, b64.rnd_neg, b32.rnd_neg, abs_neg] at this
  exact (le_abs_self _).trans this

private theorem samp_bounds' {d : Duration} (hd : d.total ≠ 0) : 0 < d.samp64 ∧ d.samplesQ ≤ d.samp64 * (1 + (2 ^ 49)⁻¹) ∧ d.samp64 ≤ d.samplesQ * (1 + (2 ^ 49)⁻¹) := by
  have hp := Duration.samplesQ_pos hd
  have hp' : 0 < d.samplesQ := lt_of_lt_of_le (by positivity) hp
  obtain ⟨l, u⟩ := abs_le.mp (Duration.samp64_rel hd)
  refine ⟨?_, ?_, ?_⟩ <;> norm_num at l u ⊢ <;> linarith

/-- A rate too small to move a gain of `2^-k`. -/
private theorem rate_small {k : ℕ} (hk : k ≤ 90) {D : ℚ} {d : Duration} (hd : d.total ≠ 0) (hN : D * 2 ^ (25 + k) ≤ d.samplesQ) :
    b32.rnd (b64.rnd (D / d.samp64)) ≤ (2 ^ (25 + k) : ℚ)⁻¹ := by
  obtain ⟨sp, s1, -⟩ := samp_bounds' hd
  set K : ℚ := 2 ^ (25 + k) with hK
  have Kp : 0 < K := by positivity
  have z1 : D / d.samp64 ≤ (1 + (2 ^ 49)⁻¹) * K⁻¹ := by
    rw [div_le_iff₀ sp, mul_assoc, mul_comm K⁻¹, ← mul_assoc, ← div_eq_mul_inv, le_div_iff₀ Kp]
    linarith
  have hKz : K⁻¹ = 2 ^ (-((25 + k : ℕ) : ℤ)) := by rw [hK, zpow_neg, zpow_natCast]
  have hr : b64.Repr ((1 + (2 ^ 49)⁻¹) * K⁻¹) := by
    refine ⟨2 ^ 49 + 1, -((74 + k : ℕ) : ℤ), ?_, by decide, ?_⟩
    · rw [pow2_eq, zpow_neg, zpow_natCast, hK, show 74 + k = 49 + (25 + k) by ring, pow_add (2 : ℚ) 49]
      push_cast
      field_simp
      ring
    · show (-1074 : ℤ) ≤ _
      push_cast; omega
  have z2 := b64.rnd_le_repr hr z1
  rcases le_or_gt (b64.rnd (D / d.samp64)) K⁻¹ with h | h
  · refine b32.rnd_le_repr ?_ h
    refine ⟨1, -((25 + k : ℕ) : ℤ), by rw [pow2_eq, hKz]; push_cast; ring, by decide, ?_⟩
    show (-149 : ℤ) ≤ _
    push_cast; omega
  · have u23 : (2 : ℚ) ^ (-((25 + k : ℕ) : ℤ) - 23) = K⁻¹ / 2 ^ 23 := by
      rw [hKz, zpow_sub₀ (by norm_num)]; norm_num
    rw [rnd_binade (k := -((25 + k : ℕ) : ℤ)) (by push_cast; omega) (2 ^ 23) _ (by rw [← hKz]; exact h.le) ?_ ?_, u23]
    · push_cast
      exact le_of_eq (by ring)
    · rw [zpow_add_one₀ (by norm_num), ← hKz]
      refine lt_of_le_of_lt z2 ?_
      have : 0 < K⁻¹ := by positivity
      norm_num
      linarith
    · rw [u23]
      have e : b64.rnd (D / d.samp64) / (K⁻¹ / 2 ^ 23) - ((2 ^ 23 : ℤ) : ℚ) = (b64.rnd (D / d.samp64) - K⁻¹) / (K⁻¹ / 2 ^ 23) := by
        push_cast; field_simp; ring
      have hKi : 0 < K⁻¹ := by positivity
      rw [e, abs_of_pos (div_pos (by linarith) (by positivity)), div_lt_iff₀ (by positivity)]
      norm_num at z2 ⊢
      linarith

/-- A rate large enough to move every gain. -/
private theorem rate_large {D : ℚ} {d : Duration} (hd : d.total ≠ 0) (hN : d.samplesQ * (1 + (2 ^ 22)⁻¹) ≤ 2 ^ 25 * D) :
    (2 ^ 25 : ℚ)⁻¹ < b32.rnd (b64.rnd (D / d.samp64)) := by
  obtain ⟨sp, -, s1⟩ := samp_bounds' hd
  have z : (1 + (2 ^ 23)⁻¹) / 2 ^ 25 ≤ D / d.samp64 := by
    rw [le_div_iff₀ sp]
    norm_num at hN s1 ⊢
    linarith
  refine lt_of_lt_of_le ?_ (b32.rnd_mono (b64.rnd_mono z))
  decide +kernel

/-! ## C136 -/

section
variable [Libm F64] (a d : Duration) (s : F64) (r : Duration)

private theorem release_rate {L : ℚ} (hL : (dbToLinear (Flt.fmin s (lit 0)) : F64).Is L) (h0 : 0 ≤ L) (h1 : L ≤ 1) (hr : r.total ≠ 0)
    (cs : List (AdsrCall F32)) : ((ADSR.new a d s r : ADSR F32).run cs).doRelease.r.Is (-b32.rnd (b64.rnd (L / r.samp64))) := by
  show ((ADSR.new a d s r : ADSR F32).run cs).r.Is _
  rw [(run_params cs (ADSR.new a d s r : ADSR F32)).2.2.2]
  exact (rate_is (Is.neg hL) h0 h1 hr).1

/-- **C136**, violated. If the sustain level `L` is small against the release time, a note released at a gain of `2^-k` or more never ends: from then on
every output is the input times that same gain. The gain of 1 (`k = 0`), at the end of the attack, is stuck when `L·2^25` is at most the number of
samples of the release; a sustain level of -80 dB with a release of 100 ms is enough. -/
theorem C136_violated {k : ℕ} (hk : k ≤ 90) {L : ℚ} (hL : (dbToLinear (Flt.fmin s (lit 0)) : F64).Is L) (h0 : 0 ≤ L) (h1 : L ≤ 1)
    (hd : d.total ≠ 0 ∨ L ≠ 1) (hr : r.total ≠ 0) (hN : L * 2 ^ (25 + k) ≤ r.samplesQ) (cs : List (AdsrCall F32)) {g : ℚ}
    (hg : ((ADSR.new a d s r : ADSR F32).run cs).g.Is g) (hgk : (2 ^ k : ℚ)⁻¹ ≤ g) (x : ℕ → F32) (n : ℕ) :
    (∃ m : ADSR F32, modAfter Modifier.process x ((ADSR.new a d s r : ADSR F32).run cs).doRelease n = .ok m ∧ m.state = .release ∧ m.g.Is g) ∧
    ∃ y : F32, modOut Modifier.process x ((ADSR.new a d s r : ADSR F32).run cs).doRelease n = .ok y ∧ ∀ v, (x n).Is v → y.Is (b32.rnd (v * g)) := by
  have hρ := release_rate a d s r hL h0 h1 hr cs
  obtain ⟨-, ρ0, -⟩ := rate_is (Is.neg hL) h0 h1 hr
  have ρ1 := rate_small hk hr hN
  have ok := (adsr_new_ok a d s r hL h0 h1 hd (.inl hr)).run cs
  obtain ⟨g', hg', -, hg1⟩ := ok.g
  obtain rfl := hg.unique hg'
  set ρ := b32.rnd (b64.rnd (L / r.samp64))
  have gp : 0 < g := lt_of_lt_of_le (by positivity) hgk
  have hρ1 : ρ ≤ 1 := ρ1.trans (inv_le_one_of_one_le₀ (one_le_pow₀ (by norm_num)))
  have fix := stuck hk hg.repr hgk hg1 ρ0 ρ1
  generalize ((ADSR.new a d s r : ADSR F32).run cs).doRelease.r = R at hρ
  have step : ∀ (m : ADSR F32) (v : F32), m.state = .release ∧ m.g.Is g ∧ m.r.Is (-ρ) → ∃ g' : F32, g'.Is g ∧ m.process v = (v * g', { m with g := g' }) := by
    rintro m v ⟨hs, hmg, hmr⟩
    have hsum := Is.add hmg hmr (fits32' 1 (by norm_num) (by rw [abs_le]; constructor <;> linarith))
    rw [fix] at hsum
    have hc : (m.g + m.r ≤? lit 0) = false := by
      rw [Is.le hsum lit32_0', decide_eq_false_iff_not]; exact not_le.mpr gp
    refine ⟨m.g + m.r, hsum, ?_⟩
    unfold ADSR.process
    rw [hs]
    simp only [hc, Bool.false_eq_true, if_false]
  obtain ⟨m, hm, i1, i2, i3⟩ := modAfter_inv (E := Panic) (p := Modifier.process) (x := x)
    (fun m : ADSR F32 => m.state = .release ∧ m.g.Is g ∧ m.r.Is (-ρ)) (by
      intro m v h
      obtain ⟨g', hg', e⟩ := step m v h
      exact ⟨_, _, congrArg Except.ok e, h.1, hg', h.2.2⟩) (m := ((ADSR.new a d s r : ADSR F32).run cs).doRelease)
    ⟨rfl, hg, release_rate a d s r hL h0 h1 hr cs⟩ n
  refine ⟨⟨m, hm, i1, i2⟩, ?_⟩
  obtain ⟨g', hg', e⟩ := step m (x n) ⟨i1, i2, i3⟩
  refine ⟨x n * g', ?_, fun v hv => ?_⟩
  · exact modOut_of hm (congrArg Except.ok e)
  · refine Is.mul hv hg' (Fmt.fits_of_le (b32.repr_abs hv.repr) hv.abs_lt ?_)
    rw [abs_mul, abs_of_pos gp]
    exact mul_le_of_le_one_right (abs_nonneg _) hg1

/-- **C136**, proved when the sustain level is not that small: if `L·2^25` exceeds the number of samples of the release (by a factor `1 + 2^-22`), then from any history
a release ends: after finitely many samples the output is 0 and stays 0. -/
theorem C136_partial {L : ℚ} (hL : (dbToLinear (Flt.fmin s (lit 0)) : F64).Is L) (h0 : 0 < L) (h1 : L ≤ 1)
    (hd : d.total ≠ 0 ∨ L ≠ 1) (hN : r.samplesQ * (1 + (2 ^ 22)⁻¹) ≤ 2 ^ 25 * L) (cs : List (AdsrCall F32)) (x : ℕ → F32) :
    ∃ T : ℕ, ∀ n, T ≤ n → modOut Modifier.process x ((ADSR.new a d s r : ADSR F32).run cs).doRelease n = (.ok (lit 0) : Res F32) := by
  have ok := (adsr_new_ok a d s r hL h0.le h1 hd (.inr h0.ne')).run cs
  have hst : ((ADSR.new a d s r : ADSR F32).run cs).doRelease.state = .release := rfl
  have hR : r.total ≠ 0 → ((ADSR.new a d s r : ADSR F32).run cs).doRelease.r.Is (-b32.rnd (b64.rnd (L / r.samp64))) :=
    fun hr => release_rate a d s r hL h0.le h1 hr cs
  have hR0 : r.total = 0 → ((ADSR.new a d s r : ADSR F32).run cs).doRelease.r = .inf true := by
    intro hr
    show ((ADSR.new a d s r : ADSR F32).run cs).r = _
    rw [(run_params cs (ADSR.new a d s r : ADSR F32)).2.2.2]
    show (SM.down (-dbToLinear (Flt.fmin s (lit 0)) / ((r.asSecs : F64) * srM)) : F32) = _
    rw [Duration.zero_secs hr, neg_div_zero (Is.neg hL) (by linarith)]
    rfl
  obtain ⟨g, hg, g0, g1⟩ : ((ADSR.new a d s r : ADSR F32).run cs).doRelease.g.In 0 1 := ok.g
  generalize ((ADSR.new a d s r : ADSR F32).run cs).doRelease = m₀ at *
  suffices h : ∃ T, modAfter (E := Panic) Modifier.process x m₀ T = .ok { m₀ with state := .stopped, g := lit 0 } by
    obtain ⟨T, hT⟩ := h
    refine ⟨T, fun n hn => ?_⟩
    obtain ⟨j, rfl⟩ := Nat.exists_eq_add_of_le hn
    exact modOut_of ((modAfter_add hT j).trans (adsr_rest _ (.inr rfl) _ j)) (congrArg Except.ok ((C67_stationary _ _).2 rfl))
  have last : ∀ (n : ℕ) (v : F32), modAfter (E := Panic) Modifier.process x m₀ n = .ok { m₀ with g := v } → (v + m₀.r ≤? lit 0) = true →
      ∃ T, modAfter (E := Panic) Modifier.process x m₀ T = .ok { m₀ with state := .stopped, g := lit 0 } := by
    intro n v hmn hc
    refine ⟨n + 1, modAfter_succ (y := x n * lit 0) hmn (show (Except.ok (ADSR.process _ _) : Res _) = _ from ?_)⟩
    unfold ADSR.process
    simp only [hst, hc, if_true]
  by_cases hr : r.total = 0
  · refine last 0 m₀.g rfl ?_
    rw [hR0 hr, Fl.add_inf hg]
    decide +kernel
  have hρ := hR hr
  obtain ⟨-, ρ0, ρ1⟩ := rate_is (Is.neg hL) h0.le h1 hr
  have ρ2 := rate_large hr hN
  set ρ := b32.rnd (b64.rnd (L / r.samp64))
  have h15 : (1 : ℚ) + 2 ^ 15 ≤ 2 ^ 16 := by norm_num
  rcases g0.eq_or_lt with rfl | g0
  · refine last 0 m₀.g rfl ?_
    have hsum := Is.add hg hρ (fits32' 16 (by norm_num) (by rw [abs_le]; constructor <;> linarith))
    rw [Is.le hsum lit32_0', decide_eq_true_iff]
    exact b32.rnd_nonpos (by linarith)
  let Q : ℕ → ℚ := fun n => n.rec g fun _ q => b32.rnd (q + -ρ)
  obtain ⟨T, t1, t2, -, -⟩ := ramp_down ρ2 le_rfl b32.repr_zero g0 g1 Q rfl (fun _ => rfl)
  have step : ∀ n, n < T → ∃ v : F32, v.Is (Q n) ∧ modAfter (E := Panic) Modifier.process x m₀ n = .ok { m₀ with g := v } := by
    intro n
    induction n with
    | zero => intro _; exact ⟨m₀.g, hg, rfl⟩
    | succ n ih =>
      intro hT
      obtain ⟨v, hv, hmn⟩ := ih (by omega)
      obtain ⟨q0, q1⟩ := t1 n (by omega)
      have hsum := Is.add hv hρ (fits32' 16 (by norm_num) (by rw [abs_le]; constructor <;> linarith))
      have hlt := (t1 (n + 1) hT).1
      refine ⟨v + m₀.r, hsum, ?_⟩
      refine modAfter_succ (y := x n * (v + m₀.r)) hmn (show (Except.ok (ADSR.process _ _) : Res _) = _ from ?_)
      have hc : (v + m₀.r ≤? lit 0) = false := by
        rw [Is.le hsum lit32_0', decide_eq_false_iff_not]; exact not_le.mpr hlt
      unfold ADSR.process
      simp only [hst, hc, Bool.false_eq_true, if_false]
  obtain ⟨n, rfl⟩ : ∃ n, T = n + 1 := by
    cases T with
    | zero => exact absurd (show g ≤ 0 from t2) (not_le.mpr g0)
    | succ n => exact ⟨n, rfl⟩
  obtain ⟨v, hv, hmn⟩ := step n (by omega)
  obtain ⟨q0, q1⟩ := t1 n (by omega)
  have hsum := Is.add hv hρ (fits32' 16 (by norm_num) (by rw [abs_le]; constructor <;> linarith))
  exact last n v hmn (by rw [Is.le hsum lit32_0', decide_eq_true_iff]; exact t2)

end

/-- A release of 100 ms. -/
def ms100 : Duration := ⟨0, 100000000, by decide, by decide⟩
/-- A math library with `10^-4 = 0.0001` (-80 dB). -/
@[reducible] def libm80 : Libm F64 := ⟨id, id, id, id, fun _ _ => lit (1 / 10000)⟩

/-- A pluck with a sustain level of -80 dB and a release of 100 ms, released after the first sample of an attack of zero length, sounds for ever. -/
example (x : F32) : @Fl.Is b64 (@dbToLinear F64 _ libm80 (Flt.fmin (lit (-80)) (lit 0))) (b64.rnd (1 / 10000)) ∧
    b64.rnd (1 / 10000) * 2 ^ (25 + 0) ≤ ms100.samplesQ ∧
    ((@ADSR.new F32 F64 _ _ _ libm80 Duration.zero ms100 (lit (-80)) ms100).run [.process x]).g.Is 1 := by
  refine ⟨by decide +kernel, by decide +kernel, ?_⟩
  have e : ((@ADSR.new F32 F64 _ _ _ libm80 Duration.zero ms100 (lit (-80)) ms100).run [.process x]).g = lit 1 := by
    show (ADSR.process _ x).2.g = _
    unfold ADSR.process
    have : ((lit 1 : F32) ≤? (@ADSR.new F32 F64 _ _ _ libm80 Duration.zero ms100 (lit (-80)) ms100).g + (@ADSR.new F32 F64 _ _ _ libm80 Duration.zero ms100 (lit (-80)) ms100).a) = true := by
      decide +kernel
    rw [show (@ADSR.new F32 F64 _ _ _ libm80 Duration.zero ms100 (lit (-80)) ms100).state = .attack from rfl]
    simp only [this, if_true]
  rw [e]
  exact lit32_1'

/-- -12 dB (a quarter) with 100 ms ends. -/
example : ms100.samplesQ * (1 + (2 ^ 22)⁻¹) ≤ 2 ^ 25 * (1 / 4) := by decide +kernel

/-! ## C137 -/

private theorem err1 {q : ℚ} (q0 : 0 ≤ q) (q1 : q ≤ 1) : |b32.rnd q - q| ≤ (2 ^ 25)⁻¹ := by
  have := err32 (q := q) 0 (by norm_num) (by rw [abs_of_nonneg q0]; simpa using q1)
  rwa [show (2 : ℚ) ^ ((0 : ℤ) - 25) = (2 ^ 25)⁻¹ by norm_num] at this

private theorem step_up {g α : ℚ} (g0 : 0 ≤ g) (α0 : 0 ≤ α) : min (b32.rnd (g + α)) 1 - g ≤ α + (2 ^ 25)⁻¹ := by
  have e0 : (0 : ℚ) < (2 ^ 25)⁻¹ := by positivity
  rcases le_or_gt (g + α) 1 with h | h
  · have := (abs_le.mp (err1 (by linarith) h)).2
    have := min_le_left (b32.rnd (g + α)) 1
    linarith
  · have := min_le_right (b32.rnd (g + α)) 1
    linarith

private theorem step_down {g ρ θ : ℚ} (g1 : g ≤ 1) (θ0 : 0 ≤ θ) (ρ0 : 0 ≤ ρ) : g - max (b32.rnd (g + -ρ)) θ ≤ ρ + (2 ^ 25)⁻¹ := by
  have e0 : (0 : ℚ) < (2 ^ 25)⁻¹ := by positivity
  rcases le_or_gt θ (g + -ρ) with h | h
  · have := (abs_le.mp (err1 (q := g + -ρ) (by linarith) (by linarith))).1
    have := le_max_left (b32.rnd (g + -ρ)) θ
    linarith
  · have := le_max_right (b32.rnd (g + -ρ)) θ
    linarith

private theorem rnd32_le (q : ℚ) (h : 0 ≤ q) : b32.rnd q ≤ (1 + (2 ^ 24)⁻¹) * q + (2 ^ 100)⁻¹ := by
  have := (abs_le.mp (mixed32 q)).2
  rw [abs_of_nonneg h] at this
  norm_num at this ⊢
  linarith

private theorem rnd64_le (q : ℚ) (h : 0 ≤ q) : b64.rnd q ≤ (1 + (2 ^ 53)⁻¹) * q + (2 ^ 100)⁻¹ := by
  have h2 := b64.abs_rnd_sub_le_mixed q
  rw [show pow2 (-(b64.p : ℤ)) = (2 ^ 53)⁻¹ by decide +kernel, abs_of_nonneg h] at h2
  have h3 : pow2 (b64.emin - 1) ≤ (2 ^ 100)⁻¹ := by decide +kernel
  have := (abs_le.mp h2).2
  norm_num at this h3 ⊢
  linarith

private theorem rate_le {D B : ℚ} (h0 : 0 ≤ D) {d : Duration} (hd : d.total ≠ 0) (hB : D ≤ B * d.samplesQ) :
    b32.rnd (b64.rnd (D / d.samp64)) ≤ (1 + (2 ^ 22)⁻¹) * B + (2 ^ 90)⁻¹ := by
  obtain ⟨sp, s1, -⟩ := samp_bounds' hd
  have hp : 0 < d.samplesQ := lt_of_lt_of_le (by positivity) (Duration.samplesQ_pos hd)
  have B0 : 0 ≤ B := by
    by_contra hc
    have := mul_neg_of_neg_of_pos (not_le.mp hc) hp
    linarith
  have z1 : D / d.samp64 ≤ B * (1 + (2 ^ 49)⁻¹) := by
    rw [div_le_iff₀ sp, mul_assoc, mul_comm _ d.samp64]
    exact hB.trans (mul_le_mul_of_nonneg_left s1 B0)
  have z0 : 0 ≤ D / d.samp64 := div_nonneg h0 sp.le
  have z2 := rnd64_le _ z0
  have z3 := rnd32_le _ (b64.rnd_nonneg z0)
  norm_num at z1 z2 z3 ⊢
  linarith

/-- The value of the attack rate is not much above `B`. -/
private theorem attack_le {B : ℚ} {a : Duration} (ha : a.total ≠ 0) (hB : 1 ≤ B * a.samplesQ) : b32.rnd (1 / a.samp32) ≤ (1 + (2 ^ 22)⁻¹) * B + (2 ^ 90)⁻¹ := by
  obtain ⟨sp, s1, -⟩ := samp_bounds' ha
  have hp : 0 < a.samplesQ := lt_of_lt_of_le (by positivity) (Duration.samplesQ_pos ha)
  have B0 : 0 ≤ B := by
    by_contra hc
    have := mul_neg_of_neg_of_pos (not_le.mp hc) hp
    linarith
  have sp' : 0 < a.samp32 := lt_of_lt_of_le (by norm_num) (Duration.samp32_pos ha)
  have e : Rel (2 ^ 24)⁻¹ a.samp32 a.samp64 := Rel.rnd32 (.inr (by have := Duration.samp64_pos ha; norm_num at this ⊢; linarith))
  have e1 := (abs_le.mp e).1
  have z1 : 1 / a.samp32 ≤ B * (1 + (2 ^ 23)⁻¹) := by
    rw [div_le_iff₀ sp', mul_assoc]
    refine hB.trans (mul_le_mul_of_nonneg_left ?_ B0)
    norm_num at e1 s1 ⊢
    linarith
  have z3 := rnd32_le _ (one_div_pos.mpr sp').le
  norm_num at z1 z3 ⊢
  linarith

section
variable [Libm F64] (a d : Duration) (s : F64) (r : Duration)

/-- What is known about the rates and the level during the decay. -/
private structure Slow (β : ℚ) (m : ADSR F32) : Prop where
  a : ∃ q, m.a.Is q ∧ 0 ≤ q ∧ q ≤ β ∧ q ≤ 2 ^ 15
  d : ∃ q, m.d.Is (-q) ∧ 0 ≤ q ∧ q ≤ β ∧ q ≤ 2 ^ 15
  r : ∃ q, m.r.Is (-q) ∧ 0 ≤ q ∧ q ≤ β ∧ q ≤ 2 ^ 15
  s : ∃ q, m.s.Is q ∧ 0 ≤ q ∧ q ≤ 1
  g : ∃ q, m.g.Is q ∧ 0 ≤ q ∧ q ≤ 1
  sg : m.state = .decay → ∀ p q, m.s.Is p → m.g.Is q → p ≤ q
  z : m.state = .stopped → m.g.Is 0

omit [Libm F64] in
private theorem Slow.step {β : ℚ} {m : ADSR F32} (h : Slow β m) (x : F32) {g : ℚ} (hg : m.g.Is g) :
    Slow β (m.process x).2 ∧ ∃ g', (m.process x).2.g.Is g' ∧ |g' - g| ≤ β + (2 ^ 25)⁻¹ ∧
      ∀ v, x.Is v → (m.process x).1.Is (b32.rnd (v * g')) := by
  have e0 : (0 : ℚ) < (2 ^ 25)⁻¹ := by positivity
  obtain ⟨α, ha, a0, a1, a2⟩ := h.a
  obtain ⟨δ, hd, d0, d1, d2⟩ := h.d
  obtain ⟨ρ, hr, r0, r1, r2⟩ := h.r
  obtain ⟨σ, hs, s0, s1⟩ := h.s
  obtain ⟨g', hg', g0, g1⟩ := h.g
  obtain rfl := hg.unique hg'
  have h15 : (1 : ℚ) + 2 ^ 15 ≤ 2 ^ 16 := by norm_num
  have out : ∀ (w : F32) (g' : ℚ), w.Is g' → 0 ≤ g' → g' ≤ 1 → ∀ v, x.Is v → (x * w).Is (b32.rnd (v * g')) := by
    intro w g' hw w0 w1 v hv
    refine Is.mul hv hw (Fmt.fits_of_le (b32.repr_abs hv.repr) hv.abs_lt ?_)
    rw [abs_mul, abs_of_nonneg w0]
    exact mul_le_of_le_one_right (abs_nonneg _) w1
  have r1' : b32.Repr 1 := by exact_mod_cast Fmt.repr32_int (n := 1) (by norm_num)
  have βn : 0 ≤ β := a0.trans a1
  unfold ADSR.process
  cases hst : m.state with
  | attack =>
    simp only []
    have hsum := Is.add hg ha (fits32' 16 (by norm_num) (by rw [abs_le]; constructor <;> linarith))
    have hu := step_up g0 a0
    have hge : g ≤ b32.rnd (g + α) := b32.repr_le_rnd hg.repr (by linarith)
    by_cases hc : (lit 1 ≤? m.g + m.a) = true
    · rw [if_pos hc]
      rw [Is.le lit32_1' hsum, decide_eq_true_iff] at hc
      rw [min_eq_right hc] at hu
      refine ⟨⟨h.a, h.d, h.r, h.s, ⟨1, lit32_1', by norm_num, le_rfl⟩, fun _ p q hp hq => ?_, fun h => (by cases h)⟩, 1, lit32_1', ?_, out _ _ lit32_1' (by norm_num) le_rfl⟩
      · obtain rfl := hp.unique hs
        obtain rfl := hq.unique lit32_1'
        exact s1
      · rw [abs_of_nonneg (by linarith)]; linarith
    · rw [if_neg hc]
      rw [Is.le lit32_1' hsum, decide_eq_true_iff, not_le] at hc
      rw [min_eq_left hc.le] at hu
      refine ⟨⟨h.a, h.d, h.r, h.s, ⟨_, hsum, by linarith, hc.le⟩, fun hd => ?_, fun h => (by cases h)⟩, _, hsum, ?_, out _ _ hsum (by linarith) hc.le⟩
      · cases hd
      · rw [abs_of_nonneg (by linarith)]; linarith
  | decay =>
    simp only []
    have hsum := Is.add hg hd (fits32' 16 (by norm_num) (by rw [abs_le]; constructor <;> linarith))
    have hu := step_down (θ := σ) g1 s0 d0
    have hle : b32.rnd (g + -δ) ≤ g := b32.rnd_le_repr hg.repr (by linarith)
    have hsg := h.sg hst _ _ hs hg
    by_cases hc : (m.g + m.d ≤? m.s) = true
    · rw [if_pos hc]
      rw [Is.le hsum hs, decide_eq_true_iff] at hc
      rw [max_eq_right hc] at hu
      refine ⟨⟨h.a, h.d, h.r, h.s, ⟨_, hs, s0, s1⟩, fun h => (by cases h), fun h => (by cases h)⟩, σ, hs, ?_, out _ _ hs s0 s1⟩
      rw [abs_sub_comm, abs_of_nonneg (by linarith)]; linarith
    · rw [if_neg hc]
      rw [Is.le hsum hs, decide_eq_true_iff, not_le] at hc
      rw [max_eq_left hc.le] at hu
      refine ⟨⟨h.a, h.d, h.r, h.s, ⟨_, hsum, by linarith, by linarith⟩, fun _ p q hp hq => ?_, fun h => (by cases h)⟩, _, hsum, ?_, out _ _ hsum (by linarith) (by linarith)⟩
      · obtain rfl := hp.unique hs
        obtain rfl := hq.unique hsum
        exact hc.le
      · rw [abs_sub_comm, abs_of_nonneg (by linarith)]; linarith
  | sustain => exact ⟨h, g, hg, by rw [sub_self, abs_zero]; linarith, out _ _ hg g0 g1⟩
  | release =>
    simp only []
    have hsum := Is.add hg hr (fits32' 16 (by norm_num) (by rw [abs_le]; constructor <;> linarith))
    have hu := step_down (θ := 0) g1 le_rfl r0
    have hle : b32.rnd (g + -ρ) ≤ g := b32.rnd_le_repr hg.repr (by linarith)
    by_cases hc : (m.g + m.r ≤? lit 0) = true
    · rw [if_pos hc]
      rw [Is.le hsum lit32_0', decide_eq_true_iff] at hc
      rw [max_eq_right hc] at hu
      refine ⟨⟨h.a, h.d, h.r, h.s, ⟨0, lit32_0', le_rfl, by norm_num⟩, fun h => (by cases h), fun _ => lit32_0'⟩, 0, lit32_0', ?_, out _ _ lit32_0' le_rfl (by norm_num)⟩
      rw [abs_sub_comm, abs_of_nonneg (by linarith)]; linarith
    · rw [if_neg hc]
      rw [Is.le hsum lit32_0', decide_eq_true_iff, not_le] at hc
      rw [max_eq_left hc.le] at hu
      refine ⟨⟨h.a, h.d, h.r, h.s, ⟨_, hsum, hc.le, by linarith⟩, fun h => (by cases h), fun h => (by cases h)⟩, _, hsum, ?_, out _ _ hsum hc.le (by linarith)⟩
      rw [abs_sub_comm, abs_of_nonneg (by linarith)]; linarith
  | stopped =>
    refine ⟨h, g, hg, by rw [sub_self, abs_zero]; linarith, fun v _ => ?_⟩
    rw [hg.unique (h.z hst), mul_zero, b32.rnd_zero]
    exact lit32_0'

omit [Libm F64] in
private theorem Slow.release {β : ℚ} {m : ADSR F32} (h : Slow β m) : Slow β m.doRelease :=
  ⟨h.a, h.d, h.r, h.s, h.g, fun h => (by cases h), fun h => (by cases h)⟩

omit [Libm F64] in
private theorem Slow.run {β : ℚ} {m : ADSR F32} (h : Slow β m) (cs : List (AdsrCall F32)) : Slow β (m.run cs) := by
  induction cs generalizing m with
  | nil => exact h
  | cons c cs ih =>
    cases c with
    | process x =>
      obtain ⟨g, hg, -⟩ := h.g
      exact ih (h.step x hg).1
    | release => exact ih h.release

variable {a d s r} {L B : ℚ} (hL : (dbToLinear (Flt.fmin s (lit 0)) : F64).Is L) (h0 : 0 ≤ L) (h1 : L ≤ 1) (ha : a.total ≠ 0) (hd : d.total ≠ 0) (hr : r.total ≠ 0)
  (hA : 1 ≤ B * a.samplesQ) (hD : 1 - L ≤ B * d.samplesQ) (hR : L ≤ B * r.samplesQ)
include hL h0 h1 ha hd hr hA hD hR

private theorem slow_new : Slow ((1 + (2 ^ 21)⁻¹) * B + (2 ^ 60)⁻¹) (ADSR.new a d s r) := by
  have B0 : 0 ≤ B := by
    by_contra hc
    have := mul_neg_of_neg_of_pos (not_le.mp hc) (lt_of_lt_of_le (by positivity) (Duration.samplesQ_pos ha))
    linarith
  have r1 : b32.Repr 1 := by exact_mod_cast Fmt.repr32_int (n := 1) (by norm_num)
  have r1' : b64.Repr 1 := by exact_mod_cast Fmt.repr64_int (n := 1) (by norm_num)
  refine ⟨?_, ?_, ?_, ?_, ⟨0, lit32_0', le_rfl, by norm_num⟩, fun h => (by cases h), fun h => (by cases h)⟩
  · obtain ⟨e, p0, p1⟩ := adsr_a ha d s r
    refine ⟨_, e, b32.rnd_nonneg p0, ?_, (le_abs_self _).trans (rnd32_pow2_le 15 (by rw [abs_of_nonneg p0]; exact p1))⟩
    have := attack_le ha hA
    norm_num at this ⊢
    linarith
  · have e := Is.sub hL lit64_1 (fits64' 0 (by norm_num) (by rw [abs_le]; constructor <;> norm_num <;> linarith))
    rw [show L - 1 = -(1 - L) by ring, b64.rnd_neg] at e
    obtain ⟨f1, f2, f3⟩ := rate_is e (b64.rnd_nonneg (by linarith)) (b64.rnd_le_repr r1' (by linarith)) hd
    refine ⟨_, f1, f2, ?_, f3⟩
    have c1 := rnd64_le (1 - L) (by linarith)
    have c2 := Duration.samplesQ_pos hd
    have := rate_le (D := b64.rnd (1 - L)) (B := (1 + (2 ^ 53)⁻¹) * B + (2 ^ 80)⁻¹) (b64.rnd_nonneg (by linarith)) hd (by
      have : (1 + (2 ^ 53)⁻¹) * (1 - L) ≤ (1 + (2 ^ 53)⁻¹) * (B * d.samplesQ) := mul_le_mul_of_nonneg_left hD (by positivity)
      rw [add_mul, mul_assoc]
      norm_num at c1 c2 this ⊢
      linarith)
    norm_num at this ⊢
    linarith
  · obtain ⟨f1, f2, f3⟩ := rate_is (Is.neg hL) h0 h1 hr
    refine ⟨_, f1, f2, ?_, f3⟩
    have := rate_le h0 hr hR
    norm_num at this ⊢
    linarith
  · exact ⟨_, Is.down hL (fits32' 0 (by norm_num) (by rw [abs_of_nonneg h0]; simpa using h1)), b32.rnd_nonneg h0, b32.rnd_le_repr r1 h1⟩

/-- **C137**. Let `B` be the steepest of the three slopes asked for: from 0 to 1 in the attack time, from 1 to the sustain level in the decay time, and
from the sustain level to 0 in the release time, per sample. After any history the next sample changes the gain by no more than `B`, up to rounding. -/
theorem C137_gain (cs : List (AdsrCall F32)) (x : F32) : ∃ g g', ((ADSR.new a d s r : ADSR F32).run cs).g.Is g ∧
    (((ADSR.new a d s r : ADSR F32).run cs).process x).2.g.Is g' ∧ |g' - g| ≤ (1 + (2 ^ 21)⁻¹) * B + (2 ^ 24)⁻¹ := by
  have h := (slow_new hL h0 h1 ha hd hr hA hD hR).run cs
  obtain ⟨g, hg, -⟩ := h.g
  obtain ⟨-, g', hg', hle, -⟩ := h.step x hg
  refine ⟨g, g', hg, hg', hle.trans ?_⟩
  norm_num
  linarith

/-- **C137** for the sound: with input of level 1 or less, two consecutive outputs differ by no more than the two inputs do, plus `B`, up to rounding, also
when `release()` is called between them. -/
theorem C137_output (cs : List (AdsrCall F32)) (x x' : F32) {v v' : ℚ} (hx : x.Is v) (hx' : x'.Is v') (hv : |v| ≤ 1) (hv' : |v'| ≤ 1) (m : ADSR F32)
    (hm : m = (((ADSR.new a d s r : ADSR F32).run cs).process x).2 ∨ m = (((ADSR.new a d s r : ADSR F32).run cs).process x).2.doRelease) :
    ∃ y y', (((ADSR.new a d s r : ADSR F32).run cs).process x).1.Is y ∧ (m.process x').1.Is y' ∧
      |y' - y| ≤ |v' - v| + (1 + (2 ^ 21)⁻¹) * B + (2 ^ 23)⁻¹ := by
  have h := (slow_new hL h0 h1 ha hd hr hA hD hR).run cs
  obtain ⟨g, hg, -⟩ := h.g
  obtain ⟨k, g', hg', -, hy⟩ := h.step x hg
  have k' : Slow ((1 + (2 ^ 21)⁻¹) * B + (2 ^ 60)⁻¹) m ∧ m.g.Is g' := by
    rcases hm with rfl | rfl
    · exact ⟨k, hg'⟩
    · exact ⟨k.release, hg'⟩
  obtain ⟨k2, g2, hg2, hle, hy'⟩ := k'.1.step x' k'.2
  refine ⟨_, _, hy v hx, hy' v' hx', ?_⟩
  obtain ⟨q, hq, q0, q1⟩ := k.g
  obtain rfl := hq.unique hg'
  obtain ⟨p, hp, p0, p1⟩ := k2.g
  obtain rfl := hp.unique hg2
  have err : ∀ u g : ℚ, |u| ≤ 1 → 0 ≤ g → g ≤ 1 → |b32.rnd (u * g) - u * g| ≤ (2 ^ 25)⁻¹ := by
    intro u g hu g0 g1
    have := err32 (q := u * g) 0 (by norm_num) (by rw [abs_mul, abs_of_nonneg g0, zpow_zero]; exact mul_le_one₀ hu g0 g1)
    rwa [show (2 : ℚ) ^ ((0 : ℤ) - 25) = (2 ^ 25)⁻¹ by norm_num] at this
  have a1 := err v q hv q0 q1
  have a2 := err v' p hv' p0 p1
  have a3 : |v' * p - v * q| ≤ |p - q| + |v' - v| := by
    rw [show v' * p - v * q = v' * (p - q) + (v' - v) * q by ring]
    refine (abs_add_le _ _).trans ?_
    rw [abs_mul, abs_mul, abs_of_nonneg q0]
    exact add_le_add (mul_le_of_le_one_left (abs_nonneg _) hv') (mul_le_of_le_one_right (abs_nonneg _) q1)
  have a4 : |b32.rnd (v' * p) - b32.rnd (v * q)| ≤ |b32.rnd (v' * p) - v' * p| + |v' * p - v * q| + |b32.rnd (v * q) - v * q| := by
    rw [abs_sub_comm (b32.rnd (v * q))]
    calc _ = |(b32.rnd (v' * p) - v' * p) + (v' * p - v * q) + (v * q - b32.rnd (v * q))| := by congr 1; ring
      _ ≤ _ := (abs_add_le _ _).trans (by gcongr; exact abs_add_le _ _)
  norm_num at a1 a2 hle ⊢
  linarith
end

/-- 100 ms each, sustain level 1/4: the steepest slope is the attack, 1/4800 per sample. -/
example : (1 : ℚ) ≤ 1 / 4800 * ms100.samplesQ ∧ 1 - 1 / 4 ≤ 1 / 4800 * ms100.samplesQ ∧ 1 / 4 ≤ 1 / 4800 * ms100.samplesQ ∧ ms100.total ≠ 0 := by decide +kernel
end Verif
