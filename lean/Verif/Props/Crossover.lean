import Verif.Props.FlowAlgebra
import Verif.Props.Response

/-! # Splitting a sound at a frequency and putting it together again: C164 (exact arithmetic)

A LowPass and a HighPass of the same cutoff side by side. Users expect the two bands together to be the sound that was split, up to the
phase: the same level at every frequency. -/

namespace Verif
open Filter Topology ComplexSound

/-! ## Specification -/

/-- Two effects fed the same input, the outputs added. -/
def sideBySide {X Y E : Type} (p : X → ℝ → Except E (ℝ × X)) (q : Y → ℝ → Except E (ℝ × Y)) (m : X × Y) (x : ℝ) : Except E (ℝ × (X × Y)) :=
  match p m.1 x with
  | .error e => .error e
  | .ok (y, m1) =>
    match q m.2 x with
    | .error e => .error e
    | .ok (z, m2) => .ok (y + z, (m1, m2))

/-- Level of the two bands together, squared: cutoff `T` and frequency `q` as in `lowGain`, damping `κ + 1`. -/
noncomputable def splitSq (T κ q : ℝ) : ℝ :=
  ((q - T ^ 2) ^ 2 + T * q * (1 - T) * (T - q)) / ((q - T ^ 2) ^ 2 + T * q * (κ ^ 2 * T + κ * T ^ 2 + κ * q + T * q))

private theorem after_of_out {X E : Type} {p : X → ℝ → Except E (ℝ × X)} {x y : ℕ → ℝ} {m : X} (h : ∀ n, modOut p x m n = .ok (y n)) (n : ℕ) :
    ∃ m' m'', modAfter p x m n = .ok m' ∧ p m' (x n) = .ok (y n, m'') ∧ modAfter p x m (n + 1) = .ok m'' := by
  have h1 := h n
  unfold modOut at h1
  cases e : modAfter p x m n with
  | error e' => rw [e] at h1; exact absurd h1 (by simp)
  | ok m' =>
    rw [e] at h1
    dsimp only at h1
    cases e2 : p m' (x n) with
    | error e' => rw [e2] at h1; exact absurd h1 (by simp [Except.map])
    | ok r =>
      rw [e2] at h1
      obtain ⟨u, m''⟩ := r
      have : u = y n := by simpa [Except.map] using h1
      subst this
      exact ⟨m', m'', rfl, e2, modAfter_succ e e2⟩

private theorem side_out {X Y E : Type} {p : X → ℝ → Except E (ℝ × X)} {q : Y → ℝ → Except E (ℝ × Y)} {a : X} {b : Y} {x y z : ℕ → ℝ}
    (hy : ∀ n, modOut p x a n = .ok (y n)) (hz : ∀ n, modOut q x b n = .ok (z n)) (n : ℕ) :
    modOut (sideBySide p q) x (a, b) n = .ok (y n + z n) := by
  have key : ∀ n a' b', modAfter p x a n = .ok a' → modAfter q x b n = .ok b' → modAfter (sideBySide p q) x (a, b) n = .ok (a', b') := by
    intro n
    induction n with
    | zero => intro a' b' h1 h2; cases h1; cases h2; rfl
    | succ n ih =>
      intro a' b' h1 h2
      obtain ⟨a1, a2, e1, e2, e3⟩ := after_of_out hy n
      obtain ⟨b1, b2, f1, f2, f3⟩ := after_of_out hz n
      rw [e3] at h1
      rw [f3] at h2
      cases h1
      cases h2
      refine modAfter_succ (y := y n + z n) (ih a1 b1 e1 f1) ?_
      unfold sideBySide
      dsimp only
      rw [e2]
      dsimp only
      rw [f2]
  obtain ⟨a1, a2, e1, e2, -⟩ := after_of_out hy n
  obtain ⟨b1, b2, f1, f2, -⟩ := after_of_out hz n
  unfold modOut
  rw [key n a1 b1 e1 f1]
  dsimp only
  unfold sideBySide
  dsimp only
  rw [e2]
  dsimp only
  rw [f2]
  rfl

private theorem out_map {X Y : Type} {p : X → ℝ → Res (ℝ × X)} {q : Y → ℝ → Res (ℝ × Y)} (f : X → Y)
    (hf : ∀ m x, q (f m) x = (p m x).map fun r => (r.1, f r.2)) (m : X) (x : ℕ → ℝ) (n : ℕ) : modOut q x (f m) n = modOut p x m n := by
  have ha : ∀ n, modAfter q x (f m) n = (modAfter p x m n).map f := by
    intro n
    induction n with
    | zero => rfl
    | succ n ih =>
      rw [modAfter, ih, modAfter]
      cases modAfter p x m n with
      | error e => rfl
      | ok s =>
        show (q (f s) (x n)).map Prod.snd = ((p s (x n)).map Prod.snd).map f
        rw [hf]
        cases p s (x n) <;> rfl
  unfold modOut
  rw [ha]
  cases modAfter p x m n with
  | error e => rfl
  | ok s =>
    show (q (f s) (x n)).map Prod.fst = (p s (x n)).map Prod.fst
    rw [hf]
    cases p s (x n) <;> rfl

/-! ## The sound -/

/-- A complex sound whose input goes to a LowPass and a HighPass and whose output collects both plays the two side by side. -/
theorem C164_sound (f f' r r' : ℝ) : ∃ h' c, cxCalls (S := ℝ) (ComplexSound.new (M := ℝ) (fun g => effectBlock (S := ℝ) (LinearEffect.gain g.m.val)) [] 1 1).2
      (ComplexSound.new (M := ℝ) (fun g => effectBlock (S := ℝ) (LinearEffect.gain g.m.val)) [] 1 1).1
      (([.block (effectBlock (.low (LowPass.new f r))), .block (effectBlock (.high (HighPass.new f' r'))), .connect 0 2, .connect 0 3, .connect 2 1, .connect 3 1] :
        List (BuildCall (StandardBlock Zero LinearEffect StdInter ℝ))).map BuildCall.call) = .ok (h', c) ∧
    ∀ (x : ℕ → ℝ) (T : ℕ), ∃ ys k, runSound ComplexSound.process c h' ((List.range T).map x) = .ok (ys, k) ∧
      ∀ t < T, ∃ y, modOut (sideBySide Modifier.process Modifier.process) x ((LowPass.new f r : LowPass ℝ ℝ), (HighPass.new f' r' : HighPass ℝ ℝ)) t = .ok y ∧
        ys[t]? = some y := by
  have h1 : LTI Modifier.process (LinearEffect.low (LowPass.new f r)) := lti_map LinearEffect.low (fun _ _ => rfl) (C58_new f r).1
  have h2 : LTI Modifier.process (LinearEffect.high (HighPass.new f' r')) := lti_map LinearEffect.high (fun _ _ => rfl) (C58_new f' r').2.1
  obtain ⟨A, hA, hA'⟩ := C149_effect (C58_new f r).1
  obtain ⟨B, hB, hB'⟩ := C149_effect (C58_new f' r').2.1
  have tA : Transfer Modifier.process (LinearEffect.low (LowPass.new f r)) A := by
    intro n
    rw [out_map LinearEffect.low (fun _ _ => rfl), hA n]
  have tB : Transfer Modifier.process (LinearEffect.high (HighPass.new f' r')) B := by
    intro n
    rw [out_map LinearEffect.high (fun _ _ => rfl), hB n]
  obtain ⟨h', c, hc, hx⟩ := C149_parallel h1 h2 tA tB
  refine ⟨h', c, hc, fun x T => ?_⟩
  obtain ⟨ys, k, h3, h4⟩ := hx x T
  refine ⟨ys, k, h3, fun t ht => ⟨_, side_out (hA' x) (hB' x) t, ?_⟩⟩
  rw [h4 t ht, add_mul, map_add]

/-! ## Levels -/

private theorem damping_zero {r : ℝ} (hr : r ≤ 0) : damping r - 1 = 1 := by
  unfold damping
  rw [min_eq_left (by linarith), max_eq_right hr, show Real.pi * (4 - 0) / 6 = Real.pi - Real.pi / 3 by ring, Real.cos_pi_sub, Real.cos_pi_div_three]
  norm_num

private noncomputable def quad (T a : ℝ) (z : ℂ) : ℂ := (z - 1) ^ 2 + a * T * z * (z - 1) + T ^ 2 * z ^ 2

private theorem bent_cos' (ν : ℝ) : bent ν = 2 - 2 * Real.cos (2 * Real.pi * ν / 48000) := by
  unfold bent
  rw [show 2 * Real.pi * ν / 48000 = 2 * (Real.pi * ν / 48000) by ring, Real.cos_two_mul]
  nlinarith [Real.sin_sq_add_cos_sq (Real.pi * ν / 48000)]

private theorem normSq_quad (T a w : ℝ) : Complex.normSq (quad T a (zw w)) =
    ((2 - 2 * Real.cos w) - T ^ 2) ^ 2 + T * (2 - 2 * Real.cos w) * (a ^ 2 * T + a * T ^ 2 + a * (2 - 2 * Real.cos w) + T * (2 - 2 * Real.cos w)) := by
  have hz : zw w = ⟨Real.cos w, Real.sin w⟩ := by
    unfold zw
    apply Complex.ext
    · exact expI_re w
    · exact Complex.exp_ofReal_mul_I_im w
  have hs : Real.sin w ^ 2 = 1 - Real.cos w ^ 2 := by linarith [Real.sin_sq_add_cos_sq w]
  unfold quad
  rw [hz]
  generalize Real.cos w = c at hs ⊢
  generalize Real.sin w = s at hs ⊢
  have h1 : ((⟨c, s⟩ : ℂ) - 1) ^ 2 + a * T * ⟨c, s⟩ * (⟨c, s⟩ - 1) + T ^ 2 * (⟨c, s⟩ : ℂ) ^ 2 =
      ⟨(c - 1) ^ 2 - s ^ 2 + a * T * (c * (c - 1) - s ^ 2) + T ^ 2 * (c ^ 2 - s ^ 2), 2 * (c - 1) * s + a * T * (c * s + s * (c - 1)) + T ^ 2 * (2 * c * s)⟩ := by
    apply Complex.ext
    · simp [pow_two]; ring
    · simp [pow_two]; ring
  rw [h1, Complex.normSq_mk]
  have hs4 : s ^ 4 = (1 - c ^ 2) ^ 2 := by rw [← hs]; ring
  ring_nf
  rw [hs4, hs]
  ring

private theorem quad_pos {T κ q : ℝ} (hT : 0 < T) (hκ : 0 ≤ κ) (hq : 0 ≤ q) : 0 < (q - T ^ 2) ^ 2 + T * q * (κ ^ 2 * T + κ * T ^ 2 + κ * q + T * q) := by
  rcases hq.eq_or_lt with h | h
  · rw [← h]
    have : 0 < T ^ 4 := by positivity
    nlinarith
  · positivity

private theorem quad_ne {T κ : ℝ} (hT : 0 < T) (hκ : 0 ≤ κ) (w : ℝ) : quad T κ (zw w) ≠ 0 := by
  intro h
  have h1 := normSq_quad T κ w
  rw [h, Complex.normSq_zero] at h1
  exact (quad_pos hT hκ (by linarith [Real.cos_le_one w])).ne h1

private theorem first_ne {T : ℝ} (hT : 0 < T) (w : ℝ) : (1 + T) * zw w - 1 ≠ 0 := by
  intro h
  have h1 : (1 + (T : ℂ)) * zw w = 1 := by linear_combination h
  have h2 := congrArg norm h1
  rw [norm_mul, zw_norm, mul_one, norm_one, show (1 + (T : ℂ)) = ((1 + T : ℝ) : ℂ) by push_cast; ring, Complex.norm_real, Real.norm_of_nonneg (by linarith)] at h2
  linarith

/-- The level of the two bands together, at every frequency. -/
theorem C164_level (fc r ν : ℝ) (hfc : 0 < fc) :
    SteadyGain (sideBySide Modifier.process Modifier.process) ((LowPass.new fc r : LowPass ℝ ℝ), (HighPass.new fc r : HighPass ℝ ℝ)) ν
      (Real.sqrt (splitSq (omega fc) (damping r - 1) (bent ν))) := by
  set w := 2 * Real.pi * ν / 48000 with hw
  have hT := omega_pos hfc
  have hκ : 0 ≤ damping r - 1 := by linarith [(damping_mem r).1]
  have hQ := quad_ne hT hκ w
  have hF := first_ne hT w
  have hz := zw_ne w
  set T := omega fc
  set κ := damping r - 1
  refine steady_of (quad T (-1) (zw w) / quad T κ (zw w)) ?_ ?_
  · unfold splitSq
    rw [bent_cos', ← hw, norm_div, ← Real.sqrt_sq (norm_nonneg (quad T κ (zw w))), ← Real.sqrt_sq (norm_nonneg (quad T (-1) (zw w))),
      ← Real.sqrt_div (sq_nonneg _), ← Complex.normSq_eq_norm_sq, ← Complex.normSq_eq_norm_sq, normSq_quad, normSq_quad]
    congr 2
    ring
  · intro A φ
    obtain ⟨y, h1, h2⟩ := lp_third fc r hfc (fun n : ℕ => A * Real.cos (w * n + φ))
    obtain ⟨u, h1', h2'⟩ := hp_third fc r hfc (fun n : ℕ => A * Real.cos (w * n + φ))
    refine ⟨fun n => y n + u n, side_out h1 h1', ?_⟩
    set F : ℂ := (T ^ 3 + (1 - (zw w)⁻¹) ^ 3) * phasor A φ with hFd
    set P : ℂ := ((1 + T) * zw w - 1) * quad T κ (zw w) with hPd
    have hP : P ≠ 0 := mul_ne_zero hF hQ
    have h3 : ThirdOrder T κ (fun n => (F / P * zw w ^ n).re) (fun n => (F * zw w ^ n).re) := by
      intro n
      have e : ((T ^ 3 + (κ + 1) * T ^ 2 + (κ + 1) * T + 1 : ℝ) : ℂ) * (F / P * zw w ^ (n + 3)) =
          (((κ + 1) * T ^ 2 + 2 * (κ + 1) * T + 3 : ℝ) : ℂ) * (F / P * zw w ^ (n + 2)) +
          ((-(κ + 1) * T - 3 : ℝ) : ℂ) * (F / P * zw w ^ (n + 1)) + F / P * zw w ^ n + F * zw w ^ n := by
        have h1 : F * zw w ^ n = P * (F / P) * zw w ^ n := by rw [mul_div_cancel₀ _ hP]
        rw [h1]
        generalize F / P = E
        rw [hPd]
        unfold quad
        push_cast
        ring
      have := congrArg Complex.re e
      simp only [Complex.add_re, Complex.re_ofReal_mul] at this
      exact this
    have h4 : ThirdOrder T κ (fun n => delayed 0 y 3 n + delayed 0 u 3 n - (F / P * zw w ^ n).re)
        (fun n => T ^ 3 * (A * Real.cos (w * n + φ)) + bdiff (bdiff (bdiff (fun n : ℕ => A * Real.cos (w * n + φ)))) n - (F * zw w ^ n).re) := by
      intro n
      have a := h2 n
      have a' := h2' n
      have b := h3 n
      simp only at a a' b ⊢
      linarith
    have h5 := thirdOrder_tendsto hT hκ (by linarith [(damping_mem r).2]) h4 (by
      refine tendsto_const_nhds.congr' ?_
      filter_upwards [eventually_ge_atTop 3] with n hn
      obtain ⟨k, rfl⟩ : ∃ k, n = k + 3 := ⟨n - 3, by omega⟩
      rw [bdiff3_eq]
      simp only [delayed_succ, delayed_zero', ← phasor_re]
      have e : F * zw w ^ (k + 3) = ((T ^ 3 : ℝ) : ℂ) * (phasor A φ * zw w ^ (k + 3)) + phasor A φ * zw w ^ (k + 3) -
          ((3 : ℝ) : ℂ) * (phasor A φ * zw w ^ (k + 2)) + ((3 : ℝ) : ℂ) * (phasor A φ * zw w ^ (k + 1)) - phasor A φ * zw w ^ k := by
        rw [hFd]
        field_simp
        push_cast
        ring
      rw [e]
      simp only [Complex.sub_re, Complex.add_re, Complex.re_ofReal_mul]
      ring)
    have h6 := (tendsto_add_atTop_iff_nat 3).mpr h5
    simp only [delayed_succ, delayed_zero'] at h6
    refine h6.congr fun n => ?_
    have e : F / P * zw w ^ (n + 3) = quad T (-1) (zw w) / quad T κ (zw w) * phasor A φ * zw w ^ n := by
      have e1 : (T ^ 3 + (1 - (zw w)⁻¹) ^ 3) * zw w ^ 3 = ((1 + T) * zw w - 1) * quad T (-1) (zw w) := by
        unfold quad
        field_simp
        push_cast
        ring
      rw [pow_add, hFd, hPd]
      rw [show (T ^ 3 + (1 - (zw w)⁻¹) ^ 3) * phasor A φ / (((1 + T) * zw w - 1) * quad T κ (zw w)) * (zw w ^ n * zw w ^ 3) =
        ((T ^ 3 + (1 - (zw w)⁻¹) ^ 3) * zw w ^ 3) * phasor A φ / (((1 + T) * zw w - 1) * quad T κ (zw w)) * zw w ^ n by ring, e1]
      field_simp
    rw [e]

example : SteadyGain (sideBySide Modifier.process Modifier.process) ((LowPass.new 440 0 : LowPass ℝ ℝ), (HighPass.new 440 0 : HighPass ℝ ℝ)) 1000
    (Real.sqrt (splitSq (omega 440) (damping 0 - 1) (bent 1000))) := C164_level _ _ _ (by norm_num)

private theorem splitSq_one {T q : ℝ} (hT : 0 < T) (hq : 0 ≤ q) : splitSq T 1 q ≤ 1 ∧ 1 - 9 / 2 * T ≤ splitSq T 1 q := by
  have hd := quad_pos hT (κ := 1) (by norm_num) hq
  have e : (q - T ^ 2) ^ 2 + T * q * (1 - T) * (T - q) =
      (q - T ^ 2) ^ 2 + T * q * (1 ^ 2 * T + 1 * T ^ 2 + 1 * q + T * q) - 2 * T * q * (q + T ^ 2) := by ring
  unfold splitSq
  constructor
  · rw [div_le_one hd, e]
    have : 0 ≤ 2 * T * q * (q + T ^ 2) := by positivity
    linarith
  · rw [le_div_iff₀ hd, e]
    have h1 : 2 * q * (q + T ^ 2) ≤ 9 / 2 * ((q - T ^ 2) ^ 2 + T * q * T) := by nlinarith [sq_nonneg (q - 13 / 10 * T ^ 2), sq_nonneg T, sq_nonneg (T ^ 2)]
    have h2 : 2 * q * (q + T ^ 2) ≤ 9 / 2 * ((q - T ^ 2) ^ 2 + T * q * (1 ^ 2 * T + 1 * T ^ 2 + 1 * q + T * q)) := by
      have : 0 ≤ T * q * (T ^ 2 + q + T * q) := by positivity
      nlinarith
    have h3 := mul_le_mul_of_nonneg_left h2 hT.le
    nlinarith

/-- Without resonance the bands together never exceed the level of the sound, at any frequency. -/
theorem C164_never_amplifies {fc r ν g : ℝ} (hfc : 0 < fc) (hr : r ≤ 0)
    (h : SteadyGain (sideBySide Modifier.process Modifier.process) ((LowPass.new fc r : LowPass ℝ ℝ), (HighPass.new fc r : HighPass ℝ ℝ)) ν g) : g ≤ 1 := by
  rw [h.unique (C164_level fc r ν hfc), damping_zero hr]
  exact Real.sqrt_le_iff.mpr ⟨by norm_num, by rw [one_pow]; exact (splitSq_one (omega_pos hfc) (bent_nonneg ν)).1⟩

example : ∃ g, SteadyGain (sideBySide Modifier.process Modifier.process) ((LowPass.new 3000 0 : LowPass ℝ ℝ), (HighPass.new 3000 0 : HighPass ℝ ℝ)) 1000 g :=
  ⟨_, C164_level _ _ _ (by norm_num)⟩

/-- What holds: for cutoffs up to 100 Hz without resonance at most 3 % of the level is lost at any frequency, up to 500 Hz at most 17 %. Missing: higher
cutoffs. -/
theorem C164_partial {fc r ν g : ℝ} (hfc : 0 < fc) (hr : r ≤ 0)
    (h : SteadyGain (sideBySide Modifier.process Modifier.process) ((LowPass.new fc r : LowPass ℝ ℝ), (HighPass.new fc r : HighPass ℝ ℝ)) ν g) :
    1 - 9 / 2 * (2 * Real.pi * fc / 48000) ≤ g ^ 2 ∧ (fc ≤ 100 → 97 / 100 ≤ g) ∧ (fc ≤ 500 → 83 / 100 ≤ g) := by
  have h0 := h.1
  have e := h.unique (C164_level fc r ν hfc)
  rw [damping_zero hr] at e
  have hp := Real.pi_pos
  have hp' := Real.pi_lt_d2
  have hs : 1 - 9 / 2 * (2 * Real.pi * fc / 48000) ≤ g ^ 2 := by
    by_cases hn : 0 ≤ splitSq (omega fc) 1 (bent ν)
    · rw [e, Real.sq_sqrt hn]
      refine le_trans ?_ (splitSq_one (omega_pos hfc) (bent_nonneg ν)).2
      unfold omega
      have : min fc 24000 ≤ fc := min_le_left _ _
      have : Real.pi * min fc 24000 ≤ Real.pi * fc := mul_le_mul_of_nonneg_left this hp.le
      linarith
    · have h1 := (splitSq_one (omega_pos hfc) (bent_nonneg ν)).2
      have : omega fc ≤ 2 * Real.pi * fc / 48000 := by
        unfold omega
        have : min fc 24000 ≤ fc := min_le_left _ _
        have : Real.pi * min fc 24000 ≤ Real.pi * fc := mul_le_mul_of_nonneg_left this hp.le
        linarith
      nlinarith [sq_nonneg g]
  refine ⟨hs, fun h1 => ?_, fun h1 => ?_⟩
  · have : Real.pi * fc ≤ 3.15 * 100 := mul_le_mul hp'.le h1 hfc.le (by norm_num)
    refine le_of_pow_le_pow_left₀ (n := 2) (by norm_num) h0 ?_
    norm_num at *
    linarith
  · have : Real.pi * fc ≤ 3.15 * 500 := mul_le_mul hp'.le h1 hfc.le (by norm_num)
    refine le_of_pow_le_pow_left₀ (n := 2) (by norm_num) h0 ?_
    norm_num at *
    linarith

example : ∃ g, SteadyGain (sideBySide Modifier.process Modifier.process) ((LowPass.new 100 0 : LowPass ℝ ℝ), (HighPass.new 100 0 : HighPass ℝ ℝ)) 1000 g :=
  ⟨_, C164_level _ _ _ (by norm_num)⟩

private theorem bent_8000 : bent 8000 = 1 := by
  rw [bent_cos', show 2 * Real.pi * 8000 / 48000 = Real.pi / 3 by ring, Real.cos_pi_div_three]; norm_num

/-- The property fails: split at 8 kHz, a tone of 8 kHz comes back at less than a twentieth of its level. -/
theorem C164_violated {g : ℝ}
    (h : SteadyGain (sideBySide Modifier.process Modifier.process) ((LowPass.new 8000 0 : LowPass ℝ ℝ), (HighPass.new 8000 0 : HighPass ℝ ℝ)) 8000 g) : g < 1 / 20 := by
  rw [h.unique (C164_level 8000 0 8000 (by norm_num)), damping_zero le_rfl, bent_8000]
  have hT : omega 8000 = Real.pi / 3 := by unfold omega; rw [min_eq_left (by norm_num)]; ring
  rw [hT]
  have p1 := Real.pi_gt_d2
  have p2 := Real.pi_lt_d2
  rw [Real.sqrt_lt' (by norm_num)]
  unfold splitSq
  rw [div_lt_iff₀ (quad_pos (by positivity) (by norm_num) (by norm_num))]
  have t1 : 1.045 < Real.pi / 3 := by norm_num at *; linarith
  have t2 : Real.pi / 3 < 1.05 := by norm_num at *; linarith
  generalize Real.pi / 3 = T at *
  have e : (1 - T ^ 2) ^ 2 + T * 1 * (1 - T) * (T - 1) = (T - 1) ^ 2 * (T ^ 2 + T + 1) := by ring
  rw [e]
  have a1 : (T - 1) ^ 2 ≤ 0.05 ^ 2 := pow_le_pow_left₀ (by linarith) (by linarith) 2
  have a2 : T ^ 2 + T + 1 ≤ 3.16 := by nlinarith
  have a3 : (T - 1) ^ 2 * (T ^ 2 + T + 1) ≤ 0.05 ^ 2 * 3.16 := mul_le_mul a1 a2 (by nlinarith) (by norm_num)
  have a4 : 4 ≤ (1 - T ^ 2) ^ 2 + T * 1 * (1 ^ 2 * T + 1 * T ^ 2 + 1 * 1 + T * 1) := by nlinarith [sq_nonneg (1 - T ^ 2)]
  norm_num at *
  linarith

example : ∃ g, SteadyGain (sideBySide Modifier.process Modifier.process) ((LowPass.new 8000 0 : LowPass ℝ ℝ), (HighPass.new 8000 0 : HighPass ℝ ℝ)) 8000 g :=
  ⟨_, C164_level _ _ _ (by norm_num)⟩

/-- Split at `24000/π` Hz (7639.4 Hz) the tone of 8 kHz is lost altogether. -/
theorem C164_lost_violated :
    SteadyGain (sideBySide Modifier.process Modifier.process) ((LowPass.new (24000 / Real.pi) 0 : LowPass ℝ ℝ), (HighPass.new (24000 / Real.pi) 0 : HighPass ℝ ℝ)) 8000 0 := by
  have hp := Real.pi_gt_three
  have h := C164_level (24000 / Real.pi) 0 8000 (by positivity)
  have hT : omega (24000 / Real.pi) = 1 := by
    unfold omega
    rw [min_eq_left (by rw [div_le_iff₀ (by positivity)]; linarith)]
    field_simp
    norm_num
  rw [hT, bent_8000] at h
  have : splitSq 1 (damping 0 - 1) 1 = 0 := by unfold splitSq; norm_num
  rwa [this, Real.sqrt_zero] at h

end Verif
