import Verif.Props.FilterState

set_option linter.unusedSectionVars false

/-! # ADSR in IEEE arithmetic -/

namespace Verif
open Fl

theorem Fl.Is.sign_neg {f : Fmt} {x : Fl f} {q : ℚ} (h : x.Is q) (hq : q < 0) : ∃ h', x = .fin true q h' := by
  obtain ⟨s, hs, rfl⟩ := is_iff.mp h
  obtain rfl := hs.2.2.1 hq
  exact ⟨hs, rfl⟩

theorem neg_div_zero {x : F64} {q : ℚ} (h : x.Is q) (hq : q < 0) : x / (lit 0 : F64) = .inf true := by
  obtain ⟨h', rfl⟩ := Fl.Is.sign_neg h hq
  obtain ⟨s, h0, e⟩ : ∃ s h0, (lit 0 : F64) = .fin s 0 h0 := is_iff.mp lit64_0
  have hs : s = false := by
    have e2 : (lit 0 : F64) = Fl.ofQ false 0 := rfl
    rw [e2] at e
    unfold Fl.ofQ at e
    split at e
    · simp at e; exact e
    · cases e
  subst hs
  rw [e]
  show Fl.div _ _ = _
  simp [Fl.div, hq.ne]

theorem zero_div_zero {x : F64} (h : x.Is 0) : x / (lit 0 : F64) = .nan := by
  obtain ⟨s, hs, rfl⟩ := is_iff.mp h
  obtain ⟨s, h0, e⟩ : ∃ s h0, (lit 0 : F64) = .fin s 0 h0 := is_iff.mp lit64_0
  rw [e]
  show Fl.div _ _ = _
  simp [Fl.div]

/-! ## Durations in samples -/

theorem Duration.samp64_mono {d e : Duration} (h : d.total ≤ e.total) : d.samp64 ≤ e.samp64 := by
  unfold Duration.samp64
  exact b64.rnd_mono (mul_le_mul_of_nonneg_right (Duration.secs64_mono h) (by norm_num))

/-- One nanosecond. -/
def Duration.ns : Duration := ⟨0, 1, by decide, by decide⟩

theorem Duration.samp64_pos {d : Duration} (h : d.total ≠ 0) : 1 / 32768 ≤ d.samp64 := by
  refine le_trans (b := Duration.ns.samp64) (by decide +kernel) (Duration.samp64_mono ?_)
  show 1 ≤ d.total
  omega

theorem Duration.zero_secs {d : Duration} (h : d.total = 0) : (d.asSecs : F64) * srM = lit 0 := by
  unfold Duration.total at h
  obtain ⟨a, b, h1, h2⟩ := d
  obtain rfl : a = 0 := by dsimp only at h; omega
  obtain rfl : b = 0 := by dsimp only at h; omega
  show (lit ((0 : ℕ) : ℚ) + lit ((0 : ℕ) : ℚ) / lit (10 ^ 9)) * srM = (lit 0 : F64)
  decide +kernel

/-! ## The state invariant -/

/-- All rates have the right sign and the levels are in `[0,1]`. -/
structure AdsrOk (m : ADSR F32) : Prop where
  a : m.a = .inf false ∨ m.a.In 0 (2 ^ 17)
  d : m.d = .inf true ∨ m.d.In (-2 ^ 17) 0
  s : m.s.In 0 1
  r : m.r = .inf true ∨ m.r.In (-2 ^ 17) 0
  g : m.g.In 0 1

theorem lit32_0' : (lit 0 : F32).Is 0 := by decide +kernel
theorem lit32_1' : (lit 1 : F32).Is 1 := by decide +kernel

private theorem repr32_0 : b32.Repr 0 := b32.repr_zero
private theorem repr32_1 : b32.Repr 1 := by exact_mod_cast Fmt.repr32_int (n := 1) (by norm_num)
private theorem repr64_1 : b64.Repr 1 := by exact_mod_cast Fmt.repr64_int (n := 1) (by norm_num)

/-- Adding a rate of the right sign. -/
theorem add_down {g r : F32} (hg : g.In 0 1) (hr : r = .inf true ∨ r.In (-2 ^ 17) 0) :
    g + r = .inf true ∨ ∃ q, (g + r).Is q ∧ q ≤ 1 := by
  obtain ⟨q, hq, h0, h1⟩ := hg
  rcases hr with rfl | ⟨p, hp, p0, p1⟩
  · exact Or.inl (Fl.add_inf hq)
  · right
    refine ⟨_, Is.add hq hp (fits32' 18 (by norm_num) ?_), b32.rnd_le_repr repr32_1 (by linarith)⟩
    rw [abs_le]
    constructor <;> norm_num at * <;> linarith

theorem add_up {g a : F32} (hg : g.In 0 1) (ha : a = .inf false ∨ a.In 0 (2 ^ 17)) :
    g + a = .inf false ∨ ∃ q, (g + a).Is q ∧ 0 ≤ q := by
  obtain ⟨q, hq, h0, h1⟩ := hg
  rcases ha with rfl | ⟨p, hp, p0, p1⟩
  · exact Or.inl (Fl.add_inf hq)
  · right
    refine ⟨_, Is.add hq hp (fits32' 18 (by norm_num) ?_), b32.rnd_nonneg (by linarith)⟩
    rw [abs_le]
    constructor <;> norm_num at * <;> linarith

theorem AdsrOk.process {m : ADSR F32} (h : AdsrOk m) (x : F32) : AdsrOk (m.process x).2 := by
  have hz : (lit 0 : F32).In 0 1 := ⟨0, lit32_0', le_refl _, by norm_num⟩
  have h1 : (lit 1 : F32).In 0 1 := ⟨1, lit32_1', by norm_num, le_refl _⟩
  unfold ADSR.process
  cases hs : m.state with
  | attack =>
    simp only []
    by_cases hc : (lit 1 ≤? m.g + m.a) = true
    · rw [if_pos hc]; exact ⟨h.a, h.d, h.s, h.r, h1⟩
    · rw [if_neg hc]
      refine ⟨h.a, h.d, h.s, h.r, ?_⟩
      rcases add_up h.g h.a with e | ⟨q, e, hq⟩
      · rw [e] at hc; exact absurd (by decide +kernel) hc
      · rw [Is.le lit32_1' e, decide_eq_true_iff] at hc
        exact ⟨q, e, hq, by linarith⟩
  | decay =>
    simp only []
    by_cases hc : (m.g + m.d ≤? m.s) = true
    · rw [if_pos hc]; exact ⟨h.a, h.d, h.s, h.r, h.s⟩
    · rw [if_neg hc]
      refine ⟨h.a, h.d, h.s, h.r, ?_⟩
      obtain ⟨s, hs', s0, s1⟩ := h.s
      rcases add_down h.g h.d with e | ⟨q, e, hq⟩
      · rw [e] at hc
        exact absurd (Fl.neg_inf_le (by rintro e; rw [e] at hs'; cases hs')) hc
      · rw [Is.le e hs', decide_eq_true_iff] at hc
        exact ⟨q, e, by linarith, hq⟩
  | sustain => exact h
  | release =>
    simp only []
    by_cases hc : (m.g + m.r ≤? lit 0) = true
    · rw [if_pos hc]; exact ⟨h.a, h.d, h.s, h.r, hz⟩
    · rw [if_neg hc]
      refine ⟨h.a, h.d, h.s, h.r, ?_⟩
      rcases add_down h.g h.r with e | ⟨q, e, hq⟩
      · rw [e] at hc; exact absurd (by decide +kernel) hc
      · rw [Is.le e lit32_0', decide_eq_true_iff] at hc
        exact ⟨q, e, by linarith, hq⟩
  | stopped => exact h

theorem AdsrOk.run {m : ADSR F32} (h : AdsrOk m) (cs : List (AdsrCall F32)) : AdsrOk (m.run cs) := by
  induction cs generalizing m with
  | nil => exact h
  | cons c cs ih =>
    cases c with
    | process x => exact ih (h.process x)
    | release => exact ih ⟨h.a, h.d, h.s, h.r, h.g⟩

/-! ## The constructor -/

/-- Value of the attack denominator `(a.as_secs_f64() * 48000) as f32`. -/
def Duration.samp32 (d : Duration) : ℚ := b32.rnd d.samp64

theorem Duration.samp32_is (d : Duration) : (SM.down ((d.asSecs : F64) * srM) : F32).Is d.samp32 := by
  have h := d.samp_bounds
  exact Is.down d.samp_is (fits32' 81 (by norm_num) (by rw [abs_of_nonneg h.1]; exact h.2))

theorem Duration.samp32_mono {d e : Duration} (h : d.total ≤ e.total) : d.samp32 ≤ e.samp32 :=
  b32.rnd_mono (Duration.samp64_mono h)

theorem Duration.samp32_pos {d : Duration} (h : d.total ≠ 0) : 1 / 32768 ≤ d.samp32 := by
  refine b32.repr_le_rnd ?_ (Duration.samp64_pos h)
  exact ⟨1, -15, by decide +kernel, by decide, by decide⟩

section
variable [Libm F64]

theorem adsr_a_zero {a : Duration} (h : a.total = 0) (d : Duration) (s : F64) (r : Duration) :
    (ADSR.new a d s r : ADSR F32).a = .inf false := by
  show lit 1 / SM.down ((a.asSecs : F64) * srM) = _
  rw [Duration.zero_secs h]
  decide +kernel

theorem adsr_a {a : Duration} (h : a.total ≠ 0) (d : Duration) (s : F64) (r : Duration) :
    (ADSR.new a d s r : ADSR F32).a.Is (b32.rnd (1 / a.samp32)) ∧ 0 ≤ 1 / a.samp32 ∧ 1 / a.samp32 ≤ 2 ^ 15 := by
  have hp := Duration.samp32_pos h
  have hp' : 0 < a.samp32 := lt_of_lt_of_le (by norm_num) hp
  have hb : 1 / a.samp32 ≤ 2 ^ 15 := by
    rw [div_le_iff₀ hp']; linarith
  refine ⟨Is.div lit32_1' a.samp32_is hp'.ne' (fits32' 15 (by norm_num) ?_), by positivity, hb⟩
  rw [abs_of_pos (by positivity)]; exact hb

private theorem rate_down {n : F64} {q : ℚ} (hn : n.Is q) (h0 : -1 ≤ q) (h1 : q ≤ 0) (d : Duration) (h : d.total ≠ 0 ∨ q ≠ 0) :
    (SM.down (n / ((d.asSecs : F64) * srM)) : F32) = .inf true ∨ (SM.down (n / ((d.asSecs : F64) * srM)) : F32).In (-2 ^ 17) 0 := by
  by_cases hd : d.total = 0
  · left
    have hq : q < 0 := lt_of_le_of_ne h1 (h.resolve_left (by simpa using hd))
    rw [Duration.zero_secs hd, neg_div_zero hn hq]
    rfl
  · right
    have hp := Duration.samp64_pos hd
    have hp' : 0 < d.samp64 := lt_of_lt_of_le (by norm_num) hp
    have b1 : q / d.samp64 ≤ 0 := div_nonpos_of_nonpos_of_nonneg h1 hp'.le
    have b0 : -2 ^ 15 ≤ q / d.samp64 := by
      rw [le_div_iff₀ hp']; linarith
    have ha : |q / d.samp64| ≤ 2 ^ 15 := by rw [abs_le]; exact ⟨b0, b1.trans (by norm_num)⟩
    have r1 := rnd64_pow2_le 15 ha
    have r2 := rnd32_pow2_le 15 r1
    refine ⟨_, Is.down (Is.div hn d.samp_is hp'.ne' (fits64' 15 (by norm_num) ha)) (fits32' 15 (by norm_num) r1), ?_, ?_⟩
    · exact le_trans (by norm_num) (neg_le_of_abs_le r2)
    · exact b32.rnd_nonpos (b64.rnd_nonpos b1)

/-- The constructor establishes the invariant when neither rate is `0/0`. -/
theorem adsr_new_ok (a d : Duration) (s : F64) (r : Duration) {L : ℚ} (hL : (dbToLinear (Flt.fmin s (lit 0)) : F64).Is L)
    (h0 : 0 ≤ L) (h1 : L ≤ 1) (hd : d.total ≠ 0 ∨ L ≠ 1) (hr : r.total ≠ 0 ∨ L ≠ 0) : AdsrOk (ADSR.new a d s r) := by
  have hs : (SM.down (dbToLinear (Flt.fmin s (lit 0)) : F64) : F32).In 0 1 :=
    ⟨_, Is.down hL (fits32' 0 (by norm_num) (by rw [abs_of_nonneg h0]; simpa using h1)), b32.rnd_nonneg h0, b32.rnd_le_repr repr32_1 h1⟩
  refine ⟨?_, ?_, hs, ?_, ⟨0, lit32_0', le_refl _, by norm_num⟩⟩
  · by_cases ha : a.total = 0
    · exact Or.inl (adsr_a_zero ha d s r)
    · obtain ⟨e, p0, p1⟩ := adsr_a ha d s r
      right
      refine ⟨_, e, b32.rnd_nonneg p0, ?_⟩
      have := rnd32_pow2_le (q := 1 / a.samp32) 15 (by rw [abs_of_nonneg p0]; exact p1)
      exact (le_abs_self _).trans (this.trans (by norm_num))
  · have e := Is.sub hL lit64_1 (fits64' 0 (by norm_num) (by rw [abs_le]; constructor <;> norm_num <;> linarith))
    have m1 : -1 ≤ b64.rnd (L - 1) := b64.repr_le_rnd (b64.repr_neg repr64_1) (by linarith)
    refine rate_down e m1 (b64.rnd_nonpos (by linarith)) d (hd.imp id fun hne hc => hne ?_)
    -- rounding `L - 1` to zero needs `L = 1`
    by_contra hL1
    have hLr := hL.repr
    rcases lt_or_ge L (1 / 2) with hh | hh
    · have : b64.rnd (L - 1) ≤ -(1 / 2) := b64.rnd_le_repr ⟨-1, -1, by decide +kernel, by decide, by decide⟩ (by linarith)
      rw [hc] at this; norm_num at this
    · -- exact subtraction: `1 - L` is a multiple of 2^-53
      have hlt : L < 1 := lt_of_le_of_ne h1 hL1
      have hpos : 0 < L := by linarith
      have hi : ilog2 L = -1 := by
        apply le_antisymm
        · have := ilog2_lt_of hpos.ne' (k := 0) (by rw [abs_of_pos hpos]; simpa using hlt)
          omega
        · exact le_ilog2_of hpos.ne' (by rw [abs_of_pos hpos]; exact le_trans (by decide +kernel) hh)
      have hu : b64.ue L = -53 := by unfold Fmt.ue; rw [hi]; decide
      have hLe : L = rne (L * pow2 (-(b64.ue L))) * pow2 (b64.ue L) := (b64.rnd_of_repr hLr).symm
      rw [hu] at hLe
      generalize rne (L * pow2 (-(-53))) = k at hLe
      have hrep : b64.Repr (L - 1) := by
        refine ⟨k - 2 ^ 53, -53, ?_, ?_, by decide⟩
        · rw [hLe]; push_cast; rw [sub_mul]; congr 1; decide +kernel
        · have k1 : (k : ℚ) < 2 ^ 53 := by
            rw [hLe] at hlt
            have e : pow2 (-53) = 1 / 2 ^ 53 := by decide +kernel
            rw [e, mul_one_div, div_lt_one (by norm_num)] at hlt
            exact hlt
          have k0 : (0 : ℚ) ≤ k := by
            rw [hLe] at hpos
            have := pow2_pos (-53)
            by_contra hk
            nlinarith
          have k1' : k < 2 ^ 53 := by exact_mod_cast k1
          have k0' : 0 ≤ k := by exact_mod_cast k0
          show |k - 2 ^ 53| ≤ 2 ^ 53
          rw [abs_le]
          constructor <;> omega
      rw [b64.rnd_of_repr hrep] at hc
      linarith
  · exact rate_down (Is.neg hL) (by linarith) (by linarith) r (hr.imp id fun hne hc => hne (by linarith))

end
end Verif
