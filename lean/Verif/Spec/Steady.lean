import Verif.Spec.Filter
import Mathlib.Analysis.SpecialFunctions.Complex.Arg
import Mathlib.Analysis.SpecialFunctions.Trigonometric.Basic

/-! # Response of a modifier to sinusoids, independent of the model -/

namespace Verif
open Filter Topology

/-- The modifier in state `m` has gain `g` at frequency `ν`: it turns every sinusoid of that frequency, after the transient has
died out, into the sinusoid of `g` times the amplitude, shifted in phase by the same `ψ` for all amplitudes and phases. -/
def SteadyGain {X E : Type} (p : X → ℝ → Except E (ℝ × X)) (m : X) (ν g : ℝ) : Prop :=
  0 ≤ g ∧ ∃ ψ : ℝ, ∀ A φ : ℝ, ∃ y : ℕ → ℝ,
    (∀ n : ℕ, modOut p (fun n : ℕ => A * Real.cos (2 * Real.pi * ν / 48000 * n + φ)) m n = .ok (y n)) ∧
    Tendsto (fun n : ℕ => y n - g * A * Real.cos (2 * Real.pi * ν / 48000 * n + φ + ψ)) atTop (𝓝 0)

/-- A linear modifier that forgets: sums of scaled inputs give sums of scaled outputs, and an input that dies out gives an output
that dies out. -/
structure Settles {X E : Type} (p : X → ℝ → Except E (ℝ × X)) (m : X) : Prop where
  superposition : ∀ (u v : ℕ → ℝ) (a b : ℝ) (n : ℕ), ∃ s t, modOut p u m n = .ok s ∧ modOut p v m n = .ok t ∧
    modOut p (fun i => a * u i + b * v i) m n = .ok (a * s + b * t)
  fades : ∀ x : ℕ → ℝ, Tendsto x atTop (𝓝 0) → ∃ y : ℕ → ℝ, (∀ n, modOut p x m n = .ok (y n)) ∧ Tendsto y atTop (𝓝 0)

/-- Two modifiers one after the other. -/
def andThen {X Y S E : Type} (p : X → S → Except E (S × X)) (q : Y → S → Except E (S × Y)) (m : X × Y) (x : S) : Except E (S × (X × Y)) :=
  match p m.1 x with
  | .error e => .error e
  | .ok (y, m1) =>
    match q m.2 y with
    | .error e => .error e
    | .ok (z, m2) => .ok (z, (m1, m2))

/-! ## Phasors -/

/-- The unit vector at angle `w`. -/
noncomputable def zw (w : ℝ) : ℂ := Complex.exp (w * Complex.I)
/-- The complex amplitude of `A·cos(… + φ)`. -/
noncomputable def phasor (A φ : ℝ) : ℂ := A * Complex.exp (φ * Complex.I)

theorem zw_norm (w : ℝ) : ‖zw w‖ = 1 := Complex.norm_exp_ofReal_mul_I w
theorem zw_ne (w : ℝ) : zw w ≠ 0 := Complex.exp_ne_zero _
theorem zw_pow (w : ℝ) (n : ℕ) : zw w ^ n = Complex.exp ((w * n : ℝ) * Complex.I) := by
  unfold zw
  rw [← Complex.exp_nat_mul]
  congr 1
  push_cast
  ring

theorem expI_re (t : ℝ) : (Complex.exp (t * Complex.I)).re = Real.cos t := Complex.exp_ofReal_mul_I_re t

theorem phasor_re (A φ w : ℝ) (n : ℕ) : (phasor A φ * zw w ^ n).re = A * Real.cos (w * n + φ) := by
  rw [zw_pow]
  unfold phasor
  rw [mul_assoc, ← Complex.exp_add, show ((φ : ℂ) * Complex.I + (w * n : ℝ) * Complex.I) = ((w * n + φ : ℝ) : ℂ) * Complex.I by push_cast; ring,
    Complex.re_ofReal_mul, expI_re]

theorem resp_re (K : ℂ) (A φ w : ℝ) (n : ℕ) : (K * phasor A φ * zw w ^ n).re = ‖K‖ * A * Real.cos (w * n + φ + K.arg) := by
  rw [zw_pow]
  unfold phasor
  conv_lhs => rw [← Complex.norm_mul_exp_arg_mul_I K]
  rw [show (‖K‖ : ℂ) * Complex.exp (K.arg * Complex.I) * (A * Complex.exp (φ * Complex.I)) * Complex.exp ((w * n : ℝ) * Complex.I) =
      ((‖K‖ * A : ℝ) : ℂ) * (Complex.exp (K.arg * Complex.I) * (Complex.exp (φ * Complex.I) * Complex.exp ((w * n : ℝ) * Complex.I))) by push_cast; ring,
    ← Complex.exp_add, ← Complex.exp_add,
    show (K.arg : ℂ) * Complex.I + (φ * Complex.I + (w * n : ℝ) * Complex.I) = ((w * n + φ + K.arg : ℝ) : ℂ) * Complex.I by push_cast; ring,
    Complex.re_ofReal_mul, expI_re]

theorem steady_of {X E : Type} {p : X → ℝ → Except E (ℝ × X)} {m : X} {ν g : ℝ} (K : ℂ) (hK : ‖K‖ = g)
    (h : ∀ A φ : ℝ, ∃ y : ℕ → ℝ, (∀ n : ℕ, modOut p (fun n : ℕ => A * Real.cos (2 * Real.pi * ν / 48000 * n + φ)) m n = .ok (y n)) ∧
      Tendsto (fun n : ℕ => y n - (K * phasor A φ * zw (2 * Real.pi * ν / 48000) ^ n).re) atTop (𝓝 0)) : SteadyGain p m ν g := by
  refine ⟨hK ▸ norm_nonneg K, K.arg, fun A φ => ?_⟩
  obtain ⟨y, h1, h2⟩ := h A φ
  refine ⟨y, h1, ?_⟩
  simp only [resp_re, hK] at h2
  exact h2

/-- There is only one gain at each frequency. -/
theorem SteadyGain.unique {X E : Type} {p : X → ℝ → Except E (ℝ × X)} {m : X} {ν g g' : ℝ} (h : SteadyGain p m ν g) (h' : SteadyGain p m ν g') :
    g = g' := by
  obtain ⟨g0, ψ, h⟩ := h
  obtain ⟨g0', ψ', h'⟩ := h'
  set w := 2 * Real.pi * ν / 48000
  have key : ∀ φ : ℝ, Tendsto (fun n : ℕ => g * Real.cos (w * n + φ + ψ) - g' * Real.cos (w * n + φ + ψ')) atTop (𝓝 0) := by
    intro φ
    obtain ⟨y, a1, a2⟩ := h 1 φ
    obtain ⟨y', b1, b2⟩ := h' 1 φ
    have e : y = y' := funext fun n => Except.ok.inj ((a1 n).symm.trans (b1 n))
    subst e
    have := b2.sub a2
    simp only [mul_one, sub_zero] at this
    refine this.congr fun n => ?_
    ring
  have hc : Tendsto (fun n : ℕ => ((g * Real.cos (w * n + 0 + ψ) - g' * Real.cos (w * n + 0 + ψ')) ^ 2 +
      (g * Real.cos (w * n + -(Real.pi / 2) + ψ) - g' * Real.cos (w * n + -(Real.pi / 2) + ψ')) ^ 2)) atTop (𝓝 0) := by
    simpa using ((key 0).pow 2).add ((key (-(Real.pi / 2))).pow 2)
  have hconst : ∀ n : ℕ, (g * Real.cos (w * n + 0 + ψ) - g' * Real.cos (w * n + 0 + ψ')) ^ 2 +
      (g * Real.cos (w * n + -(Real.pi / 2) + ψ) - g' * Real.cos (w * n + -(Real.pi / 2) + ψ')) ^ 2 =
      g ^ 2 + g' ^ 2 - 2 * g * g' * Real.cos (ψ - ψ') := by
    intro n
    have e1 : Real.cos (w * n + -(Real.pi / 2) + ψ) = Real.sin (w * n + ψ) := by
      rw [show w * n + -(Real.pi / 2) + ψ = (w * n + ψ) - Real.pi / 2 by ring, Real.cos_sub_pi_div_two]
    have e2 : Real.cos (w * n + -(Real.pi / 2) + ψ') = Real.sin (w * n + ψ') := by
      rw [show w * n + -(Real.pi / 2) + ψ' = (w * n + ψ') - Real.pi / 2 by ring, Real.cos_sub_pi_div_two]
    rw [e1, e2, add_zero, show ψ - ψ' = (w * n + ψ) - (w * n + ψ') by ring, Real.cos_sub]
    have s1 := Real.sin_sq_add_cos_sq (w * n + ψ)
    have s2 := Real.sin_sq_add_cos_sq (w * n + ψ')
    linear_combination g ^ 2 * s1 + g' ^ 2 * s2
  simp only [hconst] at hc
  have hz := tendsto_nhds_unique tendsto_const_nhds hc
  have hcos := Real.cos_le_one (ψ - ψ')
  have h0 : 0 ≤ g * g' := mul_nonneg g0 g0'
  have : (g - g') ^ 2 ≤ 0 := by nlinarith
  nlinarith [sq_nonneg (g - g')]

/-! ## Modifiers one after the other -/

theorem modOut_andThen {X Y S E : Type} {p : X → S → Except E (S × X)} {q : Y → S → Except E (S × Y)} {m : X} {k : Y} {x y : ℕ → S}
    {z : ℕ → S} (h : ∀ n, modOut p x m n = .ok (y n)) (h' : ∀ n, modOut q y k n = .ok (z n)) (n : ℕ) :
    modOut (andThen p q) x (m, k) n = .ok (z n) := by
  have key : ∀ n, ∃ a b, modAfter p x m n = .ok a ∧ modAfter q y k n = .ok b ∧ modAfter (andThen p q) x (m, k) n = .ok (a, b) := by
    intro n
    induction n with
    | zero => exact ⟨m, k, rfl, rfl, rfl⟩
    | succ n ih =>
      obtain ⟨a, b, h1, h2, h3⟩ := ih
      have e1 := h n
      have e2 := h' n
      simp only [modOut, h1, h2] at e1 e2
      cases f1 : p a (x n) with
      | error e => rw [f1] at e1; simp [Except.map] at e1
      | ok r =>
        cases f2 : q b (y n) with
        | error e => rw [f2] at e2; simp [Except.map] at e2
        | ok r' =>
          rw [f1] at e1
          simp only [Except.map, Except.ok.injEq] at e1
          have e : andThen p q (a, b) (x n) = .ok (r'.1, (r.2, r'.2)) := by
            simp only [andThen, f1, e1, f2]
          exact ⟨r.2, r'.2, modAfter_succ h1 f1, modAfter_succ h2 f2, modAfter_succ h3 e⟩
  obtain ⟨a, b, h1, h2, h3⟩ := key n
  have e1 := h n
  have e2 := h' n
  simp only [modOut, h1, h2] at e1 e2
  cases f1 : p a (x n) with
  | error e => rw [f1] at e1; simp [Except.map] at e1
  | ok r =>
    cases f2 : q b (y n) with
    | error e => rw [f2] at e2; simp [Except.map] at e2
    | ok r' =>
      rw [f1] at e1
      rw [f2] at e2
      simp only [Except.map, Except.ok.injEq] at e1 e2
      have e : andThen p q (a, b) (x n) = .ok (r'.1, (r.2, r'.2)) := by
        simp only [andThen, f1, e1, f2]
      rw [modOut_of h3 e, e2]

/-- The gain of two modifiers in a row is the product of the gains. -/
theorem SteadyGain.andThen {X Y E : Type} {p : X → ℝ → Except E (ℝ × X)} {q : Y → ℝ → Except E (ℝ × Y)} {m : X} {k : Y} {ν g g' : ℝ}
    (h : SteadyGain p m ν g) (h' : SteadyGain q k ν g') (hs : Settles q k) : SteadyGain (andThen p q) (m, k) ν (g * g') := by
  obtain ⟨g0, ψ, h⟩ := h
  obtain ⟨g0', ψ', h'⟩ := h'
  refine ⟨mul_nonneg g0 g0', ψ + ψ', fun A φ => ?_⟩
  obtain ⟨y, a1, a2⟩ := h A φ
  obtain ⟨s, b1, b2⟩ := h' (g * A) (φ + ψ)
  obtain ⟨t, c1, c2⟩ := hs.fades _ a2
  refine ⟨fun n => s n + t n, modOut_andThen a1 fun n => ?_, ?_⟩
  · obtain ⟨s', t', d1, d2, d3⟩ := hs.superposition (fun n : ℕ => g * A * Real.cos (2 * Real.pi * ν / 48000 * n + (φ + ψ)))
      (fun n => y n - g * A * Real.cos (2 * Real.pi * ν / 48000 * n + φ + ψ)) 1 1 n
    rw [b1 n] at d1
    rw [c1 n] at d2
    rw [← Except.ok.inj d1, ← Except.ok.inj d2, one_mul, one_mul] at d3
    refine Eq.trans ?_ d3
    congr 1
    funext i
    rw [show 2 * Real.pi * ν / 48000 * (i : ℝ) + (φ + ψ) = 2 * Real.pi * ν / 48000 * i + φ + ψ by ring]
    ring
  · have := b2.add c2
    rw [add_zero] at this
    refine this.congr fun n => ?_
    rw [show 2 * Real.pi * ν / 48000 * (n : ℝ) + (φ + ψ) + ψ' = 2 * Real.pi * ν / 48000 * n + φ + (ψ + ψ') by ring]
    ring

theorem Settles.andThen {X Y E : Type} {p : X → ℝ → Except E (ℝ × X)} {q : Y → ℝ → Except E (ℝ × Y)} {m : X} {k : Y}
    (h : Settles p m) (h' : Settles q k) : Settles (andThen p q) (m, k) := by
  have total : ∀ (x : ℕ → ℝ), ∃ y : ℕ → ℝ, ∀ n, modOut p x m n = .ok (y n) := fun x => by
    choose s t hs ht hst using fun n => h.superposition x x 1 1 n
    exact ⟨s, hs⟩
  have total' : ∀ (x : ℕ → ℝ), ∃ y : ℕ → ℝ, ∀ n, modOut q x k n = .ok (y n) := fun x => by
    choose s t hs ht hst using fun n => h'.superposition x x 1 1 n
    exact ⟨s, hs⟩
  refine ⟨fun u v a b n => ?_, fun x hx => ?_⟩
  · obtain ⟨yu, hu⟩ := total u
    obtain ⟨yv, hv⟩ := total v
    obtain ⟨zu, hu'⟩ := total' yu
    obtain ⟨zv, hv'⟩ := total' yv
    have hw : ∀ i, modOut p (fun i => a * u i + b * v i) m i = .ok (a * yu i + b * yv i) := by
      intro i
      obtain ⟨s, t, d1, d2, d3⟩ := h.superposition u v a b i
      rw [hu i] at d1
      rw [hv i] at d2
      rw [d3, ← Except.ok.inj d1, ← Except.ok.inj d2]
    have hw' : ∀ i, modOut q (fun i => a * yu i + b * yv i) k i = .ok (a * zu i + b * zv i) := by
      intro i
      obtain ⟨s, t, d1, d2, d3⟩ := h'.superposition yu yv a b i
      rw [hu' i] at d1
      rw [hv' i] at d2
      rw [d3, ← Except.ok.inj d1, ← Except.ok.inj d2]
    exact ⟨zu n, zv n, modOut_andThen hu hu' n, modOut_andThen hv hv' n, modOut_andThen hw hw' n⟩
  · obtain ⟨y, h1, h2⟩ := h.fades x hx
    obtain ⟨z, h3, h4⟩ := h'.fades y h2
    exact ⟨z, modOut_andThen h1 h3, h4⟩

/-- Two state machines that move in step give the same outputs. -/
theorem modOut_sim {X Y S E : Type} {p : X → S → Except E (S × X)} {q : Y → S → Except E (S × Y)} {x : ℕ → S} (R : X → Y → Prop)
    (hs : ∀ m k v, R m k → (∃ y m' k', p m v = .ok (y, m') ∧ q k v = .ok (y, k') ∧ R m' k') ∨ ∃ e, p m v = .error e ∧ q k v = .error e)
    {m : X} {k : Y} (h : R m k) (n : ℕ) : modOut q x k n = modOut p x m n := by
  have key : ∀ n, (∃ a b, modAfter p x m n = .ok a ∧ modAfter q x k n = .ok b ∧ R a b) ∨
      ∃ e, modAfter p x m n = .error e ∧ modAfter q x k n = .error e := by
    intro n
    induction n with
    | zero => exact .inl ⟨m, k, rfl, rfl, h⟩
    | succ n ih =>
      rcases ih with ⟨a, b, h1, h2, h3⟩ | ⟨e, h1, h2⟩
      · rcases hs a b (x n) h3 with ⟨y, a', b', f1, f2, f3⟩ | ⟨e, f1, f2⟩
        · exact .inl ⟨a', b', modAfter_succ h1 f1, modAfter_succ h2 f2, f3⟩
        · exact .inr ⟨e, by simp only [modAfter, h1, f1, Except.map], by simp only [modAfter, h2, f2, Except.map]⟩
      · exact .inr ⟨e, by simp only [modAfter, h1], by simp only [modAfter, h2]⟩
  rcases key n with ⟨a, b, h1, h2, h3⟩ | ⟨e, h1, h2⟩
  · rcases hs a b (x n) h3 with ⟨y, a', b', f1, f2, f3⟩ | ⟨e, f1, f2⟩
    · rw [modOut_of h1 f1, modOut_of h2 f2]
    · simp only [modOut, h1, h2, f1, f2, Except.map]
  · simp only [modOut, h1, h2]

/-- Both notions depend on the outputs only. -/
theorem SteadyGain.congr {X Y E : Type} {p : X → ℝ → Except E (ℝ × X)} {q : Y → ℝ → Except E (ℝ × Y)} {m : X} {k : Y} {ν g : ℝ}
    (h : SteadyGain p m ν g) (e : ∀ x n, modOut q x k n = modOut p x m n) : SteadyGain q k ν g := by
  obtain ⟨g0, ψ, h⟩ := h
  refine ⟨g0, ψ, fun A φ => ?_⟩
  obtain ⟨y, h1, h2⟩ := h A φ
  exact ⟨y, fun n => (e _ n).trans (h1 n), h2⟩

theorem Settles.congr {X Y E : Type} {p : X → ℝ → Except E (ℝ × X)} {q : Y → ℝ → Except E (ℝ × Y)} {m : X} {k : Y}
    (h : Settles p m) (e : ∀ x n, modOut q x k n = modOut p x m n) : Settles q k := by
  refine ⟨fun u v a b n => ?_, fun x hx => ?_⟩
  · simp only [e]
    exact h.superposition u v a b n
  · simp only [e]
    exact h.fades x hx

end Verif
