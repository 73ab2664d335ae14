import Verif.Props.Delay
import Verif.Props.Generic

/-! # Linearity and time invariance: C58 (exact arithmetic) -/

namespace Verif

/-- From an input/output equation whose solution is unique, linear and shift invariant. -/
private theorem LTI.of_recurrence {X E : Type} {p : X → ℝ → Except E (ℝ × X)} {m : X}
    (F : (ℕ → ℝ) → (ℕ → ℝ) → ℕ → ℝ)
    (h : ∀ x, ∃ y : ℕ → ℝ, ∀ n, modOut p x m n = .ok (y n) ∧ y n = F x y n)
    (hlin : ∀ u v s t w a b n, (∀ i < n, w i = a * s i + b * t i) →
      F (fun i => a * u i + b * v i) w n = a * F u s n + b * F v t n)
    (hshift : ∀ u s k w n, (∀ i < n, w i = delayed 0 s k i) →
      F (delayed 0 u k) w n = if n < k then 0 else F u s (n - k)) : LTI p m := by
  refine ⟨fun u v a b n => ?_, fun u k n => ?_⟩
  · obtain ⟨s, hs⟩ := h u
    obtain ⟨t, ht⟩ := h v
    obtain ⟨w, hw⟩ := h (fun i => a * u i + b * v i)
    have key : ∀ n, w n = a * s n + b * t n := by
      intro n
      induction n using Nat.strong_induction_on with
      | _ n ih => rw [(hw n).2, hlin u v s t w a b n ih, ← (hs n).2, ← (ht n).2]
    exact ⟨s n, t n, (hs n).1, (ht n).1, by rw [(hw n).1, key n]⟩
  · obtain ⟨s, hs⟩ := h u
    obtain ⟨w, hw⟩ := h (delayed 0 u k)
    have key : ∀ n, w n = delayed 0 s k n := by
      intro n
      induction n using Nat.strong_induction_on with
      | _ n ih =>
        rw [(hw n).2, hshift u s k w n ih]
        unfold delayed
        split_ifs with h
        · rfl
        · rw [← (hs _).2]
    rw [(hw n).1, key n]
    unfold delayed
    split_ifs with h
    · rfl
    · rw [(hs _).1]

private theorem real_zero : (lit 0 : ℝ) = 0 := by real_simp

/-- Delay of any length. -/
theorem C58_delay (m : Delay ℝ) (D : ℕ) (hm : m.delay = List.replicate D 0) : LTI Delay.process m := by
  have hm' : m.delay = List.replicate D (lit 0) := by rw [hm, real_zero]
  refine LTI.of_recurrence (fun x _ n => delayed 0 x D n) (fun x => ⟨delayed 0 x D, fun n => ⟨?_, rfl⟩⟩) ?_ ?_
  · have := (C51_delay m D hm' x n).1
    rw [real_zero] at this
    exact this
  · intro u v s t w a b n _
    unfold delayed
    split_ifs <;> ring
  · intro u s k w n _
    unfold delayed
    by_cases h1 : n < k
    · rw [if_pos h1]
      by_cases h2 : n < D
      · rw [if_pos h2]
      · rw [if_neg h2, if_pos (by omega)]
    · rw [if_neg h1]
      by_cases h2 : n < D
      · rw [if_pos h2, if_pos (by omega)]
      · rw [if_neg h2]
        by_cases h3 : n - D < k
        · rw [if_pos h3, if_pos (by omega)]
        · rw [if_neg h3, if_neg (by omega)]; congr 1; omega

example : LTI Delay.process (⟨[0, 0, 0]⟩ : Delay ℝ) := C58_delay _ 3 rfl

private theorem past_shift {s w : ℕ → ℝ} {k n : ℕ} (h : ∀ i < n, w i = delayed 0 s k i) (j : ℕ) (hj : 0 < j) :
    (if n < j then (0 : ℝ) else w (n - j)) =
      if n < k then 0 else if n - k < j then 0 else s (n - k - j) := by
  by_cases h1 : n < j
  · rw [if_pos h1]
    split_ifs with h2 h3
    · rfl
    · rfl
    · omega
  · rw [if_neg h1, h (n - j) (by omega)]
    unfold delayed
    split_ifs with h2 h3 h4 h5
    · rfl
    · rfl
    · omega
    · omega
    · omega
    · congr 1; omega

/-- Echo of any length `D ≥ 1` and any gain. -/
theorem C58_echo (m : Echo ℝ) (D : ℕ) (hD : 0 < D) (hm : m.delay = List.replicate D 0) : LTI Echo.process m := by
  have hm' : m.delay = List.replicate D (lit 0) := by rw [hm, real_zero]
  refine LTI.of_recurrence (fun x y n => (if n < D then (0 : ℝ) else y (n - D)) * m.gain + x n) (fun x => ?_) ?_ ?_
  · obtain ⟨y, hy⟩ := C54_echo m D hD hm' x
    refine ⟨y, fun n => ⟨(hy n).1, ?_⟩⟩
    have := (hy n).2
    rw [real_zero] at this
    exact this
  · intro u v s t w a b n h
    have : (if n < D then (0 : ℝ) else w (n - D)) = a * (if n < D then 0 else s (n - D)) + b * (if n < D then 0 else t (n - D)) := by
      split_ifs with h1
      · ring
      · exact h _ (by omega)
    simp only [this]
    ring
  · intro u s k w n h
    simp only [past_shift h D hD]
    unfold delayed
    split_ifs <;> ring

example : LTI Echo.process (⟨[0, 0, 0], 1 / 2⟩ : Echo ℝ) := C58_echo _ 3 (by norm_num) rfl

private theorem tapSum_lin (p q r : ℕ → ℝ) (a b : ℝ) (h : ∀ k, r k = a * p k + b * q k) (l : List (ℕ × ℝ)) (s t : ℝ) :
    tapSum r l (a * s + b * t) = a * tapSum p l s + b * tapSum q l t := by
  induction l generalizing s t with
  | nil => rfl
  | cons z l ih =>
    have e : tapSum r (z :: l) (a * s + b * t) = tapSum r l (a * (s + p z.1 * z.2) + b * (t + q z.1 * z.2)) := by
      show tapSum r l (a * s + b * t + r z.1 * z.2) = _
      rw [h]; congr 1; ring
    rw [e, ih]
    rfl

private theorem tapSum_zero (p : ℕ → ℝ) (h : ∀ k, p k = 0) (l : List (ℕ × ℝ)) : tapSum p l 0 = 0 := by
  induction l with
  | nil => rfl
  | cons z l ih =>
    show tapSum p l (0 + p z.1 * z.2) = 0
    rw [h]; simpa using ih

/-- The generic filter, for every tap lists that do not panic. -/
theorem C58_generic (zeros poles : List (ℕ × ℝ)) (hz : LastLargest zeros) (hp : LastLargest poles) :
    LTI Generic.process (Generic.new zeros poles) := by
  refine LTI.of_recurrence (fun x y n => tapSum (fun k => if n < k + 1 then 0 else y (n - (k + 1))) poles
        (tapSum (fun k => if n < k then 0 else x (n - k)) zeros 0)) (fun x => ?_) ?_ ?_
  · obtain ⟨y, hy⟩ := C56_generic zeros poles hz hp x
    refine ⟨y, fun n => ⟨(hy n).1, ?_⟩⟩
    have := (hy n).2
    rw [real_zero] at this
    exact this
  · intro u v s t w a b n h
    simp only
    rw [← tapSum_lin _ _ (fun k => if n < k + 1 then 0 else w (n - (k + 1)))]
    · congr 1
      rw [← tapSum_lin _ _ (fun k => if n < k then 0 else a * u (n - k) + b * v (n - k))]
      · simp
      · intro k; split_ifs <;> ring
    · intro k
      split_ifs with h1
      · ring
      · exact h _ (by omega)
  · intro u s k w n h
    have e1 : ∀ j, (if n < j then (0 : ℝ) else delayed 0 u k (n - j)) = if n < k then 0 else if n - k < j then 0 else u (n - k - j) := by
      intro j
      unfold delayed
      split_ifs <;> first | rfl | omega | (congr 1; omega)
    have e2 : (fun j => if n < j + 1 then (0 : ℝ) else w (n - (j + 1))) =
        fun j => if n < k then 0 else if n - k < j + 1 then 0 else s (n - k - (j + 1)) := by
      funext j; exact past_shift h (j + 1) (by omega)
    simp only [e1, e2]
    by_cases hk : n < k
    · simp only [if_pos hk]
      rw [tapSum_zero _ (fun _ => rfl), tapSum_zero _ (fun _ => rfl)]
    · simp only [if_neg hk]

example : LTI Generic.process (Generic.new [(0, (1 : ℝ)), (3, 2)] [(0, 1 / 2)]) :=
  C58_generic _ _ (by simp [LastLargest]) (by simp [LastLargest])

/-- Gain and Passthrough. -/
theorem C58_gain (g : ℝ) : LTI Modifier.process (Gain.new g) ∧ LTI (X := Passthrough) (E := Panic) Modifier.process Passthrough.mk := by
  constructor
  · refine LTI.of_step (fun _ _ m1 m2 m3 => m1 = ⟨g⟩ ∧ m2 = ⟨g⟩ ∧ m3 = ⟨g⟩) (fun _ _ => ⟨rfl, rfl, rfl⟩) ?_ ?_
    · rintro a b m1 m2 m3 u v ⟨rfl, rfl, rfl⟩
      refine ⟨u * g, v * g, _, _, _, rfl, rfl, ?_, rfl, rfl, rfl⟩
      show Except.ok ((a * u + b * v) * g, _) = _
      rw [show (a * u + b * v) * g = a * (u * g) + b * (v * g) by ring]
    · show Except.ok (0 * g, _) = _
      rw [zero_mul]
  · refine LTI.of_step (fun _ _ _ _ _ => True) (fun _ _ => trivial) ?_ rfl
    rintro a b m1 m2 m3 u v -
    exact ⟨u, v, _, _, _, rfl, rfl, rfl, trivial⟩

/-- LowPass at rest, whatever its parameters. -/
theorem C58_lowpass (m : LowPass ℝ ℝ) (h0 : m.o0 = 0) (h1 : m.o1 = 0) (h2 : m.o2 = 0) : LTI Modifier.process m := by
  refine LTI.of_step (fun a b m1 m2 m3 => ∃ p0 p1 p2 q0 q1 q2, m1 = { m with o0 := p0, o1 := p1, o2 := p2 } ∧
    m2 = { m with o0 := q0, o1 := q1, o2 := q2 } ∧
    m3 = { m with o0 := a * p0 + b * q0, o1 := a * p1 + b * q1, o2 := a * p2 + b * q2 }) (fun a b => ?_) ?_ ?_
  · have : m = { m with o0 := 0, o1 := 0, o2 := 0 } := by cases m; simp_all
    exact ⟨0, 0, 0, 0, 0, 0, this, this, by simpa using this⟩
  · rintro a b m1 m2 m3 u v ⟨p0, p1, p2, q0, q1, q2, rfl, rfl, rfl⟩
    refine ⟨_, _, _, _, _, rfl, rfl, ?_, _, _, _, _, _, _, rfl, rfl, rfl⟩
    show Except.ok _ = Except.ok _
    unfold LowPass.process
    real_simp
    have e : m.c0 * (a * u + b * v) + m.c1 * (a * p0 + b * q0) + m.c2 * (a * p1 + b * q1) + m.c3 * (a * p2 + b * q2) =
        a * (m.c0 * u + m.c1 * p0 + m.c2 * p1 + m.c3 * p2) + b * (m.c0 * v + m.c1 * q0 + m.c2 * q1 + m.c3 * q2) := by ring
    rw [e]
  · show Except.ok _ = Except.ok _
    unfold LowPass.process
    real_simp
    cases m
    simp_all

/-- HighPass at rest, whatever its parameters. -/
theorem C58_highpass (m : HighPass ℝ ℝ) (h1 : m.x1 = 0) (h2 : m.x2 = 0) (h3 : m.x3 = 0) (h4 : m.y1 = 0) (h5 : m.y2 = 0)
    (h6 : m.y3 = 0) : LTI Modifier.process m := by
  refine LTI.of_step (fun a b m1 m2 m3 => ∃ p1 p2 p3 p4 p5 p6 q1 q2 q3 q4 q5 q6,
    m1 = { m with x1 := p1, x2 := p2, x3 := p3, y1 := p4, y2 := p5, y3 := p6 } ∧
    m2 = { m with x1 := q1, x2 := q2, x3 := q3, y1 := q4, y2 := q5, y3 := q6 } ∧
    m3 = { m with x1 := a * p1 + b * q1, x2 := a * p2 + b * q2, x3 := a * p3 + b * q3,
                  y1 := a * p4 + b * q4, y2 := a * p5 + b * q5, y3 := a * p6 + b * q6 }) (fun a b => ?_) ?_ ?_
  · have : m = { m with x1 := 0, x2 := 0, x3 := 0, y1 := 0, y2 := 0, y3 := 0 } := by cases m; simp_all
    exact ⟨0, 0, 0, 0, 0, 0, 0, 0, 0, 0, 0, 0, this, this, by simpa using this⟩
  · rintro a b m1 m2 m3 u v ⟨p1, p2, p3, p4, p5, p6, q1, q2, q3, q4, q5, q6, rfl, rfl, rfl⟩
    refine ⟨_, _, _, _, _, rfl, rfl, ?_, _, _, _, _, _, _, _, _, _, _, _, _, rfl, rfl, rfl⟩
    show Except.ok _ = Except.ok _
    unfold HighPass.process
    real_simp
    have e : m.a0 * (a * u + b * v) + m.a1 * (a * p1 + b * q1) + m.a2 * (a * p2 + b * q2) + m.a3 * (a * p3 + b * q3) +
        m.b1 * (a * p4 + b * q4) + m.b2 * (a * p5 + b * q5) + m.b3 * (a * p6 + b * q6) =
        a * (m.a0 * u + m.a1 * p1 + m.a2 * p2 + m.a3 * p3 + m.b1 * p4 + m.b2 * p5 + m.b3 * p6) +
        b * (m.a0 * v + m.a1 * q1 + m.a2 * q2 + m.a3 * q3 + m.b1 * q4 + m.b2 * q5 + m.b3 * q6) := by ring
    rw [e]
  · show Except.ok _ = Except.ok _
    unfold HighPass.process
    real_simp
    cases m
    simp_all

/-- BandPass at rest, whatever its parameters. -/
theorem C58_bandpass (m : BandPass ℝ ℝ) (h1 : m.x1 = 0) (h2 : m.x2 = 0) (h3 : m.y1 = 0) (h4 : m.y2 = 0) :
    LTI Modifier.process m := by
  refine LTI.of_step (fun a b m1 m2 m3 => ∃ p1 p2 p3 p4 q1 q2 q3 q4,
    m1 = { m with x1 := p1, x2 := p2, y1 := p3, y2 := p4 } ∧ m2 = { m with x1 := q1, x2 := q2, y1 := q3, y2 := q4 } ∧
    m3 = { m with x1 := a * p1 + b * q1, x2 := a * p2 + b * q2, y1 := a * p3 + b * q3, y2 := a * p4 + b * q4 })
    (fun a b => ?_) ?_ ?_
  · have : m = { m with x1 := 0, x2 := 0, y1 := 0, y2 := 0 } := by cases m; simp_all
    exact ⟨0, 0, 0, 0, 0, 0, 0, 0, this, this, by simpa using this⟩
  · rintro a b m1 m2 m3 u v ⟨p1, p2, p3, p4, q1, q2, q3, q4, rfl, rfl, rfl⟩
    refine ⟨_, _, _, _, _, rfl, rfl, ?_, _, _, _, _, _, _, _, _, rfl, rfl, rfl⟩
    show Except.ok _ = Except.ok _
    unfold BandPass.process
    real_simp
    have e : m.a0 * (a * u + b * v - (a * p2 + b * q2)) + m.b1 * (a * p3 + b * q3) - m.b2 * (a * p4 + b * q4) =
        a * (m.a0 * (u - p2) + m.b1 * p3 - m.b2 * p4) + b * (m.a0 * (v - q2) + m.b1 * q3 - m.b2 * q4) := by ring
    rw [e]
  · show Except.ok _ = Except.ok _
    unfold BandPass.process
    real_simp
    cases m
    simp_all

/-- The filters made by the constructors are at rest. -/
theorem C58_new (f q : ℝ) : LTI Modifier.process (LowPass.new f q : LowPass ℝ ℝ) ∧
    LTI Modifier.process (HighPass.new f q : HighPass ℝ ℝ) ∧ LTI Modifier.process (BandPass.new f q : BandPass ℝ ℝ) := by
  have z : (dflt : ℝ) = 0 := real_zero
  exact ⟨C58_lowpass _ z z z, C58_highpass _ z z z z z z, C58_bandpass _ z z z z⟩

example : LastLargest [(0, (1 : ℝ)), (3, 2)] := by
  intro t ht l hl
  simp at ht hl
  rcases ht with rfl | rfl <;> subst hl <;> simp

/-- A distorting modifier is not LTI, so the predicate says something. -/
example : ¬ LTI (X := Unit) (E := Panic) (fun _ v => .ok (v * v, ())) () := by
  intro h
  obtain ⟨s, t, h1, h2, h3⟩ := h.superposition (fun _ => 1) (fun _ => 1) 1 1 0
  simp [modOut, modAfter, Except.map] at h1 h2 h3
  subst h1; subst h2
  norm_num at h3

end Verif
