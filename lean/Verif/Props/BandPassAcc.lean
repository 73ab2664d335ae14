import Verif.Proofs.BandPassAcc
import Verif.Proofs.FilterF32
import Verif.Props.BandPassCorners
import Verif.Props.Budget

/-! # BandPass in floating point next to its equations: C134 -/

namespace Verif
open Fl

/-! ## One sample -/

private theorem r32 (q : ℚ) : |((b32.rnd q : ℚ) : ℝ) - q| ≤ (2 ^ 24)⁻¹ * |(q : ℝ)| + (2 ^ 150)⁻¹ := by
  have := Rat.cast_le (K := ℝ) |>.mpr (mixed32 q)
  push_cast at this
  exact this

private theorem r64 (q : ℚ) : |((b64.rnd q : ℚ) : ℝ) - q| ≤ (2 ^ 53)⁻¹ * |(q : ℝ)| + (2 ^ 200)⁻¹ := by
  have := Rat.cast_le (K := ℝ) |>.mpr (mixed64' q)
  push_cast at this
  exact this

private theorem fit32 {q : ℚ} (h : |(q : ℝ)| ≤ 2 ^ 100) : b32.Fits q := by
  refine fits32' 100 (by norm_num) ?_
  have : ((|q| : ℚ) : ℝ) ≤ ((2 ^ 100 : ℚ) : ℝ) := by push_cast; exact h
  exact Rat.cast_le.mp this

private theorem fit64 {q : ℚ} (h : |(q : ℝ)| ≤ 2 ^ 100) : b64.Fits q := by
  refine fits64' 100 (by norm_num) ?_
  have : ((|q| : ℚ) : ℝ) ≤ ((2 ^ 100 : ℚ) : ℝ) := by push_cast; exact h
  exact Rat.cast_le.mp this

/-- The product of a coefficient near `k` with a sample near `w`. -/
private theorem prod {a d : ℚ} {k w K W ε η : ℝ} (ha : |(a : ℝ) - k| ≤ ε) (hd : |(d : ℝ) - w| ≤ η) (hk : |k| ≤ K) (hw : |w| ≤ W)
    (hε : ε ≤ 1) : |((a * d : ℚ) : ℝ)| ≤ (K + 1) * (W + η) ∧ |((b64.rnd (a * d) : ℚ) : ℝ) - k * w| ≤ ε * (W + η) + K * η + (2 ^ 53)⁻¹ * ((K + 1) * (W + η)) + (2 ^ 200)⁻¹ := by
  have K0 : 0 ≤ K := (abs_nonneg _).trans hk
  have W0 : 0 ≤ W := (abs_nonneg _).trans hw
  have e0 : 0 ≤ ε := (abs_nonneg _).trans ha
  have n0 : 0 ≤ η := (abs_nonneg _).trans hd
  have da : |(a : ℝ)| ≤ K + 1 := by
    have := abs_sub_abs_le_abs_sub (a : ℝ) k
    linarith
  have dd : |(d : ℝ)| ≤ W + η := by
    have := abs_sub_abs_le_abs_sub (d : ℝ) w
    linarith
  have h1 : |((a * d : ℚ) : ℝ)| ≤ (K + 1) * (W + η) := by
    push_cast
    rw [abs_mul]
    exact mul_le_mul da dd (abs_nonneg _) (by linarith)
  refine ⟨h1, ?_⟩
  have h2 : |((a * d : ℚ) : ℝ) - k * w| ≤ ε * (W + η) + K * η := by
    push_cast
    rw [show (a : ℝ) * d - k * w = (a - k) * d + k * (d - w) by ring]
    refine (abs_add_le _ _).trans ?_
    rw [abs_mul, abs_mul]
    exact add_le_add (mul_le_mul ha dd (abs_nonneg _) e0) (mul_le_mul hk hd (abs_nonneg _) K0)
  have h3 := r64 (a * d)
  have h4 : (2 ^ 53 : ℝ)⁻¹ * |((a * d : ℚ) : ℝ)| ≤ (2 ^ 53)⁻¹ * ((K + 1) * (W + η)) := by gcongr
  have := abs_sub_le ((b64.rnd (a * d) : ℚ) : ℝ) ((a * d : ℚ) : ℝ) (k * w)
  linarith

/-- Sum and difference of the three products, rounded to `f32`. -/
private theorem sum3 {P0 P1 P2 : ℚ} {k0 k1 k2 X : ℝ} (h0 : |(P0 : ℝ) - k0| ≤ (2 ^ 23)⁻¹ * X + (2 ^ 30)⁻¹ * X) (h1 : |(P1 : ℝ) - k1| ≤ (2 ^ 30)⁻¹ * X)
    (h2 : |(P2 : ℝ) - k2| ≤ (2 ^ 30)⁻¹ * X) (b0 : |k0| ≤ 2 * X) (b1 : |k1| ≤ 12 * X) (b2 : |k2| ≤ 6 * X) (hu : |k0 + k1 - k2| ≤ 6 * X)
    (X0 : (2 ^ 100)⁻¹ ≤ X) (X1 : X ≤ 2 ^ 80) :
    b64.Fits (P0 + P1) ∧ b64.Fits (b64.rnd (P0 + P1) - P2) ∧ b32.Fits (b64.rnd (b64.rnd (P0 + P1) - P2)) ∧
    |((b32.rnd (b64.rnd (b64.rnd (P0 + P1) - P2)) : ℚ) : ℝ) - (k0 + k1 - k2)| ≤ 17 * (2 ^ 25)⁻¹ * X := by
  have a0 := abs_sub_abs_le_abs_sub (P0 : ℝ) k0
  have a1 := abs_sub_abs_le_abs_sub (P1 : ℝ) k1
  have a2 := abs_sub_abs_le_abs_sub (P2 : ℝ) k2
  have s1 : |((P0 + P1 : ℚ) : ℝ)| ≤ 15 * X := by
    push_cast
    have := abs_add_le (P0 : ℝ) P1
    norm_num at *
    linarith
  have e1 := r64 (P0 + P1)
  have n1 := abs_sub_abs_le_abs_sub ((b64.rnd (P0 + P1) : ℚ) : ℝ) ((P0 + P1 : ℚ) : ℝ)
  set S := b64.rnd (P0 + P1)
  have s2 : |((S - P2 : ℚ) : ℝ)| ≤ 23 * X := by
    push_cast
    have := abs_sub (S : ℝ) P2
    norm_num at *
    linarith
  have e2 := r64 (S - P2)
  set T := b64.rnd (S - P2)
  have hT : |(T : ℝ) - (k0 + k1 - k2)| ≤ (2 ^ 23)⁻¹ * X + (2 ^ 28)⁻¹ * X := by
    push_cast at e1 e2 s1 s2
    have t : (T : ℝ) - (k0 + k1 - k2) = ((T : ℝ) - (S - P2)) + ((S : ℝ) - (P0 + P1)) + ((P0 : ℝ) - k0) + ((P1 : ℝ) - k1) - ((P2 : ℝ) - k2) := by ring
    rw [t]
    have t1 := abs_sub (((T : ℝ) - (S - P2)) + ((S : ℝ) - (P0 + P1)) + ((P0 : ℝ) - k0) + ((P1 : ℝ) - k1)) ((P2 : ℝ) - k2)
    have t2 := abs_add_le (((T : ℝ) - (S - P2)) + ((S : ℝ) - (P0 + P1)) + ((P0 : ℝ) - k0)) ((P1 : ℝ) - k1)
    have t3 := abs_add_le (((T : ℝ) - (S - P2)) + ((S : ℝ) - (P0 + P1))) ((P0 : ℝ) - k0)
    have t4 := abs_add_le ((T : ℝ) - (S - P2)) ((S : ℝ) - (P0 + P1))
    clear t
    norm_num at *
    linarith
  have bT : |(T : ℝ)| ≤ 6 * X + (2 ^ 22)⁻¹ * X := by
    have := abs_sub_abs_le_abs_sub (T : ℝ) (k0 + k1 - k2)
    norm_num at *
    linarith
  refine ⟨fit64 (s1.trans (by norm_num at *; linarith)), fit64 (s2.trans (by norm_num at *; linarith)), fit32 (bT.trans (by norm_num at *; linarith)), ?_⟩
  have e3 := r32 T
  have := abs_sub_le ((b32.rnd T : ℚ) : ℝ) T (k0 + k1 - k2)
  norm_num at *
  linarith

private theorem sample {m : BandPass F32 F64} {b c : ℝ} (hm : m.Near b c (2 ^ 33)⁻¹) (hb : |b| < 1) (hc : |c| < 1) {x x2 y1 y2 : F32} {u u2 v1 v2 : ℚ}
    (hx : x.Is u) (hx2 : x2.Is u2) (hy1 : y1.Is v1) (hy2 : y2.Is v2) {X : ℝ} (X0 : (2 ^ 100)⁻¹ ≤ X) (X1 : X ≤ 2 ^ 80)
    (k0 : |(u : ℝ)| ≤ X) (k2 : |(u2 : ℝ)| ≤ X) (l1 : |(v1 : ℝ)| ≤ 6 * X) (l2 : |(v2 : ℝ)| ≤ 6 * X)
    (hu : |(1 - b) / 2 * ((1 + c) / 2) * (u - u2) + (b + c) * v1 - b * c * v2| ≤ 6 * X) :
    ∃ y : ℚ, (SM.down (m.a0 * SM.up (x - x2) + m.b1 * SM.up y1 - m.b2 * SM.up y2) : F32).Is y ∧
      |(y : ℝ) - ((1 - b) / 2 * ((1 + c) / 2) * (u - u2) + (b + c) * v1 - b * c * v2)| ≤ 17 * (2 ^ 25)⁻¹ * X := by
  obtain ⟨a, ha, ea⟩ := hm.a0
  obtain ⟨p, hp, ep⟩ := hm.b1
  obtain ⟨q, hq, eq⟩ := hm.b2
  obtain ⟨hb0, hb1⟩ := abs_lt.mp hb
  obtain ⟨hc0, hc1⟩ := abs_lt.mp hc
  have Xp : 0 < X := lt_of_lt_of_le (by positivity) X0
  have w0 : |(u : ℝ) - u2| ≤ 2 * X := (abs_sub _ _).trans (by linarith)
  have ed := r32 (u - u2)
  push_cast at ed
  have ed' : |((b32.rnd (u - u2) : ℚ) : ℝ) - (u - u2)| ≤ (2 ^ 23)⁻¹ * X + (2 ^ 40)⁻¹ * X := by
    norm_num at *
    linarith
  have hd := Is.sub hx hx2 (fit32 (by push_cast; exact w0.trans (by norm_num at *; linarith)))
  have A0 : |(1 - b) / 2 * ((1 + c) / 2)| ≤ 1 := by
    rw [abs_of_nonneg (mul_nonneg (by linarith) (by linarith))]
    exact mul_le_one₀ (by linarith) (by linarith) (by linarith)
  have A1 : |b + c| ≤ 2 := (abs_add_le b c).trans (by linarith)
  have A2 : |b * c| ≤ 1 := by rw [abs_mul]; exact mul_le_one₀ hb.le (abs_nonneg _) hc.le
  have t33 : ((2 : ℝ) ^ 33)⁻¹ ≤ 1 := by norm_num
  obtain ⟨f0, g0⟩ := prod ea ed' A0 w0 t33
  obtain ⟨f1, g1⟩ := prod (d := v1) (w := v1) (η := 0) ep (by simp) A1 l1 t33
  obtain ⟨f2, g2⟩ := prod (d := v2) (w := v2) (η := 0) eq (by simp) A2 l2 t33
  have i0 := Is.mul ha hd.up (fit64 (f0.trans (by norm_num at *; linarith)))
  have i1 := Is.mul hp hy1.up (fit64 (f1.trans (by norm_num at *; linarith)))
  have i2 := Is.mul hq hy2.up (fit64 (f2.trans (by norm_num at *; linarith)))
  obtain ⟨s1, s2, s3, s4⟩ := sum3 (X := X) (g0.trans (by norm_num at *; linarith)) (g1.trans (by norm_num at *; linarith)) (g2.trans (by norm_num at *; linarith))
    (by rw [abs_mul]; calc _ ≤ 1 * (2 * X) := mul_le_mul A0 w0 (abs_nonneg _) (by norm_num)
          _ = _ := one_mul _)
    (by rw [abs_mul]; calc _ ≤ 2 * (6 * X) := mul_le_mul A1 l1 (abs_nonneg _) (by norm_num)
          _ = _ := by ring)
    (by rw [abs_mul]; calc _ ≤ 1 * (6 * X) := mul_le_mul A2 l2 (abs_nonneg _) (by norm_num)
          _ = _ := one_mul _) hu X0 X1
  exact ⟨_, (Is.sub (Is.add i0 i1 s1) i2 s2).down s3, s4⟩

/-! ## Whole signals -/

/-- The sample of the filter at every time, from samples before it. -/
theorem bp_recurrence (m : BandPass F32 F64) (h1 : m.x1 = lit 0) (h2 : m.x2 = lit 0) (h3 : m.y1 = lit 0) (h4 : m.y2 = lit 0) (x : ℕ → F32) : ∃ y : ℕ → F32,
    (∀ n, modOut Modifier.process x m n = .ok (y n)) ∧
    ∀ n, y n = SM.down (m.a0 * SM.up (x n - delayed (lit 0) x 2 n) + m.b1 * SM.up (delayed (lit 0) y 1 n) - m.b2 * SM.up (delayed (lit 0) y 2 n)) := by
  obtain ⟨s, y, g0, g1, g2, g3⟩ := run_exists BandPass.process x m
  refine ⟨y, g3, fun n => ?_⟩
  have key : ∀ n, s n = { m with x1 := delayed (lit 0) x 1 n, x2 := delayed (lit 0) x 2 n, y1 := delayed (lit 0) y 1 n, y2 := delayed (lit 0) y 2 n } := by
    intro n
    induction n with
    | zero => rw [g0]; simp only [delayed_startS]; cases m; simp_all
    | succ n ih =>
      rw [g2, delayed_succS, delayed_succS, delayed_succS, delayed_succS, delayed_zeroS, delayed_zeroS, g1, ih]
      rfl
  rw [g1, key]
  rfl

private theorem run {m : BandPass F32 F64} (h1 : m.x1 = lit 0) (h2 : m.x2 = lit 0) (h3 : m.y1 = lit 0) (h4 : m.y2 = lit 0) {b c : ℝ}
    (hm : m.Near b c (2 ^ 33)⁻¹) {X E G : ℝ} (hb : |b| < 1) (hc : |c| < 1) (X0 : (2 ^ 100)⁻¹ ≤ X) (X1 : X ≤ 2 ^ 80) (hG : |c| * G + 17 * (2 ^ 25)⁻¹ * X ≤ G)
    (hE : |b| * E + G ≤ E) (hE2 : E ≤ 2 * X) {x : ℕ → F32} {u : ℕ → ℚ} (hx : ∀ n, (x n).Is (u n)) (hu : ∀ n, |(u n : ℝ)| ≤ X) {z : ℕ → ℝ}
    (hz : ∀ n, z n = (1 - b) / 2 * ((1 + c) / 2) * ((u n : ℝ) - delayed 0 (fun i => (u i : ℝ)) 2 n) + (b + c) * delayed 0 z 1 n - b * c * delayed 0 z 2 n) (n : ℕ) :
    ∃ (y : F32) (q : ℚ), modOut Modifier.process x m n = .ok y ∧ y.Is q ∧ |(q : ℝ) - z n| ≤ E := by
  obtain ⟨y, ho, hy⟩ := bp_recurrence m h1 h2 h3 h4 x
  have Xp : 0 < X := lt_of_lt_of_le (by positivity) X0
  have zb : ∀ n, |z n| ≤ 4 * X := bpExact_bound hb hc hu hz
  have Gp : 0 ≤ G := by
    have h := abs_nonneg c
    have : 0 < 17 * (2 ^ 25 : ℝ)⁻¹ * X := by positivity
    by_contra hn
    push Not at hn
    nlinarith
  have Ep : 0 ≤ E := by
    have h := abs_nonneg b
    by_contra hn
    push Not at hn
    nlinarith
  let e : ℕ → ℝ := fun n => rv (y n) - z n
  have key : ∀ n, (∃ q, (y n).Is q) ∧ |e n| ≤ E ∧ |e n - b * delayed 0 e 1 n| ≤ G := by
    intro n
    induction n using Nat.strong_induction_on with
    | _ n ih =>
      have past : ∀ i < n, (∃ q, (y i).Is q) ∧ |rv (y i)| ≤ 6 * X := by
        intro i hi
        obtain ⟨a1, a2, -⟩ := ih i hi
        refine ⟨a1, ?_⟩
        have := abs_add_le (e i) (z i)
        rw [show e i + z i = rv (y i) by simp [e]] at this
        linarith [zb i]
      obtain ⟨v1, i1, w1, l1⟩ := delayed_val past (by linarith) 0
      obtain ⟨v2, i2, w2, l2⟩ := delayed_val past (by linarith) 1
      obtain ⟨u2, i3, w3, l3⟩ := delayed_val (y := x) (n := n) (M := X) (fun i _ => ⟨⟨_, hx i⟩, by rw [rv_is (hx i)]; exact hu i⟩) Xp.le 1
      have w3' : (u2 : ℝ) = delayed 0 (fun i => (u i : ℝ)) 2 n := by
        rw [w3]; congr 1; funext i; exact rv_is (hx i)
      -- the errors of the previous samples
      have split : ∀ k, delayed 0 (fun i => rv (y i)) k n = delayed 0 z k n + delayed 0 e k n := by
        intro k
        unfold delayed
        split_ifs <;> simp [e]
      have w1' : (v1 : ℝ) = delayed 0 z 1 n + delayed 0 e 1 n := by rw [w1, split]
      have w2' : (v2 : ℝ) = delayed 0 z 2 n + delayed 0 e 2 n := by rw [w2, split]
      have old : |delayed 0 e 1 n| ≤ E ∧ |delayed 0 e 1 n - b * delayed 0 e 2 n| ≤ G := by
        cases n with
        | zero => simp only [delayed_start]; simp [Ep, Gp]
        | succ k =>
          rw [delayed_succ, delayed_succ, delayed_zero']
          exact (ih k (by omega)).2
      obtain ⟨o1, o2⟩ := old
      set e1 := delayed 0 e 1 n
      set e2 := delayed 0 e 2 n
      have ideal : (1 - b) / 2 * ((1 + c) / 2) * ((u n : ℝ) - u2) + (b + c) * v1 - b * c * v2 = z n + (b * e1 + c * (e1 - b * e2)) := by
        rw [hz n, w3', w1', w2']; ring
      have f1 : |b * e1| ≤ |b| * E := by rw [abs_mul]; exact mul_le_mul_of_nonneg_left o1 (abs_nonneg _)
      have f2 : |c * (e1 - b * e2)| ≤ |c| * G := by rw [abs_mul]; exact mul_le_mul_of_nonneg_left o2 (abs_nonneg _)
      have f3 : |b * e1 + c * (e1 - b * e2)| ≤ |b| * E + |c| * G := (abs_add_le _ _).trans (add_le_add f1 f2)
      have pos : 0 < 17 * (2 ^ 25 : ℝ)⁻¹ * X := by positivity
      obtain ⟨v, iv, ev⟩ := sample hm hb hc (hx n) i3 i1 i2 X0 X1 (hu n) l3 l1 l2 (by
        rw [ideal]
        refine (abs_add_le _ _).trans ?_
        linarith [zb n])
      rw [ideal] at ev
      rw [← hy n] at iv
      have ee : e n = (v - (z n + (b * e1 + c * (e1 - b * e2)))) + (b * e1 + c * (e1 - b * e2)) := by
        show rv (y n) - z n = _
        rw [rv_is iv]; ring
      have g : |e n - b * e1| ≤ G := by
        rw [ee, show (v - (z n + (b * e1 + c * (e1 - b * e2)))) + (b * e1 + c * (e1 - b * e2)) - b * e1 =
          (v - (z n + (b * e1 + c * (e1 - b * e2)))) + c * (e1 - b * e2) by ring]
        refine (abs_add_le _ _).trans ?_
        linarith
      refine ⟨⟨v, iv⟩, ?_, g⟩
      have := abs_add_le (e n - b * e1) (b * e1)
      rw [sub_add_cancel] at this
      linarith
  obtain ⟨⟨q, hq⟩, k2, -⟩ := key n
  refine ⟨y n, q, ho n, hq, ?_⟩
  rw [← rv_is hq]
  exact k2

/-! ## The filters made by the constructors -/

/-- The distance of a frequency from the ends of the spectrum, 0 and 24 kHz. -/
noncomputable def edge (f : ℝ) : ℝ := min f (24000 - f)

/-- A filter at `f` Hz of quality `q` has its corners at `l` and `h`. -/
structure HasCorners (f q l h : ℝ) : Prop where
  product : l * h = f ^ 2
  width : h - l = f / q

/-- On the input samples `u` (in `f32`: `x`), `k` is within `η` times the largest sample of the exact `m`, for ever. -/
def CloseTo (k : BandPass F32 F64) (m : BandPass ℝ ℝ) (η : ℝ) : Prop :=
  ∀ (x : ℕ → F32) (u : ℕ → ℚ) (X : ℚ), (2 ^ 90)⁻¹ ≤ X → X ≤ 2 ^ 80 → (∀ n, (x n).Is (u n)) → (∀ n, |u n| ≤ X) → ∀ n,
    ∃ (y : F32) (q : ℚ) (z : ℝ), modOut Modifier.process x k n = .ok y ∧ y.Is q ∧ modOut Modifier.process (fun n => (u n : ℝ)) m n = .ok z ∧
      |(q : ℝ) - z| ≤ η * X

private theorem alpha {f : ℝ} (h0 : 0 < f) (h1 : f < 24000) : 1 / (1 + Real.tan (Real.pi * f / 48000)) = (1 + bpPole f) / 2 := by
  have := tan_pos' h0 h1
  unfold bpPole; field_simp; ring

private theorem edge_pos {f : ℝ} (h0 : 9 ≤ f) (h1 : f ≤ 23991) : 9 ≤ edge f := le_min h0 (by linarith)

private theorem core {k : BandPass F32 F64} (h1 : k.x1 = lit 0) (h2 : k.x2 = lit 0) (h3 : k.y1 = lit 0) (h4 : k.y2 = lit 0) {l h : ℝ} (hl : 9 ≤ l) (hlh : l < h)
    (hh : h ≤ 23991) (hk : k.Near (bpPole h) (bpPole l) (2 ^ 33)⁻¹) {f q : ℝ} (hf : f = Real.sqrt (l * h)) (hq : f / q = h - l) :
    CloseTo k (BandPass.new f q) (120 / (edge l * edge h)) := by
  intro x u X X0 X1 hx hu n
  have e := bp_new (by linarith) hlh hf hq
  obtain ⟨z, hz⟩ := bandpass_out (BandPass.new f q) (by rw [e]) (by rw [e]) (by rw [e]) (by rw [e]) (fun n => (u n : ℝ))
  have hz' : ∀ n, z n = (1 - bpPole h) / 2 * ((1 + bpPole l) / 2) * ((u n : ℝ) - delayed 0 (fun i => (u i : ℝ)) 2 n) + (bpPole h + bpPole l) * delayed 0 z 1 n -
      bpPole h * bpPole l * delayed 0 z 2 n := by
    intro n
    have := (hz n).2
    rw [e] at this
    rw [this]
    simp only [alpha (f := h) (by linarith) (by linarith), alpha (f := l) (by linarith) (by linarith)]
    ring
  have B := bpPole_abs (f := h) (by linarith) (by linarith)
  have C := bpPole_abs (f := l) (by linarith) (by linarith)
  have gB := bpPole_gap (f := h) (by linarith) (by linarith)
  have gC := bpPole_gap (f := l) (by linarith) (by linarith)
  have mh := edge_pos (f := h) (by linarith) hh
  have ml := edge_pos (f := l) hl (by linarith)
  have X0' : ((2 : ℝ) ^ 90)⁻¹ ≤ X := by have := (Rat.cast_le (K := ℝ)).mpr X0; push_cast at this; exact this
  have X1' : (X : ℝ) ≤ 2 ^ 80 := by have := (Rat.cast_le (K := ℝ)).mpr X1; push_cast at this; exact this
  have Xp : (0 : ℝ) < X := lt_of_lt_of_le (by positivity) X0'
  change Real.pi * edge h / 48000 ≤ _ at gB
  change Real.pi * edge l / 48000 ≤ _ at gC
  set μ := edge h
  set ν := edge l
  set D := 17 * (2 ^ 25 : ℝ)⁻¹ * X with hD
  have Dp : 0 < D := by positivity
  set β := 1 - |bpPole h| with hβ
  set γ := 1 - |bpPole l| with hγ
  have βp : 0 < β := by linarith
  have γp : 0 < γ := by linarith
  have bound : D / γ / β ≤ 120 / (ν * μ) * X := by
    rw [div_div, div_mul_eq_mul_div, div_le_div_iff₀ (by positivity) (by positivity)]
    have hp := Real.pi_gt_d6
    have p2 : 98 / 10 ≤ Real.pi * Real.pi := by norm_num at hp; nlinarith
    have s1 : Real.pi * ν / 48000 * (Real.pi * μ / 48000) ≤ γ * β := mul_le_mul gC gB (by positivity) γp.le
    have s2 : 98 / 10 / 2304000000 * (ν * μ) ≤ γ * β := by
      refine le_trans ?_ s1
      rw [show Real.pi * ν / 48000 * (Real.pi * μ / 48000) = Real.pi * Real.pi / 2304000000 * (ν * μ) by ring]
      gcongr
    rw [hD]
    have s3 : 120 * X * (98 / 10 / 2304000000 * (ν * μ)) ≤ 120 * X * (γ * β) := mul_le_mul_of_nonneg_left s2 (by positivity)
    refine le_trans ?_ s3
    have s4 : 0 < X * (ν * μ) := by positivity
    norm_num
    nlinarith
  have small : D / γ / β ≤ 2 * X := by
    refine bound.trans (mul_le_mul_of_nonneg_right ?_ Xp.le)
    rw [div_le_iff₀ (by positivity)]
    nlinarith
  obtain ⟨y, v, o1, o2, o3⟩ := run h1 h2 h3 h4 hk (X := X) (E := D / γ / β) (G := D / γ) B C (le_trans (by norm_num) X0') X1'
    (by rw [show |bpPole l| = 1 - γ by rw [hγ]; ring, ← hD]; field_simp; linarith)
    (by rw [show |bpPole h| = 1 - β by rw [hβ]; ring]; field_simp; linarith) small hx
    (fun n => by have := (Rat.cast_le (K := ℝ)).mpr (hu n); push_cast at this; exact this) hz' n
  exact ⟨y, v, z n, o1, o2, (hz n).1, o3.trans bound⟩

private theorem near_of [Libm F64] (ht : Tan64Accurate) {m : BandPass F32 F64} {l h : ℝ} (hl : 9 ≤ l) (hlh : l ≤ h) (hh : h ≤ 23991)
    (hr : ∃ p q : ℚ, m.getCornerFrequencies.1.Is p ∧ m.getCornerFrequencies.2.Is q ∧ |(p : ℝ) - l| ≤ (2 ^ 38)⁻¹ * h ∧ |(q : ℝ) - h| ≤ (2 ^ 38)⁻¹ * h) :
    m.reset.Near (bpPole h) (bpPole l) (2 ^ 33)⁻¹ := by
  obtain ⟨p, q, h1, h2, h3, h4⟩ := hr
  have k3 : |(p : ℝ) - l| ≤ (2 ^ 23)⁻¹ := h3.trans (by norm_num; linarith)
  have k4 : |(q : ℝ) - h| ≤ (2 ^ 23)⁻¹ := h4.trans (by norm_num; linarith)
  obtain ⟨a1, a2⟩ := abs_le.mp k3
  obtain ⟨a3, a4⟩ := abs_le.mp k4
  norm_num at a1 a2 a3 a4
  have p0 : (8 : ℝ) ≤ p := by linarith
  have p1 : (p : ℝ) ≤ 23992 := by linarith
  have q0 : (8 : ℝ) ≤ q := by linarith
  have q1 : (q : ℝ) ≤ 23992 := by linarith
  have n := BandPass.near_reset ht m rfl h1 h2 (by exact_mod_cast p0) (by exact_mod_cast p1) (by exact_mod_cast q0) (by exact_mod_cast q1)
  have b1 := bpPole_lip (f := h) (f' := (q : ℝ)) (by linarith) (by linarith) (by linarith) (by linarith)
  have b2 := bpPole_lip (f := l) (f' := (p : ℝ)) (by linarith) (by linarith) (by linarith) (by linarith)
  have n2 := n.move (b' := bpPole h) (c' := bpPole l) (η := (2 ^ 35)⁻¹) (bpPole_abs (by linarith) (by linarith)).le (bpPole_abs (by linarith) (by linarith)).le
    (b1.trans (by norm_num at k4 ⊢; linarith)) (b2.trans (by norm_num at k3 ⊢; linarith)) (by norm_num)
  rwa [show ((2 : ℝ) ^ 35)⁻¹ + 3 * (2 ^ 35)⁻¹ = (2 ^ 33)⁻¹ by norm_num] at n2

/-- The coefficients of a filter made from its corners. -/
theorem near_corners [Libm F64] (ht : Tan64Accurate) {a b : F64} {p q : ℚ} (h : Corners a b p q) (p0 : 9 ≤ p) (p1 : p ≤ 23991) (q0 : 9 ≤ q) (q1 : q ≤ 23991) :
    (BandPass.fromCorners (a, b) : BandPass F32 F64).Near (bpPole (max (p : ℝ) q)) (bpPole (min (p : ℝ) q)) (2 ^ 33)⁻¹ := by
  have p0' : (9 : ℝ) ≤ p := by exact_mod_cast p0
  have p1' : (p : ℝ) ≤ 23991 := by exact_mod_cast p1
  have q0' : (9 : ℝ) ≤ q := by exact_mod_cast q0
  have q1' : (q : ℝ) ≤ 23991 := by exact_mod_cast q1
  have ap := (Rat.cast_le (K := ℝ)).mpr h.apart
  push_cast at ap
  obtain ⟨h1, h2⟩ := bp_design h (P := Flt.abs (a * b)) (D := Flt.abs (b - a)) (.inr rfl) (.inr rfl)
  have cst : ∀ {x y : ℚ}, x ≤ y → (x : ℝ) ≤ y := fun h => Rat.cast_le.mpr h
  have b1 := cst h.p0
  have b2 := cst h.p1
  have b3 := cst h.q0
  have b4 := cst h.q1
  push_cast at b1 b2 b3 b4
  have hr := bp_report (m := ⟨sqrt (Flt.abs (a * b)), sqrt (Flt.abs (a * b)) / Flt.abs (b - a), lit 0, lit 0, lit 0, dflt, dflt, dflt, dflt⟩) b1 b2 b3 b4 ap h1 h2
  exact near_of ht (le_min p0' q0') min_le_max (max_le p1' q1') hr

/-- IEEE: a filter made from its corners stays within `120 / (edge p * edge q)` of the largest sample of the exact filter with the same corners. -/
theorem C134_corners [Libm F64] (ht : Tan64Accurate) {a b : F64} {p q : ℚ} (h : Corners a b p q) (p0 : 9 ≤ p) (p1 : p ≤ 23991) (q0 : 9 ≤ q) (q1 : q ≤ 23991) :
    CloseTo (BandPass.fromCorners (a, b)) (BandPass.fromCorners ((p : ℝ), (q : ℝ))) (120 / (edge p * edge q)) := by
  have p0' : (9 : ℝ) ≤ p := by exact_mod_cast p0
  have p1' : (p : ℝ) ≤ 23991 := by exact_mod_cast p1
  have q0' : (9 : ℝ) ≤ q := by exact_mod_cast q0
  have q1' : (q : ℝ) ≤ 23991 := by exact_mod_cast q1
  have ap := (Rat.cast_le (K := ℝ)).mpr h.apart
  push_cast at ap
  have ne : (p : ℝ) ≠ q := by
    intro e
    rw [e, sub_self, abs_zero] at ap
    norm_num at ap
  have hlh : min (p : ℝ) q < max (p : ℝ) q := min_lt_max.mpr ne
  have dist : max (p : ℝ) q - min (p : ℝ) q = |(p : ℝ) - q| := max_sub_min_eq_abs' _ _
  have e1 : (BandPass.fromCorners ((p : ℝ), (q : ℝ)) : BandPass ℝ ℝ) = BandPass.new (Real.sqrt (p * q)) (Real.sqrt (p * q) / |(p : ℝ) - q|) := by
    unfold BandPass.fromCorners BandPass.new
    real_simp
    rw [abs_of_pos (by positivity : (0 : ℝ) < p * q), abs_sub_comm]
  have hn := near_corners ht h p0 p1 q0 q1
  rw [e1]
  have := core (k := BandPass.fromCorners (a, b)) rfl rfl rfl rfl (le_min p0' q0') hlh (max_le p1' q1') hn (f := Real.sqrt (p * q)) (q := Real.sqrt (p * q) / |(p : ℝ) - q|)
    (by rw [min_mul_max]) (by
      rw [dist]
      have : 0 < Real.sqrt ((p : ℝ) * q) := Real.sqrt_pos.mpr (by positivity)
      have : |(p : ℝ) - q| ≠ 0 := abs_ne_zero.mpr (sub_ne_zero.mpr ne)
      field_simp)
  rcases le_total (p : ℝ) q with hpq | hpq
  · rwa [min_eq_left hpq, max_eq_right hpq] at this
  · rwa [min_eq_right hpq, max_eq_left hpq, mul_comm (edge _)] at this

/-- IEEE: the same for a filter made from centre frequency and quality, with corners at least 2^-20 Hz apart. -/
theorem C134_new [Libm F64] (ht : Tan64Accurate) {f k : F64} {φ κ : ℚ} (hf : f.Is φ) (hk : k.Is κ) (f0 : 0 < φ) (k0 : 0 < κ) {l h : ℝ} (hc : HasCorners φ κ l h)
    (l0 : 9 ≤ l) (apart : (2 ^ 20)⁻¹ ≤ h - l) (h1 : h ≤ 23991) :
    CloseTo (BandPass.new f k) (BandPass.new (φ : ℝ) (κ : ℝ)) (120 / (edge l * edge h)) := by
  have f0' : (0 : ℝ) < φ := by exact_mod_cast f0
  have k0' : (0 : ℝ) < κ := by exact_mod_cast k0
  have hlh : l < h := by have : (0 : ℝ) < (2 ^ 20)⁻¹ := by positivity
                         linarith
  have es : Real.sqrt (l * h) = φ := by rw [hc.product]; exact Real.sqrt_sq f0'.le
  have ew : |l - h| = φ / κ := by rw [abs_sub_comm, abs_of_pos (by linarith), hc.width]
  have a1 : App f ((2 ^ 50)⁻¹) (Real.sqrt (l * h)) := by
    rw [es]; exact ⟨φ, hf, by simp only [sub_self, abs_zero]; positivity⟩
  have a2 : App k ((2 ^ 48)⁻¹) (Real.sqrt (l * h) / |l - h|) := by
    rw [es, ew, show (φ : ℝ) / (φ / κ) = κ by field_simp]; exact ⟨κ, hk, by simp only [sub_self, abs_zero]; positivity⟩
  have hr := bp_report (m := ⟨f, k, lit 0, lit 0, lit 0, dflt, dflt, dflt, dflt⟩) (p := l) (q := h) (by norm_num; linarith) (by norm_num; linarith) (by norm_num; linarith)
    (by norm_num; linarith) (by rw [abs_sub_comm, abs_of_pos (by linarith)]; exact apart) a1 a2
  rw [min_eq_left hlh.le, max_eq_right hlh.le] at hr
  exact core (k := BandPass.new f k) rfl rfl rfl rfl l0 hlh h1 (near_of ht l0 hlh.le h1 hr) es.symm hc.width.symm

private theorem exact_corners {p q : ℝ} (p0 : 0 < p) (q0 : 0 < q) (ne : p ≠ q) :
    ∃ l h, l < h ∧ l = min p q ∧ h = max p q ∧ (BandPass.fromCorners (p, q) : BandPass ℝ ℝ) = BandPass.fromCorners (l, h) ∧
      (BandPass.fromCorners (l, h) : BandPass ℝ ℝ) = BandPass.new (Real.sqrt (l * h)) (Real.sqrt (l * h) / (h - l)) := by
  have make : ∀ {l h : ℝ}, 0 < l → l < h → (BandPass.fromCorners (l, h) : BandPass ℝ ℝ) = BandPass.new (Real.sqrt (l * h)) (Real.sqrt (l * h) / (h - l)) := by
    intro l h hl hlh
    unfold BandPass.fromCorners BandPass.new
    real_simp
    rw [abs_of_pos (mul_pos hl (hl.trans hlh)), abs_of_pos (sub_pos.mpr hlh)]
  rcases lt_or_gt_of_ne ne with h | h
  · exact ⟨p, q, h, (min_eq_left h.le).symm, (max_eq_right h.le).symm, rfl, make p0 h⟩
  · refine ⟨q, p, h, (min_eq_right h.le).symm, (max_eq_left h.le).symm, ?_, make q0 h⟩
    unfold BandPass.fromCorners
    real_simp
    rw [mul_comm p q, abs_sub_comm q p]

private theorem exact_le {l h : ℝ} (hl : 0 < l) (hlh : l < h) (hh : h < 24000) (x : ℕ → ℝ) (d : ℝ) (hx : ∀ n, |x n| ≤ d) :
    ∃ y : ℕ → ℝ, (∀ n, modOut Modifier.process x (BandPass.fromCorners (l, h) : BandPass ℝ ℝ) n = .ok (y n)) ∧ ∀ n, |y n| ≤ 4 * d := by
  obtain ⟨l', h', -, e1, e2, -, e3⟩ := exact_corners hl (hl.trans hlh) hlh.ne
  rw [min_eq_left hlh.le] at e1
  rw [max_eq_right hlh.le] at e2
  subst e1 e2
  rw [e3]
  have hw : Real.sqrt (l' * h') / (Real.sqrt (l' * h') / (h' - l')) = h' - l' := by
    have : 0 < Real.sqrt (l' * h') := Real.sqrt_pos.mpr (mul_pos hl (hl.trans hlh))
    have : h' - l' ≠ 0 := by linarith
    field_simp
  have e := bp_new hl hlh rfl hw
  obtain ⟨z, hz⟩ := bandpass_out (BandPass.new (Real.sqrt (l' * h')) (Real.sqrt (l' * h') / (h' - l'))) (by rw [e]) (by rw [e]) (by rw [e]) (by rw [e]) x
  refine ⟨z, fun n => (hz n).1, bpExact_bound (b := bpPole h') (c := bpPole l') (bpPole_abs (by linarith) hh) (bpPole_abs hl (by linarith)) hx (fun n => ?_)⟩
  have := (hz n).2
  rw [e] at this
  rw [this]
  simp only [alpha (f := h') (by linarith) (by linarith), alpha (f := l') (by linarith) (by linarith)]
  ring

section
variable [Libm F64] (ht : Tan64Accurate) {a b : F64} {p q : ℚ} (h : Corners a b p q) (p0 : 9 ≤ p) (p1 : p ≤ 23991) (q0 : 9 ≤ q) (q1 : q ≤ 23991)
include ht h p0 p1 q0 q1

omit [Libm F64] ht in
private theorem facts : (9 : ℝ) ≤ p ∧ (p : ℝ) ≤ 23991 ∧ (9 : ℝ) ≤ q ∧ (q : ℝ) ≤ 23991 ∧ (p : ℝ) ≠ q := by
  refine ⟨by exact_mod_cast p0, by exact_mod_cast p1, by exact_mod_cast q0, by exact_mod_cast q1, fun e => ?_⟩
  have ap := h.apart
  rw [show p = q by exact_mod_cast e, sub_self, abs_zero] at ap
  norm_num at ap

/-- IEEE: the band pass in a chain of modifiers, as in C129: at most four times the input, plus rounding. -/
theorem C134_tracks : Tracks Modifier.process (BandPass.fromCorners (a, b) : BandPass F32 F64) Modifier.process
    (BandPass.fromCorners ((p : ℝ), (q : ℝ)) : BandPass ℝ ℝ) 4 (4 + 160 / (edge p * edge q)) := by
  have hc := C134_corners ht h p0 p1 q0 q1
  obtain ⟨r1, r2, r3, r4, ne⟩ := facts h p0 p1 q0 q1
  obtain ⟨l, u, hlu, e1, e2, e3, -⟩ := exact_corners (by linarith) (by linarith) ne
  have l0 : 9 ≤ l := e1 ▸ le_min r1 r3
  have u1 : u ≤ 23991 := e2 ▸ max_le r2 r4
  have m1 := edge_pos r1 r2
  have m2 := edge_pos r3 r4
  rw [e3] at hc ⊢
  refine (tracks_of_near (η := 120 / (edge p * edge q)) (by positivity) (by norm_num) (C126_filters_settle 1 0 one_pos (l := l) (h := u) (by linarith) hlu (by linarith)).2.2
    (exact_le (by linarith) hlu (by linarith)) hc).mono (le_of_eq ?_)
  ring

/-- IEEE: fed with samples within `d` of the sinusoid of amplitude `A`, the band pass ends up near the sinusoid of amplitude `bandGain`
times `A`, shifted by a phase that depends on the filter and the frequency only. -/
theorem C134_level (ν : ℝ) : ∃ ψ : ℝ, ∀ (x : ℕ → F32) (u : ℕ → ℚ) (M : ℚ) (A φ d : ℝ),
    (2 ^ 90)⁻¹ ≤ M → M ≤ 2 ^ 80 → (∀ n, (x n).Is (u n)) → (∀ n, |u n| ≤ M) →
    (∀ n : ℕ, |(u n : ℝ) - A * Real.cos (2 * Real.pi * ν / 48000 * n + φ)| ≤ d) →
    ∃ N, ∀ n ≥ N, ∃ (y : F32) (r : ℚ), modOut Modifier.process x (BandPass.fromCorners (a, b) : BandPass F32 F64) n = .ok y ∧ y.Is r ∧
      |(r : ℝ) - bandGain (min p q) (max p q) ν * A * Real.cos (2 * Real.pi * ν / 48000 * n + φ + ψ)| ≤ (120 / (edge p * edge q) + 1 / 1000) * M + 4 * d := by
  have hc := C134_corners ht h p0 p1 q0 q1
  obtain ⟨r1, r2, r3, r4, ne⟩ := facts h p0 p1 q0 q1
  obtain ⟨l, u, hlu, e1, e2, e3, -⟩ := exact_corners (by linarith) (by linarith) ne
  have l0 : 9 ≤ l := e1 ▸ le_min r1 r3
  have u1 : u ≤ 23991 := e2 ▸ max_le r2 r4
  rw [e3] at hc
  rw [← e1, ← e2]
  obtain ⟨ψ, hψ⟩ := level_of_near (120 / (edge p * edge q)) (C123_bandpass (by linarith) hlu (by linarith) ν).1
    (C126_filters_settle 1 0 one_pos (l := l) (h := u) (by linarith) hlu (by linarith)).2.2 (exact_le (by linarith) hlu (by linarith))
    (P := Modifier.process) (k := (BandPass.fromCorners (a, b) : BandPass F32 F64))
  refine ⟨ψ, fun x u M A φ d h1 h2 h3 h4 h5 => ?_⟩
  have M0 : (0 : ℝ) < M := by
    have : (0 : ℚ) < M := lt_of_lt_of_le (by positivity) h1
    exact_mod_cast this
  exact hψ x u M A φ d M0 (hc x u M h1 h2 h3 h4) h5

/-- IEEE: a sine generator into a band pass filter. -/
theorem C134_sine (hl : SinAccurate) {fs : F64} {s : ℚ} (hs : fs.Is s) (s1 : s ≤ 48000) {m : ℕ} (hm : s / 10 = m / 2 ^ 39) :
    ∃ (x : ℕ → F32) (ψ : ℝ) (N : ℕ), (∀ n, nthR Sine.process (Sine.new fs) n = .ok (x n)) ∧
      ∀ n ≥ N, ∃ (y : F32) (r : ℚ), modOut Modifier.process x (BandPass.fromCorners (a, b) : BandPass F32 F64) n = .ok y ∧ y.Is r ∧
        |(r : ℝ) - bandGain (min p q) (max p q) s * Real.sin (2 * Real.pi * s * n / 48000 + ψ)| ≤ 121 / (edge p * edge q) + 7 / 1000 := by
  obtain ⟨x, u, h2, h3, h4, h5⟩ := sine_samples hl hs s1 hm
  obtain ⟨ψ, hψ⟩ := C134_level ht h p0 p1 q0 q1 (s : ℝ)
  obtain ⟨N, hN⟩ := hψ x u (1002 / 1000) 1 _ _ (by norm_num) (by norm_num) h3 h4 h5
  refine ⟨x, ψ, N, h2, fun n hn => ?_⟩
  obtain ⟨y, r, e1, e2, e3⟩ := hN n hn
  refine ⟨y, r, e1, e2, ?_⟩
  rw [mul_one, show 2 * Real.pi * (s : ℝ) / 48000 * n + -(Real.pi / 2) + ψ = (2 * Real.pi * s * n / 48000 + ψ) - Real.pi / 2 by ring,
    Real.cos_sub_pi_div_two] at e3
  refine e3.trans ?_
  obtain ⟨r1, r2, r3, r4, -⟩ := facts h p0 p1 q0 q1
  have m1 := edge_pos r1 r2
  have m2 := edge_pos r3 r4
  have hi : 0 < 1 / (edge p * edge q) := by positivity
  rw [show 120 / (edge p * edge q) = 120 * (1 / (edge p * edge q)) by ring, show 121 / (edge p * edge q) = 121 * (1 / (edge p * edge q)) by ring]
  push_cast
  linarith
end

/-- The corners 2000 Hz and 500 Hz, in this order. -/
private theorem corners_ex : Corners (lit 2000) (lit 500) 2000 500 where
  ha := lit64_nat (n := 2000) (by norm_num)
  hb := lit64_nat (n := 500) (by norm_num)
  p0 := by norm_num
  p1 := by norm_num
  q0 := by norm_num
  q1 := by norm_num
  apart := by norm_num

/-- Corners at 500 Hz and 2000 Hz: within 1.2e-4 of the exact filter. -/
example : ∃ l : Libm F64, @Tan64Accurate l ∧ CloseTo (@BandPass.fromCorners F32 F64 _ _ _ l (lit 2000, lit 500)) (BandPass.fromCorners (2000, 500)) (12 / 100000) := by
  obtain ⟨l, hl⟩ := tan64Accurate_exists
  refine ⟨l, hl, ?_⟩
  have := C134_corners hl corners_ex (by norm_num) (by norm_num) (by norm_num) (by norm_num)
  push_cast at this
  rwa [show 120 / (edge 2000 * edge 500) = 12 / 100000 by unfold edge; norm_num] at this

/-- A filter at 1200 Hz with quality 3/8 has its corners at 400 Hz and 3600 Hz. -/
example : ∃ l : Libm F64, @Tan64Accurate l ∧ CloseTo (@BandPass.new F32 F64 _ _ _ l (lit 1200) (lit (3 / 8))) (BandPass.new ((1200 : ℚ) : ℝ) ((3 / 8 : ℚ) : ℝ)) (1 / 12000) := by
  obtain ⟨l, hl⟩ := tan64Accurate_exists
  refine ⟨l, hl, ?_⟩
  have := C134_new hl (f := lit 1200) (k := lit (3 / 8)) (φ := 1200) (κ := 3 / 8) (l := 400) (h := 3600) (lit64_nat (n := 1200) (by norm_num)) (by decide +kernel) (by norm_num)
    (by norm_num) ⟨by norm_num, by norm_num⟩ (by norm_num) (by norm_num) (by norm_num)
  rwa [show 120 / (edge 400 * edge 3600) = 1 / 12000 by unfold edge; norm_num] at this

end Verif
