import Verif.Float.Fast

/-! # Long runs of binary32 arithmetic with two sets of coefficients in turn -/

namespace Verif.Fast

/-- One step `y = (b1*y1 + b2*y2) + b3*y3` in binary32; continues with the new value if nothing overflows. -/
def step (c1 b1 k1 c2 b2 k2 c3 b3 k3 : ℕ) (k : ℕ → ℕ → Bool) (s1 m1 s2 m2 s3 m3 : ℕ) : Bool :=
    (fun n1 n2 n3 =>
    (fun t1 p1 t2 p2 t3 p3 =>
    (fun t n =>
    (fun p =>
    (fun u n =>
    (fun r =>
    chk (Nat.add (over p1) (Nat.add (over p2) (Nat.add (over p3) (Nat.add (over p)
      (Nat.add (over r) (Nat.pred u))))))
      (k u r))
    (rdM n))
    (sgnAdd t p t3 p3) (magAdd t p t3 p3))
    (rdM n))
    (sgnAdd t1 p1 t2 p2) (magAdd t1 p1 t2 p2))
    (Nat.mod (Nat.add c1 s1) (nat_lit 2)) (mulM n1 (Nat.pred (Nat.shiftLeft (nat_lit 1) k1)) k1)
    (Nat.mod (Nat.add c2 s2) (nat_lit 2)) (mulM n2 (Nat.pred (Nat.shiftLeft (nat_lit 1) k2)) k2)
    (Nat.mod (Nat.add c3 s3) (nat_lit 2)) (mulM n3 (Nat.pred (Nat.shiftLeft (nat_lit 1) k3)) k3))
    (Nat.mul b1 m1) (Nat.mul b2 m2) (Nat.mul b3 m3)

/-- Runs `2 n` steps, with the first and the second set of coefficients in turn; then `fin` decides about the last three results. -/
def sw (c1 b1 k1 c2 b2 k2 c3 b3 k3 d1 e1 l1 d2 e2 l2 d3 e3 l3 : ℕ) (fin : ℕ → ℕ → ℕ → ℕ → ℕ → ℕ → Bool) (n : ℕ) :
    ℕ → ℕ → ℕ → ℕ → ℕ → ℕ → Bool :=
  Nat.rec (motive := fun _ => ℕ → ℕ → ℕ → ℕ → ℕ → ℕ → Bool) fin
  (fun _ ih s1 m1 s2 m2 s3 m3 => step c1 b1 k1 c2 b2 k2 c3 b3 k3
    (fun u r => step d1 e1 l1 d2 e2 l2 d3 e3 l3 (fun v w => ih v w u r s1 m1) u r s1 m1 s2 m2) s1 m1 s2 m2 s3 m3) n

/-- What `step` computes. -/
theorem step_sound {B1 B2 B3 : Fl b32} {c1 b1 k1 c2 b2 k2 c3 b3 k3 : ℕ}
    (h1 : B1.Is ((-1) ^ c1 * b1 * pow2 (-k1))) (h2 : B2.Is ((-1) ^ c2 * b2 * pow2 (-k2)))
    (h3 : B3.Is ((-1) ^ c3 * b3 * pow2 (-k3))) (l1 : b1 < 2 ^ 24) (l2 : b2 < 2 ^ 24) (l3 : b3 < 2 ^ 24)
    {k : ℕ → ℕ → Bool} {Y1 Y2 Y3 z : Fl b32} {s1 m1 s2 m2 s3 m3 : ℕ} (hz : z.Is 0)
    (y2 : Y1.Is (val s1 m1)) (y1 : Y2.Is (val s2 m2)) (y0 : Y3.Is (val s3 m3))
    (h : step c1 b1 k1 c2 b2 k2 c3 b3 k3 k s1 m1 s2 m2 s3 m3 = true) :
    ∃ u r, (z + B1 * Y1 + B2 * Y2 + B3 * Y3).Is (val u r) ∧ k u r = true := by
  have g1 : m1 < 2 ^ 277 := (val_lt_iff s1 m1).mp y2.abs_lt
  have g2 : m2 < 2 ^ 277 := (val_lt_iff s2 m2).mp y1.abs_lt
  have g3 : m3 < 2 ^ 277 := (val_lt_iff s3 m3).mp y0.abs_lt
  obtain ⟨hc, h⟩ := chk_eq h
  have add0 : ∀ {a b : ℕ}, Nat.add a b = 0 → a = 0 ∧ b = 0 := fun h => Nat.add_eq_zero_iff.mp h
  obtain ⟨o1, hc⟩ := add0 hc
  obtain ⟨o2, hc⟩ := add0 hc
  obtain ⟨o3, hc⟩ := add0 hc
  obtain ⟨o4, hc⟩ := add0 hc
  obtain ⟨o5, o6⟩ := add0 hc
  have q1 := h1.mul y2 (by rw [Fmt.Fits, mul_spec l1 g1, val_lt_iff]; exact over_eq o1)
  have q2 := h2.mul y1 (by rw [Fmt.Fits, mul_spec l2 g2, val_lt_iff]; exact over_eq o2)
  have q3 := h3.mul y0 (by rw [Fmt.Fits, mul_spec l3 g3, val_lt_iff]; exact over_eq o3)
  rw [mul_spec l1 g1] at q1
  rw [mul_spec l2 g2] at q2
  rw [mul_spec l3 g3] at q3
  have le1 : ∀ a : ℕ, Nat.mod a 2 ≤ 1 := fun a => by
    have : a % 2 < 2 := Nat.mod_lt _ (by norm_num)
    show a % 2 ≤ 1
    omega
  have r1 := hz.add q1 (by rw [zero_add]; exact q1.fits)
  rw [zero_add, q1.rnd] at r1
  have r2 := r1.add q2 (by rw [Fmt.Fits, addv_spec (le1 _) (le1 _) (over_eq o1) (over_eq o2), val_lt_iff]; exact over_eq o4)
  rw [addv_spec (le1 _) (le1 _) (over_eq o1) (over_eq o2)] at r2
  have hs : ∀ {s m t n : ℕ}, s ≤ 1 → t ≤ 1 → sgnAdd s m t n ≤ 1 := by
    intro s m t n hs ht
    have e1 : sgnAdd s m t n = (1 - (1 - (m - n))) * s + (1 - (1 - (1 - (m - n)))) * t := rfl
    rw [e1]
    rcases (by omega : (1 - (1 - (m - n))) = 0 ∨ (1 - (1 - (m - n))) = 1) with h | h <;> rw [h] <;> omega
  have r3 := r2.add q3 (by
    rw [Fmt.Fits, addv_spec (hs (le1 _) (le1 _)) (le1 _) (over_eq o4) (over_eq o3), val_lt_iff]; exact over_eq o5)
  rw [addv_spec (hs (le1 _) (le1 _)) (le1 _) (over_eq o4) (over_eq o3)] at r3
  exact ⟨_, _, r3, h⟩

/-- What `sw` computes. -/
theorem sw_sound {B1 B2 B3 D1 D2 D3 : Fl b32} {c1 b1 k1 c2 b2 k2 c3 b3 k3 d1 e1 i1 d2 e2 i2 d3 e3 i3 : ℕ} {fin : ℕ → ℕ → ℕ → ℕ → ℕ → ℕ → Bool}
    (h1 : B1.Is ((-1) ^ c1 * b1 * pow2 (-k1))) (h2 : B2.Is ((-1) ^ c2 * b2 * pow2 (-k2)))
    (h3 : B3.Is ((-1) ^ c3 * b3 * pow2 (-k3))) (l1 : b1 < 2 ^ 24) (l2 : b2 < 2 ^ 24) (l3 : b3 < 2 ^ 24)
    (h1' : D1.Is ((-1) ^ d1 * e1 * pow2 (-i1))) (h2' : D2.Is ((-1) ^ d2 * e2 * pow2 (-i2)))
    (h3' : D3.Is ((-1) ^ d3 * e3 * pow2 (-i3))) (l1' : e1 < 2 ^ 24) (l2' : e2 < 2 ^ 24) (l3' : e3 < 2 ^ 24)
    {N : ℕ} : ∀ {y z : ℕ → Fl b32} {s1 m1 s2 m2 s3 m3 : ℕ}, (∀ n < 2 * N, (z n).Is 0) →
    (∀ n < N, y (2 * n + 3) = z (2 * n) + B1 * y (2 * n + 2) + B2 * y (2 * n + 1) + B3 * y (2 * n)) →
    (∀ n < N, y (2 * n + 4) = z (2 * n + 1) + D1 * y (2 * n + 3) + D2 * y (2 * n + 2) + D3 * y (2 * n + 1)) →
    (y 2).Is (val s1 m1) → (y 1).Is (val s2 m2) → (y 0).Is (val s3 m3) →
    sw c1 b1 k1 c2 b2 k2 c3 b3 k3 d1 e1 i1 d2 e2 i2 d3 e3 i3 fin N s1 m1 s2 m2 s3 m3 = true →
    ∃ s1 m1 s2 m2 s3 m3, (y (2 * N + 2)).Is (val s1 m1) ∧ (y (2 * N + 1)).Is (val s2 m2) ∧ (y (2 * N)).Is (val s3 m3) ∧
      fin s1 m1 s2 m2 s3 m3 = true := by
  induction N with
  | zero =>
    intro y z s1 m1 s2 m2 s3 m3 _ _ _ y2 y1 y0 h
    exact ⟨s1, m1, s2, m2, s3, m3, y2, y1, y0, h⟩
  | succ N ih =>
    intro y z s1 m1 s2 m2 s3 m3 hz hy hy' y2 y1 y0 h
    change step c1 b1 k1 c2 b2 k2 c3 b3 k3 (fun u r => step d1 e1 i1 d2 e2 i2 d3 e3 i3
      (fun v w => sw c1 b1 k1 c2 b2 k2 c3 b3 k3 d1 e1 i1 d2 e2 i2 d3 e3 i3 fin N v w u r s1 m1) u r s1 m1 s2 m2) s1 m1 s2 m2 s3 m3 = true at h
    obtain ⟨u, r, y3, h⟩ := step_sound h1 h2 h3 l1 l2 l3 (hz 0 (by omega)) y2 y1 y0 h
    rw [← hy 0 (by omega)] at y3
    obtain ⟨v, w, y4, h⟩ := step_sound h1' h2' h3' l1' l2' l3' (hz 1 (by omega)) y3 y2 y1 h
    rw [← hy' 0 (by omega)] at y4
    exact ih (y := fun n => y (n + 2)) (z := fun n => z (n + 2)) (fun n hn => hz (n + 2) (by omega)) (fun n hn => hy (n + 1) (by omega))
      (fun n hn => hy' (n + 1) (by omega)) y4 y3 y2 h

end Verif.Fast
