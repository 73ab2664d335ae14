import Verif.Float.Order

/-!
# Evaluating long runs of binary32 arithmetic in the kernel

A binary32 number is given as a sign (0 or 1) and a magnitude in units of 2^-149, the least positive
binary32 number. Multiplication and addition are branchless combinations of the operations on naturals that
the kernel accelerates. The lemmas below tie them to `Fl b32`, so that a run of tens of thousands of operations
can be checked with `decide +kernel`.
-/

namespace Verif

namespace Fl
variable {f : Fmt}

theorem not_finite_iff {x : Fl f} : ¬ x.Finite ↔ x = .nan ∨ ∃ s, x = .inf s := by
  constructor
  · intro h
    cases x with
    | nan => exact .inl rfl
    | inf s => exact .inr ⟨s, rfl⟩
    | fin s q hq => exact absurd ⟨q, rfl⟩ h
  · rintro (rfl | ⟨s, rfl⟩) ⟨q, hq⟩ <;> cases hq

theorem not_finite_add_left {x y : Fl f} (h : ¬ x.Finite) : ¬ (x + y).Finite := by
  rw [not_finite_iff] at h ⊢
  rcases h with rfl | ⟨s, rfl⟩
  · exact .inl rfl
  · cases y with
    | nan => exact .inl rfl
    | inf t =>
      by_cases e : s = t
      · exact .inr ⟨s, if_pos e⟩
      · exact .inl (if_neg e)
    | fin t q hq => exact .inr ⟨s, rfl⟩

theorem not_finite_add_right {x y : Fl f} (h : ¬ y.Finite) : ¬ (x + y).Finite := by
  rw [not_finite_iff] at h ⊢
  rcases h with rfl | ⟨s, rfl⟩
  · exact .inl (add_nan x)
  · cases x with
    | nan => exact .inl rfl
    | inf t =>
      by_cases e : t = s
      · exact .inr ⟨t, if_pos e⟩
      · exact .inl (if_neg e)
    | fin t q hq => exact .inr ⟨s, rfl⟩

theorem not_finite_mul_right {x y : Fl f} (h : ¬ y.Finite) : ¬ (x * y).Finite := by
  rw [not_finite_iff] at h ⊢
  rcases h with rfl | ⟨s, rfl⟩
  · exact .inl (mul_nan x)
  · cases x with
    | nan => exact .inl rfl
    | inf t => exact .inr ⟨_, rfl⟩
    | fin t q hq =>
      by_cases e : q = 0
      · exact .inl (if_pos e)
      · exact .inr ⟨_, if_neg e⟩

theorem not_finite_mul {x y : Fl f} {a b : ℚ} (hx : x.Is a) (hy : y.Is b) (h : ¬ f.Fits (a * b)) : ¬ (x * y).Finite := by
  obtain ⟨s, hs, rfl⟩ := is_iff.mp hx
  obtain ⟨t, ht, rfl⟩ := is_iff.mp hy
  rw [mul_fin, ofQ_not_fits _ h, not_finite_iff]
  exact .inr ⟨_, rfl⟩

end Fl

namespace Fast
set_option exponentiation.threshold 600

/-- All bits of `n` below its leading one set, for `n < 2^512`. -/
def smear (n : ℕ) : ℕ :=
  (fun a => (fun a => (fun a => (fun a => (fun a => (fun a => (fun a => (fun a => (fun a =>
    a) (Nat.lor a (Nat.shiftRight a (nat_lit 256))))
    (Nat.lor a (Nat.shiftRight a (nat_lit 128))))
    (Nat.lor a (Nat.shiftRight a (nat_lit 64))))
    (Nat.lor a (Nat.shiftRight a (nat_lit 32))))
    (Nat.lor a (Nat.shiftRight a (nat_lit 16))))
    (Nat.lor a (Nat.shiftRight a (nat_lit 8))))
    (Nat.lor a (Nat.shiftRight a (nat_lit 4))))
    (Nat.lor a (Nat.shiftRight a (nat_lit 2))))
    (Nat.lor n (Nat.shiftRight n (nat_lit 1)))

/-- Spacing of the 24 bit numbers around `n`, at least `c + 1`. -/
def gap (n c : ℕ) : ℕ := Nat.succ (Nat.lor (Nat.shiftRight (smear n) (nat_lit 24)) c)

/-- `n` rounded to a multiple of `D`, to nearest, ties to even. -/
def rd (n D : ℕ) : ℕ :=
  Nat.mul (Nat.div (Nat.add (Nat.mul (nat_lit 2) n) (Nat.add (Nat.pred D) (Nat.mod (Nat.div n D) (nat_lit 2))))
    (Nat.mul (nat_lit 2) D)) D

/-- Magnitude of the product of `b * 2^-k` and `x`, given `n = b * x` and `c = 2^k - 1`. -/
def mulM (n c k : ℕ) : ℕ := Nat.shiftRight (rd n (gap n c)) k

/-- Sign of a sum of numbers with signs `s`, `t` and magnitudes `m`, `n`. -/
def sgnAdd (s m t n : ℕ) : ℕ :=
  (fun g => Nat.add (Nat.mul g s) (Nat.mul (Nat.sub (nat_lit 1) g) t))
    (Nat.sub (nat_lit 1) (Nat.sub (nat_lit 1) (Nat.sub m n)))

/-- Magnitude of a sum of numbers with signs `s`, `t` and magnitudes `m`, `n`. -/
def magAdd (s m t n : ℕ) : ℕ :=
  (fun x => Nat.add (Nat.mul (Nat.sub (nat_lit 1) x) (Nat.add m n)) (Nat.mul x (Nat.add (Nat.sub m n) (Nat.sub n m))))
    (Nat.mod (Nat.add s t) (nat_lit 2))

def rdM (n : ℕ) : ℕ := rd n (gap n (nat_lit 0))

def over (m : ℕ) : ℕ := Nat.shiftRight m (nat_lit 277)

def chk (n : ℕ) (b : Bool) : Bool := Bool.rec false b (Nat.beq n (nat_lit 0))

/-- Runs `y = (b1*y1 + b2*y2) + b3*y3` for `n` steps in binary32; true if nothing overflows and after
the last step `b1*y1` does. -/
def iir (c1 b1 k1 c2 b2 k2 c3 b3 k3 : ℕ) (n : ℕ) : ℕ → ℕ → ℕ → ℕ → ℕ → ℕ → Bool :=
  Nat.rec (motive := fun _ => ℕ → ℕ → ℕ → ℕ → ℕ → ℕ → Bool)
  (fun _ m1 _ _ _ _ => Nat.ble (nat_lit 1) (over (mulM (Nat.mul b1 m1) (Nat.pred (Nat.shiftLeft (nat_lit 1) k1)) k1)))
  (fun _ ih s1 m1 s2 m2 s3 m3 =>
    (fun n1 n2 n3 =>
    (fun t1 p1 t2 p2 t3 p3 =>
    (fun t n =>
    (fun p =>
    (fun u n =>
    (fun r =>
    chk (Nat.add (over p1) (Nat.add (over p2) (Nat.add (over p3) (Nat.add (over p)
      (Nat.add (over r) (Nat.pred u))))))
      (ih u r s1 m1 s2 m2))
    (rdM n))
    (sgnAdd t p t3 p3) (magAdd t p t3 p3))
    (rdM n))
    (sgnAdd t1 p1 t2 p2) (magAdd t1 p1 t2 p2))
    (Nat.mod (Nat.add c1 s1) (nat_lit 2)) (mulM n1 (Nat.pred (Nat.shiftLeft (nat_lit 1) k1)) k1)
    (Nat.mod (Nat.add c2 s2) (nat_lit 2)) (mulM n2 (Nat.pred (Nat.shiftLeft (nat_lit 1) k2)) k2)
    (Nat.mod (Nat.add c3 s3) (nat_lit 2)) (mulM n3 (Nat.pred (Nat.shiftLeft (nat_lit 1) k3)) k3))
    (Nat.mul b1 m1) (Nat.mul b2 m2) (Nat.mul b3 m3)) n

/-- Runs `y = ((d + b1*y1) + b2*y2) + b3*y3` with a constant `d` for `n` steps in binary32; true if nothing overflows and the
last three results are `t`. -/
def drv (sd d c1 b1 k1 c2 b2 k2 c3 b3 k3 t : ℕ) (n : ℕ) : ℕ → ℕ → ℕ → ℕ → ℕ → ℕ → Bool :=
  Nat.rec (motive := fun _ => ℕ → ℕ → ℕ → ℕ → ℕ → ℕ → Bool)
  (fun s1 m1 s2 m2 s3 m3 => chk (Nat.add s1 (Nat.add s2 s3)) (Bool.rec false (Bool.rec false (Nat.beq m3 t) (Nat.beq m2 t)) (Nat.beq m1 t)))
  (fun _ ih s1 m1 s2 m2 s3 m3 =>
    (fun n1 n2 n3 =>
    (fun t1 p1 t2 p2 t3 p3 =>
    (fun v n =>
    (fun q =>
    (fun t n =>
    (fun p =>
    (fun u n =>
    (fun r =>
    chk (Nat.add (over p1) (Nat.add (over p2) (Nat.add (over p3) (Nat.add (over q) (Nat.add (over p)
      (Nat.add (over r) (Nat.pred u)))))))
      (ih u r s1 m1 s2 m2))
    (rdM n))
    (sgnAdd t p t3 p3) (magAdd t p t3 p3))
    (rdM n))
    (sgnAdd v q t2 p2) (magAdd v q t2 p2))
    (rdM n))
    (sgnAdd sd d t1 p1) (magAdd sd d t1 p1))
    (Nat.mod (Nat.add c1 s1) (nat_lit 2)) (mulM n1 (Nat.pred (Nat.shiftLeft (nat_lit 1) k1)) k1)
    (Nat.mod (Nat.add c2 s2) (nat_lit 2)) (mulM n2 (Nat.pred (Nat.shiftLeft (nat_lit 1) k2)) k2)
    (Nat.mod (Nat.add c3 s3) (nat_lit 2)) (mulM n3 (Nat.pred (Nat.shiftLeft (nat_lit 1) k3)) k3))
    (Nat.mul b1 m1) (Nat.mul b2 m2) (Nat.mul b3 m3)) n

/-! ## correctness -/

private theorem smear_step {n w x : ℕ} (h : ∀ i, x.testBit i = true ↔ ∃ d < w, n.testBit (i + d) = true) (i : ℕ) :
    (x.lor (x.shiftRight w)).testBit i = true ↔ ∃ d < w + w, n.testBit (i + d) = true := by
  have e : (x.lor (x.shiftRight w)).testBit i = (x.testBit i || x.testBit (w + i)) := by
    show (x ||| x >>> w).testBit i = _
    rw [Nat.testBit_or, Nat.testBit_shiftRight]
  rw [e, Bool.or_eq_true, h, h]
  constructor
  · rintro (⟨d, hd, ht⟩ | ⟨d, hd, ht⟩)
    · exact ⟨d, by omega, ht⟩
    · exact ⟨w + d, by omega, by rw [← ht]; congr 1; omega⟩
  · rintro ⟨d, hd, ht⟩
    by_cases hw : d < w
    · exact .inl ⟨d, hw, ht⟩
    · exact .inr ⟨d - w, by omega, by rw [← ht]; congr 1; omega⟩

theorem smear_spec {n : ℕ} (h0 : n ≠ 0) (h : n < 2 ^ 512) : smear n = 2 ^ (n.log2 + 1) - 1 := by
  have key : ∀ i, (smear n).testBit i = true ↔ ∃ d < 512, n.testBit (i + d) = true := by
    unfold smear
    exact smear_step (smear_step (smear_step (smear_step (smear_step (smear_step (smear_step (smear_step (smear_step
      (w := 1) (fun i => ⟨fun h => ⟨0, by omega, h⟩, fun ⟨d, hd, ht⟩ => by
        obtain rfl : d = 0 := by omega
        exact ht⟩)))))))))
  apply Nat.eq_of_testBit_eq
  intro i
  rw [Nat.testBit_two_pow_sub_one, Bool.eq_iff_iff, key, decide_eq_true_iff]
  have hl := Nat.log2_self_le h0
  constructor
  · rintro ⟨d, -, ht⟩
    have := Nat.ge_two_pow_of_testBit ht
    have h2 := (Nat.le_log2 h0).mpr this
    omega
  · intro hi
    have h5 : n.log2 < 512 := (Nat.log2_lt h0).mpr h
    refine ⟨n.log2 - i, by omega, ?_⟩
    rw [show i + (n.log2 - i) = n.log2 by omega]
    exact Nat.testBit_log2 h0

theorem gap_spec {n k : ℕ} (h : n < 2 ^ 512) : gap n (2 ^ k - 1) = 2 ^ max (n.log2 - 23) k := by
  have e : (smear n).shiftRight 24 = 2 ^ (n.log2 - 23) - 1 := by
    rcases Nat.eq_zero_or_pos n with rfl | h0
    · rfl
    · rw [smear_spec h0.ne' h]
      show (2 ^ (n.log2 + 1) - 1) >>> 24 = _
      apply Nat.eq_of_testBit_eq
      intro i
      rw [Nat.testBit_shiftRight, Nat.testBit_two_pow_sub_one, Nat.testBit_two_pow_sub_one, decide_eq_decide]
      omega
  unfold gap
  rw [e]
  show ((2 ^ (n.log2 - 23) - 1) ||| (2 ^ k - 1)).succ = _
  have : (2 ^ (n.log2 - 23) - 1) ||| (2 ^ k - 1) = 2 ^ max (n.log2 - 23) k - 1 := by
    apply Nat.eq_of_testBit_eq
    intro i
    rw [Nat.testBit_or, Nat.testBit_two_pow_sub_one, Nat.testBit_two_pow_sub_one, Nat.testBit_two_pow_sub_one,
      ← Bool.decide_or, decide_eq_decide]
    omega
  rw [this]
  have := Nat.two_pow_pos (max (n.log2 - 23) k)
  omega

theorem rd_spec (n : ℕ) {D : ℕ} (hD : 0 < D) : rd n D = rne ((n : ℚ) / D) * D := by
  have hq : (rne ((n : ℚ) / D) : ℤ) = ((2 * n + (D - 1 + n / D % 2)) / (2 * D) : ℕ) := by
    set q := n / D with hq
    set r := n % D with hr
    have hn : n = D * q + r := (Nat.div_add_mod n D).symm
    have hr' : r < D := Nat.mod_lt _ hD
    have hx : (n : ℚ) / D = q + (r : ℚ) / D := by
      have : (D : ℚ) ≠ 0 := by exact_mod_cast hD.ne'
      rw [hn]; push_cast; field_simp
    have hfl : ((n : ℚ) / D).floor = (q : ℤ) := by
      rw [Fl.rat_floor, Int.floor_eq_iff, hx]
      have : (D : ℚ) > 0 := by exact_mod_cast hD
      have h1 : (r : ℚ) / D < 1 := by rw [div_lt_one this]; exact_mod_cast hr'
      have h2 : (0 : ℚ) ≤ (r : ℚ) / D := by positivity
      push_cast
      constructor <;> linarith
    have hDq : (D : ℚ) > 0 := by exact_mod_cast hD
    have hdiv : (2 * n + (D - 1 + q % 2)) / (2 * D) = q + (2 * r + (D - 1 + q % 2)) / (2 * D) := by
      rw [show 2 * n + (D - 1 + q % 2) = (2 * r + (D - 1 + q % 2)) + 2 * D * q by rw [hn]; ring,
        Nat.add_mul_div_left _ _ (by omega)]
      ring
    have hpar : (2 * r + (D - 1 + q % 2)) / (2 * D) = if 2 * r + q % 2 ≤ D then 0 else 1 := by
      have : q % 2 < 2 := Nat.mod_lt _ (by norm_num)
      split_ifs with h
      · exact Nat.div_eq_of_lt (by omega)
      · rw [Nat.div_eq_iff (by omega)]; omega
    unfold rne
    simp only [hfl]
    rw [hdiv, hpar]
    have hsub : (n : ℚ) / D - ((q : ℤ) : ℚ) = (r : ℚ) / D := by rw [hx]; push_cast; ring
    rw [hsub]
    have c1 : (r : ℚ) / D < 1 / 2 ↔ 2 * r < D := by
      rw [div_lt_iff₀ hDq]
      constructor
      · intro h; have : (2 * r : ℚ) < D := by linarith
        exact_mod_cast this
      · intro h; have : (2 * r : ℚ) < D := by exact_mod_cast h
        linarith
    have c2 : 1 / 2 < (r : ℚ) / D ↔ D < 2 * r := by
      rw [lt_div_iff₀ hDq]
      constructor
      · intro h; have : (D : ℚ) < 2 * r := by linarith
        exact_mod_cast this
      · intro h; have : (D : ℚ) < 2 * r := by exact_mod_cast h
        linarith
    have hm : ((q : ℤ) % 2 = 0) ↔ q % 2 = 0 := by omega
    simp only [c1, c2, hm]
    split_ifs <;> omega
  rw [hq]
  unfold rd
  push_cast
  rfl

theorem ilog2_scaled {n : ℕ} (h : n ≠ 0) (E : ℤ) : ilog2 (n * pow2 E) = n.log2 + E := by
  have hn : (0 : ℚ) < n := by exact_mod_cast Nat.pos_of_ne_zero h
  have h0 : (n : ℚ) * pow2 E ≠ 0 := mul_ne_zero hn.ne' (pow2_ne E)
  have habs : |(n : ℚ) * pow2 E| = n * pow2 E := abs_of_pos (mul_pos hn (pow2_pos E))
  have h1 : pow2 (n.log2 + E) ≤ |(n : ℚ) * pow2 E| := by
    rw [habs, pow2_add]
    refine mul_le_mul_of_nonneg_right ?_ (pow2_pos E).le
    rw [pow2_nat]
    exact_mod_cast Nat.log2_self_le h
  have h2 : |(n : ℚ) * pow2 E| < pow2 (n.log2 + 1 + E) := by
    rw [habs, pow2_add]
    refine mul_lt_mul_of_pos_right ?_ (pow2_pos E)
    have : pow2 ((n.log2 : ℤ) + 1) = ((2 ^ (n.log2 + 1) : ℤ) : ℚ) := by exact_mod_cast pow2_nat (n.log2 + 1)
    rw [this]
    exact_mod_cast Nat.lt_log2_self
  have := ilog2_lt_of h0 h2
  have := le_ilog2_of h0 h1
  omega

theorem rnd_scaled {n k : ℕ} (h : n < 2 ^ 512) :
    b32.rnd (n * pow2 (-(149 + k))) = (rd n (gap n (2 ^ k - 1)) : ℕ) * pow2 (-(149 + k)) := by
  rw [gap_spec h]
  rcases Nat.eq_zero_or_pos n with rfl | h0
  · have : rd 0 (2 ^ max (Nat.log2 0 - 23) k) = 0 := by
      have := rd_spec 0 (Nat.two_pow_pos (max (Nat.log2 0 - 23) k))
      rw [Nat.cast_zero, zero_div, rne_zero, zero_mul] at this
      exact_mod_cast this
    rw [this]
    simp [Fmt.rnd_of_repr _ b32.repr_zero]
  · set s := max (n.log2 - 23) k with hs
    have hu : b32.ue (n * pow2 (-(149 + k))) = s + -(149 + k) := by
      unfold Fmt.ue
      rw [ilog2_scaled h0.ne']
      show max ((n.log2 : ℤ) + -(149 + k) - (24 - 1)) (-149) = _
      omega
    unfold Fmt.rnd
    rw [hu, neg_add (s : ℤ), pow2_add (s : ℤ), pow2_add (-(s : ℤ))]
    have hc := rd_spec n (Nat.two_pow_pos s)
    have hc' : ((rd n (2 ^ s) : ℕ) : ℚ) = rne ((n : ℚ) / (2 ^ s : ℕ)) * (2 ^ s : ℕ) := by exact_mod_cast congrArg (Int.cast (R := ℚ)) hc
    rw [hc', show (n : ℚ) * pow2 (-(149 + (k : ℤ))) * (pow2 (-(s : ℤ)) * pow2 (- -(149 + (k : ℤ)))) = n * pow2 (-(s : ℤ)) *
      (pow2 (-(149 + (k : ℤ))) * pow2 (- -(149 + (k : ℤ)))) by ring, pow2_mul_neg, mul_one, pow2_neg, pow2_nat]
    push_cast
    rw [← div_eq_mul_inv]
    ring

theorem mulM_spec {n k : ℕ} (h : n < 2 ^ 512) :
    b32.rnd (n * pow2 (-(149 + k))) = (mulM n (2 ^ k - 1) k : ℕ) * pow2 (-149) := by
  rw [rnd_scaled h]
  unfold mulM
  rw [gap_spec h]
  set s := max (n.log2 - 23) k with hs
  have hd : 2 ^ k ∣ rd n (2 ^ s) := Dvd.dvd.mul_left (pow_dvd_pow 2 (le_max_right _ _)) _
  obtain ⟨a, ha⟩ := hd
  have : (rd n (2 ^ s)).shiftRight k = a := by
    show rd n (2 ^ s) >>> k = a
    rw [ha, Nat.shiftRight_eq_div_pow, Nat.mul_div_cancel_left _ (Nat.two_pow_pos k)]
  rw [this, ha, neg_add, pow2_add, pow2_neg k, pow2_nat]
  push_cast
  field_simp

/-- The number with sign `s` and magnitude `m`. -/
def val (s m : ℕ) : ℚ := (-1) ^ s * m * pow2 (-149)

theorem rdM_spec {n : ℕ} (h : n < 2 ^ 512) : b32.rnd (n * pow2 (-149)) = (rdM n : ℕ) * pow2 (-149) := by
  have := rnd_scaled (k := 0) h
  rw [Nat.cast_zero, add_zero] at this
  exact this

theorem add_spec {s t : ℕ} (hs : s ≤ 1) (ht : t ≤ 1) (m n : ℕ) :
    (-1 : ℚ) ^ s * m + (-1) ^ t * n = (-1) ^ sgnAdd s m t n * (magAdd s m t n : ℕ) := by
  have e1 : sgnAdd s m t n = (1 - (1 - (m - n))) * s + (1 - (1 - (1 - (m - n)))) * t := rfl
  have e2 : magAdd s m t n = (1 - (s + t) % 2) * (m + n) + ((s + t) % 2) * ((m - n) + (n - m)) := rfl
  rw [e1, e2]
  rcases (by omega : s = 0 ∨ s = 1) with rfl | rfl <;> rcases (by omega : t = 0 ∨ t = 1) with rfl | rfl
  · push_cast; simp
  · rcases Nat.lt_or_ge n m with h | h
    · obtain ⟨d, rfl⟩ := Nat.exists_eq_add_of_lt h
      rw [show n + d + 1 - n = d + 1 by omega, show n - (n + d + 1) = 0 by omega]
      simp; ring
    · obtain ⟨d, rfl⟩ := Nat.exists_eq_add_of_le h
      rw [show m - (m + d) = 0 by omega, show m + d - m = d by omega]
      simp
  · rcases Nat.lt_or_ge n m with h | h
    · obtain ⟨d, rfl⟩ := Nat.exists_eq_add_of_lt h
      rw [show n + d + 1 - n = d + 1 by omega, show n - (n + d + 1) = 0 by omega]
      simp; ring
    · obtain ⟨d, rfl⟩ := Nat.exists_eq_add_of_le h
      rw [show m - (m + d) = 0 by omega, show m + d - m = d by omega]
      simp
  · rcases Nat.lt_or_ge n m with h | h
    · obtain ⟨d, rfl⟩ := Nat.exists_eq_add_of_lt h
      rw [show n + d + 1 - n = d + 1 by omega]
      simp; ring
    · obtain ⟨d, rfl⟩ := Nat.exists_eq_add_of_le h
      rw [show m - (m + d) = 0 by omega]
      simp; ring

private theorem pred_shift (k : ℕ) : Nat.pred (Nat.shiftLeft 1 k) = 2 ^ k - 1 := by
  show (1 <<< k) - 1 = _
  rw [Nat.one_shiftLeft]

private theorem neg_one_mod (a : ℕ) : (-1 : ℚ) ^ (a % 2) = (-1) ^ a := by
  conv_rhs => rw [← Nat.div_add_mod a 2, pow_add, pow_mul]
  simp

theorem over_eq {m : ℕ} (h : over m = 0) : m < 2 ^ 277 := by
  have : m >>> 277 = 0 := h
  rw [Nat.shiftRight_eq_div_pow] at this
  exact (Nat.div_eq_zero_iff_lt (Nat.two_pow_pos 277)).mp this

theorem chk_eq {n : ℕ} {b : Bool} (h : chk n b = true) : n = 0 ∧ b = true := by
  cases n with
  | zero => exact ⟨rfl, h⟩
  | succ n => exact absurd h (by show (false = true) → False; simp)

private theorem lt512 {b m : ℕ} (hb : b < 2 ^ 24) (hm : m < 2 ^ 277) : Nat.mul b m < 2 ^ 512 := by
  have : b * m < 2 ^ 24 * 2 ^ 277 := Nat.mul_lt_mul'' hb hm
  exact this.trans (by rw [← pow_add]; exact Nat.pow_lt_pow_right (by norm_num) (by norm_num))

private theorem rnd_sign (s : ℕ) (q : ℚ) : b32.rnd ((-1) ^ s * q) = (-1) ^ s * b32.rnd q := by
  rcases Nat.even_or_odd s with h | h
  · simp [h.neg_one_pow]
  · simp [h.neg_one_pow, Fmt.rnd_neg]

theorem abs_val (s m : ℕ) : |val s m| = m * pow2 (-149) := by
  unfold val
  rw [abs_mul, abs_mul, abs_pow, abs_neg, abs_one, one_pow, one_mul, abs_of_pos (pow2_pos _), Nat.abs_cast]

theorem val_lt_iff (s m : ℕ) : |val s m| < pow2 (b32.emax + 1) ↔ m < 2 ^ 277 := by
  rw [abs_val, show pow2 (b32.emax + 1) = ((2 ^ 277 : ℕ) : ℚ) * pow2 (-149) by
    rw [show b32.emax + 1 = ((277 : ℕ) : ℤ) + -149 by rfl, pow2_add, pow2_nat]; push_cast; rfl]
  rw [mul_lt_mul_iff_left₀ (pow2_pos _)]
  exact_mod_cast Iff.rfl

theorem mul_spec {c b k s m : ℕ} (hb : b < 2 ^ 24) (hm : m < 2 ^ 277) :
    b32.rnd ((-1) ^ c * b * pow2 (-k) * val s m) =
      val (Nat.mod (Nat.add c s) 2) (mulM (Nat.mul b m) (Nat.pred (Nat.shiftLeft 1 k)) k) := by
  have e : ((-1) ^ c * b * pow2 (-(k : ℤ)) * val s m : ℚ) = (-1) ^ (c + s) * ((Nat.mul b m : ℕ) * pow2 (-(149 + k))) := by
    unfold val
    rw [neg_add, pow2_add, pow_add, show (Nat.mul b m : ℕ) = b * m from rfl]
    push_cast
    ring
  rw [e, rnd_sign, mulM_spec (lt512 hb hm), pred_shift]
  show _ = (-1) ^ ((c + s) % 2) * _ * _
  rw [neg_one_mod, mul_assoc]

theorem addv_spec {s m t n : ℕ} (hs : s ≤ 1) (ht : t ≤ 1) (hm : m < 2 ^ 277) (hn : n < 2 ^ 277) :
    b32.rnd (val s m + val t n) = val (sgnAdd s m t n) (rdM (magAdd s m t n)) := by
  have hmag : magAdd s m t n < 2 ^ 512 := by
    have e2 : magAdd s m t n = (1 - (s + t) % 2) * (m + n) + ((s + t) % 2) * ((m - n) + (n - m)) := rfl
    have h : magAdd s m t n ≤ m + n := by
      rw [e2]
      rcases (by omega : (s + t) % 2 = 0 ∨ (s + t) % 2 = 1) with h | h <;> rw [h] <;> omega
    have h2 : (2 : ℕ) ^ 277 + 2 ^ 277 ≤ 2 ^ 512 := by
      rw [← two_mul, ← pow_succ']; exact Nat.pow_le_pow_right (by norm_num) (by norm_num)
    omega
  have e : val s m + val t n = (-1) ^ sgnAdd s m t n * ((magAdd s m t n : ℕ) * pow2 (-149)) := by
    unfold val
    rw [← add_mul, add_spec hs ht, mul_assoc]
  rw [e, rnd_sign, rdM_spec hmag, val, mul_assoc]

/-- What `iir` computes: a recurrence whose run it accepts leaves the finite numbers. -/
theorem iir_sound {B1 B2 B3 : Fl b32} {c1 b1 k1 c2 b2 k2 c3 b3 k3 : ℕ}
    (h1 : B1.Is ((-1) ^ c1 * b1 * pow2 (-k1))) (h2 : B2.Is ((-1) ^ c2 * b2 * pow2 (-k2)))
    (h3 : B3.Is ((-1) ^ c3 * b3 * pow2 (-k3))) (l1 : b1 < 2 ^ 24) (l2 : b2 < 2 ^ 24) (l3 : b3 < 2 ^ 24)
    {N : ℕ} : ∀ {y z : ℕ → Fl b32} {s1 m1 s2 m2 s3 m3 : ℕ}, (∀ n < N, (z n).Is 0) →
    (∀ n ≤ N, y (n + 3) = z n + B1 * y (n + 2) + B2 * y (n + 1) + B3 * y n) →
    (y 2).Is (val s1 m1) → (y 1).Is (val s2 m2) → (y 0).Is (val s3 m3) → 
    iir c1 b1 k1 c2 b2 k2 c3 b3 k3 N s1 m1 s2 m2 s3 m3 = true → ¬ (y (N + 3)).Finite := by
  induction N with
  | zero =>
    intro y z s1 m1 s2 m2 s3 m3 hz hy y2 y1 y0 h
    have g1 : m1 < 2 ^ 277 := (val_lt_iff s1 m1).mp y2.abs_lt
    have hb : ¬ b32.Fits ((-1) ^ c1 * b1 * pow2 (-k1) * val s1 m1) := by
      unfold Fmt.Fits
      rw [mul_spec l1 g1, val_lt_iff]
      intro hlt
      have h' : 1 ≤ (mulM (Nat.mul b1 m1) (Nat.pred (Nat.shiftLeft 1 k1)) k1) >>> 277 := Nat.le_of_ble_eq_true h
      rw [Nat.shiftRight_eq_div_pow, Nat.div_eq_of_lt hlt] at h'
      omega
    have := Fl.not_finite_mul h1 y2 hb
    rw [hy 0 le_rfl]
    exact Fl.not_finite_add_left (Fl.not_finite_add_left (Fl.not_finite_add_right this))
  | succ N ih =>
    intro y z s1 m1 s2 m2 s3 m3 hz hy y2 y1 y0 h
    have g1 : m1 < 2 ^ 277 := (val_lt_iff s1 m1).mp y2.abs_lt
    have g2 : m2 < 2 ^ 277 := (val_lt_iff s2 m2).mp y1.abs_lt
    have g3 : m3 < 2 ^ 277 := (val_lt_iff s3 m3).mp y0.abs_lt
    obtain ⟨hc, h⟩ := chk_eq h
    have add0 : ∀ {a b : ℕ}, Nat.add a b = 0 → a = 0 ∧ b = 0 := fun h => Nat.add_eq_zero_iff.mp h
    obtain ⟨o1, hc⟩ := add0 hc
    obtain ⟨o2, hc⟩ := add0 hc
    obtain ⟨o3, hc⟩ := add0 hc
    obtain ⟨o4, hc⟩ := add0 hc
    obtain ⟨o5, o6⟩ := add0 hc
    have q1 := h1.mul y2 (by rw [Fmt.Fits, mul_spec l1 g1, val_lt_iff]; exact over_eq o1)
    have q2 := h2.mul y1 (by rw [Fmt.Fits, mul_spec l2 g2, val_lt_iff]; exact over_eq o2)
    have q3 := h3.mul y0 (by rw [Fmt.Fits, mul_spec l3 g3, val_lt_iff]; exact over_eq o3)
    rw [mul_spec l1 g1] at q1
    rw [mul_spec l2 g2] at q2
    rw [mul_spec l3 g3] at q3
    have le1 : ∀ a : ℕ, Nat.mod a 2 ≤ 1 := fun a => by
      have : a % 2 < 2 := Nat.mod_lt _ (by norm_num)
      show a % 2 ≤ 1
      omega
    have r1 := (hz 0 (Nat.succ_pos N)).add q1 (by rw [zero_add]; exact q1.fits)
    rw [zero_add, q1.rnd] at r1
    have r2 := r1.add q2 (by rw [Fmt.Fits, addv_spec (le1 _) (le1 _) (over_eq o1) (over_eq o2), val_lt_iff]; exact over_eq o4)
    rw [addv_spec (le1 _) (le1 _) (over_eq o1) (over_eq o2)] at r2
    have hs : ∀ {s m t n : ℕ}, s ≤ 1 → t ≤ 1 → sgnAdd s m t n ≤ 1 := by
      intro s m t n hs ht
      have e1 : sgnAdd s m t n = (1 - (1 - (m - n))) * s + (1 - (1 - (1 - (m - n)))) * t := rfl
      rw [e1]
      rcases (by omega : (1 - (1 - (m - n))) = 0 ∨ (1 - (1 - (m - n))) = 1) with h | h <;> rw [h] <;> omega
    have r3 := r2.add q3 (by
      rw [Fmt.Fits, addv_spec (hs (le1 _) (le1 _)) (le1 _) (over_eq o4) (over_eq o3), val_lt_iff]; exact over_eq o5)
    rw [addv_spec (hs (le1 _) (le1 _)) (le1 _) (over_eq o4) (over_eq o3), ← hy 0 (Nat.zero_le _)] at r3
    have := ih (y := fun n => y (n + 1)) (z := fun n => z (n + 1)) (fun n hn => hz (n + 1) (by omega)) (fun n hn => hy (n + 1) (by omega)) r3 y2 y1 h
    exact this

private theorem beq3 {m1 m2 m3 t : ℕ} (h : Bool.rec (motive := fun _ => Bool) false (Bool.rec (motive := fun _ => Bool) false (Nat.beq m3 t) (Nat.beq m2 t))
    (Nat.beq m1 t) = true) : m1 = t ∧ m2 = t ∧ m3 = t := by
  cases h1 : Nat.beq m1 t with
  | false => rw [h1] at h; exact absurd h Bool.false_ne_true
  | true =>
    rw [h1] at h
    cases h2 : Nat.beq m2 t with
    | false => rw [h2] at h; exact absurd h Bool.false_ne_true
    | true =>
      rw [h2] at h
      exact ⟨Nat.eq_of_beq_eq_true h1, Nat.eq_of_beq_eq_true h2, Nat.eq_of_beq_eq_true h⟩

/-- What `drv` computes: where a driven recurrence ends up. -/
theorem drv_sound {B1 B2 B3 : Fl b32} {sd d c1 b1 k1 c2 b2 k2 c3 b3 k3 t : ℕ} (hsd : sd ≤ 1) (hd : d < 2 ^ 277)
    (h1 : B1.Is ((-1) ^ c1 * b1 * pow2 (-k1))) (h2 : B2.Is ((-1) ^ c2 * b2 * pow2 (-k2)))
    (h3 : B3.Is ((-1) ^ c3 * b3 * pow2 (-k3))) (l1 : b1 < 2 ^ 24) (l2 : b2 < 2 ^ 24) (l3 : b3 < 2 ^ 24)
    {N : ℕ} : ∀ {y z : ℕ → Fl b32} {s1 m1 s2 m2 s3 m3 : ℕ}, (∀ n < N, (z n).Is (val sd d)) →
    (∀ n < N, y (n + 3) = z n + B1 * y (n + 2) + B2 * y (n + 1) + B3 * y n) →
    (y 2).Is (val s1 m1) → (y 1).Is (val s2 m2) → (y 0).Is (val s3 m3) → 
    drv sd d c1 b1 k1 c2 b2 k2 c3 b3 k3 t N s1 m1 s2 m2 s3 m3 = true →
    (y (N + 2)).Is (val 0 t) ∧ (y (N + 1)).Is (val 0 t) ∧ (y N).Is (val 0 t) := by
  have add0 : ∀ {a b : ℕ}, Nat.add a b = 0 → a = 0 ∧ b = 0 := fun h => Nat.add_eq_zero_iff.mp h
  induction N with
  | zero =>
    intro y z s1 m1 s2 m2 s3 m3 hz hy y2 y1 y0 h
    obtain ⟨hc, h⟩ := chk_eq h
    obtain ⟨e1, hc⟩ := add0 hc
    obtain ⟨e2, e3⟩ := add0 hc
    obtain ⟨f1, f2, f3⟩ := beq3 h
    subst e1 e2 e3 f1 f2 f3
    exact ⟨y2, y1, y0⟩
  | succ N ih =>
    intro y z s1 m1 s2 m2 s3 m3 hz hy y2 y1 y0 h
    have g1 : m1 < 2 ^ 277 := (val_lt_iff s1 m1).mp y2.abs_lt
    have g2 : m2 < 2 ^ 277 := (val_lt_iff s2 m2).mp y1.abs_lt
    have g3 : m3 < 2 ^ 277 := (val_lt_iff s3 m3).mp y0.abs_lt
    obtain ⟨hc, h⟩ := chk_eq h
    obtain ⟨o1, hc⟩ := add0 hc
    obtain ⟨o2, hc⟩ := add0 hc
    obtain ⟨o3, hc⟩ := add0 hc
    obtain ⟨o0, hc⟩ := add0 hc
    obtain ⟨o4, hc⟩ := add0 hc
    obtain ⟨o5, o6⟩ := add0 hc
    have q1 := h1.mul y2 (by rw [Fmt.Fits, mul_spec l1 g1, val_lt_iff]; exact over_eq o1)
    have q2 := h2.mul y1 (by rw [Fmt.Fits, mul_spec l2 g2, val_lt_iff]; exact over_eq o2)
    have q3 := h3.mul y0 (by rw [Fmt.Fits, mul_spec l3 g3, val_lt_iff]; exact over_eq o3)
    rw [mul_spec l1 g1] at q1
    rw [mul_spec l2 g2] at q2
    rw [mul_spec l3 g3] at q3
    have le1 : ∀ a : ℕ, Nat.mod a 2 ≤ 1 := fun a => by
      have : a % 2 < 2 := Nat.mod_lt _ (by norm_num)
      show a % 2 ≤ 1
      omega
    have hs : ∀ {s m t n : ℕ}, s ≤ 1 → t ≤ 1 → sgnAdd s m t n ≤ 1 := by
      intro s m t n hs ht
      have e1 : sgnAdd s m t n = (1 - (1 - (m - n))) * s + (1 - (1 - (1 - (m - n)))) * t := rfl
      rw [e1]
      rcases (by omega : (1 - (1 - (m - n))) = 0 ∨ (1 - (1 - (m - n))) = 1) with h | h <;> rw [h] <;> omega
    have r1 := (hz 0 (Nat.succ_pos N)).add q1 (by
      rw [Fmt.Fits, addv_spec hsd (le1 _) hd (over_eq o1), val_lt_iff]; exact over_eq o0)
    rw [addv_spec hsd (le1 _) hd (over_eq o1)] at r1
    have r2 := r1.add q2 (by
      rw [Fmt.Fits, addv_spec (hs hsd (le1 _)) (le1 _) (over_eq o0) (over_eq o2), val_lt_iff]; exact over_eq o4)
    rw [addv_spec (hs hsd (le1 _)) (le1 _) (over_eq o0) (over_eq o2)] at r2
    have r3 := r2.add q3 (by
      rw [Fmt.Fits, addv_spec (hs (hs hsd (le1 _)) (le1 _)) (le1 _) (over_eq o4) (over_eq o3), val_lt_iff]; exact over_eq o5)
    rw [addv_spec (hs (hs hsd (le1 _)) (le1 _)) (le1 _) (over_eq o4) (over_eq o3), ← hy 0 (Nat.succ_pos N)] at r3
    have := ih (y := fun n => y (n + 1)) (z := fun n => z (n + 1)) (fun n hn => hz (n + 1) (by omega)) (fun n hn => hy (n + 1) (by omega)) r3 y2 y1 h
    exact this

end Fast
end Verif
