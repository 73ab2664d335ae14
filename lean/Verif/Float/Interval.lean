import Verif.Float.Order

/-!
# Interval bounds for float expressions

Rounding is monotone, so the result of an operation lies between the rounded results at the ends of the
operand intervals. `ok` records that no end overflowed.
-/

namespace Verif

/-- Bounds of a finite float, meaningful when `ok`. -/
structure Iv where
  lo : ℚ
  hi : ℚ
  ok : Bool
  deriving DecidableEq

namespace Iv
variable {f : Fmt}

/-- `x` is finite and within the bounds. -/
def Has (i : Iv) (x : Fl f) : Prop := i.ok = true → x.In i.lo i.hi

/-- A single number. -/
def pt (q : ℚ) : Iv := ⟨q, q, true⟩

/-- Rounded bounds. -/
def rnd (f : Fmt) (lo hi : ℚ) (ok : Bool) : Iv :=
  ⟨f.rnd lo, f.rnd hi, ok && decide (|f.rnd lo| < pow2 (f.emax + 1)) && decide (|f.rnd hi| < pow2 (f.emax + 1))⟩

def add (f : Fmt) (a b : Iv) : Iv := rnd f (a.lo + b.lo) (a.hi + b.hi) (a.ok && b.ok)
def sub (f : Fmt) (a b : Iv) : Iv := rnd f (a.lo - b.hi) (a.hi - b.lo) (a.ok && b.ok)
/-- Product of nonnegative intervals. -/
def mul (f : Fmt) (a b : Iv) : Iv :=
  rnd f (a.lo * b.lo) (a.hi * b.hi) (a.ok && b.ok && decide (0 ≤ a.lo) && decide (0 ≤ b.lo))
/-- Quotient of a nonnegative by a positive interval. -/
def div (f : Fmt) (a b : Iv) : Iv :=
  rnd f (a.lo / b.hi) (a.hi / b.lo) (a.ok && b.ok && decide (0 ≤ a.lo) && decide (0 < b.lo))
/-- Product of a nonpositive by a nonnegative interval. -/
def muln (f : Fmt) (a b : Iv) : Iv :=
  rnd f (a.lo * b.hi) (a.hi * b.lo) (a.ok && b.ok && decide (a.hi ≤ 0) && decide (0 ≤ b.lo))
/-- Quotient of a nonpositive by a positive interval. -/
def divn (f : Fmt) (a b : Iv) : Iv :=
  rnd f (a.lo / b.lo) (a.hi / b.hi) (a.ok && b.ok && decide (a.hi ≤ 0) && decide (0 < b.lo))
def neg (a : Iv) : Iv := ⟨-a.hi, -a.lo, a.ok⟩
/-- Conversion to `g`. -/
def conv (g : Fmt) (a : Iv) : Iv := rnd g a.lo a.hi a.ok

theorem pt_has {x : Fl f} {q : ℚ} (h : x.Is q) : (pt q).Has x := fun _ => ⟨q, h, le_refl _, le_refl _⟩

private theorem rnd_has {lo hi q : ℚ} {ok : Bool} (hk : (rnd f lo hi ok).ok = true) (h1 : lo ≤ q) (h2 : q ≤ hi) :
    f.Fits q ∧ (rnd f lo hi ok).lo ≤ f.rnd q ∧ f.rnd q ≤ (rnd f lo hi ok).hi := by
  simp only [rnd, Bool.and_eq_true, decide_eq_true_eq] at hk ⊢
  have r1 := f.rnd_mono h1
  have r2 := f.rnd_mono h2
  refine ⟨?_, r1, r2⟩
  unfold Fmt.Fits
  rw [abs_lt]
  exact ⟨lt_of_lt_of_le (abs_lt.mp hk.1.2).1 r1, lt_of_le_of_lt r2 (abs_lt.mp hk.2).2⟩

private theorem rnd_ok {lo hi : ℚ} {ok : Bool} (hk : (rnd f lo hi ok).ok = true) : ok = true := by
  simp only [rnd, Bool.and_eq_true] at hk
  exact hk.1.1

theorem add_has {a b : Iv} {x y : Fl f} (hx : a.Has x) (hy : b.Has y) : (add f a b).Has (x + y) := by
  intro hk
  have h0 := rnd_ok hk
  rw [Bool.and_eq_true] at h0
  obtain ⟨p, hp, p1, p2⟩ := hx h0.1
  obtain ⟨q, hq, q1, q2⟩ := hy h0.2
  obtain ⟨hf, l1, l2⟩ := rnd_has hk (q := p + q) (by linarith) (by linarith)
  exact ⟨_, hp.add hq hf, l1, l2⟩

theorem sub_has {a b : Iv} {x y : Fl f} (hx : a.Has x) (hy : b.Has y) : (sub f a b).Has (x - y) := by
  intro hk
  have h0 := rnd_ok hk
  rw [Bool.and_eq_true] at h0
  obtain ⟨p, hp, p1, p2⟩ := hx h0.1
  obtain ⟨q, hq, q1, q2⟩ := hy h0.2
  obtain ⟨hf, l1, l2⟩ := rnd_has hk (q := p - q) (by linarith) (by linarith)
  exact ⟨_, hp.sub hq hf, l1, l2⟩

theorem mul_has {a b : Iv} {x y : Fl f} (hx : a.Has x) (hy : b.Has y) : (mul f a b).Has (x * y) := by
  intro hk
  have h0 := rnd_ok hk
  simp only [Bool.and_eq_true, decide_eq_true_eq] at h0
  obtain ⟨p, hp, p1, p2⟩ := hx h0.1.1.1
  obtain ⟨q, hq, q1, q2⟩ := hy h0.1.1.2
  obtain ⟨hf, l1, l2⟩ := rnd_has hk (q := p * q) (mul_le_mul p1 q1 h0.2 (h0.1.2.trans p1))
    (mul_le_mul p2 q2 (h0.2.trans q1) (h0.1.2.trans (p1.trans p2)))
  exact ⟨_, hp.mul hq hf, l1, l2⟩

theorem div_has {a b : Iv} {x y : Fl f} (hx : a.Has x) (hy : b.Has y) : (div f a b).Has (x / y) := by
  intro hk
  have h0 := rnd_ok hk
  simp only [Bool.and_eq_true, decide_eq_true_eq] at h0
  obtain ⟨p, hp, p1, p2⟩ := hx h0.1.1.1
  obtain ⟨q, hq, q1, q2⟩ := hy h0.1.1.2
  have hq0 : 0 < q := lt_of_lt_of_le h0.2 q1
  obtain ⟨hf, l1, l2⟩ := rnd_has hk (q := p / q) (div_le_div₀ (h0.1.2.trans p1) p1 hq0 q2)
    (div_le_div₀ (h0.1.2.trans (p1.trans p2)) p2 h0.2 q1)
  exact ⟨_, hp.div hq hq0.ne' hf, l1, l2⟩

theorem muln_has {a b : Iv} {x y : Fl f} (hx : a.Has x) (hy : b.Has y) : (muln f a b).Has (x * y) := by
  intro hk
  have h0 := rnd_ok hk
  simp only [Bool.and_eq_true, decide_eq_true_eq] at h0
  obtain ⟨p, hp, p1, p2⟩ := hx h0.1.1.1
  obtain ⟨q, hq, q1, q2⟩ := hy h0.1.1.2
  have hp0 : p ≤ 0 := p2.trans h0.1.2
  obtain ⟨hf, l1, l2⟩ := rnd_has hk (q := p * q) (by nlinarith [h0.2]) (by nlinarith [h0.2])
  exact ⟨_, hp.mul hq hf, l1, l2⟩

theorem divn_has {a b : Iv} {x y : Fl f} (hx : a.Has x) (hy : b.Has y) : (divn f a b).Has (x / y) := by
  intro hk
  have h0 := rnd_ok hk
  simp only [Bool.and_eq_true, decide_eq_true_eq] at h0
  obtain ⟨p, hp, p1, p2⟩ := hx h0.1.1.1
  obtain ⟨q, hq, q1, q2⟩ := hy h0.1.1.2
  have hq0 : 0 < q := lt_of_lt_of_le h0.2 q1
  have hp0 : p ≤ 0 := p2.trans h0.1.2
  obtain ⟨hf, l1, l2⟩ := rnd_has hk (q := p / q)
    (by
      have := div_le_div₀ (neg_nonneg.mpr (p1.trans hp0)) (neg_le_neg p1) h0.2 q1
      rw [neg_div, neg_div] at this
      linarith)
    (by
      have := div_le_div₀ (neg_nonneg.mpr hp0) (neg_le_neg p2) hq0 q2
      rw [neg_div, neg_div] at this
      linarith)
  exact ⟨_, hp.div hq hq0.ne' hf, l1, l2⟩

theorem neg_has {a : Iv} {x : Fl f} (hx : a.Has x) : (neg a).Has (-x) := by
  intro hk
  obtain ⟨p, hp, p1, p2⟩ := hx hk
  exact ⟨_, hp.neg, neg_le_neg p2, neg_le_neg p1⟩

theorem down_has {a : Iv} {x : F64} (hx : a.Has x) : (conv b32 a).Has (SM.down x : F32) := by
  intro hk
  obtain ⟨p, hp, p1, p2⟩ := hx (rnd_ok hk)
  obtain ⟨hf, l1, l2⟩ := rnd_has hk p1 p2
  exact ⟨_, hp.down hf, l1, l2⟩

/-- Bounds that meet determine the number. -/
theorem Has.is {a : Iv} {x : Fl f} (h : a.Has x) {q : ℚ} (e : a = ⟨q, q, true⟩) : x.Is q := by
  subst e
  obtain ⟨p, hp, p1, p2⟩ := h rfl
  rwa [le_antisymm p2 p1] at hp

end Iv

/-- A nonzero number determines the float. -/
theorem Fl.Is.eq_lit {f : Fmt} {x : Fl f} {q : ℚ} (h : x.Is q) (h0 : q ≠ 0) : x = lit q := by
  have hl : (lit q : Fl f).Is q := Fl.lit_is_repr h.fits h.repr
  obtain ⟨s, hs, rfl⟩ := Fl.is_iff.mp h
  obtain ⟨t, ht, e⟩ := Fl.is_iff.mp hl
  rw [e]
  have : s = t := by
    rcases lt_or_gt_of_ne h0 with h | h
    · rw [hs.2.2.1 h, ht.2.2.1 h]
    · rw [hs.2.2.2 h, ht.2.2.2 h]
  subst this
  rfl
end Verif
