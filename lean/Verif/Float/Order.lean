import Verif.Float.Lemmas

/-!
# Order on `Fl`

`x ≤? y` is Rust's `<=`; when it is true neither argument is NaN. The operations below are monotone
for it, overflow to infinity included.
-/

namespace Verif
namespace Fl
variable {f : Fmt}

theorem le_nan_left (y : Fl f) : ((.nan : Fl f) ≤? y) = false := rfl
theorem le_nan_right (x : Fl f) : (x ≤? (.nan : Fl f)) = false := by cases x <;> rfl
theorem lt_nan_left (y : Fl f) : ((.nan : Fl f) <? y) = false := rfl
theorem lt_nan_right (x : Fl f) : (x <? (.nan : Fl f)) = false := by cases x <;> rfl

/-- The three kinds of data that are not NaN. -/
theorem cases_notNaN {x : Fl f} (h : x ≠ .nan) : x = .inf true ∨ x = .inf false ∨ ∃ q, x.Is q := by
  cases x with
  | nan => exact absurd rfl h
  | inf s => cases s <;> simp
  | fin s q hq => exact .inr (.inr ⟨q, rfl⟩)

theorem le_refl_of {x : Fl f} (h : x ≠ .nan) : (x ≤? x) = true := by
  cases x with
  | nan => exact absurd rfl h
  | inf s => cases s <;> rfl
  | fin s q hq => rw [Is.le (is_fin s q hq) (is_fin s q hq)]; simp

theorem ne_nan_of_le_left {x y : Fl f} (h : (x ≤? y) = true) : x ≠ .nan := by
  rintro rfl; rw [le_nan_left] at h; exact absurd h (by decide)
theorem ne_nan_of_le_right {x y : Fl f} (h : (x ≤? y) = true) : y ≠ .nan := by
  rintro rfl; rw [le_nan_right] at h; exact absurd h (by decide)

theorem neg_inf_le {x : Fl f} (h : x ≠ .nan) : ((.inf true : Fl f) ≤? x) = true := by
  cases x with
  | nan => exact absurd rfl h
  | inf s => rfl
  | fin s q hq => rfl

theorem le_pos_inf {x : Fl f} (h : x ≠ .nan) : (x ≤? (.inf false : Fl f)) = true := by
  cases x with
  | nan => exact absurd rfl h
  | inf s => cases s <;> rfl
  | fin s q hq => rfl

theorem le_trans' {x y z : Fl f} (h1 : (x ≤? y) = true) (h2 : (y ≤? z) = true) : (x ≤? z) = true := by
  rcases x with _ | s | ⟨s, a, ha⟩ <;> rcases y with _ | t | ⟨t, b, hb⟩ <;>
    rcases z with _ | u | ⟨u, c, hc⟩ <;> simp_all [Flt.le, Fl.le]
  all_goals first | linarith | skip
  all_goals (rcases h1 with rfl | rfl <;> simp_all)

theorem lt_of_not_le {x y : Fl f} (hx : x ≠ .nan) (hy : y ≠ .nan) (h : (x ≤? y) = false) :
    (y <? x) = true := by
  rcases x with _ | s | ⟨s, a, ha⟩ <;> rcases y with _ | t | ⟨t, b, hb⟩ <;>
    simp_all [Flt.le, Fl.le, Flt.lt, Fl.lt]

theorem le_of_lt' {x y : Fl f} (h : (x <? y) = true) : (x ≤? y) = true := by
  rcases x with _ | s | ⟨s, a, ha⟩ <;> rcases y with _ | t | ⟨t, b, hb⟩ <;>
    simp_all [Flt.le, Fl.le, Flt.lt, Fl.lt]
  linarith

theorem le_of_not_lt {x y : Fl f} (hx : x ≠ .nan) (hy : y ≠ .nan) (h : (x <? y) = false) :
    (y ≤? x) = true := by
  rcases x with _ | s | ⟨s, a, ha⟩ <;> rcases y with _ | t | ⟨t, b, hb⟩ <;>
    simp_all [Flt.le, Fl.le, Flt.lt, Fl.lt]
  cases s <;> simp_all

theorem ofQ_ne_nan (z : Bool) (q : ℚ) : (ofQ z q : Fl f) ≠ .nan := by
  unfold ofQ; split <;> simp

theorem ofQ_le {p q : ℚ} (z z' : Bool) (h : p ≤ q) : ((ofQ z p : Fl f) ≤? (ofQ z' q : Fl f)) = true := by
  by_cases hp : f.Fits p
  · by_cases hq : f.Fits q
    · rw [Is.le (ofQ_is z hp) (ofQ_is z' hq)]
      exact decide_eq_true (f.rnd_mono h)
    · rw [ofQ_not_fits z' hq]
      have : ¬ q < 0 := fun h0 => hq (hp.of_abs_le (by
        rw [abs_of_neg h0, abs_of_neg (lt_of_le_of_lt h h0)]; linarith))
      rw [decide_eq_false this]
      exact le_pos_inf (ofQ_ne_nan _ _)
  · rw [ofQ_not_fits z hp]
    by_cases h0 : p < 0
    · rw [decide_eq_true h0]; exact neg_inf_le (ofQ_ne_nan _ _)
    · have hq : ¬ f.Fits q := fun hq => hp (hq.of_abs_le (by
        rw [abs_of_nonneg (not_lt.mp h0), abs_of_nonneg ((not_lt.mp h0).trans h)]; exact h))
      rw [decide_eq_false h0, ofQ_not_fits z' hq, decide_eq_false (not_lt.mpr ((not_lt.mp h0).trans h))]
      rfl

/-! ## Values of the operations on infinities -/

theorem add_fin (s t : Bool) (a b : ℚ) (ha : f.Ok s a) (hb : f.Ok t b) :
    (Fl.fin s a ha + Fl.fin t b hb : Fl f) = ofQ (s && t) (a + b) := rfl
theorem mul_fin (s t : Bool) (a b : ℚ) (ha : f.Ok s a) (hb : f.Ok t b) :
    (Fl.fin s a ha * Fl.fin t b hb : Fl f) = ofQ (xor s t) (a * b) := rfl

theorem inf_add {s : Bool} {y : Fl f} {b : ℚ} (hy : y.Is b) : (Fl.inf s + y : Fl f) = .inf s := by
  obtain ⟨t, ht, rfl⟩ := is_iff.mp hy; rfl
theorem add_inf {s : Bool} {y : Fl f} {b : ℚ} (hy : y.Is b) : (y + Fl.inf s : Fl f) = .inf s := by
  obtain ⟨t, ht, rfl⟩ := is_iff.mp hy; rfl

theorem Is.sign_pos {x : Fl f} {q : ℚ} (h : x.Is q) (hq : 0 < q) : ∃ h', x = .fin false q h' := by
  obtain ⟨s, hs, rfl⟩ := is_iff.mp h
  obtain rfl := hs.2.2.2 hq
  exact ⟨hs, rfl⟩

theorem inf_mul_pos {s : Bool} {y : Fl f} {b : ℚ} (hy : y.Is b) (hb : 0 < b) :
    (Fl.inf s * y : Fl f) = .inf s := by
  obtain ⟨h', rfl⟩ := hy.sign_pos hb
  show Fl.mul _ _ = _
  simp [Fl.mul, hb.ne']

theorem nan_add (y : Fl f) : (Fl.nan + y : Fl f) = .nan := rfl
theorem add_nan (y : Fl f) : (y + Fl.nan : Fl f) = .nan := by cases y <;> rfl
theorem nan_mul (y : Fl f) : (Fl.nan * y : Fl f) = .nan := rfl
theorem mul_nan (y : Fl f) : (y * Fl.nan : Fl f) = .nan := by cases y <;> rfl

/-! ## Monotonicity -/

theorem add_le_add_const {x y c : Fl f} {q : ℚ} (h : (x ≤? y) = true) (hc : c.Is q) :
    (x + c ≤? y + c) = true := by
  obtain ⟨t, ht, rfl⟩ := is_iff.mp hc
  have hx := ne_nan_of_le_left h
  have hy := ne_nan_of_le_right h
  rcases x with _ | s | ⟨s, a, ha⟩
  · exact absurd rfl hx
  · rw [inf_add hc]
    rcases y with _ | s' | ⟨s', b, hb⟩
    · exact absurd rfl hy
    · rw [inf_add hc]; exact h
    · have : s = true := h
      subst this
      exact neg_inf_le (by rw [add_fin]; exact ofQ_ne_nan _ _)
  · rcases y with _ | s' | ⟨s', b, hb⟩
    · exact absurd rfl hy
    · rw [inf_add hc]
      have : (!s') = true := h
      simp at this; subst this
      exact le_pos_inf (by rw [add_fin]; exact ofQ_ne_nan _ _)
    · rw [Is.le (is_fin s a ha) (is_fin s' b hb), decide_eq_true_iff] at h
      rw [add_fin, add_fin]
      exact ofQ_le _ _ (by linarith)

theorem mul_le_mul_const {x y c : Fl f} {q : ℚ} (h : (x ≤? y) = true) (hc : c.Is q) (hq : 0 < q) :
    (x * c ≤? y * c) = true := by
  have hc' := hc
  obtain ⟨ht, rfl⟩ := hc.sign_pos hq
  have hx := ne_nan_of_le_left h
  have hy := ne_nan_of_le_right h
  rcases x with _ | s | ⟨s, a, ha⟩
  · exact absurd rfl hx
  · rw [inf_mul_pos hc' hq]
    rcases y with _ | s' | ⟨s', b, hb⟩
    · exact absurd rfl hy
    · rw [inf_mul_pos hc' hq]; exact h
    · have : s = true := h
      subst this
      exact neg_inf_le (by rw [mul_fin]; exact ofQ_ne_nan _ _)
  · rcases y with _ | s' | ⟨s', b, hb⟩
    · exact absurd rfl hy
    · rw [inf_mul_pos hc' hq]
      have : (!s') = true := h
      simp at this; subst this
      exact le_pos_inf (by rw [mul_fin]; exact ofQ_ne_nan _ _)
    · rw [Is.le (is_fin s a ha) (is_fin s' b hb), decide_eq_true_iff] at h
      rw [mul_fin, mul_fin]
      exact ofQ_le _ _ (mul_le_mul_of_nonneg_right h hq.le)

theorem round_le_round {x y : Fl f} (h : (x ≤? y) = true) : (Flt.round x ≤? Flt.round y) = true := by
  have hx := ne_nan_of_le_left h
  have hy := ne_nan_of_le_right h
  rcases x with _ | s | ⟨s, a, ha⟩
  · exact absurd rfl hx
  · rcases y with _ | s' | ⟨s', b, hb⟩
    · exact absurd rfl hy
    · exact h
    · have : s = true := h
      subst this
      exact neg_inf_le (ofQ_ne_nan _ _)
  · rcases y with _ | s' | ⟨s', b, hb⟩
    · exact absurd rfl hy
    · have : (!s') = true := h
      simp at this; subst this
      exact le_pos_inf (ofQ_ne_nan _ _)
    · rw [Is.le (is_fin s a ha) (is_fin s' b hb), decide_eq_true_iff] at h
      exact ofQ_le _ _ (by exact_mod_cast roundAwayQ_mono h)

theorem toInt_mono {x y : Fl f} {lo hi : ℤ} (hl : lo ≤ hi) (h : (x ≤? y) = true) :
    Flt.toInt lo hi x ≤ Flt.toInt lo hi y := by
  rcases x with _ | s | ⟨s, a, ha⟩ <;> rcases y with _ | s' | ⟨s', b, hb⟩
  · exact absurd h (by rw [le_nan_left]; decide)
  · exact absurd h (by rw [le_nan_left]; decide)
  · exact absurd h (by rw [le_nan_left]; decide)
  · exact absurd h (by rw [le_nan_right]; decide)
  · cases s <;> cases s' <;> simp_all [Flt.toInt, Fl.toInt, Flt.le, Fl.le]
  · have : s = true := h
    subst this
    exact le_max_left _ _
  · exact absurd h (by rw [le_nan_right]; decide)
  · have : (!s') = true := h
    simp at this; subst this
    show max lo (min hi (truncQ a)) ≤ hi
    omega
  · rw [Is.le (is_fin s a ha) (is_fin s' b hb), decide_eq_true_iff] at h
    have := truncQ_mono h
    show max lo (min hi (truncQ a)) ≤ max lo (min hi (truncQ b))
    omega

theorem toInt_mem {lo hi : ℤ} (h0 : lo ≤ 0) (h1 : 0 ≤ hi) (x : Fl f) :
    lo ≤ Flt.toInt lo hi x ∧ Flt.toInt lo hi x ≤ hi := by
  rcases x with _ | s | ⟨s, a, ha⟩
  · exact ⟨h0, h1⟩
  · cases s
    · exact ⟨h0.trans h1, le_refl _⟩
    · exact ⟨le_refl _, h0.trans h1⟩
  · show lo ≤ max lo (min hi (truncQ a)) ∧ max lo (min hi (truncQ a)) ≤ hi
    omega

/-! ## Rounding to an integer never overflows -/

theorem fits_round {x : Fl f} {a : ℚ} (hp : (f.p : ℤ) ≤ f.emax) (hx : x.Is a) :
    f.Fits (roundAwayQ a) := by
  rcases Fmt.repr_int_or_small hx.repr with ⟨n, rfl⟩ | hs
  · rw [roundAwayQ_int]; exact hx.fits
  · refine Fmt.fits_of_le_pow2 (k := f.p) (by have := f.hz; omega) hp ?_
    have h1 := abs_roundAwayQ_sub_le a
    have h2 : |(roundAwayQ a : ℚ)| ≤ 1 / 2 + |a| := by
      calc |(roundAwayQ a : ℚ)| = |((roundAwayQ a : ℚ) - a) + a| := by ring_nf
        _ ≤ _ := abs_add_le _ _
        _ ≤ _ := by linarith
    have hp2 : (2 : ℚ) ≤ 2 ^ f.p := by
      have : (2 : ℚ) ^ 1 ≤ 2 ^ f.p := pow_le_pow_right₀ (by norm_num) f.hp
      simpa using this
    rw [pow2_nat]; push_cast
    linarith

theorem Is.round32 {x : F32} {a : ℚ} (hx : x.Is a) : (Flt.round x).Is (roundAwayQ a) :=
  hx.round (fits_round (by decide) hx)
theorem Is.round64 {x : F64} {a : ℚ} (hx : x.Is a) : (Flt.round x).Is (roundAwayQ a) :=
  hx.round (fits_round (by decide) hx)

end Fl
end Verif
