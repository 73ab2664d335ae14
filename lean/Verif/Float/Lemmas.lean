import Verif.Model.Arith
import Mathlib.Tactic.Linarith
import Mathlib.Tactic.NormNum
import Mathlib.Tactic.Positivity
import Mathlib.Algebra.Order.Floor.Ring

/-!
# Lemmas about `Fl`

`x.Is q` says that `x` is finite with rational value `q`; the lemmas below compute the value of
each operation as the rounding `f.rnd` of the exact result, provided it does not overflow
(`f.Fits`).
-/

namespace Verif

/-- Rounding `q` does not overflow. -/
def Fmt.Fits (f : Fmt) (q : ℚ) : Prop := |f.rnd q| < pow2 (f.emax + 1)

namespace Fmt
variable {f : Fmt}

theorem fits_of_le {q r : ℚ} (hr : f.Repr r) (hlt : r < pow2 (f.emax + 1)) (h : |q| ≤ r) :
    f.Fits q := by
  unfold Fits
  rw [f.abs_rnd]
  exact lt_of_le_of_lt (f.rnd_le_repr hr h) hlt

theorem fits_of_le_pow2 {q : ℚ} {k : ℤ} (h1 : f.emin ≤ k) (h2 : k ≤ f.emax) (h : |q| ≤ pow2 k) :
    f.Fits q :=
  fits_of_le (f.repr_pow2 h1) (pow2_lt (by omega)) h

theorem fits_of_repr {q : ℚ} (hq : f.Repr q) (h : |q| < pow2 (f.emax + 1)) : f.Fits q := by
  unfold Fits; rwa [f.rnd_of_repr hq]

theorem Fits.neg {q : ℚ} (h : f.Fits q) : f.Fits (-q) := by
  unfold Fits at *; rwa [f.rnd_neg, abs_neg]

theorem Fits.of_abs_le {q r : ℚ} (h : f.Fits r) (hq : |q| ≤ |r|) : f.Fits q := by
  unfold Fits at *
  rw [f.abs_rnd] at *
  exact lt_of_le_of_lt (f.rnd_mono hq) h

theorem fits32 {q : ℚ} (h : |q| ≤ 2 ^ 100) : b32.Fits q :=
  fits_of_le_pow2 (k := 100) (by decide) (by decide) (by rw [pow2_eq]; exact_mod_cast h)

theorem fits64 {q : ℚ} (h : |q| ≤ 2 ^ 1000) : b64.Fits q :=
  fits_of_le_pow2 (k := 1000) (by decide) (by decide) (by rw [pow2_eq]; exact_mod_cast h)

/-- Integers up to `2^p` in absolute value are exact. -/
theorem rnd_int {n : ℤ} (h : |n| ≤ 2 ^ f.p) : f.rnd n = n := f.rnd_of_repr (f.repr_int h)

theorem repr32_int {n : ℤ} (h : |n| ≤ 16777216) : b32.Repr n := b32.repr_int h
theorem repr64_int {n : ℤ} (h : |n| ≤ 9007199254740992) : b64.Repr n := b64.repr_int h

/-- A dyadic number with a small numerator is representable. -/
theorem repr_dyadic {q : ℚ} {m e : ℤ} (hq : q = m * pow2 e) (hm : |m| ≤ 2 ^ f.p) (he : f.emin ≤ e) :
    f.Repr q := ⟨m, e, hq, hm, he⟩

/-- `f32` values are `f64` values. -/
theorem repr64_of_repr32 {q : ℚ} (h : b32.Repr q) : b64.Repr q := by
  obtain ⟨m, e, rfl, hm, he⟩ := h
  exact ⟨m, e, rfl, hm.trans (by decide), le_trans (by decide) he⟩

/-- A representable number is an integer or has absolute value at most `2^(p-1)`. -/
theorem repr_int_or_small {q : ℚ} (h : f.Repr q) : (∃ n : ℤ, q = n) ∨ |q| ≤ 2 ^ f.p / 2 := by
  obtain ⟨m, e, rfl, hm, -⟩ := h
  by_cases he : 0 ≤ e
  · obtain ⟨k, hk, -⟩ := pow2_nonneg_int he
    exact .inl ⟨m * k, by rw [hk]; push_cast; ring⟩
  · right
    rw [abs_mul, abs_of_pos (pow2_pos e)]
    have h1 : pow2 e ≤ 1 / 2 := by
      have := pow2_le (show e ≤ -1 by omega)
      rw [pow2_eq (-1)] at this; norm_num at this ⊢; exact this
    have h2 : |(m : ℚ)| ≤ 2 ^ f.p := by exact_mod_cast hm
    have := mul_le_mul h2 h1 (pow2_pos e).le (by positivity)
    linarith

theorem repr_of_int_near {q : ℚ} (h : f.Repr q) {n : ℤ} (hn : |(n : ℚ) - q| ≤ 1)
    (hi : ∀ k : ℤ, q = k → n = k) : f.Repr n := by
  rcases repr_int_or_small h with ⟨k, hk⟩ | hs
  · rw [hi k hk, ← hk]; exact h
  · apply f.repr_int
    have h2 : |(n : ℚ)| ≤ 2 ^ f.p / 2 + 1 := by
      calc |(n : ℚ)| = |((n : ℚ) - q) + q| := by ring_nf
        _ ≤ |(n : ℚ) - q| + |q| := abs_add_le _ _
        _ ≤ _ := by linarith
    have hp : (2 : ℚ) ≤ 2 ^ f.p := by
      have : (2 : ℚ) ^ 1 ≤ 2 ^ f.p := pow_le_pow_right₀ (by norm_num) f.hp
      simpa using this
    have h3 : |(n : ℚ)| ≤ 2 ^ f.p := by linarith
    exact_mod_cast h3

end Fmt

namespace Fl
variable {f : Fmt}

/-! ## `Is` -/

theorem is_iff {x : Fl f} {q : ℚ} : x.Is q ↔ ∃ s h, x = .fin s q h := by
  cases x with
  | nan => simp [Is, toQ?]
  | inf s => simp [Is, toQ?]
  | fin s r h =>
    simp only [Is, toQ?, Option.some.injEq]
    constructor
    · rintro rfl; exact ⟨s, h, rfl⟩
    · rintro ⟨s', h', he⟩; injection he

theorem is_fin (s : Bool) (q : ℚ) (h : f.Ok s q) : (Fl.fin s q h : Fl f).Is q := rfl

theorem Is.unique {x : Fl f} {a b : ℚ} (h1 : x.Is a) (h2 : x.Is b) : a = b := by
  unfold Is at *; rw [h1] at h2; exact Option.some.inj h2

theorem Is.repr {x : Fl f} {q : ℚ} (h : x.Is q) : f.Repr q := by
  obtain ⟨s, h', rfl⟩ := is_iff.mp h; exact h'.1

theorem Is.abs_lt {x : Fl f} {q : ℚ} (h : x.Is q) : |q| < pow2 (f.emax + 1) := by
  obtain ⟨s, h', rfl⟩ := is_iff.mp h; exact h'.2.1

theorem Is.fits {x : Fl f} {q : ℚ} (h : x.Is q) : f.Fits q := Fmt.fits_of_repr h.repr h.abs_lt

theorem Is.rnd {x : Fl f} {q : ℚ} (h : x.Is q) : f.rnd q = q := f.rnd_of_repr h.repr

theorem Is.finite {x : Fl f} {q : ℚ} (h : x.Is q) : x.Finite := ⟨q, h⟩

theorem ofQ_is {q : ℚ} (z : Bool) (h : f.Fits q) : (ofQ z q : Fl f).Is (f.rnd q) := by
  unfold ofQ; unfold Fmt.Fits at h; rw [dif_pos h]; rfl

theorem ofQ_is_repr {q : ℚ} (z : Bool) (h : f.Fits q) (hr : f.Repr q) : (ofQ z q : Fl f).Is q := by
  have := ofQ_is z h; rwa [f.rnd_of_repr hr] at this

theorem ofQ_not_fits {q : ℚ} (z : Bool) (h : ¬ f.Fits q) :
    (ofQ z q : Fl f) = .inf (decide (q < 0)) := by
  unfold ofQ; unfold Fmt.Fits at h; rw [dif_neg h]

theorem lit_is {q : ℚ} (h : f.Fits q) : (lit q : Fl f).Is (f.rnd q) := ofQ_is false h

theorem lit_is_repr {q : ℚ} (h : f.Fits q) (hr : f.Repr q) : (lit q : Fl f).Is q :=
  ofQ_is_repr false h hr

theorem Is.add {x y : Fl f} {a b : ℚ} (hx : x.Is a) (hy : y.Is b) (h : f.Fits (a + b)) :
    (x + y).Is (f.rnd (a + b)) := by
  obtain ⟨s, hs, rfl⟩ := is_iff.mp hx
  obtain ⟨t, ht, rfl⟩ := is_iff.mp hy
  exact ofQ_is _ h

theorem Is.neg {x : Fl f} {a : ℚ} (hx : x.Is a) : (-x).Is (-a) := by
  obtain ⟨s, hs, rfl⟩ := is_iff.mp hx
  rfl

theorem Is.sub {x y : Fl f} {a b : ℚ} (hx : x.Is a) (hy : y.Is b) (h : f.Fits (a - b)) :
    (x - y).Is (f.rnd (a - b)) := by
  rw [sub_eq_add_neg] at *
  exact Is.add hx (Is.neg hy) h

theorem Is.mul {x y : Fl f} {a b : ℚ} (hx : x.Is a) (hy : y.Is b) (h : f.Fits (a * b)) :
    (x * y).Is (f.rnd (a * b)) := by
  obtain ⟨s, hs, rfl⟩ := is_iff.mp hx
  obtain ⟨t, ht, rfl⟩ := is_iff.mp hy
  exact ofQ_is _ h

theorem Is.div {x y : Fl f} {a b : ℚ} (hx : x.Is a) (hy : y.Is b) (hb : b ≠ 0)
    (h : f.Fits (a / b)) : (x / y).Is (f.rnd (a / b)) := by
  obtain ⟨s, hs, rfl⟩ := is_iff.mp hx
  obtain ⟨t, ht, rfl⟩ := is_iff.mp hy
  have : (Fl.fin s a hs / Fl.fin t b ht : Fl f) = ofQ (xor s t) (a / b) := by
    show Fl.div _ _ = _
    simp [Fl.div, hb]
  rw [this]
  exact ofQ_is _ h

theorem Is.abs {x : Fl f} {a : ℚ} (hx : x.Is a) : (Flt.abs x).Is |a| := by
  obtain ⟨s, hs, rfl⟩ := is_iff.mp hx
  rfl

theorem Is.conv {g : Fmt} {x : Fl f} {a : ℚ} (hx : x.Is a) (h : g.Fits a) :
    (Fl.conv x : Fl g).Is (g.rnd a) := by
  obtain ⟨s, hs, rfl⟩ := is_iff.mp hx
  exact ofQ_is _ h

theorem Is.lt {x y : Fl f} {a b : ℚ} (hx : x.Is a) (hy : y.Is b) : (x <? y) = decide (a < b) := by
  obtain ⟨s, hs, rfl⟩ := is_iff.mp hx
  obtain ⟨t, ht, rfl⟩ := is_iff.mp hy
  rfl

theorem Is.le {x y : Fl f} {a b : ℚ} (hx : x.Is a) (hy : y.Is b) : (x ≤? y) = decide (a ≤ b) := by
  obtain ⟨s, hs, rfl⟩ := is_iff.mp hx
  obtain ⟨t, ht, rfl⟩ := is_iff.mp hy
  rfl

theorem Is.toInt {x : Fl f} {a : ℚ} (hx : x.Is a) (lo hi : ℤ) :
    Flt.toInt lo hi x = max lo (min hi (truncQ a)) := by
  obtain ⟨s, hs, rfl⟩ := is_iff.mp hx
  rfl

/-! ## Integer-valued roundings -/

theorem rat_floor (q : ℚ) : q.floor = ⌊q⌋ := rfl
theorem rat_ceil (q : ℚ) : q.ceil = ⌈q⌉ := by
  rw [Rat.ceil_eq_neg_floor_neg, rat_floor, Int.floor_neg, neg_neg]

theorem truncQ_def (q : ℚ) : truncQ q = if q < 0 then ⌈q⌉ else ⌊q⌋ := by
  unfold truncQ; rw [rat_floor, rat_ceil]

theorem roundAwayQ_def (q : ℚ) : roundAwayQ q = if q < 0 then -⌊-q + 1 / 2⌋ else ⌊q + 1 / 2⌋ := by
  unfold roundAwayQ; rw [rat_floor, rat_floor]

theorem truncQ_int (n : ℤ) : truncQ n = n := by
  rw [truncQ_def]
  split
  · exact Int.ceil_intCast n
  · exact Int.floor_intCast n

theorem roundAwayQ_int (n : ℤ) : roundAwayQ n = n := by
  rw [roundAwayQ_def]
  have e : ∀ k : ℤ, ⌊(k : ℚ) + 1 / 2⌋ = k := fun k => by
    rw [Int.floor_eq_iff]; constructor <;> norm_num
  split
  · rw [← Int.cast_neg, e]; ring
  · exact e n

theorem truncQ_of_nonneg {q : ℚ} (h : 0 ≤ q) : truncQ q = ⌊q⌋ := by
  rw [truncQ_def]; rw [if_neg (not_lt.mpr h)]

theorem truncQ_nonneg {q : ℚ} (h : 0 ≤ q) : 0 ≤ truncQ q := by
  rw [truncQ_of_nonneg h]; exact Int.floor_nonneg.mpr h

theorem truncQ_le {q : ℚ} (h : 0 ≤ q) : (truncQ q : ℚ) ≤ q := by
  rw [truncQ_of_nonneg h]; exact Int.floor_le q

theorem lt_truncQ_add_one {q : ℚ} (h : 0 ≤ q) : q < truncQ q + 1 := by
  rw [truncQ_of_nonneg h]; exact Int.lt_floor_add_one q

theorem truncQ_nonpos {q : ℚ} (h : q ≤ 0) : truncQ q ≤ 0 := by
  rw [truncQ_def]
  split
  · show ⌈q⌉ ≤ 0
    exact Int.ceil_le.mpr (by simpa using h)
  · have : q = 0 := le_antisymm h (not_lt.mp ‹_›)
    subst this; show ⌊(0 : ℚ)⌋ ≤ 0; simp

theorem abs_truncQ_sub_lt (q : ℚ) : |(truncQ q : ℚ) - q| < 1 := by
  rw [truncQ_def]
  split
  · have h1 := Int.le_ceil q
    have h2 := Int.ceil_lt_add_one q
    rw [abs_lt]; constructor <;> linarith
  · have h1 := Int.floor_le q
    have h2 := Int.lt_floor_add_one q
    rw [abs_lt]; constructor <;> linarith

theorem abs_roundAwayQ_sub_le (q : ℚ) : |(roundAwayQ q : ℚ) - q| ≤ 1 / 2 := by
  rw [roundAwayQ_def]
  split
  · have h1 := Int.floor_le (-q + 1 / 2)
    have h2 := Int.lt_floor_add_one (-q + 1 / 2)
    show |((-⌊-q + 1 / 2⌋ : ℤ) : ℚ) - q| ≤ 1 / 2
    push_cast
    rw [abs_le]; constructor <;> linarith
  · have h1 := Int.floor_le (q + 1 / 2)
    have h2 := Int.lt_floor_add_one (q + 1 / 2)
    show |(⌊q + 1 / 2⌋ : ℚ) - q| ≤ 1 / 2
    rw [abs_le]; constructor <;> linarith

theorem roundAwayQ_eq_of_abs_lt {q : ℚ} {n : ℤ} (h : |q - n| < 1 / 2) : roundAwayQ q = n := by
  have h1 := abs_roundAwayQ_sub_le q
  have h2 : |((roundAwayQ q - n : ℤ) : ℚ)| < 1 := by
    push_cast
    calc |(roundAwayQ q : ℚ) - n| = |((roundAwayQ q : ℚ) - q) + (q - n)| := by ring_nf
      _ ≤ _ := abs_add_le _ _
      _ < 1 := by linarith
  have h3 : |roundAwayQ q - n| < 1 := by exact_mod_cast h2
  rw [abs_lt] at h3; omega

theorem truncQ_mono {a b : ℚ} (h : a ≤ b) : truncQ a ≤ truncQ b := by
  by_cases hb : b < 0
  · rw [truncQ_def, truncQ_def, if_pos hb, if_pos (lt_of_le_of_lt h hb)]
    exact Int.ceil_le_ceil h
  · by_cases ha : a < 0
    · exact (truncQ_nonpos ha.le).trans (truncQ_nonneg (not_lt.mp hb))
    · rw [truncQ_of_nonneg (not_lt.mp ha), truncQ_of_nonneg (not_lt.mp hb)]
      exact Int.floor_le_floor h

theorem roundAwayQ_mono {a b : ℚ} (h : a ≤ b) : roundAwayQ a ≤ roundAwayQ b := by
  rw [roundAwayQ_def, roundAwayQ_def]
  by_cases hb : b < 0
  · rw [if_pos hb, if_pos (lt_of_le_of_lt h hb)]
    have : ⌊-b + 1 / 2⌋ ≤ ⌊-a + 1 / 2⌋ := Int.floor_le_floor (by linarith)
    show -⌊-a + 1 / 2⌋ ≤ -⌊-b + 1 / 2⌋
    omega
  · by_cases ha : a < 0
    · rw [if_neg hb, if_pos ha]
      have h1 : 0 ≤ ⌊-a + 1 / 2⌋ := Int.floor_nonneg.mpr (by linarith)
      have h2 : 0 ≤ ⌊b + 1 / 2⌋ := Int.floor_nonneg.mpr (by linarith [not_lt.mp hb])
      show -⌊-a + 1 / 2⌋ ≤ ⌊b + 1 / 2⌋
      omega
    · rw [if_neg hb, if_neg ha]
      exact Int.floor_le_floor (by linarith)

theorem Is.floor {x : Fl f} {a : ℚ} (hx : x.Is a) (h : f.Fits ⌊a⌋) : (Flt.floor x).Is ⌊a⌋ := by
  obtain ⟨s, hs, rfl⟩ := is_iff.mp hx
  refine ofQ_is_repr (q := (⌊a⌋ : ℚ)) _ h ?_
  refine Fmt.repr_of_int_near hs.1 ?_ ?_
  · have h1 := Int.floor_le a
    have h2 := Int.lt_floor_add_one a
    rw [abs_le]; constructor <;> linarith
  · rintro k rfl; exact Int.floor_intCast k

theorem Is.trunc {x : Fl f} {a : ℚ} (hx : x.Is a) : (Flt.trunc x).Is (truncQ a) := by
  have hr : f.Repr (truncQ a) := by
    refine Fmt.repr_of_int_near hx.repr (abs_truncQ_sub_lt a).le ?_
    rintro k rfl; exact truncQ_int k
  have ha : |(truncQ a : ℚ)| ≤ |a| := by
    rcases le_total 0 a with h | h
    · rw [abs_of_nonneg h, abs_of_nonneg (by exact_mod_cast truncQ_nonneg h)]; exact truncQ_le h
    · have h0 : truncQ a ≤ 0 := truncQ_nonpos h
      have h0' : (truncQ a : ℚ) ≤ 0 := by exact_mod_cast h0
      rw [abs_of_nonpos h, abs_of_nonpos h0']
      rcases h.lt_or_eq with h1 | h1
      · have : truncQ a = ⌈a⌉ := by rw [truncQ_def]; rw [if_pos h1]
        rw [this]; linarith [Int.le_ceil a]
      · subst h1; have := truncQ_int 0; simp at this; simp [this]
  obtain ⟨s, hs, rfl⟩ := is_iff.mp hx
  exact ofQ_is_repr _ (Fmt.fits_of_repr hr (lt_of_le_of_lt ha hs.2.1)) hr

theorem Is.round {x : Fl f} {a : ℚ} (hx : x.Is a) (h : f.Fits (roundAwayQ a)) :
    (Flt.round x).Is (roundAwayQ a) := by
  obtain ⟨s, hs, rfl⟩ := is_iff.mp hx
  refine ofQ_is_repr _ h ?_
  refine Fmt.repr_of_int_near hs.1 ((abs_roundAwayQ_sub_le a).trans (by norm_num)) ?_
  rintro k rfl; exact roundAwayQ_int k

/-! ## Bounds -/

/-- `x` is finite and its value is in `[lo, hi]`. -/
def In (x : Fl f) (lo hi : ℚ) : Prop := ∃ q, x.Is q ∧ lo ≤ q ∧ q ≤ hi

theorem Is.in' {x : Fl f} {q lo hi : ℚ} (h : x.Is q) (h1 : lo ≤ q) (h2 : q ≤ hi) : x.In lo hi :=
  ⟨q, h, h1, h2⟩

theorem In.mono {x : Fl f} {a b c d : ℚ} (h : x.In a b) (h1 : c ≤ a) (h2 : b ≤ d) : x.In c d := by
  obtain ⟨q, hq, ha, hb⟩ := h
  exact ⟨q, hq, h1.trans ha, hb.trans h2⟩

theorem rnd_in {q lo hi : ℚ} (h1 : lo ≤ q) (h2 : q ≤ hi) (hl : f.Repr lo) (hh : f.Repr hi) :
    lo ≤ f.rnd q ∧ f.rnd q ≤ hi := ⟨f.repr_le_rnd hl h1, f.rnd_le_repr hh h2⟩

/-- The cast `f32 as f64` is exact. -/
theorem Is.up {x : F32} {a : ℚ} (hx : x.Is a) : (SM.up x : F64).Is a := by
  have hr := Fmt.repr64_of_repr32 hx.repr
  have hf : b64.Fits a := Fmt.fits_of_repr hr (hx.abs_lt.trans (pow2_lt (by decide)))
  have := Is.conv hx hf
  rwa [b64.rnd_of_repr hr] at this

theorem Is.down {x : F64} {a : ℚ} (hx : x.Is a) (h : b32.Fits a) : (SM.down x : F32).Is (b32.rnd a) :=
  Is.conv hx h

theorem down_nan : (SM.down (.nan : F64) : F32) = .nan := rfl
theorem down_inf (s : Bool) : (SM.down (.inf s : F64) : F32) = .inf s := rfl
theorem up_nan : (SM.up (.nan : F32) : F64) = .nan := rfl
theorem up_inf (s : Bool) : (SM.up (.inf s : F32) : F64) = .inf s := rfl

end Fl
end Verif
