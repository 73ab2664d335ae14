import Mathlib.Data.Rat.Floor
import Mathlib.Algebra.Order.Floor.Ring
import Mathlib.Tactic.Linarith
import Mathlib.Tactic.Ring
import Mathlib.Tactic.FieldSimp
import Mathlib.Tactic.Positivity
import Mathlib.Tactic.NormNum

/-!
# Round-to-nearest-even on the rationals

The value-level definition of IEEE-754 rounding: a binary format is a precision `p` and the
exponent `emin` of its smallest subnormal; rounding a rational `q` means scaling by the unit in
the last place of `q`, rounding to an integer (ties to even) and scaling back.
-/

namespace Verif

/-- Integer power of two as a rational, in a form the kernel evaluates quickly. -/
def pow2 : ℤ → ℚ
  | Int.ofNat n => ((2 ^ n : ℕ) : ℚ)
  | Int.negSucc n => mkRat 1 (2 ^ (n + 1))

/-- Round to nearest integer, ties to even (IEEE-754 roundTiesToEven, on the scaled significand). -/
def rne (x : ℚ) : ℤ :=
  let f := x.floor
  let r := x - f
  if r < 1 / 2 then f
  else if 1 / 2 < r then f + 1
  else if f % 2 = 0 then f else f + 1

/-- Binary exponent of a nonzero rational: the `e` with `2^e ≤ |q| < 2^(e+1)`. -/
def ilog2 (q : ℚ) : ℤ :=
  let n := q.num.natAbs
  let e : ℤ := (n.log2 : ℤ) - (q.den.log2 : ℤ)
  if (n : ℚ) < pow2 e * q.den then e - 1 else e

/-- A binary interchange format: precision (with hidden bit), exponent of the smallest subnormal,
largest exponent of a finite number. -/
structure Fmt where
  /-- precision in bits, including the hidden bit -/
  p : ℕ
  /-- exponent of the least significant bit of a subnormal -/
  emin : ℤ
  /-- exponent of the most significant bit of the largest finite number -/
  emax : ℤ
  hp : 1 ≤ p
  hemin : emin + p ≤ emax
  hz : emin ≤ 0

/-- IEEE-754 binary32 (`f32`). -/
def b32 : Fmt := ⟨24, -149, 127, by decide, by decide, by decide⟩
/-- IEEE-754 binary64 (`f64`). -/
def b64 : Fmt := ⟨53, -1074, 1023, by decide, by decide, by decide⟩

/-- Exponent of the unit in the last place used when rounding `q`. -/
def Fmt.ue (f : Fmt) (q : ℚ) : ℤ := max (ilog2 q - (f.p - 1)) f.emin

/-- Round a rational to the nearest representable one, ties to even, ignoring overflow. -/
def Fmt.rnd (f : Fmt) (q : ℚ) : ℚ := rne (q * pow2 (-(f.ue q))) * pow2 (f.ue q)

/-- Representable with this precision and minimal exponent (ignoring overflow). -/
def Fmt.Repr (f : Fmt) (q : ℚ) : Prop := ∃ m e : ℤ, q = m * pow2 e ∧ |m| ≤ 2 ^ f.p ∧ f.emin ≤ e

/-! ## powers of two -/

theorem pow2_eq (e : ℤ) : pow2 e = (2 : ℚ) ^ e := by
  cases e with
  | ofNat n => simp [pow2]
  | negSucc n =>
    simp only [pow2, zpow_negSucc, Rat.mkRat_eq_div]
    push_cast
    rw [one_div]

theorem pow2_pos (e : ℤ) : 0 < pow2 e := by rw [pow2_eq]; exact zpow_pos (by norm_num) e

theorem pow2_ne (e : ℤ) : pow2 e ≠ 0 := (pow2_pos e).ne'

theorem pow2_add (a b : ℤ) : pow2 (a + b) = pow2 a * pow2 b := by
  simp only [pow2_eq]; rw [zpow_add₀ (by norm_num)]

theorem pow2_neg (a : ℤ) : pow2 (-a) = (pow2 a)⁻¹ := by
  simp only [pow2_eq]; rw [zpow_neg]

theorem pow2_mul_neg (a : ℤ) : pow2 a * pow2 (-a) = 1 := by
  rw [pow2_neg]; exact mul_inv_cancel₀ (pow2_ne a)

theorem pow2_neg_mul (a : ℤ) : pow2 (-a) * pow2 a = 1 := by
  rw [mul_comm]; exact pow2_mul_neg a

theorem pow2_le {a b : ℤ} (h : a ≤ b) : pow2 a ≤ pow2 b := by
  simp only [pow2_eq]; exact zpow_le_zpow_right₀ (by norm_num) h

theorem pow2_lt {a b : ℤ} (h : a < b) : pow2 a < pow2 b := by
  simp only [pow2_eq]; exact zpow_lt_zpow_right₀ (by norm_num) h

theorem pow2_le_iff {a b : ℤ} : pow2 a ≤ pow2 b ↔ a ≤ b := by
  constructor
  · intro h; by_contra hc; exact absurd h (not_le.mpr (pow2_lt (not_le.mp hc)))
  · exact pow2_le

theorem pow2_lt_iff {a b : ℤ} : pow2 a < pow2 b ↔ a < b := by
  rw [← not_le, ← not_le, pow2_le_iff]

@[simp] theorem pow2_zero : pow2 0 = 1 := by rw [pow2_eq]; norm_num

theorem pow2_one : pow2 1 = 2 := by rw [pow2_eq]; norm_num

theorem pow2_nat (n : ℕ) : pow2 n = ((2 ^ n : ℤ) : ℚ) := by
  rw [pow2_eq]; push_cast; rw [zpow_natCast]

theorem pow2_nonneg_int {e : ℤ} (h : 0 ≤ e) : ∃ k : ℤ, pow2 e = k ∧ 0 < k := by
  obtain ⟨n, rfl⟩ := Int.eq_ofNat_of_zero_le h
  exact ⟨2 ^ n, pow2_nat n, by positivity⟩

/-! ## rounding to integers -/

theorem rne_int (n : ℤ) : rne n = n := by
  simp [rne, Rat.floor_intCast]

theorem rne_cases (x : ℚ) :
    (rne x = ⌊x⌋ ∧ x - ⌊x⌋ ≤ 1 / 2) ∨ (rne x = ⌊x⌋ + 1 ∧ 1 / 2 ≤ x - ⌊x⌋) := by
  have hf : x.floor = ⌊x⌋ := rfl
  simp only [rne, hf]
  split
  · left; exact ⟨rfl, by linarith⟩
  · split
    · right; exact ⟨rfl, by linarith⟩
    · split
      · left; exact ⟨rfl, by linarith⟩
      · right; exact ⟨rfl, by linarith⟩

theorem abs_rne_sub_le (x : ℚ) : |(rne x : ℚ) - x| ≤ 1 / 2 := by
  have h1 := Int.floor_le x
  have h2 := Int.lt_floor_add_one x
  rcases rne_cases x with ⟨h, hr⟩ | ⟨h, hr⟩ <;> rw [h, abs_le] <;> push_cast <;> constructor <;> linarith

theorem rne_mono {x y : ℚ} (h : x ≤ y) : rne x ≤ rne y := by
  rcases (Int.floor_mono h).lt_or_eq with hlt | heq
  · rcases rne_cases x with ⟨h1, _⟩ | ⟨h1, _⟩ <;> rcases rne_cases y with ⟨h2, _⟩ | ⟨h2, _⟩ <;>
      rw [h1, h2] <;> omega
  · have hx : x.floor = ⌊x⌋ := rfl
    have hy : y.floor = ⌊y⌋ := rfl
    simp only [rne, hx, hy, heq]
    split_ifs <;> first | omega | (exfalso; linarith)

theorem rne_neg (x : ℚ) : rne (-x) = -rne x := by
  have hx : x.floor = ⌊x⌋ := rfl
  have hy : (-x).floor = ⌊-x⌋ := rfl
  have h1 := Int.floor_le x
  have h2 := Int.lt_floor_add_one x
  by_cases hi : x = ⌊x⌋
  · rw [hi, ← Int.cast_neg, rne_int, rne_int]
  · have hlt : (⌊x⌋ : ℚ) < x := lt_of_le_of_ne h1 (fun h => hi h.symm)
    have hn : ⌊-x⌋ = -⌊x⌋ - 1 := by
      rw [Int.floor_eq_iff]; push_cast; constructor <;> linarith
    simp only [rne, hx, hy, hn]
    push_cast
    split_ifs <;> first | omega | (exfalso; linarith)

theorem rne_zero : rne 0 = 0 := by simpa using rne_int 0

theorem rne_le_of_le {x : ℚ} {n : ℤ} (h : x ≤ n) : rne x ≤ n := by
  simpa [rne_int] using rne_mono h

theorem le_rne_of_le {x : ℚ} {n : ℤ} (h : (n : ℚ) ≤ x) : n ≤ rne x := by
  simpa [rne_int] using rne_mono h

theorem abs_rne_le {x : ℚ} {n : ℤ} (h : |x| ≤ n) : |rne x| ≤ n := by
  rw [abs_le] at *
  exact ⟨le_rne_of_le (by push_cast; exact h.1), rne_le_of_le h.2⟩

/-- Anything strictly within one half of an integer rounds to it. -/
theorem rne_eq_of_abs_lt {x : ℚ} {n : ℤ} (h : |x - n| < 1 / 2) : rne x = n := by
  have h1 := abs_rne_sub_le x
  rw [abs_lt] at h
  rw [abs_le] at h1
  have h2 : ((rne x : ℤ) : ℚ) < n + 1 := by linarith
  have h3 : (n : ℚ) < rne x + 1 := by linarith
  have h2' : rne x < n + 1 := by exact_mod_cast h2
  have h3' : n < rne x + 1 := by exact_mod_cast h3
  omega

/-! ## binary exponent -/

theorem ilog2_spec {q : ℚ} (h : q ≠ 0) : pow2 (ilog2 q) ≤ |q| ∧ |q| < pow2 (ilog2 q + 1) := by
  have hn : q.num.natAbs ≠ 0 := by simpa using h
  have hd : q.den ≠ 0 := q.den_nz
  have hdp : (0 : ℚ) < q.den := by exact_mod_cast Nat.pos_of_ne_zero hd
  have habs : |q| = (q.num.natAbs : ℚ) / q.den := by
    conv_lhs => rw [← Rat.num_div_den q]
    rw [abs_div, Nat.abs_cast, Nat.cast_natAbs, Int.cast_abs]
  have a1 : ((2 : ℚ) ^ q.num.natAbs.log2) ≤ q.num.natAbs := by exact_mod_cast Nat.log2_self_le hn
  have a2 : (q.num.natAbs : ℚ) < (2 : ℚ) ^ (q.num.natAbs.log2 + 1) := by
    exact_mod_cast Nat.lt_log2_self
  have b1 : ((2 : ℚ) ^ q.den.log2) ≤ q.den := by exact_mod_cast Nat.log2_self_le hd
  have b2 : (q.den : ℚ) < (2 : ℚ) ^ (q.den.log2 + 1) := by exact_mod_cast Nat.lt_log2_self
  set N : ℚ := (q.num.natAbs : ℚ) with hN
  set D : ℚ := (q.den : ℚ) with hD
  set n := q.num.natAbs.log2
  set d := q.den.log2
  have key1 : pow2 ((n : ℤ) - d - 1) * D ≤ N := by
    have : pow2 ((n : ℤ) - d - 1) * (2 : ℚ) ^ (d + 1) = 2 ^ n := by
      rw [pow2_eq, ← zpow_natCast, ← zpow_natCast, ← zpow_add₀ (by norm_num)]; congr 1; push_cast; ring
    have := mul_lt_mul_of_pos_left b2 (pow2_pos ((n : ℤ) - d - 1))
    linarith
  have key2 : N < pow2 ((n : ℤ) - d + 1) * D := by
    have : pow2 ((n : ℤ) - d + 1) * (2 : ℚ) ^ d = 2 ^ (n + 1) := by
      rw [pow2_eq, ← zpow_natCast, ← zpow_natCast, ← zpow_add₀ (by norm_num)]; congr 1; push_cast; ring
    have := mul_le_mul_of_nonneg_left b1 (pow2_pos ((n : ℤ) - d + 1)).le
    linarith
  have hil : ilog2 q = if N < pow2 ((n : ℤ) - d) * D then (n : ℤ) - d - 1 else (n : ℤ) - d := rfl
  rw [hil, habs]
  split
  · rename_i hlt
    constructor
    · rw [le_div_iff₀ hdp]; exact key1
    · rw [div_lt_iff₀ hdp]; simpa using hlt
  · rename_i hge
    constructor
    · rw [le_div_iff₀ hdp]; linarith
    · rw [div_lt_iff₀ hdp]; exact key2

theorem ilog2_lt_of {q : ℚ} (h : q ≠ 0) {k : ℤ} (hk : |q| < pow2 k) : ilog2 q < k := by
  by_contra hc
  have := (ilog2_spec h).1
  have := pow2_le (not_lt.mp hc)
  linarith

theorem le_ilog2_of {q : ℚ} (h : q ≠ 0) {k : ℤ} (hk : pow2 k ≤ |q|) : k ≤ ilog2 q := by
  by_contra hc
  have := (ilog2_spec h).2
  have := pow2_le (show ilog2 q + 1 ≤ k by omega)
  linarith

theorem ilog2_mono {x y : ℚ} (hx : x ≠ 0) (h : |x| ≤ |y|) : ilog2 x ≤ ilog2 y := by
  have hy : y ≠ 0 := by
    intro h0; rw [h0, abs_zero] at h; exact hx (abs_nonpos_iff.mp h)
  exact le_ilog2_of hy (le_trans (ilog2_spec hx).1 h)

theorem ilog2_neg (q : ℚ) : ilog2 (-q) = ilog2 q := by
  simp [ilog2]

theorem ilog2_pow2 (k : ℤ) : ilog2 (pow2 k) = k := by
  have h := pow2_ne k
  have h1 := le_ilog2_of h (k := k) (by rw [abs_of_pos (pow2_pos k)])
  have h2 := ilog2_lt_of h (k := k + 1) (by rw [abs_of_pos (pow2_pos k)]; exact pow2_lt (by omega))
  omega

/-! ## rounding to a format -/

namespace Fmt
variable (f : Fmt)

theorem ue_neg (q : ℚ) : f.ue (-q) = f.ue q := by simp [ue, ilog2_neg]

@[simp] theorem rnd_zero : f.rnd 0 = 0 := by simp [rnd, rne_zero]

theorem rnd_neg (q : ℚ) : f.rnd (-q) = -f.rnd q := by
  simp only [rnd, ue_neg, neg_mul, rne_neg]; push_cast; ring

/-- `2^k` with `k ≥ ue` is a multiple of the ulp. -/
theorem pow2_div_ulp {k u : ℤ} (h : u ≤ k) : ∃ n : ℤ, pow2 k * pow2 (-u) = n ∧ 0 < n := by
  rw [← pow2_add]; exact pow2_nonneg_int (by omega)

theorem rnd_le_pow2 {q : ℚ} {k : ℤ} (hk : f.emin ≤ k) (h : q ≤ pow2 k) : f.rnd q ≤ pow2 k := by
  have hup := pow2_pos (f.ue q)
  by_cases hq : q ≤ 0
  · have : rne (q * pow2 (-(f.ue q))) ≤ 0 := by
      apply rne_le_of_le
      have := mul_nonpos_of_nonpos_of_nonneg hq (pow2_pos (-(f.ue q))).le
      simpa using this
    have h2 : ((rne (q * pow2 (-(f.ue q))) : ℤ) : ℚ) ≤ 0 := by exact_mod_cast this
    have := mul_nonpos_of_nonpos_of_nonneg h2 hup.le
    exact le_trans this (pow2_pos k).le
  · have hq0 : 0 < q := not_le.mp hq
    have hlog : ilog2 q ≤ k := by
      have := (ilog2_spec hq0.ne').1
      rw [abs_of_pos hq0] at this
      exact pow2_le_iff.mp (le_trans this h)
    have hu : f.ue q ≤ k := by
      have := f.hp
      unfold ue; omega
    obtain ⟨n, hn, _⟩ := pow2_div_ulp hu
    have h1 : rne (q * pow2 (-(f.ue q))) ≤ n := by
      apply rne_le_of_le
      rw [← hn]
      exact mul_le_mul_of_nonneg_right h (pow2_pos _).le
    have h2 : ((rne (q * pow2 (-(f.ue q))) : ℤ) : ℚ) ≤ n := by exact_mod_cast h1
    calc f.rnd q ≤ n * pow2 (f.ue q) := mul_le_mul_of_nonneg_right h2 hup.le
      _ = pow2 k := by rw [← hn, mul_assoc, pow2_neg_mul, mul_one]

theorem pow2_le_rnd {q : ℚ} {k : ℤ} (hk : f.emin ≤ k) (h : pow2 k ≤ q) : pow2 k ≤ f.rnd q := by
  have hq0 : 0 < q := lt_of_lt_of_le (pow2_pos k) h
  have hup := pow2_pos (f.ue q)
  by_cases hu : f.ue q ≤ k
  · obtain ⟨n, hn, _⟩ := pow2_div_ulp hu
    have h1 : n ≤ rne (q * pow2 (-(f.ue q))) := by
      apply le_rne_of_le
      rw [← hn]
      exact mul_le_mul_of_nonneg_right h (pow2_pos _).le
    have h2 : (n : ℚ) ≤ rne (q * pow2 (-(f.ue q))) := by exact_mod_cast h1
    calc pow2 k = n * pow2 (f.ue q) := by rw [← hn, mul_assoc, pow2_neg_mul, mul_one]
      _ ≤ f.rnd q := mul_le_mul_of_nonneg_right h2 hup.le
  · -- the ulp itself is at most `q`
    have hlog : f.ue q ≤ ilog2 q := by
      have := f.hp
      unfold ue at *; omega
    obtain ⟨n, hn, hnpos⟩ := pow2_div_ulp hlog
    have hql : pow2 (ilog2 q) ≤ q := by
      have := (ilog2_spec hq0.ne').1
      rwa [abs_of_pos hq0] at this
    have h1 : n ≤ rne (q * pow2 (-(f.ue q))) := by
      apply le_rne_of_le
      rw [← hn]
      exact mul_le_mul_of_nonneg_right hql (pow2_pos _).le
    have h2 : (1 : ℚ) ≤ rne (q * pow2 (-(f.ue q))) := by
      have : 1 ≤ rne (q * pow2 (-(f.ue q))) := by omega
      exact_mod_cast this
    calc pow2 k ≤ pow2 (f.ue q) := pow2_le (by omega)
      _ ≤ f.rnd q := by unfold rnd; nlinarith

theorem rnd_nonneg {q : ℚ} (h : 0 ≤ q) : 0 ≤ f.rnd q := by
  have : 0 ≤ rne (q * pow2 (-(f.ue q))) := by
    apply le_rne_of_le
    have := mul_nonneg h (pow2_pos (-(f.ue q))).le
    simpa using this
  have h2 : (0 : ℚ) ≤ rne (q * pow2 (-(f.ue q))) := by exact_mod_cast this
  exact mul_nonneg h2 (pow2_pos _).le

theorem rnd_nonpos {q : ℚ} (h : q ≤ 0) : f.rnd q ≤ 0 := by
  have := f.rnd_nonneg (q := -q) (by linarith)
  rw [rnd_neg] at this; linarith

private theorem rnd_mono_pos {x y : ℚ} (hx : 0 < x) (h : x ≤ y) : f.rnd x ≤ f.rnd y := by
  have hy : 0 < y := lt_of_lt_of_le hx h
  have hl : ilog2 x ≤ ilog2 y := ilog2_mono hx.ne' (by rw [abs_of_pos hx, abs_of_pos hy]; exact h)
  by_cases hu : f.ue x = f.ue y
  · unfold rnd
    rw [hu]
    apply mul_le_mul_of_nonneg_right _ (pow2_pos _).le
    exact_mod_cast rne_mono (mul_le_mul_of_nonneg_right h (pow2_pos _).le)
  · have hlt : ilog2 x + 1 ≤ ilog2 y := by
      rcases hl.lt_or_eq with h' | h'
      · omega
      · exact absurd (by unfold ue; rw [h']) hu
    have hb : f.emin ≤ ilog2 y := by
      have := f.hp
      unfold ue at hu; omega
    have hyl : pow2 (ilog2 y) ≤ y := by
      have := (ilog2_spec hy.ne').1
      rwa [abs_of_pos hy] at this
    have hxl : x ≤ pow2 (ilog2 y) := by
      have := (ilog2_spec hx.ne').2
      rw [abs_of_pos hx] at this
      exact le_trans this.le (pow2_le hlt)
    exact le_trans (f.rnd_le_pow2 hb hxl) (f.pow2_le_rnd hb hyl)

/-- Rounding is monotone. -/
theorem rnd_mono {x y : ℚ} (h : x ≤ y) : f.rnd x ≤ f.rnd y := by
  rcases lt_trichotomy x 0 with hx | hx | hx
  · rcases le_or_gt 0 y with hy | hy
    · exact le_trans (f.rnd_nonpos hx.le) (f.rnd_nonneg hy)
    · have := f.rnd_mono_pos (x := -y) (y := -x) (by linarith) (by linarith)
      rw [rnd_neg, rnd_neg] at this; linarith
  · subst hx; rw [rnd_zero]; exact f.rnd_nonneg h
  · exact f.rnd_mono_pos hx h

theorem abs_rnd (q : ℚ) : |f.rnd q| = f.rnd |q| := by
  rcases le_or_gt 0 q with h | h
  · rw [abs_of_nonneg h, abs_of_nonneg (f.rnd_nonneg h)]
  · rw [abs_of_neg h, abs_of_nonpos (f.rnd_nonpos h.le), rnd_neg]

/-- The result of rounding is representable. -/
theorem repr_rnd (q : ℚ) : f.Repr (f.rnd q) := by
  refine ⟨rne (q * pow2 (-(f.ue q))), f.ue q, rfl, ?_, le_max_right _ _⟩
  apply abs_rne_le
  push_cast
  by_cases hq : q = 0
  · subst hq; simp
  · have h := (ilog2_spec hq).2
    rw [abs_mul, abs_of_pos (pow2_pos _)]
    have h2 : ilog2 q + 1 ≤ f.p + f.ue q := by unfold ue; omega
    have h3 : |q| ≤ pow2 (f.p + f.ue q) := le_trans h.le (pow2_le h2)
    calc |q| * pow2 (-(f.ue q)) ≤ pow2 (f.p + f.ue q) * pow2 (-(f.ue q)) :=
          mul_le_mul_of_nonneg_right h3 (pow2_pos _).le
      _ = pow2 f.p := by rw [← pow2_add]; congr 1; ring
      _ = 2 ^ f.p := by rw [pow2_nat]; push_cast; rfl

/-- Representable numbers are fixed by rounding. -/
theorem rnd_of_repr {q : ℚ} (h : f.Repr q) : f.rnd q = q := by
  obtain ⟨m, e, rfl, hm, he⟩ := h
  by_cases h0 : m = 0
  · subst h0; simp
  have hq : (m : ℚ) * pow2 e ≠ 0 := mul_ne_zero (by exact_mod_cast h0) (pow2_ne e)
  -- it suffices that q * 2^-ue is an integer
  suffices hint : ∃ n : ℤ, (m : ℚ) * pow2 e * pow2 (-(f.ue ((m : ℚ) * pow2 e))) = n by
    obtain ⟨n, hn⟩ := hint
    unfold rnd
    rw [hn, rne_int, ← hn, mul_assoc, pow2_neg_mul, mul_one]
  have habs : |(m : ℚ) * pow2 e| = |m| * pow2 e := by rw [abs_mul, abs_of_pos (pow2_pos e), Int.cast_abs]
  rcases hm.lt_or_eq with hlt | heq
  · have hl : ilog2 ((m : ℚ) * pow2 e) < f.p + e := by
      apply ilog2_lt_of hq
      rw [habs, pow2_add, pow2_nat]
      apply mul_lt_mul_of_pos_right _ (pow2_pos e)
      exact_mod_cast hlt
    have hu : f.ue ((m : ℚ) * pow2 e) ≤ e := by unfold ue; omega
    obtain ⟨n, hn, _⟩ := pow2_div_ulp hu
    refine ⟨m * n, ?_⟩
    rw [mul_assoc, hn]; push_cast; ring
  · have hl : ilog2 ((m : ℚ) * pow2 e) < f.p + e + 1 := by
      apply ilog2_lt_of hq
      rw [habs, heq, ← pow2_nat, ← pow2_add]
      exact pow2_lt (by omega)
    have hu : f.ue ((m : ℚ) * pow2 e) ≤ f.p + e := by
      have := f.hp
      unfold ue; omega
    obtain ⟨n, hn, _⟩ := pow2_div_ulp hu
    have hmq : (m : ℚ) = pow2 f.p ∨ (m : ℚ) = -pow2 f.p := by
      rw [pow2_nat]
      rcases abs_eq (by positivity) |>.mp heq with h | h
      · left; exact_mod_cast h
      · right; exact_mod_cast h
    generalize f.ue ((m : ℚ) * pow2 e) = u at hn
    rcases hmq with h | h
    · refine ⟨n, ?_⟩
      rw [h, ← pow2_add, hn]
    · refine ⟨-n, ?_⟩
      rw [h, neg_mul, neg_mul, ← pow2_add, hn]; push_cast; rfl

theorem repr_iff (q : ℚ) : f.Repr q ↔ f.rnd q = q :=
  ⟨f.rnd_of_repr, fun h => h ▸ f.repr_rnd q⟩

instance (q : ℚ) : Decidable (f.Repr q) := decidable_of_iff _ (f.repr_iff q).symm

theorem rnd_rnd (q : ℚ) : f.rnd (f.rnd q) = f.rnd q := f.rnd_of_repr (f.repr_rnd q)

theorem rnd_le_repr {x r : ℚ} (hr : f.Repr r) (h : x ≤ r) : f.rnd x ≤ r := by
  have := f.rnd_mono h; rwa [f.rnd_of_repr hr] at this

theorem repr_le_rnd {x r : ℚ} (hr : f.Repr r) (h : r ≤ x) : r ≤ f.rnd x := by
  have := f.rnd_mono h; rwa [f.rnd_of_repr hr] at this

theorem repr_neg {q : ℚ} (h : f.Repr q) : f.Repr (-q) := by
  obtain ⟨m, e, rfl, hm, he⟩ := h
  exact ⟨-m, e, by push_cast; ring, by rwa [abs_neg], he⟩

theorem repr_abs {q : ℚ} (h : f.Repr q) : f.Repr |q| := by
  rcases abs_choice q with h' | h' <;> rw [h']
  · exact h
  · exact f.repr_neg h

theorem repr_zero : f.Repr 0 := ⟨0, f.emin, by simp, by simp, le_refl _⟩

/-- Integers up to `2^p` are representable. -/
theorem repr_int {n : ℤ} (h : |n| ≤ 2 ^ f.p) : f.Repr n :=
  ⟨n, 0, by simp, h, f.hz⟩

theorem repr_pow2 {k : ℤ} (h : f.emin ≤ k) : f.Repr (pow2 k) :=
  ⟨1, k, by simp, by simp; exact one_le_pow₀ (by norm_num), h⟩

/-- Absolute error of rounding. -/
theorem abs_rnd_sub_le (q : ℚ) : |f.rnd q - q| ≤ pow2 (f.ue q - 1) := by
  have h := abs_rne_sub_le (q * pow2 (-(f.ue q)))
  have : f.rnd q - q = ((rne (q * pow2 (-(f.ue q))) : ℤ) - q * pow2 (-(f.ue q))) * pow2 (f.ue q) := by
    unfold rnd
    rw [sub_mul, mul_assoc q, pow2_neg_mul, mul_one]
  rw [this, abs_mul, abs_of_pos (pow2_pos _)]
  have h2 : pow2 (f.ue q - 1) = 1 / 2 * pow2 (f.ue q) := by
    rw [sub_eq_add_neg, pow2_add, pow2_neg, pow2_one]; ring
  rw [h2]
  exact mul_le_mul_of_nonneg_right h (pow2_pos _).le

/-- Absolute error of rounding a number of magnitude at most `2^k`. -/
theorem abs_rnd_sub_le_of_abs_le {q : ℚ} {k : ℤ} (hk : f.emin ≤ k) (h : |q| ≤ pow2 k) :
    |f.rnd q - q| ≤ pow2 (max (k - f.p) f.emin - 1) := by
  rcases h.lt_or_eq with hlt | heq
  · by_cases hq : q = 0
    · subst hq; simp [(pow2_pos _).le]
    · refine le_trans (f.abs_rnd_sub_le q) (pow2_le ?_)
      have := ilog2_lt_of hq hlt
      unfold ue; omega
  · have hr : f.Repr q := by
      rcases abs_choice q with h' | h'
      · rw [← h', heq]; exact f.repr_pow2 hk
      · rw [← neg_neg q, ← h', heq]; exact f.repr_neg (f.repr_pow2 hk)
    rw [f.rnd_of_repr hr]; simp [(pow2_pos _).le]

/-- Relative error of rounding in the normal range. -/
theorem abs_rnd_sub_le_rel {q : ℚ} (h : pow2 (f.emin + f.p - 1) ≤ |q|) :
    |f.rnd q - q| ≤ pow2 (-f.p) * |q| := by
  have hq : q ≠ 0 := by
    intro h0; rw [h0, abs_zero] at h; exact absurd h (not_le.mpr (pow2_pos _))
  have hl := le_ilog2_of hq h
  have hu : f.ue q = ilog2 q - (f.p - 1) := by unfold ue; omega
  calc |f.rnd q - q| ≤ pow2 (f.ue q - 1) := f.abs_rnd_sub_le q
    _ = pow2 (-f.p) * pow2 (ilog2 q) := by rw [hu, ← pow2_add]; congr 1; ring
    _ ≤ _ := mul_le_mul_of_nonneg_left (ilog2_spec hq).1 (pow2_pos _).le

/-- Error bound valid everywhere: relative half-ulp plus half of the smallest subnormal. -/
theorem abs_rnd_sub_le_mixed (q : ℚ) :
    |f.rnd q - q| ≤ pow2 (-f.p) * |q| + pow2 (f.emin - 1) := by
  by_cases hq : q = 0
  · subst hq; simp [(pow2_pos _).le]
  rcases le_or_gt (pow2 (f.emin + f.p - 1)) |q| with h | h
  · have := f.abs_rnd_sub_le_rel h
    have := pow2_pos (f.emin - 1)
    linarith
  · have hl := ilog2_lt_of hq h
    have hu : f.ue q = f.emin := by unfold ue; omega
    have := f.abs_rnd_sub_le q
    rw [hu] at this
    have := mul_nonneg (pow2_pos (-f.p)).le (abs_nonneg q)
    linarith

end Fmt

end Verif
