import Verif.Props.LinearNet
import Verif.Props.Budget

/-! # Rounding errors in networks of effects, loops included: C147 -/

namespace Verif
open Fl ComplexSound

/-! ## Specification -/

/-- As `Tracks`, for effects that may also make the signal smaller: the `f32` effect `k` follows the exact effect `m` with gain bounds `B`
(exact) and `C` (including rounding). -/
def Keeps {X Y E : Type} (P : Y → F32 → Except E (F32 × Y)) (k : Y) (p : X → ℝ → Except E (ℝ × X)) (m : X) (B C : ℝ) : Prop :=
  (2 ^ 10)⁻¹ ≤ B ∧ B ≤ C ∧ ∀ (x : ℕ → F32) (v : ℕ → ℝ) (M d : ℝ), (2 ^ 80)⁻¹ ≤ M → 0 ≤ d → C * (M + d) ≤ 2 ^ 80 → Follows x v d → (∀ n, |v n| ≤ M) →
    ∃ (y : ℕ → F32) (z : ℕ → ℝ), (∀ n, modOut P x k n = .ok (y n)) ∧ (∀ n, modOut p v m n = .ok (z n)) ∧ (∀ n, |z n| ≤ B * M) ∧
      Follows y z (C * (M + d) - B * M)

/-- The blocks connected to `n`. -/
def sources (g : Graph) (order : List ℕ) (n : ℕ) : List ℕ := order.filter fun m => (m, n) ∈ g.edges

/-- What block `n` is given in all, if block `m` gives `b m` and the input of the sound (block 0) is `x`. -/
noncomputable def inflow (g : Graph) (order : List ℕ) (b : ℕ → ℝ) (x : ℝ) (n : ℕ) : ℝ :=
  (if n = 0 then x else 0) + ((sources g order n).map b).sum

/-- The rounding of the sum at the entrance of block `n`. -/
noncomputable def sumRounding (g : Graph) (order : List ℕ) (n : ℕ) : ℝ := 1 + ((sources g order n).length + 1) * (2 ^ 23)⁻¹

/-- A budget for a network: sizes `M n` and errors `d n` at the entrance of each block that cover what the block is given, if the
blocks have gain bounds `B` and `C` and the input has size `X` and error `δ`. -/
structure Budget (g : Graph) (order : List ℕ) (B C M d : ℕ → ℝ) (X δ : ℝ) : Prop where
  input : (2 ^ 80)⁻¹ ≤ X ∧ 0 ≤ δ
  fan : ∀ n ∈ order, (sources g order n).length < 2 ^ 20
  size : ∀ n ∈ order, inflow g order (fun m => B m * M m) X n ≤ M n
  error : ∀ n ∈ order, sumRounding g order n * inflow g order (fun m => C m * (M m + d m)) (X + δ) n - inflow g order (fun m => B m * M m) X n ≤ d n
  low : ∀ n ∈ order, (2 ^ 80)⁻¹ ≤ M n ∧ 0 ≤ d n
  high : ∀ n ∈ order, C n * (M n + d n) ≤ 2 ^ 80

/-! ## Lemmas -/

theorem Tracks.keeps {X Y E : Type} {P : Y → F32 → Except E (F32 × Y)} {k : Y} {p : X → ℝ → Except E (ℝ × X)} {m : X} {B C : ℝ}
    (h : Tracks P k p m B C) : Keeps P k p m B C :=
  ⟨le_trans (by norm_num) h.1, h.2⟩

private theorem rnd_err (q : ℚ) : |((b32.rnd q : ℚ) : ℝ) - q| ≤ (2 ^ 24)⁻¹ * |(q : ℝ)| + (2 ^ 150)⁻¹ := by
  have h := b32.abs_rnd_sub_le_mixed q
  have e : pow2 (-(b32.p : ℤ)) = (2 ^ 24)⁻¹ ∧ pow2 (b32.emin - 1) = (2 ^ 150)⁻¹ := by decide +kernel
  rw [e.1, e.2] at h
  have := Rat.cast_le (K := ℝ) |>.mpr h
  push_cast at this
  linarith

private theorem fits_real {q : ℚ} (h : |(q : ℝ)| ≤ 2 ^ 100) : b32.Fits q := by
  refine fits32' 100 (by norm_num) ?_
  have : ((|q| : ℚ) : ℝ) ≤ ((2 ^ 100 : ℚ) : ℝ) := by push_cast; exact h
  exact Rat.cast_le.mp this

private inductive Near : List F32 → List ℝ → ℝ → ℝ → Prop
  | nil : Near [] [] 0 0
  | cons {u : F32} {q : ℚ} {z b U : ℝ} {us : List F32} {zs : List ℝ} {b' U' : ℝ} : u.Is q → |z| ≤ b → |(q : ℝ) - z| ≤ U - b → (2 ^ 100)⁻¹ ≤ U →
      Near us zs b' U' → Near (u :: us) (z :: zs) (b + b') (U + U')

private theorem Near.append {us us' : List F32} {zs zs' : List ℝ} {b b' U U' : ℝ} (h : Near us zs b U) (h' : Near us' zs' b' U') :
    Near (us ++ us') (zs ++ zs') (b + b') (U + U') := by
  induction h with
  | nil => simpa using h'
  | cons a1 a2 a3 a4 _ ih =>
    rw [add_assoc, add_assoc]
    exact .cons a1 a2 a3 a4 ih

private theorem Near.le {us : List F32} {zs : List ℝ} {b U : ℝ} (h : Near us zs b U) : |zs.sum| ≤ b ∧ b ≤ U ∧ 0 ≤ b := by
  induction h with
  | nil => simp
  | cons a1 a2 a3 a4 _ ih =>
    rw [List.sum_cons]
    refine ⟨(abs_add_le _ _).trans (add_le_add a2 ih.1), ?_, ?_⟩
    · have := (abs_nonneg _).trans a3
      linarith [ih.2.1]
    · have := (abs_nonneg _).trans a2
      linarith [ih.2.2]

private theorem Near.fold {us : List F32} {zs : List ℝ} {b U : ℝ} (h : Near us zs b U) : ∀ {s : F32} {Q : ℚ} {Z ba Ua : ℝ} {i : ℕ}, s.Is Q →
    |Z| ≤ ba → |(Q : ℝ) - Z| ≤ (1 + i * (2 ^ 23)⁻¹) * Ua - ba → i + us.length ≤ 2 ^ 20 → Ua + U ≤ 2 ^ 95 → 0 ≤ Ua →
    ∃ Q' : ℚ, (us.foldl (· + ·) s).Is Q' ∧ |(Q' : ℝ) - (Z + zs.sum)| ≤ (1 + (i + us.length : ℕ) * (2 ^ 23)⁻¹) * (Ua + U) - (ba + b) := by
  induction h with
  | nil =>
    intro s Q Z ba Ua i h1 h2 h3 _ _ _
    exact ⟨Q, h1, by simpa using h3⟩
  | @cons u q z b U us zs b' U' a1 a2 a3 a4 hh ih =>
    intro s Q Z ba Ua i h1 h2 h3 h4 h5 h6
    have hpos : (0 : ℝ) < (2 ^ 100)⁻¹ := by positivity
    have hU' : 0 ≤ U' := hh.le.2.2.trans hh.le.2.1
    rw [List.length_cons] at h4
    have hi : (i : ℝ) + 1 ≤ 2 ^ 20 := by exact_mod_cast (by omega : i + 1 ≤ 2 ^ 20)
    set k : ℝ := (i : ℝ) * (2 ^ 23)⁻¹ with hk
    have hk0 : 0 ≤ k := by positivity
    have hk1 : k ≤ 1 / 8 := by
      rw [hk]
      have : (i : ℝ) * (2 ^ 23)⁻¹ ≤ 2 ^ 20 * (2 ^ 23)⁻¹ := by gcongr; linarith
      norm_num at this ⊢
      linarith
    have hQ : |(Q : ℝ)| ≤ 9 / 8 * Ua := by
      have := abs_sub_abs_le_abs_sub (Q : ℝ) Z
      have : (1 + k) * Ua ≤ 9 / 8 * Ua := by gcongr; linarith
      linarith
    have hq : |(q : ℝ)| ≤ U := by
      have := abs_sub_abs_le_abs_sub (q : ℝ) z
      linarith
    have hs : |((Q + q : ℚ) : ℝ)| ≤ 9 / 8 * (Ua + U) := by
      push_cast
      have := abs_add_le (Q : ℝ) q
      linarith
    have hadd := Is.add h1 a1 (fits_real (hs.trans (by norm_num at h5 ⊢; linarith)))
    have herr := rnd_err (Q + q)
    have hsmall : ((2 : ℝ) ^ 150)⁻¹ ≤ 7 / 8 * ((2 ^ 24)⁻¹ * (2 ^ 100)⁻¹) := by norm_num
    have hstep : |((b32.rnd (Q + q) : ℚ) : ℝ) - (Z + z)| ≤ (1 + (i + 1 : ℕ) * (2 ^ 23)⁻¹) * (Ua + U) - (ba + b) := by
      have t1 := abs_sub_le ((b32.rnd (Q + q) : ℚ) : ℝ) ((Q + q : ℚ) : ℝ) (Z + z)
      have t2 : |((Q + q : ℚ) : ℝ) - (Z + z)| ≤ |(Q : ℝ) - Z| + |(q : ℝ) - z| := by
        push_cast
        rw [add_sub_add_comm]
        exact abs_add_le _ _
      have t3 : ((2 : ℝ) ^ 24)⁻¹ * |((Q + q : ℚ) : ℝ)| ≤ (2 ^ 24)⁻¹ * (9 / 8 * (Ua + U)) := by gcongr
      have t4 : ((2 : ℝ) ^ 24)⁻¹ * (2 ^ 100)⁻¹ ≤ (2 ^ 24)⁻¹ * (Ua + U) := by gcongr; linarith
      have t5 : (1 + ((i + 1 : ℕ) : ℝ) * (2 ^ 23)⁻¹) * (Ua + U) = (1 + k) * Ua + U + k * U + 2 * ((2 ^ 24)⁻¹ * (Ua + U)) := by
        push_cast; rw [hk]; ring
      have t6 : 0 ≤ k * U := mul_nonneg hk0 (by linarith)
      rw [t5]
      linarith
    obtain ⟨Q', c1, c2⟩ := ih (s := s + u) (Z := Z + z) (ba := ba + b) (Ua := Ua + U) (i := i + 1) hadd
      ((abs_add_le _ _).trans (add_le_add h2 a2)) hstep (by omega) (by linarith) (by linarith)
    refine ⟨Q', c1, ?_⟩
    rw [List.sum_cons, List.length_cons, ← add_assoc Z, ← add_assoc Ua, ← add_assoc ba, show i + (us.length + 1) = i + 1 + us.length by omega]
    exact c2

/-- One call of `+=` after the other, from zero. -/
private theorem Near.sum {us : List F32} {zs : List ℝ} {b U : ℝ} (h : Near us zs b U) (hl : us.length ≤ 2 ^ 20) (hU : U ≤ 2 ^ 95) :
    ∃ Q : ℚ, (us.foldl (· + ·) (lit 0)).Is Q ∧ |(Q : ℝ) - zs.foldl (· + ·) (lit 0)| ≤ (1 + us.length * (2 ^ 23)⁻¹) * U - b := by
  obtain ⟨Q, h1, h2⟩ := h.fold (s := lit 0) (Q := 0) (Z := 0) (ba := 0) (Ua := 0) (i := 0) (by decide +kernel) (by simp) (by simp) (by omega)
    (by linarith) le_rfl
  refine ⟨Q, h1, ?_⟩
  rw [foldl_sum]
  simpa using h2

section
variable {Y X : Type} [Modifier Y F32] [Modifier X ℝ] {g : Graph} {order : List ℕ} {m : ℕ → Y} {m' : ℕ → X} {B C M d : ℕ → ℝ} {A δ : ℝ}

private theorem near_sentTo {n : ℕ} {y : ℕ → F32} {z : ℕ → ℝ} {b U : ℕ → ℝ} (l : List ℕ)
    (h : ∀ k ∈ l, |z k| ≤ b k ∧ (2 ^ 100)⁻¹ ≤ U k ∧ ∃ q : ℚ, (y k).Is q ∧ |(q : ℝ) - z k| ≤ U k - b k) :
    Near (sentTo g y n l) (sentTo g z n l) ((sources g l n).map b).sum ((sources g l n).map U).sum := by
  unfold sentTo sources
  have h' : ∀ k ∈ l.filter (fun m => (m, n) ∈ g.edges), |z k| ≤ b k ∧ (2 ^ 100)⁻¹ ≤ U k ∧ ∃ q : ℚ, (y k).Is q ∧ |(q : ℝ) - z k| ≤ U k - b k :=
    fun k hk => h k (List.mem_filter.mp hk).1
  generalize l.filter (fun m => (m, n) ∈ g.edges) = l' at h'
  induction l' with
  | nil => exact .nil
  | cons k l' ih =>
    obtain ⟨a1, a2, q, a3, a4⟩ := h' k (by simp)
    rw [List.map_cons, List.map_cons, List.map_cons, List.map_cons, List.sum_cons, List.sum_cons]
    exact .cons a3 a1 a4 a2 (ih fun j hj => h' j (by simp [hj]))

private theorem sources_split (n : ℕ) : sources g order n = sources g (before order n) n ++ sources g (fromOn order n) n := by
  unfold sources before fromOn
  rw [← List.filter_append, List.takeWhile_append_dropWhile]

private theorem signals_near (hb : Budget g order B C M d A δ) (hk : ∀ n ∈ order, Keeps Modifier.process (m n) Modifier.process (m' n) (B n) (C n))
    {T : ℕ} {x : ℕ → F32} {v : ℕ → ℝ} (hx : Follows x v δ) (hv : ∀ n, |v n| ≤ A) {y : ℕ → ℕ → F32} {z : ℕ → ℕ → ℝ}
    (h1 : Signals g order m T x y) (h2 : Signals g order m' T v z) :
    ∀ t < T, ∀ n ∈ order, |z t n| ≤ B n * M n ∧ ∃ q : ℚ, (y t n).Is q ∧ |(q : ℝ) - z t n| ≤ C n * (M n + d n) - B n * M n := by
  refine time_order fun t ht n hn ih1 ih2 => ?_
  obtain ⟨hA, hδ⟩ := hb.input
  have hlow : ∀ k ∈ order, (2 ^ 100)⁻¹ ≤ C k * (M k + d k) ∧ B k * M k ≤ C k * (M k + d k) ∧ 0 ≤ B k * M k := by
    intro k hk'
    obtain ⟨c1, c2, -⟩ := hk k hk'
    obtain ⟨c3, c4⟩ := hb.low k hk'
    have p1 : (0 : ℝ) < (2 ^ 80)⁻¹ := by positivity
    have p2 : (0 : ℝ) < (2 ^ 10)⁻¹ := by positivity
    refine ⟨?_, mul_le_mul c2 (by linarith) (by linarith) (by linarith), mul_nonneg (by linarith) (by linarith)⟩
    calc ((2 : ℝ) ^ 100)⁻¹ ≤ (2 ^ 10)⁻¹ * (2 ^ 80)⁻¹ := by norm_num
      _ ≤ C k * (M k + d k) := mul_le_mul (by linarith) (by linarith) p1.le (by linarith)
  set K := sumRounding g order n with hK
  obtain ⟨l1, l2⟩ := hb.low n hn
  obtain ⟨c1, c2, c3⟩ := hk n hn
  have hK1 : 1 ≤ K := by rw [hK, sumRounding]; linarith [show (0 : ℝ) ≤ ((sources g order n).length + 1) * (2 ^ 23)⁻¹ by positivity]
  have hUle : inflow g order (fun m => C m * (M m + d m)) (A + δ) n ≤ 2 ^ 95 := by
    have e := hb.error n hn
    have s := hb.size n hn
    have hh := hb.high n hn
    have i0 : 0 ≤ inflow g order (fun m => C m * (M m + d m)) (A + δ) n := by
      unfold inflow
      refine add_nonneg ?_ (List.sum_nonneg ?_)
      · split_ifs
        · linarith [show (0 : ℝ) < (2 ^ 80)⁻¹ by positivity]
        · exact le_rfl
      · intro r hr
        obtain ⟨k, hk', rfl⟩ := List.mem_map.mp hr
        have := (hlow k (List.mem_filter.mp hk').1).1
        exact le_trans (by positivity) this
    have : inflow g order (fun m => C m * (M m + d m)) (A + δ) n ≤ K * inflow g order (fun m => C m * (M m + d m)) (A + δ) n :=
      le_mul_of_one_le_left i0 hK1
    have w0 : 0 ≤ M n + d n := by linarith [show (0 : ℝ) < (2 ^ 80)⁻¹ by positivity]
    have : (2 ^ 10)⁻¹ * (M n + d n) ≤ C n * (M n + d n) := mul_le_mul_of_nonneg_right (c1.trans c2) w0
    norm_num at this hh ⊢
    linarith
  -- what block `n` is given
  have hin : ∀ s ≤ t, |(received g order 0 v z s n).foldl (· + ·) (lit 0)| ≤ M n ∧
      ∃ q : ℚ, ((received g order 0 x y s n).foldl (· + ·) (lit 0)).Is q ∧ |(q : ℝ) - (received g order 0 v z s n).foldl (· + ·) (lit 0)| ≤ d n := by
    intro s hs
    have hbef : ∀ k ∈ before order n, |z s k| ≤ B k * M k ∧ (2 ^ 100)⁻¹ ≤ C k * (M k + d k) ∧
        ∃ q : ℚ, (y s k).Is q ∧ |(q : ℝ) - z s k| ≤ C k * (M k + d k) - B k * M k := by
      intro k hk'
      have hP : |z s k| ≤ B k * M k ∧ ∃ q : ℚ, (y s k).Is q ∧ |(q : ℝ) - z s k| ≤ C k * (M k + d k) - B k * M k := by
        rcases Nat.lt_or_ge s t with h | h
        · exact ih1 s h k (before_mem hk')
        · obtain rfl : s = t := by omega
          exact ih2 k hk'
      exact ⟨hP.1, (hlow k (before_mem hk')).1, hP.2⟩
    have n1 := near_sentTo (g := g) (n := n) (b := fun m => B m * M m) (U := fun m => C m * (M m + d m)) (before order n) hbef
    have n2 : ∃ b U, Near (if n = 0 then [x s] else []) (if n = 0 then [v s] else []) b U ∧ b = (if n = 0 then A else 0) ∧ U = (if n = 0 then A + δ else 0) := by
      split_ifs
      · obtain ⟨q, e1, e2⟩ := hx s
        refine ⟨A + 0, A + δ + 0, .cons e1 (hv s) (by linarith) (le_trans (by norm_num) (hA.trans (le_add_of_nonneg_right hδ))) .nil, by ring, by ring⟩
      · exact ⟨0, 0, .nil, rfl, rfl⟩
    obtain ⟨bx, Ux, n2, rfl, rfl⟩ := n2
    -- a part of the sources, then all of them
    have fin : ∀ (us : List F32) (zs : List ℝ) (l : List ℕ), Near us zs ((if n = 0 then A else 0) + ((sources g (before order n) n ++ l).map fun m => B m * M m).sum)
        ((if n = 0 then A + δ else 0) + ((sources g (before order n) n ++ l).map fun m => C m * (M m + d m)).sum) →
        (∃ l', sources g (fromOn order n) n = l ++ l') → us.length ≤ (sources g order n).length + 1 →
        |zs.foldl (· + ·) (lit 0)| ≤ M n ∧ ∃ q : ℚ, (us.foldl (· + ·) (lit 0)).Is q ∧ |(q : ℝ) - zs.foldl (· + ·) (lit 0)| ≤ d n := by
      rintro us zs l hnear ⟨l', hl'⟩ hlen
      have hsp := sources_split (g := g) (order := order) n
      rw [hl', ← List.append_assoc] at hsp
      set bp := ((if n = 0 then A else 0) + ((sources g (before order n) n ++ l).map fun m => B m * M m).sum) with hbp
      set Up := ((if n = 0 then A + δ else 0) + ((sources g (before order n) n ++ l).map fun m => C m * (M m + d m)).sum) with hUp
      have eb : inflow g order (fun m => B m * M m) A n = bp + (l'.map fun m => B m * M m).sum := by
        rw [inflow, hsp, List.map_append, List.sum_append, hbp, add_assoc]
      have eU : inflow g order (fun m => C m * (M m + d m)) (A + δ) n = Up + (l'.map fun m => C m * (M m + d m)).sum := by
        rw [inflow, hsp, List.map_append, List.sum_append, hUp, add_assoc]
      have hmem : ∀ k ∈ l', k ∈ order := by
        intro k hk'
        have : k ∈ sources g order n := by rw [hsp]; simp [hk']
        exact (List.mem_filter.mp this).1
      have r1 : 0 ≤ (l'.map fun m => B m * M m).sum := List.sum_nonneg fun r hr => by
        obtain ⟨k, hk', rfl⟩ := List.mem_map.mp hr
        exact (hlow k (hmem k hk')).2.2
      have r2 : (l'.map fun m => B m * M m).sum ≤ (l'.map fun m => C m * (M m + d m)).sum :=
        List.sum_le_sum fun k hk' => (hlow k (hmem k hk')).2.1
      obtain ⟨q1, q2, q3⟩ := hnear.le
      have hlen' : (us.length : ℝ) ≤ (sources g order n).length + 1 := by exact_mod_cast hlen
      obtain ⟨Q, s1, s2⟩ := hnear.sum (hlen.trans (by have := hb.fan n hn; omega)) (by rw [eU] at hUle; linarith)
      refine ⟨?_, Q, s1, s2.trans ?_⟩
      · rw [foldl_sum]
        have := hb.size n hn
        rw [eb] at this
        linarith
      · refine le_trans ?_ (hb.error n hn)
        rw [eb, eU, ← hK]
        have k1 : (1 + (us.length : ℝ) * (2 ^ 23)⁻¹) * Up ≤ K * Up := by
          refine mul_le_mul_of_nonneg_right ?_ (q3.trans q2)
          rw [hK, sumRounding]
          gcongr
        have k2 : (l'.map fun m => C m * (M m + d m)).sum ≤ K * (l'.map fun m => C m * (M m + d m)).sum :=
          le_mul_of_one_le_left (r1.trans r2) hK1
        linarith [mul_add K Up (l'.map fun m => C m * (M m + d m)).sum]
    have hlsp : (sources g order n).length = (sources g (before order n) n).length + (sources g (fromOn order n) n).length := by
      rw [sources_split, List.length_append]
    have lif : (if n = 0 then [x s] else []).length ≤ 1 := by split_ifs <;> simp
    have lse : ∀ (w : ℕ → F32) (l : List ℕ), (sentTo g w n l).length = (sources g l n).length := fun w l => by
      unfold sentTo sources; rw [List.length_map]
    cases s with
    | zero =>
      refine fin _ _ [] ?_ ⟨_, rfl⟩ ?_
      · rw [List.append_nil]
        exact n2.append n1
      · simp only [received, List.length_append, lse]
        omega
    | succ s =>
      have hfrom : ∀ k ∈ fromOn order n, |z s k| ≤ B k * M k ∧ (2 ^ 100)⁻¹ ≤ C k * (M k + d k) ∧
          ∃ q : ℚ, (y s k).Is q ∧ |(q : ℝ) - z s k| ≤ C k * (M k + d k) - B k * M k := fun k hk' =>
        ⟨(ih1 s (by omega) k (fromOn_mem hk')).1, (hlow k (fromOn_mem hk')).1, (ih1 s (by omega) k (fromOn_mem hk')).2⟩
      have n3 := near_sentTo (g := g) (n := n) (b := fun m => B m * M m) (U := fun m => C m * (M m + d m)) (fromOn order n) hfrom
      refine fin _ _ (sources g (fromOn order n) n) ?_ ⟨[], by simp⟩ ?_
      · have := n3.append (n2.append n1)
        rw [List.map_append, List.sum_append, List.map_append, List.sum_append, ← add_assoc, ← add_assoc, add_comm _ (List.sum _), add_comm _ (List.sum (List.map (fun m => C m * (M m + d m)) (sources g (fromOn order n) n)))]
        exact this
      · simp only [received, List.length_append, lse]
        omega
  -- the effect of block `n` on it
  set xs : ℕ → F32 := fun s => if s ≤ t then (received g order 0 x y s n).foldl (· + ·) (lit 0) else lit 0 with hxs
  set vs : ℕ → ℝ := fun s => if s ≤ t then (received g order 0 v z s n).foldl (· + ·) (lit 0) else 0 with hvs
  have f1 : Follows xs vs (d n) := by
    intro s
    simp only [hxs, hvs]
    split_ifs with h
    · exact (hin s h).2
    · exact ⟨0, by decide +kernel, by simpa using l2⟩
  have f2 : ∀ s, |vs s| ≤ M n := by
    intro s
    simp only [hvs]
    split_ifs with h
    · exact (hin s h).1
    · rw [abs_zero]; exact le_trans (by positivity) l1
  obtain ⟨y', z', e1, e2, e3, e4⟩ := c3 xs vs (M n) (d n) l1 l2 (hb.high n hn) f1 f2
  have g1 := h1 t ht n hn
  rw [modOut_congr (x' := xs) (fun s hs => by simp only [hxs, if_pos hs]), e1 t] at g1
  have g2 := h2 t ht n hn
  rw [modOut_congr (x' := vs) (fun s hs => by simp only [hvs, if_pos hs]), e2 t] at g2
  injection g1 with g1
  injection g2 with g2
  rw [← g1, ← g2]
  exact ⟨e3 t, e4 t⟩

/-! ## C147 -/

/-- IEEE, any graph (loops included): a complex sound made of effects with known gain bounds stays, for ever, within its error budget of
the exact sound. -/
theorem C147_network (emb : GainBlock F32 → StandardBlock Zero Y StdInter F32) (emb' : GainBlock ℝ → StandardBlock Zero X StdInter ℝ)
    (h k : Heap (StandardBlock Zero Y StdInter F32)) (h' k' : Heap (StandardBlock Zero X StdInter ℝ)) (ig og : F64) (ig' og' : ℝ)
    (l : List (BuildCall (StandardBlock Zero Y StdInter F32))) (o : BuildCall (StandardBlock Zero Y StdInter F32))
    (l' : List (BuildCall (StandardBlock Zero X StdInter ℝ))) (o' : BuildCall (StandardBlock Zero X StdInter ℝ))
    (hl : ∀ n, builtBlocks emb ig og l n = effectBlock (m n)) (hl' : ∀ n, builtBlocks emb' ig' og' l' n = effectBlock (m' n))
    (hco : o.isConn) (hco' : o'.isConn) (c : ComplexSound)
    (hc : cxCalls (S := F32) (ComplexSound.new emb h ig og).2 (ComplexSound.new emb h ig og).1 ((l ++ [o]).map BuildCall.call) = .ok (k, c))
    (hc' : cxCalls (S := ℝ) (ComplexSound.new emb' h' ig' og').2 (ComplexSound.new emb' h' ig' og').1 ((l' ++ [o']).map BuildCall.call) = .ok (k', c))
    (hp : ∀ n (u : ℕ → F32) (t : ℕ), ∃ y, modOut Modifier.process u (m n) t = (.ok y : Res F32))
    (hp' : ∀ n (u : ℕ → ℝ) (t : ℕ), ∃ y, modOut Modifier.process u (m' n) t = (.ok y : Res ℝ))
    (hb : Budget c.graph c.getNodes B C M d A δ)
    (hk : ∀ n ∈ c.getNodes, Keeps Modifier.process (m n) Modifier.process (m' n) (B n) (C n))
    (x : ℕ → F32) (v : ℕ → ℝ) (hx : Follows x v δ) (hv : ∀ n, |v n| ≤ A) (T : ℕ) :
    ∃ ys k2 zs k2', runSound ComplexSound.process c k ((List.range T).map x) = .ok (ys, k2) ∧
      runSound ComplexSound.process c k' ((List.range T).map v) = .ok (zs, k2') ∧
      ∀ t < T, ∃ (y : F32) (q : ℚ) (z : ℝ), ys[t]? = some y ∧ zs[t]? = some z ∧ y.Is q ∧ |z| ≤ B 1 * M 1 ∧
        |(q : ℝ) - z| ≤ C 1 * (M 1 + d 1) - B 1 * M 1 := by
  obtain ⟨ys, k2, e1⟩ := effects_play emb h k ig og l o m hl hco c hc hp x T
  obtain ⟨zs, k2', e2⟩ := effects_play emb' h' k' ig' og' l' o' m' hl' hco' c hc' hp' v T
  obtain ⟨hn, y, s1, r1⟩ := signals emb h k ig og l o m hl hco c hc x T ys k2 e1
  obtain ⟨-, z, s2, r2⟩ := signals emb' h' k' ig' og' l' o' m' hl' hco' c hc' v T zs k2' e2
  refine ⟨ys, k2, zs, k2', e1, e2, fun t ht => ?_⟩
  obtain ⟨b1, q, b2, b3⟩ := signals_near hb hk hx hv s1 s2 t ht 1 hn
  exact ⟨y t 1, q, z t 1, r1 t ht, r2 t ht, b2, b1, b3⟩

end

/-! ## Gains, and a loop -/

private theorem gain_out {S : Type} [Flt S] (g : S) (x : ℕ → S) (n : ℕ) : modOut Modifier.process x (Gain.new g) n = .ok (x n * g) := by
  have : modAfter Modifier.process x (Gain.new g) n = .ok (Gain.new g) := by
    induction n with
    | zero => rfl
    | succ n ih => exact modAfter_succ (y := x n * g) ih rfl
  exact modOut_of this rfl

/-- IEEE: Gain, also below 1. -/
theorem C147_gain {a : F32} {γ : ℚ} (ha : a.Is γ) {B : ℝ} (hB1 : (2 ^ 10)⁻¹ ≤ B) (hB : |(γ : ℝ)| ≤ B) :
    Keeps Modifier.process (Gain.new a) Modifier.process (Gain.new (γ : ℝ)) B (B * (1 + (2 ^ 23)⁻¹)) := by
  have hB0 : 0 < B := lt_of_lt_of_le (by positivity) hB1
  refine ⟨hB1, by nlinarith [show (0 : ℝ) < (2 ^ 23)⁻¹ by positivity], fun x v M d a1 a2 a3 a4 a5 => ⟨_, _, gain_out _ _, gain_out _ _, fun n => ?_, fun n => ?_⟩⟩
  · rw [abs_mul, mul_comm B]
    exact mul_le_mul (a5 n) hB (abs_nonneg _) ((abs_nonneg _).trans (a5 n))
  · obtain ⟨q, h1, h2⟩ := a4 n
    have hq : |(q : ℝ)| ≤ M + d := by
      have := abs_sub_abs_le_abs_sub (q : ℝ) (v n)
      linarith [a5 n]
    have hM : 0 < M := lt_of_lt_of_le (by positivity) a1
    have hW : 0 < M + d := by linarith
    have hBW : 0 < B * (M + d) := mul_pos hB0 hW
    have h3 : |((q * γ : ℚ) : ℝ)| ≤ B * (M + d) := by
      push_cast
      rw [abs_mul, mul_comm B]
      exact mul_le_mul hq hB (abs_nonneg _) hW.le
    have h4 := Is.mul h1 ha (fits_real (h3.trans (by norm_num at a3 ⊢; nlinarith)))
    refine ⟨_, h4, ?_⟩
    have h5 := rnd_err (q * γ)
    have h6 : |(q : ℝ) * γ - v n * γ| ≤ B * d := by
      rw [← sub_mul, abs_mul, mul_comm B]
      exact mul_le_mul h2 hB (abs_nonneg _) a2
    have h7 := abs_sub_le ((b32.rnd (q * γ) : ℚ) : ℝ) ((q * γ : ℚ) : ℝ) (v n * γ)
    push_cast at h3 h5 h7
    have h8 : ((2 : ℝ) ^ 150)⁻¹ ≤ (2 ^ 24)⁻¹ * ((2 ^ 10)⁻¹ * (2 ^ 80)⁻¹) := by norm_num
    have h9 : ((2 : ℝ) ^ 24)⁻¹ * ((2 ^ 10)⁻¹ * (2 ^ 80)⁻¹) ≤ (2 ^ 24)⁻¹ * (B * (M + d)) := by gcongr; linarith
    have h10 : ((2 : ℝ) ^ 24)⁻¹ * |(q : ℝ) * γ| ≤ (2 ^ 24)⁻¹ * (B * (M + d)) := by gcongr
    have h11 : B * (1 + (2 ^ 23)⁻¹) * (M + d) - B * M = B * d + 2 * ((2 ^ 24)⁻¹ * (B * (M + d))) := by ring
    rw [h11]
    linarith

/-- The budget of a gain of at most `g` connected to itself, `u = 1 / (1 - g)`. -/
private theorem loop_budget {g u : ℝ} (hu : u * (1 - g) = 1) (g1 : (2 ^ 10)⁻¹ ≤ g) (u1 : 1 ≤ u) (u2 : u ≤ 16) :
    Budget loopSound.graph loopSound.getNodes (fun n => if n = 2 then g else 1) (fun n => (if n = 2 then g else 1) * (1 + (2 ^ 23)⁻¹))
      (fun n => if n = 0 then 1 else if n = 2 then u else u - 1)
      (fun n => if n = 0 then 2 * (2 ^ 23)⁻¹ else if n = 2 then 16 * (2 ^ 23)⁻¹ * u ^ 2 else 20 * (2 ^ 23)⁻¹ * u ^ 2) 1 0 := by
  have hg : g * u = u - 1 := by linarith
  have s0 : sources loopSound.graph loopSound.getNodes 0 = [] := by decide
  have s1 : sources loopSound.graph loopSound.getNodes 1 = [2] := by decide
  have s2 : sources loopSound.graph loopSound.getNodes 2 = [0, 2] := by decide
  have hmem : ∀ {P : ℕ → Prop}, P 0 → P 1 → P 2 → ∀ n ∈ loopSound.getNodes, P n := by
    intro P h0 h1 h2 n hn
    have : n = 0 ∨ n = 2 ∨ n = 1 := by simpa [loopSound, ComplexSound.getNodes] using hn
    rcases this with rfl | rfl | rfl <;> assumption
  have hg2 : g * u ^ 2 = u ^ 2 - u := by nlinarith
  have hgu : (2 ^ 10)⁻¹ ≤ u - 1 := by rw [← hg]; nlinarith
  have hq : 0 ≤ (u - 1) * (16 - u) := mul_nonneg (by linarith) (by linarith)
  refine ⟨⟨by norm_num, le_rfl⟩, hmem (by rw [s0]; norm_num) (by rw [s1]; norm_num) (by rw [s2]; norm_num), hmem ?_ ?_ ?_, hmem ?_ ?_ ?_,
    hmem ?_ ?_ ?_, hmem ?_ ?_ ?_⟩
  all_goals simp only [inflow, sumRounding, s0, s1, s2, List.map_cons, List.map_nil, List.sum_cons, List.sum_nil, List.length_nil, List.length_cons,
    reduceIte, one_mul, Nat.reduceEqDiff, OfNat.ofNat_ne_zero, OfNat.zero_ne_ofNat, one_ne_zero]
  · norm_num
  · linarith
  · linarith
  · norm_num
  · have : (1 + (((0 : ℕ) + 1 : ℕ) + 1 : ℝ) * (2 ^ 23)⁻¹) * (0 + (g * (1 + (2 ^ 23)⁻¹) * (u + 16 * (2 ^ 23)⁻¹ * u ^ 2) + 0)) =
        (1 + 2 * (2 ^ 23)⁻¹) * (1 + (2 ^ 23)⁻¹) * (g * u + 16 * (2 ^ 23)⁻¹ * (g * u ^ 2)) := by push_cast; ring
    rw [this, hg, hg2]
    norm_num
    nlinarith
  · have : (1 + (((0 : ℕ) + 1 + 1 : ℕ) + 1 : ℝ) * (2 ^ 23)⁻¹) * (0 + ((1 + (2 ^ 23)⁻¹) * (1 + 2 * (2 ^ 23)⁻¹) + (g * (1 + (2 ^ 23)⁻¹) * (u + 16 * (2 ^ 23)⁻¹ * u ^ 2) + 0))) =
        (1 + 3 * (2 ^ 23)⁻¹) * ((1 + (2 ^ 23)⁻¹) * (1 + 2 * (2 ^ 23)⁻¹) + (1 + (2 ^ 23)⁻¹) * (g * u + 16 * (2 ^ 23)⁻¹ * (g * u ^ 2))) := by push_cast; ring
    rw [this, hg, hg2]
    norm_num
    nlinarith
  · norm_num
  · exact ⟨le_trans (by norm_num) hgu, by positivity⟩
  · exact ⟨le_trans (by norm_num) u1, by positivity⟩
  · norm_num
  · norm_num
    nlinarith
  · have : g * (1 + (2 ^ 23)⁻¹) * (u + 16 * (2 ^ 23)⁻¹ * u ^ 2) = (1 + (2 ^ 23)⁻¹) * (g * u + 16 * (2 ^ 23)⁻¹ * (g * u ^ 2)) := by ring
    rw [this, hg, hg2]
    norm_num
    nlinarith

/-- IEEE: a gain `γ` connected to itself, given samples in [-1, 1], stays for ever within 2^-18/(1-g)² of the series
`γ x t + γ² x (t - 1) + …`, for `|γ| ≤ g ≤ 15/16`: the rounding errors that go round the loop do not add up. -/
theorem C147_loop {a : F32} {γ : ℚ} (ha : a.Is γ) {g : ℝ} (hg : |(γ : ℝ)| ≤ g) (g1 : (2 ^ 10)⁻¹ ≤ g) (g2 : g ≤ 15 / 16) :
    ∃ k : Heap (GainBlock F32),
      cxCalls (S := F32) (ComplexSound.new (B := GainBlock F32) _root_.id [] (lit 1 : F64) (lit 1 : F64)).2
        (ComplexSound.new (B := GainBlock F32) _root_.id [] (lit 1 : F64) (lit 1 : F64)).1 ((loopCalls a).map BuildCall.call) = .ok (k, loopSound) ∧
      ∀ (x : ℕ → F32) (q : ℕ → ℚ), (∀ n, (x n).Is (q n)) → (∀ n, |(q n : ℝ)| ≤ 1) → ∀ T, ∃ (ys : List F32) (k2 : Heap (GainBlock F32)),
        runSound ComplexSound.process loopSound k ((List.range T).map x) = .ok (ys, k2) ∧ ∀ t < T, ∃ (y : F32) (r : ℚ), ys[t]? = some y ∧ y.Is r ∧
          |(r : ℝ) - ∑ i ∈ Finset.range (t + 1), (γ : ℝ) ^ (i + 1) * q (t - i)| ≤ (2 ^ 18)⁻¹ / (1 - g) ^ 2 := by
  obtain ⟨k', hc', hs⟩ := loop_built (γ : ℝ)
  refine ⟨_, rfl, fun x q hx hq T => ?_⟩
  have hg0 : 0 < 1 - g := by linarith
  obtain ⟨zs, k3, e3, e4⟩ := hs (fun n => (q n : ℝ)) T
  have hone : (SM.down (lit 1 : F64) : F32).Is 1 := by decide +kernel
  have hB := loop_budget (g := g) (u := 1 / (1 - g)) (by field_simp) g1 (by rw [le_div_iff₀ hg0]; nlinarith [show (0 : ℝ) < (2 ^ 10)⁻¹ by positivity])
    (by rw [div_le_iff₀ hg0]; linarith)
  obtain ⟨ys, k2, zs', k2', r1, r2, r3⟩ := C147_network (m := fun n => (⟨if n = 2 then a else SM.down (lit 1 : F64)⟩ : Gain F32))
    (m' := fun n => (⟨if n = 2 then (γ : ℝ) else 1⟩ : Gain ℝ)) _root_.id _root_.id [] _ [] k' (lit 1 : F64) (lit 1 : F64) 1 1
    [.block (StandardBlock.fromModifier (Gain.new a)), .connect 0 2, .connect 2 2] (.connect 2 1)
    [.block (StandardBlock.fromModifier (Gain.new (γ : ℝ))), .connect 0 2, .connect 2 2] (.connect 2 1)
    (fun n => match n with | 0 => rfl | 1 => rfl | 2 => rfl | _ + 3 => rfl) (fun n => match n with | 0 => rfl | 1 => rfl | 2 => rfl | _ + 3 => rfl)
    trivial trivial loopSound rfl hc' (fun n u t => ⟨_, gain_out _ u t⟩) (fun n u t => ⟨_, gain_out _ u t⟩) hB
    (fun n _ => by
      by_cases h : n = 2
      · subst h
        exact C147_gain ha g1 hg
      · simp only [if_neg h]
        have := C147_gain hone (B := 1) (by norm_num) (by norm_num)
        simpa [Gain.new] using this)
    x (fun n => (q n : ℝ)) (fun n => ⟨q n, hx n, by simp⟩) hq T
  refine ⟨ys, k2, r1, fun t ht => ?_⟩
  obtain ⟨y, r, z, c1, c2, c3, c4, c5⟩ := r3 t ht
  rw [e3] at r2
  simp only [Except.ok.injEq, Prod.mk.injEq] at r2
  rw [← r2.1, e4 t ht] at c2
  injection c2 with c2
  refine ⟨y, r, c1, c3, ?_⟩
  rw [c2]
  refine c5.trans ?_
  set u := 1 / (1 - g) with hu
  have hu1 : 1 ≤ u := by rw [hu, le_div_iff₀ hg0]; linarith [show (0 : ℝ) < (2 ^ 10)⁻¹ by positivity]
  have : (2 ^ 18)⁻¹ / (1 - g) ^ 2 = (2 ^ 18)⁻¹ * u ^ 2 := by rw [hu]; field_simp
  rw [this]
  simp only [reduceIte, one_ne_zero, Nat.reduceEqDiff, one_mul]
  norm_num
  nlinarith

/-- Gain 3/4, so the bound is 2^-14. -/
example : (lit (3 / 4) : F32).Is (3 / 4) ∧ |((3 / 4 : ℚ) : ℝ)| ≤ 3 / 4 ∧ ((2 : ℝ) ^ 10)⁻¹ ≤ 3 / 4 ∧ (3 / 4 : ℝ) ≤ 15 / 16 ∧
    ((2 : ℝ) ^ 18)⁻¹ / (1 - 3 / 4) ^ 2 = (2 ^ 14)⁻¹ :=
  ⟨by decide +kernel, by rw [abs_of_pos (by norm_num)]; norm_num, by norm_num, by norm_num, by norm_num⟩

end Verif
