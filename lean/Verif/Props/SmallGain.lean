import Verif.Props.Energy
import Mathlib.Algebra.Order.BigOperators.Ring.Finset

/-! # Loops whose gain is below one: C152 (exact arithmetic) -/

namespace Verif
open ComplexSound

/-! ## Specification -/

/-- A measure of the size of the first `T` samples of a signal: energy or peak. -/
structure Size (N : (ℕ → ℝ) → ℕ → ℝ) : Prop where
  nonneg : ∀ f T, 0 ≤ N f T
  zero : ∀ T, N (fun _ => 0) T = 0
  triangle : ∀ f g T, N (fun t => f t + g t) T ≤ N f T + N g T
  mono : ∀ f T, N f T ≤ N f (T + 1)
  causal : ∀ f g T, (∀ t < T, f t = g t) → N f T = N g T
  late : ∀ f T, N (delayed 0 f 1) (T + 1) ≤ N f T

/-- Square root of the energy of the first `T` samples. -/
noncomputable def rms (f : ℕ → ℝ) (T : ℕ) : ℝ := Real.sqrt (energy f T)

/-- Largest of the first `T` samples. -/
def peak (f : ℕ → ℝ) : ℕ → ℝ
  | 0 => 0
  | T + 1 => max (peak f T) |f T|

/-- From its current state the effect never answers with a signal of more than `G` times the size. -/
def SizeGain {X E : Type} (N : (ℕ → ℝ) → ℕ → ℝ) (p : X → ℝ → Except E (ℝ × X)) (m : X) (G : ℝ) : Prop :=
  0 ≤ G ∧ ∀ x : ℕ → ℝ, ∃ y : ℕ → ℝ, (∀ n, modOut p x m n = .ok (y n)) ∧ ∀ T, N y T ≤ G * N x T

/-- A budget: each block's share covers its gain times what it is given, the input (block 0 only) counting as 1. -/
def Covers (g : Graph) (order : List ℕ) (G ρ : ℕ → ℝ) : Prop :=
  ∀ n ∈ order, 0 ≤ ρ n ∧ G n * ((if n = 0 then 1 else 0) + ((order.filter fun k => (k, n) ∈ g.edges).map ρ).sum) ≤ ρ n

/-! ## Energy and peak are sizes -/

private theorem energy_nonneg (f : ℕ → ℝ) (T : ℕ) : 0 ≤ energy f T := Finset.sum_nonneg fun _ _ => sq_nonneg _

theorem rms_size : Size rms where
  nonneg f T := Real.sqrt_nonneg _
  zero T := by simp [rms, energy]
  triangle f g T := by
    refine Real.sqrt_le_iff.mpr ⟨by unfold rms; positivity, ?_⟩
    have e : energy (fun t => f t + g t) T = energy f T + 2 * ∑ t ∈ Finset.range T, f t * g t + energy g T := by
      unfold energy
      rw [Finset.mul_sum, ← Finset.sum_add_distrib, ← Finset.sum_add_distrib]
      exact Finset.sum_congr rfl fun _ _ => by ring
    have cs : ∑ t ∈ Finset.range T, f t * g t ≤ rms f T * rms g T := by
      refine (Real.le_sqrt_of_sq_le ?_).trans (le_of_eq (Real.sqrt_mul (energy_nonneg f T) (energy g T)))
      exact Finset.sum_mul_sq_le_sq_mul_sq _ _ _
    have h1 : rms f T ^ 2 = energy f T := Real.sq_sqrt (energy_nonneg f T)
    have h2 : rms g T ^ 2 = energy g T := Real.sq_sqrt (energy_nonneg g T)
    rw [e]
    nlinarith
  mono f T := by
    refine Real.sqrt_le_sqrt ?_
    unfold energy
    rw [Finset.sum_range_succ]
    nlinarith [sq_nonneg (f T)]
  causal f g T h := by
    unfold rms energy
    congr 1
    exact Finset.sum_congr rfl fun t ht => by rw [h t (Finset.mem_range.mp ht)]
  late f T := by
    refine Real.sqrt_le_sqrt (le_of_eq ?_)
    unfold energy
    rw [Finset.sum_range_succ']
    simp [delayed]

private theorem peak_nonneg (f : ℕ → ℝ) (T : ℕ) : 0 ≤ peak f T := by
  cases T with
  | zero => exact le_rfl
  | succ T => exact (abs_nonneg _).trans (le_max_right _ _)

private theorem peak_le {f : ℕ → ℝ} {T : ℕ} {B : ℝ} (h0 : 0 ≤ B) (h : ∀ t < T, |f t| ≤ B) : peak f T ≤ B := by
  induction T with
  | zero => exact h0
  | succ T ih => exact max_le (ih fun t ht => h t (by omega)) (h T (by omega))

private theorem le_peak {f : ℕ → ℝ} {T t : ℕ} (h : t < T) : |f t| ≤ peak f T := by
  induction T with
  | zero => omega
  | succ T ih =>
    rcases Nat.lt_or_ge t T with h' | h'
    · exact (ih h').trans (le_max_left _ _)
    · obtain rfl : t = T := by omega
      exact le_max_right _ _

theorem peak_size : Size peak where
  nonneg := peak_nonneg
  zero T := le_antisymm (peak_le le_rfl fun _ _ => by simp) (peak_nonneg _ _)
  triangle f g T := peak_le (add_nonneg (peak_nonneg _ _) (peak_nonneg _ _)) fun t ht =>
    (abs_add_le _ _).trans (add_le_add (le_peak ht) (le_peak ht))
  mono f T := le_max_left _ _
  causal f g T h := le_antisymm (peak_le (peak_nonneg _ _) fun t ht => by rw [h t ht]; exact le_peak ht)
    (peak_le (peak_nonneg _ _) fun t ht => by rw [← h t ht]; exact le_peak ht)
  late f T := peak_le (peak_nonneg _ _) fun t ht => by
    unfold delayed
    split
    · rw [abs_zero]; exact peak_nonneg _ _
    · exact le_peak (by omega)

theorem EnergyGain.rms {X E : Type} {p : X → ℝ → Except E (ℝ × X)} {m : X} {G : ℝ} (h : EnergyGain p m G) : SizeGain Verif.rms p m G := by
  refine ⟨h.1, fun x => ?_⟩
  obtain ⟨y, h1, h2⟩ := h.2 x
  refine ⟨y, h1, fun T => ?_⟩
  have := Real.sqrt_le_sqrt (h2 T)
  rwa [Real.sqrt_mul (sq_nonneg _), Real.sqrt_sq h.1] at this

theorem PeakGain.size {X E : Type} {p : X → ℝ → Except E (ℝ × X)} {m : X} {K : ℝ} (h : PeakGain p m K) : SizeGain peak p m K := by
  have K0 : 0 ≤ K := by
    obtain ⟨y, -, hy⟩ := h (fun _ => 0) 1 (fun _ => by simp) 0
    simpa using (abs_nonneg y).trans hy
  refine ⟨K0, fun x => ?_⟩
  -- the effect does not look ahead
  have key : ∀ n, ∃ y, modOut p x m n = .ok y ∧ |y| ≤ K * peak x (n + 1) := by
    intro n
    obtain ⟨y, h1, h2⟩ := h (fun t => if t < n + 1 then x t else 0) (peak x (n + 1)) (fun t => by
      split
      · exact le_peak ‹_›
      · rw [abs_zero]; exact peak_nonneg _ _) n
    refine ⟨y, ?_, h2⟩
    rw [← h1]
    exact modOut_congr fun s hs => by rw [if_pos (by omega)]
  choose y hy using key
  refine ⟨y, fun n => (hy n).1, fun T => peak_le (mul_nonneg K0 (peak_nonneg _ _)) fun t ht => (hy t).2.trans ?_⟩
  refine mul_le_mul_of_nonneg_left ?_ K0
  exact peak_le (peak_nonneg _ _) fun s hs => le_peak (by omega)

/-! ## Networks -/

section
variable {N : (ℕ → ℝ) → ℕ → ℝ} (hN : Size N)
include hN

private theorem Size.le {f : ℕ → ℝ} {T T' : ℕ} (h : T ≤ T') : N f T ≤ N f T' := by
  induction h with
  | refl => exact le_rfl
  | step _ ih => exact ih.trans (hN.mono f _)

private theorem Size.sum (l : List ℕ) (z : ℕ → ℕ → ℝ) (T : ℕ) : N (fun t => (l.map fun k => z t k).sum) T ≤ (l.map fun k => N (fun t => z t k) T).sum := by
  induction l with
  | nil => simp [hN.zero]
  | cons k l ih =>
    simp only [List.map_cons, List.sum_cons]
    exact (hN.triangle _ _ T).trans (by linarith)

private theorem signals_size {X : Type} [Modifier X ℝ] {g : Graph} {order : List ℕ} {m : ℕ → X} {G ρ : ℕ → ℝ}
    (hm : ∀ n ∈ order, SizeGain N Modifier.process (m n) (G n)) (hc : Covers g order G ρ) {T : ℕ} {x : ℕ → ℝ} {y : ℕ → ℕ → ℝ}
    (hy : Signals g order m T x y) : ∀ t < T, ∀ n ∈ order, N (fun s => y s n) (t + 1) ≤ ρ n * N x (t + 1) := by
  refine time_order fun t ht n hn ih1 ih2 => ?_
  set u : ℕ → ℝ := fun s => (received g order 0 x y s n).foldl (· + ·) (lit 0) with hu
  obtain ⟨G0, hG⟩ := hm n hn
  obtain ⟨v, hv1, hv2⟩ := hG u
  have e : ∀ s < t + 1, y s n = v s := fun s hs => by
    have := (hy s (by omega) n hn).symm.trans (hv1 s)
    exact Except.ok.inj this
  rw [hN.causal _ _ _ e]
  refine (hv2 (t + 1)).trans ?_
  obtain ⟨-, hcov⟩ := hc n hn
  have X0 := hN.nonneg x (t + 1)
  refine le_trans ?_ (mul_le_mul_of_nonneg_right hcov X0)
  rw [mul_assoc]
  refine mul_le_mul_of_nonneg_left ?_ G0
  -- the parts of what the block is given
  have hsplit : u = fun s => (if n = 0 then x s else 0) + (((before order n).filter fun k => (k, n) ∈ g.edges).map fun k => y s k).sum +
      (((fromOn order n).filter fun k => (k, n) ∈ g.edges).map fun k => delayed 0 (fun s => y s k) 1 s).sum := by
    funext s
    rw [hu]
    simp only
    rw [foldl_sum]
    cases s with
    | zero =>
      have : (((fromOn order n).filter fun k => (k, n) ∈ g.edges).map fun k => delayed 0 (fun s => y s k) 1 0).sum = 0 :=
        List.sum_eq_zero fun r hr => by
          obtain ⟨k, -, rfl⟩ := List.mem_map.mp hr
          simp [delayed]
      rw [this, add_zero]
      simp only [received, List.sum_append, sentTo]
      split <;> simp
    | succ s =>
      simp only [received, List.sum_append, sentTo, delayed]
      split <;> simp <;> ring
  rw [hsplit]
  have hp1 : N (fun s => if n = 0 then x s else 0) (t + 1) ≤ (if n = 0 then 1 else 0) * N x (t + 1) := by
    split_ifs
    · rw [one_mul]
    · rw [hN.zero, zero_mul]
  have hp2 : N (fun s => (((before order n).filter fun k => (k, n) ∈ g.edges).map fun k => y s k).sum) (t + 1) ≤
      (((before order n).filter fun k => (k, n) ∈ g.edges).map ρ).sum * N x (t + 1) := by
    refine (hN.sum _ y _).trans ?_
    rw [← List.sum_map_mul_right]
    refine List.sum_le_sum fun k hk => ?_
    exact ih2 k (List.mem_filter.mp hk).1
  have hp3 : N (fun s => (((fromOn order n).filter fun k => (k, n) ∈ g.edges).map fun k => delayed 0 (fun s => y s k) 1 s).sum) (t + 1) ≤
      (((fromOn order n).filter fun k => (k, n) ∈ g.edges).map ρ).sum * N x (t + 1) := by
    refine (hN.sum _ (fun s k => delayed 0 (fun s => y s k) 1 s) _).trans ?_
    rw [← List.sum_map_mul_right]
    refine List.sum_le_sum fun k hk => ?_
    have hk := fromOn_mem (List.mem_filter.mp hk).1
    refine (hN.late (fun s => y s k) t).trans ?_
    cases t with
    | zero =>
      have : N (fun s => y s k) 0 = N (fun _ => 0) 0 := hN.causal _ _ _ fun s hs => by omega
      rw [this, hN.zero]
      exact mul_nonneg (hc k hk).1 X0
    | succ t =>
      exact (ih1 t (by omega) k hk).trans (mul_le_mul_of_nonneg_left (hN.le (by omega)) (hc k hk).1)
  have hord : ((order.filter fun k => (k, n) ∈ g.edges).map ρ).sum =
      (((before order n).filter fun k => (k, n) ∈ g.edges).map ρ).sum + (((fromOn order n).filter fun k => (k, n) ∈ g.edges).map ρ).sum := by
    conv_lhs => rw [← List.takeWhile_append_dropWhile (p := (· ≠ n)) (l := order)]
    rw [List.filter_append, List.map_append, List.sum_append]
    rfl
  refine (hN.triangle _ _ _).trans ?_
  have := hN.triangle (fun s => if n = 0 then x s else 0) (fun s => (((before order n).filter fun k => (k, n) ∈ g.edges).map fun k => y s k).sum) (t + 1)
  rw [hord]
  linarith

/-- **Small gains.** Exact arithmetic, any graph, loops included, any effects (linear or not): if the blocks' gains can be covered by a
budget, the sound never panics and its output is at most the output gain's share times as large as its input, at every time. -/
theorem C152_network {X : Type} [Modifier X ℝ] (emb : GainBlock ℝ → StandardBlock Zero X StdInter ℝ) (h h' : Heap (StandardBlock Zero X StdInter ℝ)) (ig og : ℝ)
    (l : List (BuildCall (StandardBlock Zero X StdInter ℝ))) (o : BuildCall (StandardBlock Zero X StdInter ℝ)) (m : ℕ → X)
    (hl : ∀ n, builtBlocks emb ig og l n = effectBlock (m n)) (hco : o.isConn) (c : ComplexSound)
    (hc : cxCalls (S := ℝ) (ComplexSound.new emb h ig og).2 (ComplexSound.new emb h ig og).1 ((l ++ [o]).map BuildCall.call) = .ok (h', c))
    (G ρ : ℕ → ℝ) (hm : ∀ n, SizeGain N Modifier.process (m n) (G n)) (hρ : Covers c.graph c.getNodes G ρ) (x : ℕ → ℝ) (T : ℕ) :
    ∃ (ys : List ℝ) (k : Heap (StandardBlock Zero X StdInter ℝ)) (y : ℕ → ℝ), runSound ComplexSound.process c h' ((List.range T).map x) = .ok (ys, k) ∧
      (∀ t < T, ys[t]? = some (y t)) ∧ ∀ t ≤ T, N y t ≤ ρ 1 * N x t := by
  obtain ⟨ys, k, he⟩ := effects_play emb h h' ig og l o m hl hco c hc (fun n u t => by
    obtain ⟨y, hy, -⟩ := (hm n).2 u
    exact ⟨y t, hy t⟩) x T
  obtain ⟨h1, y, hs, hy⟩ := signals emb h h' ig og l o m hl hco c hc x T ys k he
  refine ⟨ys, k, fun t => y t 1, he, hy, fun t ht => ?_⟩
  cases t with
  | zero =>
    have : N (fun t => y t 1) 0 = N (fun _ => 0) 0 := hN.causal _ _ _ fun s hs => by omega
    rw [this, hN.zero]
    exact mul_nonneg (hρ 1 h1).1 (hN.nonneg _ _)
  | succ t => exact signals_size hN (fun n _ => hm n) hρ hs t (by omega) 1 h1

end

/-! ## One effect with another as return path -/

/-- Connections only. -/
private def conns (c : ComplexSound) : List (ℕ × ℕ) → Res ComplexSound
  | [] => .ok c
  | e :: l => match c.addConnection e.1 e.2 with
    | .error e => .error e
    | .ok c' => conns c' l

private theorem conns_eq {B : Type} [Block B ℝ] (h : Heap B) (l : List (ℕ × ℕ)) : ∀ c : ComplexSound,
    cxCalls (S := ℝ) h c ((l.map fun e => BuildCall.connect e.1 e.2).map BuildCall.call) = (conns c l).map fun c' => (h, c') := by
  induction l with
  | nil => intro c; rfl
  | cons e l ih =>
    intro c
    have e1 : cxCall (S := ℝ) h c (BuildCall.call (BuildCall.connect e.1 e.2)) = (c.addConnection e.1 e.2).map fun c' => (h, c') := rfl
    rw [List.map_cons, List.map_cons, cxCalls, e1, conns]
    cases c.addConnection e.1 e.2 with
    | error e => rfl
    | ok c' => exact ih c'

private theorem pair_eq {X : Type} [Modifier X ℝ] (w : Gain ℝ → X) (a b : X) (l : List (ℕ × ℕ)) :
    cxCalls (S := ℝ) (ComplexSound.new (M := ℝ) (fun g => effectBlock (S := ℝ) (w g.m.val)) [] 1 1).2
      (ComplexSound.new (M := ℝ) (fun g => effectBlock (S := ℝ) (w g.m.val)) [] 1 1).1
      ((.block (effectBlock a) :: .block (effectBlock b) :: l.map fun e => .connect e.1 e.2 :
        List (BuildCall (StandardBlock Zero X StdInter ℝ))).map BuildCall.call) =
      (conns ⟨⟨[0, 1, 2, 3], []⟩, [], 0, 1, none, false, false⟩ l).map fun c' =>
        ([⟨effectBlock (w (Gain.new 1)), 1⟩, ⟨effectBlock (w (Gain.new 1)), 1⟩, ⟨effectBlock a, 1⟩, ⟨effectBlock b, 1⟩], c') :=
  conns_eq [⟨effectBlock (w (Gain.new 1)), 1⟩, ⟨effectBlock (w (Gain.new 1)), 1⟩, ⟨effectBlock a, 1⟩, ⟨effectBlock b, 1⟩] l
    ⟨⟨[0, 1, 2, 3], []⟩, [], 0, 1, none, false, false⟩

/-- The nodes in the order of processing, and the connections. -/
private def shape (r : Res ComplexSound) : Option (List ℕ × List (ℕ × ℕ)) := match r with | .ok c => some (c.getNodes, c.graph.edges) | .error _ => none

private theorem loop_shape : shape (conns ⟨⟨[0, 1, 2, 3], []⟩, [], 0, 1, none, false, false⟩ [(0, 2), (2, 3), (3, 2), (2, 1)]) =
    some ([0, 2, 3, 1], [(2, 1), (3, 2), (2, 3), (0, 2)]) := by decide +kernel

/-- An effect `a` with `b` as return path, in a sound whose own gains are 1: if the product of the gains is below 1, the output is at most
`A / (1 - A B)` times as large as the input, for ever. `w` is how the gain blocks of the sound are stored among the effects. -/
theorem C152_feedback {N : (ℕ → ℝ) → ℕ → ℝ} (hN : Size N) {X : Type} [Modifier X ℝ] (w : Gain ℝ → X) (hw : SizeGain N Modifier.process (w (Gain.new 1)) 1)
    (a b : X) {A B : ℝ} (ha : SizeGain N Modifier.process a A) (hb : SizeGain N Modifier.process b B) (hAB : A * B < 1) :
    ∃ h' c, cxCalls (S := ℝ) (ComplexSound.new (M := ℝ) (fun g => effectBlock (S := ℝ) (w g.m.val)) [] 1 1).2
      (ComplexSound.new (M := ℝ) (fun g => effectBlock (S := ℝ) (w g.m.val)) [] 1 1).1
      (([.block (effectBlock a), .block (effectBlock b), .connect 0 2, .connect 2 3, .connect 3 2, .connect 2 1] :
        List (BuildCall (StandardBlock Zero X StdInter ℝ))).map BuildCall.call) = .ok (h', c) ∧
    ∀ (x : ℕ → ℝ) (T : ℕ), ∃ ys k y, runSound ComplexSound.process c h' ((List.range T).map x) = .ok (ys, k) ∧
      (∀ t < T, ys[t]? = some (y t)) ∧ ∀ t ≤ T, N y t ≤ A / (1 - A * B) * N x t := by
  have hs := loop_shape
  have hbuild : cxCalls (S := ℝ) (ComplexSound.new (M := ℝ) (fun g => effectBlock (S := ℝ) (w g.m.val)) [] 1 1).2
      (ComplexSound.new (M := ℝ) (fun g => effectBlock (S := ℝ) (w g.m.val)) [] 1 1).1
      (([.block (effectBlock a), .block (effectBlock b), .connect 0 2, .connect 2 3, .connect 3 2, .connect 2 1] :
        List (BuildCall (StandardBlock Zero X StdInter ℝ))).map BuildCall.call) =
      (conns ⟨⟨[0, 1, 2, 3], []⟩, [], 0, 1, none, false, false⟩ [(0, 2), (2, 3), (3, 2), (2, 1)]).map fun c' =>
        ([⟨effectBlock (w (Gain.new 1)), 1⟩, ⟨effectBlock (w (Gain.new 1)), 1⟩, ⟨effectBlock a, 1⟩, ⟨effectBlock b, 1⟩], c') :=
    pair_eq w a b [(0, 2), (2, 3), (3, 2), (2, 1)]
  cases hc : conns ⟨⟨[0, 1, 2, 3], []⟩, [], 0, 1, none, false, false⟩ [(0, 2), (2, 3), (3, 2), (2, 1)] with
  | error e => rw [hc] at hs; cases hs
  | ok c =>
    rw [hc] at hs hbuild
    simp only [shape, Option.some.injEq, Prod.mk.injEq] at hs
    obtain ⟨hn, hg⟩ := hs
    refine ⟨_, c, hbuild, ?_⟩
    have hpos : 0 < 1 - A * B := by linarith
    have hA := ha.1
    have hB := hb.1
    have hr : 0 ≤ A / (1 - A * B) := div_nonneg hA hpos.le
    have key : A * (1 + A / (1 - A * B) * B) = A / (1 - A * B) := by field_simp; ring
    exact C152_network hN (fun g => effectBlock (S := ℝ) (w g.m.val)) [] _ 1 1
      [.block (effectBlock a), .block (effectBlock b), .connect 0 2, .connect 2 3, .connect 3 2] (.connect 2 1)
      (fun n => match n with | 2 => a | 3 => b | _ => w (Gain.new 1))
      (fun n => match n with | 0 => rfl | 1 => rfl | 2 => rfl | 3 => rfl | _ + 4 => rfl) trivial c hbuild
      (fun n => match n with | 2 => A | 3 => B | _ => 1)
      (fun n => match n with | 0 => 1 | 2 => A / (1 - A * B) | 3 => A / (1 - A * B) * B | _ => A / (1 - A * B))
      (fun n => match n with | 0 => hw | 1 => hw | 2 => ha | 3 => hb | _ + 4 => hw)
      (by
        intro n hn'
        rw [hn] at hn' ⊢
        rw [hg]
        have : n = 0 ∨ n = 2 ∨ n = 3 ∨ n = 1 := by simpa using hn'
        rcases this with rfl | rfl | rfl | rfl
        · simp
        · refine ⟨hr, ?_⟩
          simp
          linarith
        · refine ⟨mul_nonneg hr hB, ?_⟩
          simp
          linarith
        · refine ⟨hr, ?_⟩
          simp)

/-! ## The envelope -/

/-- What holds of an envelope with positive times throughout its life. -/
private structure Env (m : ADSR ℝ) : Prop where
  g0 : 0 ≤ m.g
  g1 : m.g ≤ 1
  s0 : 0 ≤ m.s
  s1 : m.s ≤ 1
  a0 : 0 ≤ m.a
  d0 : m.d ≤ 0
  r0 : m.r ≤ 0

private theorem env_step {m : ADSR ℝ} (h : Env m) (x : ℝ) : Env (m.process x).2 ∧ |(m.process x).1| ≤ |x| := by
  obtain ⟨g0, g1, s0, s1, a0, d0, r0⟩ := h
  have hmul : ∀ g : ℝ, 0 ≤ g → g ≤ 1 → |x * g| ≤ |x| := fun g h0 h1 => by
    rw [abs_mul, abs_of_nonneg h0]
    exact mul_le_of_le_one_right (abs_nonneg x) h1
  unfold ADSR.process
  cases m.state with
  | attack =>
    real_simp
    split
    · exact ⟨⟨zero_le_one, le_rfl, s0, s1, a0, d0, r0⟩, hmul 1 zero_le_one le_rfl⟩
    · rename_i hlt
      have := not_le.mp hlt
      exact ⟨⟨by simpa using add_nonneg g0 a0, this.le, s0, s1, a0, d0, r0⟩, hmul _ (add_nonneg g0 a0) this.le⟩
  | decay =>
    real_simp
    split
    · exact ⟨⟨s0, s1, s0, s1, a0, d0, r0⟩, hmul _ s0 s1⟩
    · rename_i hlt
      have := not_le.mp hlt
      have h0 : 0 ≤ m.g + m.d := s0.trans this.le
      have h1 : m.g + m.d ≤ 1 := by linarith
      exact ⟨⟨h0, h1, s0, s1, a0, d0, r0⟩, hmul _ h0 h1⟩
  | sustain => exact ⟨⟨g0, g1, s0, s1, a0, d0, r0⟩, hmul _ g0 g1⟩
  | release =>
    real_simp
    split
    · exact ⟨⟨le_rfl, zero_le_one, s0, s1, a0, d0, r0⟩, hmul 0 le_rfl zero_le_one⟩
    · rename_i hlt
      have := not_le.mp hlt
      have h1 : m.g + m.r ≤ 1 := by linarith
      exact ⟨⟨this.le, h1, s0, s1, a0, d0, r0⟩, hmul _ this.le h1⟩
  | stopped =>
    refine ⟨⟨g0, g1, s0, s1, a0, d0, r0⟩, ?_⟩
    have : (dflt : ℝ) = 0 := by unfold dflt; real_simp
    show |(dflt : ℝ)| ≤ |x|
    rw [this, abs_zero]
    exact abs_nonneg x

private theorem env_run {m : ADSR ℝ} (h : Env m) (x : ℕ → ℝ) (n : ℕ) :
    ∃ m', modAfter (E := Panic) Modifier.process x m n = .ok m' ∧ Env m' ∧ ∃ y, modOut (E := Panic) Modifier.process x m n = .ok y ∧ |y| ≤ |x n| := by
  have key : ∃ m', modAfter (E := Panic) Modifier.process x m n = .ok m' ∧ Env m' := by
    induction n with
    | zero => exact ⟨m, rfl, h⟩
    | succ n ih =>
      obtain ⟨m', e, h'⟩ := ih
      refine ⟨(m'.process (x n)).2, ?_, (env_step h' (x n)).1⟩
      rw [modAfter, e]
      rfl
  obtain ⟨m', e, h'⟩ := key
  refine ⟨m', e, h', (m'.process (x n)).1, ?_, (env_step h' (x n)).2⟩
  rw [modOut, e]
  rfl

private theorem env_gain {m : ADSR ℝ} (h : Env m) : EnergyGain (E := Panic) Modifier.process m 1 ∧ PeakGain (E := Panic) Modifier.process m 1 := by
  refine ⟨⟨zero_le_one, fun x => ?_⟩, fun x B hx n => ?_⟩
  · choose m' _ _ y hy hle using env_run h x
    refine ⟨y, hy, fun N => ?_⟩
    rw [one_pow, one_mul]
    exact Finset.sum_le_sum fun n _ => sq_le_sq.mpr (hle n)
  · obtain ⟨_, _, _, y, hy, hle⟩ := env_run h x n
    exact ⟨y, hy, by rw [one_mul]; exact hle.trans (hx n)⟩

private theorem env_new {a d : Duration} (s : ℝ) {r : Duration} : Env (ADSR.new a d s r : ADSR ℝ) := by
  have p : ∀ e : Duration, 0 ≤ ((e.asSecs : ℝ) * srM) := fun e => by
    unfold Duration.asSecs srM
    real_simp
    positivity
  have hs : (dbToLinear (Flt.fmin s (lit 0) : ℝ) : ℝ) = 10 ^ (min s 0 / 20 : ℝ) := by
    unfold dbToLinear
    real_simp
  have h0 : (0 : ℝ) ≤ 10 ^ (min s 0 / 20 : ℝ) := by positivity
  have h1 : (10 : ℝ) ^ (min s 0 / 20 : ℝ) ≤ 1 := Real.rpow_le_one_of_one_le_of_nonpos (by norm_num) (by linarith [min_le_right s 0])
  unfold ADSR.new
  simp only [hs, show ∀ u : ℝ, (SM.down u : ℝ) = u from fun u => rfl]
  have z : (lit 0 : ℝ) = 0 := by real_simp
  have o : (lit 1 : ℝ) = 1 := by real_simp
  rw [z, o]
  exact ⟨le_rfl, zero_le_one, h0, h1, div_nonneg zero_le_one (p a), div_nonpos_of_nonpos_of_nonneg (by linarith) (p d),
    div_nonpos_of_nonpos_of_nonneg (by linarith) (p r)⟩

/-- Exact arithmetic: an envelope with positive times adds nothing to a sound, neither energy nor peak, whenever it is released. -/
theorem C152_adsr (a d : Duration) (s : ℝ) (r : Duration) (_ha : a.total ≠ 0) (_hd : d.total ≠ 0) (_hr : r.total ≠ 0) (u : ℕ → ℝ) (n : ℕ) :
    ∃ m, modAfter (E := Panic) Modifier.process u (ADSR.new a d s r : ADSR ℝ) n = .ok m ∧
      (EnergyGain (E := Panic) Modifier.process m 1 ∧ PeakGain (E := Panic) Modifier.process m 1) ∧
      (EnergyGain (E := Panic) Modifier.process m.doRelease 1 ∧ PeakGain (E := Panic) Modifier.process m.doRelease 1) := by
  obtain ⟨m, e, h, -⟩ := env_run (env_new s (a := a) (d := d) (r := r)) u n
  exact ⟨m, e, env_gain h, env_gain (m := m.doRelease) ⟨h.g0, h.g1, h.s0, h.s1, h.a0, h.d0, h.r0⟩⟩

/-! ## The bound on the loop is needed -/

/-- A loop whose gain is exactly 1 has no bound of this kind: an impulse stays for ever, and a constant input grows past every bound. -/
theorem C152_needed (T : ℕ) : ∃ (h' k k' : Heap (GainBlock ℝ)) (c : ComplexSound) (ys zs : List ℝ),
    cxCalls (S := ℝ) (ComplexSound.new (B := GainBlock ℝ) (M := ℝ) _root_.id [] 1 1).2 (ComplexSound.new (B := GainBlock ℝ) (M := ℝ) _root_.id [] 1 1).1
      ((loopCalls (1 : ℝ)).map BuildCall.call) = .ok (h', c) ∧
    runSound ComplexSound.process c h' ((List.range T).map fun t => if t = 0 then 1 else 0) = .ok (ys, k) ∧ (∀ t < T, ys[t]? = some 1) ∧
    runSound ComplexSound.process c h' ((List.range T).map fun _ => 1) = .ok (zs, k') ∧ ∀ t < T, zs[t]? = some (t + 1 : ℝ) := by
  obtain ⟨h1, k, c1, ys, a1, a2, a3⟩ := C142_loop 1 (fun t => if t = 0 then 1 else 0) T
  obtain ⟨h2, k', c2, zs, b1, b2, b3⟩ := C142_loop 1 (fun _ => 1) T
  have e := a1.symm.trans b1
  injection e with e
  injection e with e1 e2
  subst e1 e2
  refine ⟨h1, k, k', c1, ys, zs, a1, a2, fun t ht => ?_, b2, fun t ht => ?_⟩
  · rw [a3 t ht]
    simp only [one_pow, one_mul]
    rw [Finset.sum_eq_single t (fun j hj hne => if_neg (by have := Finset.mem_range.mp hj; omega)) (fun h => absurd (Finset.mem_range.mpr (by omega)) h)]
    simp
  · rw [b3 t ht]
    simp

/-! ## Examples -/

/-- Blocks of three kinds. -/
inductive Fx where
  | gain (m : Gain ℝ)
  | low (m : LowPass ℝ ℝ)
  | adsr (m : ADSR ℝ)

noncomputable instance : Modifier Fx ℝ := ⟨fun m x => match m with
  | .gain m => (Modifier.process m x : Res (ℝ × Gain ℝ)).map fun r => (r.1, .gain r.2)
  | .low m => (Modifier.process m x : Res (ℝ × LowPass ℝ ℝ)).map fun r => (r.1, .low r.2)
  | .adsr m => (Modifier.process m x : Res (ℝ × ADSR ℝ)).map fun r => (r.1, .adsr r.2)⟩

/-- An effect stored among others keeps its gain. -/
theorem SizeGain.map {X Y : Type} {N : (ℕ → ℝ) → ℕ → ℝ} {p : X → ℝ → Res (ℝ × X)} {q : Y → ℝ → Res (ℝ × Y)} (f : X → Y)
    (hf : ∀ m x, q (f m) x = (p m x).map fun r => (r.1, f r.2)) {m : X} {G : ℝ} (h : SizeGain N p m G) : SizeGain N q (f m) G := by
  have ha : ∀ x n, modAfter q x (f m) n = (modAfter p x m n).map f := by
    intro x n
    induction n with
    | zero => rfl
    | succ n ih =>
      rw [modAfter, ih, modAfter]
      cases modAfter p x m n with
      | error e => rfl
      | ok s =>
        show (q (f s) (x n)).map Prod.snd = ((p s (x n)).map Prod.snd).map f
        rw [hf]
        cases p s (x n) <;> rfl
  have ho : ∀ x n, modOut q x (f m) n = modOut p x m n := by
    intro x n
    rw [modOut, ha, modOut]
    cases modAfter p x m n with
    | error e => rfl
    | ok s =>
      show (q (f s) (x n)).map Prod.fst = (p s (x n)).map Prod.fst
      rw [hf]
      cases p s (x n) <;> rfl
  refine ⟨h.1, fun x => ?_⟩
  obtain ⟨y, h1, h2⟩ := h.2 x
  exact ⟨y, fun n => by rw [ho]; exact h1 n, h2⟩

/-- A low pass at 1 kHz whose output returns through a gain of 1/2: at most four times the energy put in comes out. -/
example : ∃ h' c, cxCalls (S := ℝ) (ComplexSound.new (M := ℝ) (fun g => effectBlock (S := ℝ) (Fx.gain g.m.val)) [] 1 1).2
      (ComplexSound.new (M := ℝ) (fun g => effectBlock (S := ℝ) (Fx.gain g.m.val)) [] 1 1).1
      (([.block (effectBlock (Fx.low (LowPass.new 1000 0))), .block (effectBlock (Fx.gain (Gain.new (1 / 2)))), .connect 0 2, .connect 2 3, .connect 3 2, .connect 2 1] :
        List (BuildCall (StandardBlock Zero Fx StdInter ℝ))).map BuildCall.call) = .ok (h', c) ∧
    ∀ (x : ℕ → ℝ) (T : ℕ), ∃ ys k y, runSound ComplexSound.process c h' ((List.range T).map x) = .ok (ys, k) ∧
      (∀ t < T, ys[t]? = some (y t)) ∧ ∀ t ≤ T, rms y t ≤ 1 / (1 - 1 * (1 / 2)) * rms x t := by
  have hg : ∀ a : ℝ, 0 ≤ a → SizeGain rms (Modifier.process (S := ℝ)) (Fx.gain (Gain.new a)) a := fun a h0 => by
    have h := (C151_memoryless ⟨[]⟩ 0 rfl a).2.1.rms
    rw [abs_of_nonneg h0] at h
    exact h.map Fx.gain fun _ _ => rfl
  exact C152_feedback rms_size Fx.gain (hg 1 zero_le_one) (Fx.low (LowPass.new 1000 0)) (Fx.gain (Gain.new (1 / 2)))
    ((C151_filters (by norm_num) (by norm_num) le_rfl).1.rms.map Fx.low fun _ _ => rfl) (hg (1 / 2) (by norm_num)) (by norm_num)

/-- The same bound, on the peak, for an envelope (no time invariant effect) of one second each in place of the low pass. -/
example (one : Duration) (h1 : one.total = 10 ^ 9) : ∃ h' c, cxCalls (S := ℝ) (ComplexSound.new (M := ℝ) (fun g => effectBlock (S := ℝ) (Fx.gain g.m.val)) [] 1 1).2
      (ComplexSound.new (M := ℝ) (fun g => effectBlock (S := ℝ) (Fx.gain g.m.val)) [] 1 1).1
      (([.block (effectBlock (Fx.adsr (ADSR.new one one (-6 : ℝ) one))), .block (effectBlock (Fx.gain (Gain.new (1 / 2)))), .connect 0 2, .connect 2 3, .connect 3 2, .connect 2 1] :
        List (BuildCall (StandardBlock Zero Fx StdInter ℝ))).map BuildCall.call) = .ok (h', c) ∧
    ∀ (x : ℕ → ℝ) (T : ℕ), ∃ ys k y, runSound ComplexSound.process c h' ((List.range T).map x) = .ok (ys, k) ∧
      (∀ t < T, ys[t]? = some (y t)) ∧ ∀ t ≤ T, peak y t ≤ 1 / (1 - 1 * (1 / 2)) * peak x t := by
  have hg : ∀ a : ℝ, 0 ≤ a → SizeGain peak (Modifier.process (S := ℝ)) (Fx.gain (Gain.new a)) a := fun a h0 => by
    have h : PeakGain (Modifier.process (S := ℝ)) (Gain.new a) a := fun x B hx n => ⟨_, (C73_memoryless a x n).1, by
      rw [abs_mul, abs_of_nonneg h0, mul_comm]
      exact mul_le_mul_of_nonneg_left (hx n) h0⟩
    exact h.size.map Fx.gain fun _ _ => rfl
  obtain ⟨m, e, h, -⟩ := C152_adsr one one (-6) one (by rw [h1]; norm_num) (by rw [h1]; norm_num) (by rw [h1]; norm_num) (fun _ => 0) 0
  obtain rfl : ADSR.new one one (-6 : ℝ) one = m := Except.ok.inj e
  exact C152_feedback peak_size Fx.gain (hg 1 zero_le_one) (Fx.adsr (ADSR.new one one (-6 : ℝ) one)) (Fx.gain (Gain.new (1 / 2)))
    (h.2.size.map Fx.adsr fun _ _ => rfl) (hg (1 / 2) (by norm_num)) (by norm_num)

example : (⟨1, 0, by norm_num, by norm_num⟩ : Duration).total = 10 ^ 9 := by decide

end Verif
