import Verif.Props.Convolution
import Mathlib.RingTheory.PowerSeries.NoZeroDivisors

/-! # Transfer functions of networks: C149 (exact arithmetic)

The transfer function of an effect is the power series of its answer to one sample of 1.0; multiplying by `X` delays by
one sample. -/

namespace Verif
open ComplexSound PowerSeries

/-! ## Specification -/

/-- The series of the answer to one sample of 1.0. -/
def Transfer {Y E : Type} (p : Y → ℝ → Except E (ℝ × Y)) (m : Y) (H : ℝ⟦X⟧) : Prop := ∀ n, modOut p unitImpulse m n = .ok (coeff n H)

/-- The flow equations: what block `n` puts out is its transfer function times what it is given, which is the input (block 0 only), what
comes along connections forward in the order, and, a sample late, what comes along the others. -/
def FlowEqs (g : Graph) (order : List ℕ) (H : ℕ → ℝ⟦X⟧) (x : ℝ⟦X⟧) (Y : ℕ → ℝ⟦X⟧) : Prop :=
  ∀ n ∈ order, Y n = H n * ((if n = 0 then x else 0) + (sentTo g Y n (before order n)).sum + X * (sentTo g Y n (fromOn order n)).sum)

/-! ## One effect -/

/-- An effect multiplies by its transfer function. -/
theorem C149_effect {Y E : Type} {p : Y → ℝ → Except E (ℝ × Y)} {m : Y} (h : LTI p m) :
    ∃ H : ℝ⟦X⟧, Transfer p m H ∧ ∀ (x : ℕ → ℝ) (n : ℕ), modOut p x m n = .ok (coeff n (H * mk x)) := by
  obtain ⟨g, hg, hx⟩ := C144_convolution h
  refine ⟨mk g, fun n => by rw [hg, coeff_mk], fun x n => ?_⟩
  rw [hx, mul_comm, coeff_mul, Finset.Nat.sum_antidiagonal_eq_sum_range_succ_mk]
  simp only [coeff_mk]

private theorem transfer_out {Y E : Type} {p : Y → ℝ → Except E (ℝ × Y)} {m : Y} (h : LTI p m) {H : ℝ⟦X⟧} (hH : Transfer p m H) (x : ℕ → ℝ) (n : ℕ) :
    modOut p x m n = .ok (coeff n (H * mk x)) := by
  obtain ⟨H', h1, h2⟩ := C149_effect h
  have : H = H' := PowerSeries.ext fun n => Except.ok.inj ((hH n).symm.trans (h1 n))
  rw [this, h2]

/-! ## Networks -/

private theorem coeff_sent (g : Graph) (n : ℕ) (l : List ℕ) (Y : ℕ → ℝ⟦X⟧) (t : ℕ) :
    coeff t (sentTo g Y n l).sum = (sentTo g (fun m => coeff t (Y m)) n l).sum := by
  unfold sentTo
  rw [map_list_sum, List.map_map]
  rfl

/-- The flow equations have at most one solution. -/
theorem C149_unique {g : Graph} {order : List ℕ} {H : ℕ → ℝ⟦X⟧} {x : ℝ⟦X⟧} {Y Y' : ℕ → ℝ⟦X⟧} (h : FlowEqs g order H x Y) (h' : FlowEqs g order H x Y') :
    ∀ n ∈ order, Y n = Y' n := by
  intro n hn
  refine PowerSeries.ext fun t => ?_
  refine time_order (T := t + 1) (P := fun t n => coeff t (Y n) = coeff t (Y' n)) (fun t ht n hn ih1 ih2 => ?_) t (by omega) n hn
  rw [h n hn, h' n hn, coeff_mul, coeff_mul]
  refine Finset.sum_congr rfl fun p hp => ?_
  have hp2 : p.2 ≤ t := by rw [Finset.mem_antidiagonal] at hp; omega
  congr 1
  have sent : ∀ s l, (∀ m ∈ l, coeff s (Y m) = coeff s (Y' m)) → coeff s (sentTo g Y n l).sum = coeff s (sentTo g Y' n l).sum := by
    intro s l hl
    rw [coeff_sent, coeff_sent]
    unfold sentTo
    rw [List.map_congr_left fun m hm => hl m (List.mem_filter.mp hm).1]
  rw [map_add, map_add, map_add, map_add]
  have b : coeff p.2 (sentTo g Y n (before order n)).sum = coeff p.2 (sentTo g Y' n (before order n)).sum := by
    refine sent _ _ fun m hm => ?_
    rcases hp2.lt_or_eq with hlt | he
    · exact ih1 _ hlt m (before_mem hm)
    · rw [he]; exact ih2 m hm
  have f : coeff p.2 (X * (sentTo g Y n (fromOn order n)).sum) = coeff p.2 (X * (sentTo g Y' n (fromOn order n)).sum) := by
    cases hp' : p.2 with
    | zero => rw [coeff_zero_X_mul, coeff_zero_X_mul]
    | succ s =>
      rw [coeff_succ_X_mul, coeff_succ_X_mul]
      exact sent _ _ fun m hm => ih1 s (by omega) m (fromOn_mem hm)
  rw [b, f]

section
variable {Y : Type} [Modifier Y ℝ]

private theorem signals_flow {g : Graph} {order : List ℕ} {m : ℕ → Y} (hm : ∀ n, LTI Modifier.process (m n)) {H : ℕ → ℝ⟦X⟧}
    (hH : ∀ n, Transfer Modifier.process (m n) (H n)) {x : ℕ → ℝ} {y : ℕ → ℕ → ℝ} (hy : ∀ T, Signals g order m T x y) :
    FlowEqs g order H (mk x) (fun n => mk fun t => y t n) := by
  intro n hn
  refine PowerSeries.ext fun t => ?_
  have h := hy (t + 1) t (by omega) n hn
  rw [transfer_out (hm n) (hH n)] at h
  injection h with h
  rw [coeff_mk, ← h]
  congr 2
  refine PowerSeries.ext fun s => ?_
  have hx : coeff s (if n = 0 then (mk x : ℝ⟦X⟧) else 0) = (if n = 0 then [x s] else []).sum := by
    split_ifs <;> simp
  have hs : ∀ (s : ℕ) (l : List ℕ), coeff s (sentTo g (fun n => (mk fun t => y t n : ℝ⟦X⟧)) n l).sum = (sentTo g (y s) n l).sum := by
    intro s l
    rw [coeff_sent]
    simp only [coeff_mk]
  rw [coeff_mk, foldl_sum, map_add, map_add, hx, hs]
  cases s with
  | zero => rw [received, List.sum_append, coeff_zero_X_mul, add_zero]
  | succ s =>
    rw [received, List.sum_append, List.sum_append, coeff_succ_X_mul, hs]
    ring

variable (emb : GainBlock ℝ → StandardBlock Zero Y StdInter ℝ) (h h' : Heap (StandardBlock Zero Y StdInter ℝ)) (ig og : ℝ)
  (l : List (BuildCall (StandardBlock Zero Y StdInter ℝ))) (o : BuildCall (StandardBlock Zero Y StdInter ℝ)) (m : ℕ → Y)
  (hl : ∀ n, builtBlocks emb ig og l n = effectBlock (m n)) (hm : ∀ n, LTI Modifier.process (m n)) (hco : o.isConn) (c : ComplexSound)
  (hc : cxCalls (S := ℝ) (ComplexSound.new emb h ig og).2 (ComplexSound.new emb h ig og).1 ((l ++ [o]).map BuildCall.call) = .ok (h', c))
include hl hm hco hc

/-- A network of linear effects, with or without loops: the flow equations have a solution `K` for one sample of 1.0 (exactly one, see
`C149_unique`), and the sound multiplies every input by the transfer function `K 1` of its output block. -/
theorem C149_network (H : ℕ → ℝ⟦X⟧) (hH : ∀ n, Transfer Modifier.process (m n) (H n)) :
    1 ∈ c.getNodes ∧ ∃ K : ℕ → ℝ⟦X⟧, FlowEqs c.graph c.getNodes H 1 K ∧ ∀ (x : ℕ → ℝ) (T : ℕ), ∃ ys k,
      runSound ComplexSound.process c h' ((List.range T).map x) = .ok (ys, k) ∧ ∀ t < T, ys[t]? = some (coeff t (K 1 * mk x)) := by
  have main : ∀ x : ℕ → ℝ, 1 ∈ c.getNodes ∧ ∃ W : ℕ → ℝ⟦X⟧, FlowEqs c.graph c.getNodes H (mk x) W ∧ ∀ T, ∃ ys k,
      runSound ComplexSound.process c h' ((List.range T).map x) = .ok (ys, k) ∧ ∀ t < T, ys[t]? = some (coeff t (W 1)) := by
    intro x
    have all : ∀ T, 1 ∈ c.getNodes ∧ ∃ ys k y, runSound ComplexSound.process c h' ((List.range T).map x) = .ok (ys, k) ∧
        Signals c.graph c.getNodes m T x y ∧ ∀ t < T, ys[t]? = some (y t 1) := by
      intro T
      obtain ⟨ys, k, he⟩ := C143_plays emb h h' ig og l o m hl hm hco c hc x T
      obtain ⟨h1, y, h2, h3⟩ := signals emb h h' ig og l o m hl hco c hc x T ys k he
      exact ⟨h1, ys, k, y, he, h2, h3⟩
    refine ⟨(all 0).1, ?_⟩
    choose ys k y e1 e2 e3 using fun T => (all T).2
    -- the signals do not depend on how long the sound is run
    have same : ∀ T t, t < T → ∀ n ∈ c.getNodes, y T t n = y (t + 1) t n := by
      intro T t ht n hn
      have r : Signals c.graph c.getNodes m (t + 1) x (y T) := fun s hs => e2 T s (by omega)
      have e : x = fun t => 1 * x t + 0 * x t := by funext t; ring
      have r' := r
      rw [e] at r'
      have := signals_lin _ _ _ (fun n _ => hm n) (e2 (t + 1)) (e2 (t + 1)) r' t (by omega) n hn
      rw [this]; ring
    have hy : ∀ T, Signals c.graph c.getNodes m T x (fun t n => y (t + 1) t n) := by
      intro T t ht n hn
      show _ = Except.ok (y (t + 1) t n)
      rw [← same T t ht n hn, ← e2 T t ht n hn]
      refine modOut_congr fun s hs => ?_
      have sent : ∀ s' < T, ∀ l, (∀ k ∈ l, k ∈ c.getNodes) → sentTo c.graph (fun n => y (s' + 1) s' n) n l = sentTo c.graph (y T s') n l := by
        intro s' hs' l hl
        unfold sentTo
        exact List.map_congr_left fun k hk => (same T s' hs' k (hl k (List.mem_filter.mp hk).1)).symm
      cases s with
      | zero => rw [received, received, sent 0 (by omega) _ fun k hk => before_mem hk]
      | succ s =>
        rw [received, received, sent (s + 1) (by omega) _ fun k hk => before_mem hk, sent s (by omega) _ fun k hk => fromOn_mem hk]
    refine ⟨_, signals_flow hm hH hy, fun T => ⟨ys T, k T, e1 T, fun t ht => ?_⟩⟩
    rw [e3 T t ht, coeff_mk, same T t ht 1 (all 0).1]
  obtain ⟨h1, K, hK, -⟩ := main unitImpulse
  have one : (mk unitImpulse : ℝ⟦X⟧) = 1 := by
    refine PowerSeries.ext fun n => ?_
    rw [coeff_mk, coeff_one]; rfl
  rw [one] at hK
  refine ⟨h1, K, hK, fun x T => ?_⟩
  obtain ⟨-, W, hW, hT⟩ := main x
  have sol : FlowEqs c.graph c.getNodes H (mk x) (fun n => K n * mk x) := by
    intro n hn
    have sent : ∀ l, (sentTo c.graph (fun n => K n * mk x) n l).sum = (sentTo c.graph K n l).sum * mk x := by
      intro l
      unfold sentTo
      rw [List.sum_map_mul_right]
    show K n * mk x = _
    rw [hK n hn, sent, sent]
    split_ifs <;> ring
  obtain ⟨ys, k, e1, e2⟩ := hT T
  refine ⟨ys, k, e1, fun t ht => ?_⟩
  rw [e2 t ht, C149_unique hW sol 1 h1]

end
/-! ## Diagrams

Any two effects `a`, `b` with transfer functions `A`, `B`, added as blocks 2 and 3 to a sound whose own gains are 1. -/

/-- The gain blocks among the effects. -/
private noncomputable def emb : GainBlock ℝ → StandardBlock Zero LinearEffect StdInter ℝ := fun b => effectBlock (.gain b.m.val)

/-- The calls. -/
private noncomputable def build (l : List (BuildCall (StandardBlock Zero LinearEffect StdInter ℝ))) : Res (Heap (StandardBlock Zero LinearEffect StdInter ℝ) × ComplexSound) :=
  cxCalls (S := ℝ) (ComplexSound.new (M := ℝ) emb [] 1 1).2 (ComplexSound.new (M := ℝ) emb [] 1 1).1 (l.map BuildCall.call)

/-- Connections only. -/
private def conns (c : ComplexSound) : List (ℕ × ℕ) → Res ComplexSound
  | [] => .ok c
  | e :: l => match c.addConnection e.1 e.2 with
    | .error e => .error e
    | .ok c' => conns c' l

private theorem conns_eq (h : Heap (StandardBlock Zero LinearEffect StdInter ℝ)) (l : List (ℕ × ℕ)) : ∀ c : ComplexSound,
    cxCalls (S := ℝ) h c ((l.map fun e => BuildCall.connect e.1 e.2).map BuildCall.call) = (conns c l).map fun c' => (h, c') := by
  induction l with
  | nil => intro c; rfl
  | cons e l ih =>
    intro c
    have e1 : cxCall (S := ℝ) h c (BuildCall.call (BuildCall.connect e.1 e.2)) = (c.addConnection e.1 e.2).map fun c' => (h, c') := rfl
    rw [List.map_cons, List.map_cons, cxCalls, e1]
    rw [conns]
    cases c.addConnection e.1 e.2 with
    | error e => rfl
    | ok c' => exact ih c'

/-- The blocks. -/
private noncomputable def heap (a b : LinearEffect) : Heap (StandardBlock Zero LinearEffect StdInter ℝ) :=
  [⟨effectBlock (.gain (Gain.new 1)), 1⟩, ⟨effectBlock (.gain (Gain.new 1)), 1⟩, ⟨effectBlock a, 1⟩, ⟨effectBlock b, 1⟩]

private theorem build_pair (a b : LinearEffect) (l : List (ℕ × ℕ)) : build (.block (effectBlock a) :: .block (effectBlock b) ::
    l.map fun e => .connect e.1 e.2) = (conns ⟨⟨[0, 1, 2, 3], []⟩, [], 0, 1, none, false, false⟩ l).map fun c' => (heap a b, c') :=
  conns_eq (heap a b) l ⟨⟨[0, 1, 2, 3], []⟩, [], 0, 1, none, false, false⟩

/-- The nodes in the order of processing, and the connections. -/
private def shape (r : Res ComplexSound) : Option (List ℕ × List (ℕ × ℕ)) := match r with | .ok c => some (c.getNodes, c.graph.edges) | .error _ => none

private theorem build_shape {a b : LinearEffect} {l : List (ℕ × ℕ)} {order : List ℕ} {es : List (ℕ × ℕ)}
    (h : shape (conns ⟨⟨[0, 1, 2, 3], []⟩, [], 0, 1, none, false, false⟩ l) = some (order, es)) :
    ∃ h' c, build (.block (effectBlock a) :: .block (effectBlock b) :: l.map fun e => .connect e.1 e.2) = .ok (h', c) ∧ c.getNodes = order ∧ c.graph.edges = es := by
  rw [build_pair]
  cases hc : conns ⟨⟨[0, 1, 2, 3], []⟩, [], 0, 1, none, false, false⟩ l with
  | error e => rw [hc] at h; cases h
  | ok c =>
    rw [hc] at h
    simp only [shape, Option.some.injEq, Prod.mk.injEq] at h
    exact ⟨heap a b, c, rfl, h.1, h.2⟩

private theorem transfer_gain (g : ℝ) : Transfer Modifier.process (LinearEffect.gain (Gain.new g)) (C g) := by
  intro n
  have st : ∀ n, modAfter (X := LinearEffect) (E := Panic) Modifier.process unitImpulse (.gain (Gain.new g)) n = .ok (.gain (Gain.new g)) := by
    intro n
    induction n with
    | zero => rfl
    | succ n ih => rw [modAfter, ih]; rfl
  rw [modOut, st]
  show Except.ok (unitImpulse n * g) = _
  rw [coeff_C]
  unfold unitImpulse
  split_ifs <;> simp

private theorem transfer_delay (D : ℕ) : Transfer Modifier.process (LinearEffect.delay ⟨List.replicate D 0⟩) (X ^ D) := by
  intro n
  have ha : ∀ (m : Delay ℝ) n, modAfter (X := LinearEffect) (E := Panic) Modifier.process unitImpulse (.delay m) n =
      (modAfter Delay.process unitImpulse m n).map LinearEffect.delay := by
    intro m n
    induction n with
    | zero => rfl
    | succ n ih =>
      rw [modAfter, ih, modAfter]
      cases modAfter Delay.process unitImpulse m n with
      | error e => rfl
      | ok s =>
        show ((s.process (unitImpulse n)).map fun r => (r.1, LinearEffect.delay r.2)).map Prod.snd = ((s.process (unitImpulse n)).map Prod.snd).map LinearEffect.delay
        cases s.process (unitImpulse n) <;> rfl
  have ho : modOut (X := LinearEffect) (E := Panic) Modifier.process unitImpulse (.delay ⟨List.replicate D 0⟩) n =
      modOut Delay.process unitImpulse ⟨List.replicate D 0⟩ n := by
    rw [modOut, ha, modOut]
    cases modAfter Delay.process unitImpulse (⟨List.replicate D 0⟩ : Delay ℝ) n with
    | error e => rfl
    | ok s =>
      show ((s.process (unitImpulse n)).map fun r => (r.1, LinearEffect.delay r.2)).map Prod.fst = (s.process (unitImpulse n)).map Prod.fst
      cases s.process (unitImpulse n) <;> rfl
  have z : (lit 0 : ℝ) = 0 := by real_simp
  rw [ho, (C51_delay (⟨List.replicate D 0⟩ : Delay ℝ) D (by rw [z]) unitImpulse n).1, coeff_X_pow, z]
  congr 1
  unfold unitImpulse
  split_ifs <;> first | rfl | omega

private theorem transfer_one : Transfer Modifier.process (LinearEffect.gain (Gain.new 1)) 1 := by
  have := transfer_gain 1
  rwa [map_one] at this

private theorem pair {a b : LinearEffect} (ha : LTI Modifier.process a) (hb : LTI Modifier.process b) {A B : ℝ⟦X⟧}
    (hA : Transfer Modifier.process a A) (hB : Transfer Modifier.process b B) (l : List (BuildCall (StandardBlock Zero LinearEffect StdInter ℝ)))
    (hn : newBlocks l = []) (o : BuildCall (StandardBlock Zero LinearEffect StdInter ℝ)) (hco : o.isConn) {h' c}
    (hc : build (.block (effectBlock a) :: .block (effectBlock b) :: l ++ [o]) = .ok (h', c)) :
    1 ∈ c.getNodes ∧ ∃ K : ℕ → ℝ⟦X⟧, FlowEqs c.graph c.getNodes (fun n => match n with | 2 => A | 3 => B | _ => 1) 1 K ∧ ∀ (x : ℕ → ℝ) (T : ℕ), ∃ ys k,
      runSound ComplexSound.process c h' ((List.range T).map x) = .ok (ys, k) ∧ ∀ t < T, ys[t]? = some (coeff t (K 1 * mk x)) := by
  have g1 : LTI Modifier.process (LinearEffect.gain (Gain.new 1)) := lti_map LinearEffect.gain (fun _ _ => rfl) (C58_gain 1).1
  refine C149_network (Y := LinearEffect) emb [] h' 1 1 (.block (effectBlock a) :: .block (effectBlock b) :: l) o
    (fun n => match n with | 2 => a | 3 => b | _ => .gain (Gain.new 1)) (fun n => ?_) (fun n => ?_) hco c hc _ fun n => ?_
  · match n with
    | 0 => rfl
    | 1 => rfl
    | 2 => rfl
    | 3 => rfl
    | n + 4 =>
      simp only [builtBlocks, newBlocks, hn]
      rfl
  · match n with
    | 0 => exact g1
    | 1 => exact g1
    | 2 => exact ha
    | 3 => exact hb
    | n + 4 => exact g1
  · match n with
    | 0 => exact transfer_one
    | 1 => exact transfer_one
    | 2 => exact hA
    | 3 => exact hB
    | n + 4 => exact transfer_one

private theorem echo_series (g : ℝ) (D : ℕ) (x : ℕ → ℝ) : ∃ y : ℕ → ℝ, (∀ t, modOut Echo.process x ⟨List.replicate (D + 1) 0, g⟩ t = .ok (y t)) ∧
    mk y * (1 - X * C g * X ^ D) = mk x := by
  have z : (lit 0 : ℝ) = 0 := by real_simp
  obtain ⟨y, hy⟩ := C54_echo (⟨List.replicate (D + 1) 0, g⟩ : Echo ℝ) (D + 1) (by omega) (by rw [z]) x
  rw [z] at hy
  refine ⟨y, fun t => (hy t).1, ?_⟩
  have r : ∀ n, y n = (if n < D + 1 then 0 else y (n - (D + 1))) * g + x n := fun n => (hy n).2
  clear hy
  have : mk y = C g * (X ^ (D + 1) * mk y) + mk x := by
    refine PowerSeries.ext fun n => ?_
    rw [map_add, coeff_C_mul, coeff_X_pow_mul', coeff_mk n x, coeff_mk n y]
    by_cases hn : n < D + 1
    · rw [if_neg (by omega), r n, if_pos hn]; ring
    · rw [if_pos (by omega), coeff_mk, r n, if_neg hn]; ring
  linear_combination this

variable {a b : LinearEffect} (ha : LTI Modifier.process a) (hb : LTI Modifier.process b) {A B : ℝ⟦X⟧}
    (hA : Transfer Modifier.process a A) (hB : Transfer Modifier.process b B)
include ha hb hA hB

/-- In series, transfer functions multiply. -/
theorem C149_series : ∃ h' c, cxCalls (S := ℝ) (ComplexSound.new (M := ℝ) (fun g => effectBlock (S := ℝ) (LinearEffect.gain g.m.val)) [] 1 1).2
      (ComplexSound.new (M := ℝ) (fun g => effectBlock (S := ℝ) (LinearEffect.gain g.m.val)) [] 1 1).1
      (([.block (effectBlock a), .block (effectBlock b), .connect 0 2, .connect 2 3, .connect 3 1] :
        List (BuildCall (StandardBlock Zero LinearEffect StdInter ℝ))).map BuildCall.call) = .ok (h', c) ∧
    ∀ (x : ℕ → ℝ) (T : ℕ), ∃ ys k, runSound ComplexSound.process c h' ((List.range T).map x) = .ok (ys, k) ∧
      ∀ t < T, ys[t]? = some (coeff t (A * B * mk x)) := by
  have hc : ∃ h' c, build [.block (effectBlock a), .block (effectBlock b), .connect 0 2, .connect 2 3, .connect 3 1] = .ok (h', c) ∧
      c.getNodes = [0, 2, 3, 1] ∧ c.graph.edges = [(3, 1), (2, 3), (0, 2)] :=
    build_shape (l := [(0, 2), (2, 3), (3, 1)]) (by decide +kernel)
  obtain ⟨h', c, hc, hn, hg⟩ := hc
  obtain ⟨-, K, hK, hx⟩ := pair ha hb hA hB [.connect 0 2, .connect 2 3] rfl (.connect 3 1) trivial hc
  have k0 := hK 0 (by rw [hn]; decide)
  have k1 := hK 1 (by rw [hn]; decide)
  have k2 := hK 2 (by rw [hn]; decide)
  have k3 := hK 3 (by rw [hn]; decide)
  simp only [hn, sentTo, hg, before, fromOn] at k0 k1 k2 k3
  simp at k0 k1 k2 k3
  refine ⟨h', c, hc, fun x T => ?_⟩
  have e : A * B = K 1 := by rw [k1, k3, k2, k0]; ring
  rw [e]
  exact hx x T

/-- Side by side, transfer functions add. -/
theorem C149_parallel : ∃ h' c, cxCalls (S := ℝ) (ComplexSound.new (M := ℝ) (fun g => effectBlock (S := ℝ) (LinearEffect.gain g.m.val)) [] 1 1).2
      (ComplexSound.new (M := ℝ) (fun g => effectBlock (S := ℝ) (LinearEffect.gain g.m.val)) [] 1 1).1
      (([.block (effectBlock a), .block (effectBlock b), .connect 0 2, .connect 0 3, .connect 2 1, .connect 3 1] :
        List (BuildCall (StandardBlock Zero LinearEffect StdInter ℝ))).map BuildCall.call) = .ok (h', c) ∧
    ∀ (x : ℕ → ℝ) (T : ℕ), ∃ ys k, runSound ComplexSound.process c h' ((List.range T).map x) = .ok (ys, k) ∧
      ∀ t < T, ys[t]? = some (coeff t ((A + B) * mk x)) := by
  have hc : ∃ h' c, build [.block (effectBlock a), .block (effectBlock b), .connect 0 2, .connect 0 3, .connect 2 1, .connect 3 1] = .ok (h', c) ∧
      c.getNodes = [0, 3, 2, 1] ∧ c.graph.edges = [(3, 1), (2, 1), (0, 3), (0, 2)] :=
    build_shape (l := [(0, 2), (0, 3), (2, 1), (3, 1)]) (by decide +kernel)
  obtain ⟨h', c, hc, hn, hg⟩ := hc
  obtain ⟨-, K, hK, hx⟩ := pair ha hb hA hB [.connect 0 2, .connect 0 3, .connect 2 1] rfl (.connect 3 1) trivial hc
  have k0 := hK 0 (by rw [hn]; decide)
  have k1 := hK 1 (by rw [hn]; decide)
  have k2 := hK 2 (by rw [hn]; decide)
  have k3 := hK 3 (by rw [hn]; decide)
  simp only [hn, sentTo, hg, before, fromOn] at k0 k1 k2 k3
  simp at k0 k1 k2 k3
  refine ⟨h', c, hc, fun x T => ?_⟩
  have e : A + B = K 1 := by rw [k1, k3, k2, k0]; ring
  rw [e]
  exact hx x T

/-- `a` with `b` as return path: the transfer function is `A / (1 - X A B)`, the extra `X` being the sample by which the connection
against the order is late. -/
theorem C149_feedback : ∃ h' c K, cxCalls (S := ℝ) (ComplexSound.new (M := ℝ) (fun g => effectBlock (S := ℝ) (LinearEffect.gain g.m.val)) [] 1 1).2
      (ComplexSound.new (M := ℝ) (fun g => effectBlock (S := ℝ) (LinearEffect.gain g.m.val)) [] 1 1).1
      (([.block (effectBlock a), .block (effectBlock b), .connect 0 2, .connect 2 3, .connect 3 2, .connect 2 1] :
        List (BuildCall (StandardBlock Zero LinearEffect StdInter ℝ))).map BuildCall.call) = .ok (h', c) ∧
    K * (1 - X * A * B) = A ∧
    ∀ (x : ℕ → ℝ) (T : ℕ), ∃ ys k, runSound ComplexSound.process c h' ((List.range T).map x) = .ok (ys, k) ∧
      ∀ t < T, ys[t]? = some (coeff t (K * mk x)) := by
  have hc : ∃ h' c, build [.block (effectBlock a), .block (effectBlock b), .connect 0 2, .connect 2 3, .connect 3 2, .connect 2 1] = .ok (h', c) ∧
      c.getNodes = [0, 2, 3, 1] ∧ c.graph.edges = [(2, 1), (3, 2), (2, 3), (0, 2)] :=
    build_shape (l := [(0, 2), (2, 3), (3, 2), (2, 1)]) (by decide +kernel)
  obtain ⟨h', c, hc, hn, hg⟩ := hc
  obtain ⟨-, K, hK, hx⟩ := pair ha hb hA hB [.connect 0 2, .connect 2 3, .connect 3 2] rfl (.connect 2 1) trivial hc
  have k0 := hK 0 (by rw [hn]; decide)
  have k1 := hK 1 (by rw [hn]; decide)
  have k2 := hK 2 (by rw [hn]; decide)
  have k3 := hK 3 (by rw [hn]; decide)
  simp only [hn, sentTo, hg, before, fromOn] at k0 k1 k2 k3
  simp at k0 k1 k2 k3
  refine ⟨h', c, K 1, hc, ?_, hx⟩
  rw [k1]
  rw [k0, k3] at k2
  linear_combination k2

omit ha hb hA hB in
/-- A gain `g` with a delay of `D` samples as return path is the echo of `D + 1` samples, followed by the gain. -/
theorem C149_echo (g : ℝ) (D : ℕ) : ∃ h' c, cxCalls (S := ℝ) (ComplexSound.new (M := ℝ) (fun g => effectBlock (S := ℝ) (LinearEffect.gain g.m.val)) [] 1 1).2
      (ComplexSound.new (M := ℝ) (fun g => effectBlock (S := ℝ) (LinearEffect.gain g.m.val)) [] 1 1).1
      (([.block (effectBlock (.gain (Gain.new g))), .block (effectBlock (.delay ⟨List.replicate D 0⟩)), .connect 0 2, .connect 2 3, .connect 3 2, .connect 2 1] :
        List (BuildCall (StandardBlock Zero LinearEffect StdInter ℝ))).map BuildCall.call) = .ok (h', c) ∧
    ∀ (x : ℕ → ℝ) (T : ℕ), ∃ ys k, runSound ComplexSound.process c h' ((List.range T).map x) = .ok (ys, k) ∧
      ∀ t < T, ∃ y, modOut Echo.process x ⟨List.replicate (D + 1) 0, g⟩ t = .ok y ∧ ys[t]? = some (g * y) := by
  have ha : LTI Modifier.process (LinearEffect.gain (Gain.new g)) := lti_map LinearEffect.gain (fun _ _ => rfl) (C58_gain g).1
  have hb : LTI Modifier.process (LinearEffect.delay ⟨List.replicate D 0⟩) := lti_map LinearEffect.delay (fun _ _ => rfl) (C58_delay _ D rfl)
  obtain ⟨h', c, K, hc, hK, hx⟩ := C149_feedback ha hb (transfer_gain g) (transfer_delay D)
  refine ⟨h', c, hc, fun x T => ?_⟩
  obtain ⟨ys, k, e1, e2⟩ := hx x T
  obtain ⟨y, hy, ey⟩ := echo_series g D x
  refine ⟨ys, k, e1, fun t ht => ⟨y t, hy t, ?_⟩⟩
  rw [e2 t ht]
  have hne : (1 - X * C g * X ^ D : ℝ⟦X⟧) ≠ 0 := by
    intro h0
    have := congrArg (coeff 0) h0
    simp [mul_assoc] at this
  have : K * mk x = C g * mk y := by
    refine mul_right_cancel₀ hne ?_
    linear_combination mk x * hK - C g * ey
  rw [this, coeff_C_mul, coeff_mk]

omit ha hb hA hB in
/-- The hypotheses of the diagrams: a low pass at 1 kHz and an echo. -/
example : ∃ A B : ℝ⟦X⟧, LTI Modifier.process (LinearEffect.low (LowPass.new 1000 0)) ∧ LTI Modifier.process (LinearEffect.echo ⟨[0, 0, 0], 1 / 2⟩) ∧
    Transfer Modifier.process (LinearEffect.low (LowPass.new 1000 0)) A ∧ Transfer Modifier.process (LinearEffect.echo ⟨[0, 0, 0], 1 / 2⟩) B := by
  have h1 : LTI Modifier.process (LinearEffect.low (LowPass.new 1000 0)) := lti_map LinearEffect.low (fun _ _ => rfl) (C58_new 1000 0).1
  have h2 : LTI Modifier.process (LinearEffect.echo ⟨[0, 0, 0], 1 / 2⟩) := lti_map LinearEffect.echo (fun _ _ => rfl) (C58_echo _ 3 (by norm_num) rfl)
  obtain ⟨A, hA, -⟩ := C149_effect h1
  obtain ⟨B, hB, -⟩ := C149_effect h2
  exact ⟨A, B, h1, h2, hA, hB⟩

omit ha hb hA hB in
/-- The flow equations of a gain 1/2 connected to itself: solved by 1/2, 1/4, 1/8, …. -/
example : FlowEqs ⟨[0, 1, 2], [(2, 1), (2, 2), (0, 2)]⟩ [0, 2, 1] (fun n => if n = 2 then C (1 / 2) else 1) 1
    (fun n => if n = 0 then 1 else mk fun k => (1 / 2) ^ (k + 1)) := by
  have e : (mk fun k => (1 / 2 : ℝ) ^ (k + 1) : ℝ⟦X⟧) = C (1 / 2) * (1 + X * mk fun k => (1 / 2 : ℝ) ^ (k + 1)) := by
    refine PowerSeries.ext fun n => ?_
    rw [coeff_C_mul, map_add, coeff_mk, coeff_one]
    cases n with
    | zero => rw [coeff_zero_X_mul]; norm_num
    | succ n => rw [coeff_succ_X_mul, coeff_mk, if_neg (by omega)]; ring
  intro n hn
  have hn : n = 0 ∨ n = 2 ∨ n = 1 := by simpa using hn
  rcases hn with rfl | rfl | rfl
  · simp [sentTo, before, fromOn]
  · simp only [sentTo, before, fromOn]
    simpa using e
  · simp [sentTo, before, fromOn]

end Verif
