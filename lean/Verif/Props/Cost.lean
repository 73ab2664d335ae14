import Verif.Props.Network
import Verif.Spec.Filter
import Mathlib.Algebra.Order.BigOperators.Group.Finset
import Mathlib.Algebra.BigOperators.Group.Finset.Piecewise
import Mathlib.Algebra.BigOperators.Ring.Finset

set_option linter.unusedSectionVars false

/-! # The cost of a sample: C167

A sound card asks for the next sample at a fixed rate. The work for one sample and the memory a sound takes must not grow
while it plays. -/

namespace Verif
open ComplexSound

section
variable {B S : Type} [Flt S] [Block B S]

/-! ## Specification -/

/-- A block with a count of the calls it has received. -/
structure Counted (B : Type) where
  block : B
  primed : ℕ
  ran : ℕ

/-- `prime` and `process` count and pass on. -/
instance : Block (Counted B) S where
  prime c x := ⟨Block.prime c.block x, c.primed + 1, c.ran⟩
  process c := match (Block.process c.block : Res (S × B)) with
    | .error e => .error e
    | .ok (y, b) => .ok (y, ⟨b, c.primed, c.ran + 1⟩)

/-! ## Lemmas -/

private theorem primes_count (b : Counted B) (l : List S) : (primes b l).primed = b.primed + l.length ∧ (primes b l).ran = b.ran := by
  unfold primes
  induction l generalizing b with
  | nil => exact ⟨rfl, rfl⟩
  | cons x l ih =>
    obtain ⟨h1, h2⟩ := ih (Block.prime b x)
    rw [List.foldl_cons, h1, h2]
    refine ⟨?_, rfl⟩
    show b.primed + 1 + l.length = b.primed + (l.length + 1)
    omega

private theorem process_count {b b' : Counted B} {y : S} (h : (Block.process b : Res (S × Counted B)) = .ok (y, b')) :
    b'.primed = b.primed ∧ b'.ran = b.ran + 1 := by
  simp only [Block.process] at h
  split at h
  · cases h
  · cases h
    exact ⟨rfl, rfl⟩

private theorem sentTo_length (g : Graph) (y : ℕ → S) (n : ℕ) (l : List ℕ) :
    (sentTo g y n l).length = (l.filter (fun m => (m, n) ∈ g.edges)).length := by
  rw [sentTo, List.length_map]

private theorem split_length (g : Graph) (l : List ℕ) (n : ℕ) : ((before l n).filter (fun m => (m, n) ∈ g.edges)).length +
    ((fromOn l n).filter (fun m => (m, n) ∈ g.edges)).length = (l.filter (fun m => (m, n) ∈ g.edges)).length := by
  have : before l n ++ fromOn l n = l := List.takeWhile_append_dropWhile
  rw [← List.length_append, ← List.filter_append, this]

/-- Calls that the block `n` receives per sample, other than `process`. -/
def inputsOf (c : ComplexSound) (n : ℕ) : ℕ :=
  (if n = c.getInputGain then 1 else 0) + (c.getNodes.filter (fun m => (m, n) ∈ c.graph.edges)).length

private theorem step_count {h h' : Heap (Counted B)} {c : ComplexSound} {st : ℕ → Counted B} {x out : S} (hr : Holds h c.graph st)
    (hv : c.graph.Valid) (hn : c.graph.edges.Nodup) (hi : c.inputGain < c.graph.nodes.length) (hlt : ∀ n ∈ c.getNodes, n < c.graph.nodes.length)
    (hnd : c.getNodes.Nodup) (hp : c.isPaused = false) (he : c.process h x = .ok (out, h')) :
    ∃ st' : ℕ → Counted B, Holds h' c.graph st' ∧ h'.length = h.length ∧
      ∀ n, (st' n).ran = (st n).ran + (if n ∈ c.getNodes then 1 else 0) ∧ (st' n).primed = (st n).primed + inputsOf c n := by
  obtain ⟨y, b', st', h1, h2, h3, h4, -⟩ := C85_process h h' c st x out hr hv hn hi hlt hnd hp he
  refine ⟨st', h1, h2.1, fun n => ?_⟩
  have hif : (if n = c.getInputGain then [x] else ([] : List S)).length = if n = c.getInputGain then 1 else 0 := by split <;> rfl
  rw [h4 n]
  unfold inputsOf
  by_cases hm : n ∈ c.getNodes
  · obtain ⟨p1, p2⟩ := process_count (h3 n hm)
    obtain ⟨q1, q2⟩ := primes_count (st n) ((if n = c.getInputGain then [x] else []) ++ sentTo c.graph y n (before c.getNodes n))
    obtain ⟨r1, r2⟩ := primes_count (b' n) (sentTo c.graph y n (fromOn c.getNodes n))
    rw [if_pos hm, if_pos hm, r1, r2, p1, p2, q1, q2, List.length_append, hif, sentTo_length, sentTo_length, ← split_length c.graph c.getNodes n]
    omega
  · obtain ⟨q1, q2⟩ := primes_count (st n) ((if n = c.getInputGain then [x] else []) ++ sentTo c.graph y n c.getNodes)
    rw [if_neg hm, if_neg hm, q1, q2, List.length_append, hif, sentTo_length]
    omega

/-! ## Complex sounds -/

/-- Over any number of samples, each block in the order has run once per sample and no other block has run; each block has
been given one input per sample and connection from a block in the order, the input gain one more. No memory was added. -/
theorem C167_cost (c : ComplexSound) (hv : c.graph.Valid) (hn : c.graph.edges.Nodup) (hi : c.inputGain < c.graph.nodes.length)
    (hlt : ∀ n ∈ c.getNodes, n < c.graph.nodes.length) (hnd : c.getNodes.Nodup) (hp : c.isPaused = false) (xs : List S) :
    ∀ (h h' : Heap (Counted B)) (st : ℕ → Counted B) (ys : List S), Holds h c.graph st → runSound ComplexSound.process c h xs = .ok (ys, h') →
    ∃ st' : ℕ → Counted B, Holds h' c.graph st' ∧ h'.length = h.length ∧
      ∀ n, (st' n).ran = (st n).ran + (if n ∈ c.getNodes then xs.length else 0) ∧ (st' n).primed = (st n).primed + xs.length * inputsOf c n := by
  induction xs with
  | nil =>
    intro h h' st ys hr he
    cases he
    exact ⟨st, hr, rfl, fun n => ⟨by simp, by simp⟩⟩
  | cons x xs ih =>
    intro h h' st ys hr he
    unfold runSound at he
    cases h1 : c.process h x with
    | error e => rw [h1] at he; cases he
    | ok p =>
      obtain ⟨y, h2⟩ := p
      rw [h1] at he
      simp only at he
      cases h3 : runSound ComplexSound.process c h2 xs with
      | error e => rw [h3] at he; cases he
      | ok q =>
        obtain ⟨ys', h4⟩ := q
        rw [h3] at he
        cases he
        obtain ⟨st1, a1, a2, a3⟩ := step_count hr hv hn hi hlt hnd hp h1
        obtain ⟨st2, b1, b2, b3⟩ := ih h2 _ st1 _ a1 h3
        refine ⟨st2, b1, b2.trans a2, fun n => ?_⟩
        rw [(b3 n).1, (b3 n).2, (a3 n).1, (a3 n).2, List.length_cons]
        refine ⟨?_, by ring⟩
        split <;> omega

/-- Each connection is used at most once per sample. -/
theorem inputs_le_edges (c : ComplexSound) (hv : c.graph.Valid) (hnd : c.getNodes.Nodup) :
    ∑ n ∈ Finset.range c.graph.nodes.length, inputsOf c n ≤ c.graph.edges.length + 1 := by
  unfold inputsOf
  rw [Finset.sum_add_distrib, add_comm]
  refine add_le_add ?_ ?_
  · have h1 : c.graph.edges.toFinset.card = ∑ n ∈ Finset.range c.graph.nodes.length, (c.graph.edges.toFinset.filter (fun e => e.2 = n)).card :=
      Finset.card_eq_sum_card_fiberwise fun e he => by
        have := (hv e (List.mem_toFinset.mp he)).2
        exact Finset.mem_coe.mpr (Finset.mem_range.mpr this)
    refine le_trans ?_ (List.toFinset_card_le c.graph.edges)
    rw [h1]
    refine Finset.sum_le_sum fun n _ => ?_
    rw [← List.toFinset_card_of_nodup (hnd.filter _)]
    refine Finset.card_le_card_of_injOn (fun m => (m, n)) ?_ ?_
    · intro m hm
      rw [Finset.mem_coe, List.mem_toFinset, List.mem_filter] at hm
      simp only [decide_eq_true_eq] at hm
      rw [Finset.mem_coe, Finset.mem_filter, List.mem_toFinset]
      exact ⟨hm.2, rfl⟩
    · intro a _ b _ hab
      exact (Prod.mk.inj hab).1
  · rw [Finset.sum_ite_eq']
    split <;> omega

/-- A sound of counted blocks, built by any calls, the last of them changing a connection. After any number of samples the
blocks have run once per sample for each entry of the order, which has at most one entry per block, and have been given at
most one input per sample and connection and one more. No memory was added. -/
theorem C167_built {M : Type} [Flt M] [SM S M] (emb : GainBlock S → B) (h h' h'' : Heap (Counted B)) (ig og : M)
    (l : List (BuildCall (Counted B))) (o : BuildCall (Counted B)) (hco : o.isConn) (c : ComplexSound)
    (hz : ∀ b ∈ newBlocks l, b.primed = 0 ∧ b.ran = 0)
    (hc : cxCalls (S := S) (ComplexSound.new (fun b => (⟨emb b, 0, 0⟩ : Counted B)) h ig og).2
      (ComplexSound.new (fun b => (⟨emb b, 0, 0⟩ : Counted B)) h ig og).1 ((l ++ [o]).map BuildCall.call) = .ok (h', c))
    (xs ys : List S) (he : runSound ComplexSound.process c h' xs = .ok (ys, h'')) :
    ∃ st : ℕ → Counted B, Holds h'' c.graph st ∧ h''.length = h'.length ∧ c.getNodes.length ≤ c.graph.nodes.length ∧
      (∀ n < c.graph.nodes.length, (st n).ran ≤ xs.length) ∧
      ∑ n ∈ Finset.range c.graph.nodes.length, (st n).ran = xs.length * c.getNodes.length ∧
      ∑ n ∈ Finset.range c.graph.nodes.length, (st n).primed ≤ xs.length * (c.graph.edges.length + 1) := by
  obtain ⟨f1, f2, f3, f4, f5, f6, f7, ho, o2, o3, hr, os, g, hg1, h1⟩ := built_network hco hc
  obtain ⟨st, s1, s2, s3⟩ := C167_cost c f1 f2 (by rw [f3]; omega) o3 o2 f6 xs h' h'' _ ys hr he
  have hzero : ∀ n, (builtBlocks (fun b => (⟨emb b, 0, 0⟩ : Counted B)) ig og l n).ran = 0 ∧
      (builtBlocks (fun b => (⟨emb b, 0, 0⟩ : Counted B)) ig og l n).primed = 0 := by
    intro n
    match n with
    | 0 => exact ⟨rfl, rfl⟩
    | 1 => exact ⟨rfl, rfl⟩
    | n + 2 =>
      simp only [builtBlocks, List.getD_eq_getElem?_getD]
      by_cases hn : n < (newBlocks l).length
      · rw [List.getElem?_eq_getElem hn]
        exact ⟨(hz _ (List.getElem_mem hn)).2, (hz _ (List.getElem_mem hn)).1⟩
      · rw [List.getElem?_eq_none (by omega)]
        exact ⟨rfl, rfl⟩
  have hsub : c.getNodes.toFinset ⊆ Finset.range c.graph.nodes.length := fun n hn => Finset.mem_range.mpr (o3 n (List.mem_toFinset.mp hn))
  refine ⟨st, s1, s2, ?_, fun n _ => ?_, ?_, ?_⟩
  · rw [← List.toFinset_card_of_nodup o2]
    simpa using Finset.card_le_card hsub
  · rw [(s3 n).1, (hzero n).1]
    split <;> omega
  · rw [Finset.sum_congr rfl fun n _ => by rw [(s3 n).1, (hzero n).1, zero_add, show (if n ∈ c.getNodes then xs.length else 0) =
      if n ∈ c.getNodes.toFinset then xs.length else 0 by simp]]
    rw [Finset.sum_ite_mem, Finset.inter_eq_right.mpr hsub, Finset.sum_const, List.toFinset_card_of_nodup o2, smul_eq_mul, mul_comm]
  · rw [Finset.sum_congr rfl fun n _ => by rw [(s3 n).2, (hzero n).2, zero_add]]
    rw [← Finset.mul_sum]
    exact Nat.mul_le_mul_left _ (inputs_le_edges c f1 o2)
end

/-! ## Effects with memory -/

section
variable {S : Type} [Flt S]

private theorem after_length {X : Type} {p : X → S → Res (S × X)} (len : X → ℕ × ℕ) (hp : ∀ m x y m', p m x = .ok (y, m') → len m' = len m)
    (x : ℕ → S) (m : X) (n : ℕ) (m' : X) (h : modAfter p x m n = .ok m') : len m' = len m := by
  induction n generalizing m' with
  | zero => cases h; rfl
  | succ n ih =>
    unfold modAfter at h
    cases h1 : modAfter p x m n with
    | error e => rw [h1] at h; cases h
    | ok m1 =>
      rw [h1] at h
      simp only at h
      cases h2 : p m1 (x n) with
      | error e => rw [h2] at h; cases h
      | ok q =>
        rw [h2] at h
        cases h
        rw [hp m1 (x n) q.1 q.2 h2, ih m1 h1]

/-- The buffers of `Delay`, `Echo` and `Generic`, whatever their state and taps, keep their lengths over any number of samples. -/
theorem C167_effects (x : ℕ → S) (n : ℕ) :
    (∀ m m' : Delay S, modAfter Delay.process x m n = .ok m' → m'.delay.length = m.delay.length) ∧
    (∀ m m' : Echo S, modAfter Echo.process x m n = .ok m' → m'.delay.length = m.delay.length) ∧
    (∀ m m' : Generic S, modAfter Generic.process x m n = .ok m' → m'.inputs.length = m.inputs.length ∧ m'.outputs.length = m.outputs.length ∧
      m'.zeros = m.zeros ∧ m'.poles = m.poles) := by
  refine ⟨fun m m' h => ?_, fun m m' h => ?_, fun m m' h => ?_⟩
  · refine (Prod.mk.inj (after_length (fun m : Delay S => (m.delay.length, 0)) ?_ x m n m' h)).1
    intro m x y m' hm
    unfold Delay.process at hm
    have hl : (m.delay ++ [x]).length = m.delay.length + 1 := by simp
    generalize m.delay ++ [x] = q at hm hl
    cases q with
    | nil => cases hm
    | cons a q =>
      cases hm
      simp only [List.length_cons] at hl
      simp only [Prod.mk.injEq, and_true]
      omega
  · refine (Prod.mk.inj (after_length (fun m : Echo S => (m.delay.length, 0)) ?_ x m n m' h)).1
    intro m x y m' hm
    unfold Echo.process at hm
    split at hm
    · cases hm
    · rename_i d q hd
      cases hm
      simp [hd]
  · have key : ∀ (m : Generic S) x y (m' : Generic S), Generic.process m x = .ok (y, m') →
        m'.inputs.length = m.inputs.length ∧ m'.outputs.length = m.outputs.length ∧ m'.zeros = m.zeros ∧ m'.poles = m.poles := by
      intro m x y m' hm
      unfold Generic.process at hm
      simp only [bind, Except.bind] at hm
      split at hm
      · cases hm
      · split at hm
        · cases hm
        · cases hm
          simp [Generic.shift]
    have taps : ∀ n m', modAfter Generic.process x m n = .ok m' → m'.zeros = m.zeros ∧ m'.poles = m.poles := by
      intro n
      induction n with
      | zero => intro m' h; cases h; exact ⟨rfl, rfl⟩
      | succ n ih =>
        intro m' h
        unfold modAfter at h
        cases h1 : modAfter Generic.process x m n with
        | error e => rw [h1] at h; cases h
        | ok m1 =>
          rw [h1] at h
          simp only at h
          cases h2 : Generic.process m1 (x n) with
          | error e => rw [h2] at h; cases h
          | ok q =>
            rw [h2] at h
            cases h
            obtain ⟨-, -, k1, k2⟩ := key m1 (x n) q.1 q.2 h2
            exact ⟨k1.trans (ih m1 h1).1, k2.trans (ih m1 h1).2⟩
    have hl := Prod.mk.inj (after_length (fun m : Generic S => (m.inputs.length, m.outputs.length))
      (fun m x y m' hm => Prod.ext (key m x y m' hm).1 (key m x y m' hm).2.1) x m n m' h)
    exact ⟨hl.1, hl.2, taps n m' h⟩
end

/-! ## Examples -/

/-- input → 2 → 3 → 4 → output and 2 → 4, counted, three samples: every block has run three times, and block 4 was given six inputs. -/
example : ∃ (h' h'' : Heap (Counted (GainBlock F32))) (c : ComplexSound) (ys : List F32),
    cxCalls (S := F32) (ComplexSound.new (fun b => (⟨b, 0, 0⟩ : Counted (GainBlock F32))) [] (lit 1 : F64) (lit 1 : F64)).2
      (ComplexSound.new (fun b => (⟨b, 0, 0⟩ : Counted (GainBlock F32))) [] (lit 1 : F64) (lit 1 : F64)).1
      ((([.block ⟨unity, 0, 0⟩, .block ⟨unity, 0, 0⟩, .block ⟨unity, 0, 0⟩, .connect 0 2, .connect 2 3, .connect 2 4, .connect 3 4] : List (BuildCall (Counted (GainBlock F32)))) ++
        [BuildCall.connect 4 1]).map BuildCall.call) = .ok (h', c) ∧
    runSound ComplexSound.process c h' [(lit 1 : F32), lit 1, lit 1] = .ok (ys, h'') ∧
    h''.map (fun d => (d.val.ran, d.val.primed)) = [(3, 3), (3, 3), (3, 3), (3, 3), (3, 6)] ∧ c.graph.edges.length = 5 := by
  refine ⟨_, _, _, _, rfl, rfl, ?_, ?_⟩ <;> decide +kernel

/-- Non-vacuity of `C167_effects`: a delay of two samples after one. -/
example : modAfter Delay.process (fun _ => (lit 1 : F32)) (⟨[lit 0, lit 0]⟩ : Delay F32) 1 = .ok ⟨[lit 0, lit 1]⟩ := rfl

end Verif
