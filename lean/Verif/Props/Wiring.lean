import Verif.Props.DeadBranch

set_option linter.unusedSectionVars false

/-! # The order of wiring: C168

A sound is a diagram of blocks and connections. In which order the connections were made, and whether others were made and
removed on the way, must not be heard. -/

namespace Verif
open ComplexSound

section
variable {B S : Type} [Flt S] [Block B S]

/-! ## Theorems -/

/-- Two sounds of good shape (C119) with the same blocks and the same connections, made by whatever calls, give the same
samples for the same input; where several connections into a block are used, adding must not depend on the order. Missing:
the other graphs and rounding, for which `C168_violated` and `C168_rounding_violated` have counterexamples. -/
theorem C168_partial {M : Type} [Flt M] [SM S M] (emb : GainBlock S → B) (h h1 h2 h' h1' h2' : Heap B) (ig og : M)
    (l l' : List (BuildCall B)) (o o' : BuildCall B) (hco : o.isConn) (hco' : o'.isConn) (c c' : ComplexSound)
    (hc : cxCalls (S := S) (ComplexSound.new emb h ig og).2 (ComplexSound.new emb h ig og).1 ((l ++ [o]).map BuildCall.call) = .ok (h1, c))
    (hc' : cxCalls (S := S) (ComplexSound.new emb h' ig og).2 (ComplexSound.new emb h' ig og).1 ((l' ++ [o']).map BuildCall.call) = .ok (h1', c'))
    (hblocks : newBlocks l = newBlocks l') (hedges : ∀ a b, c.graph.Edge a b ↔ c'.graph.Edge a b)
    (hin : ∀ a, ¬ c.graph.Edge a c.getInputGain) (hout : ∀ b, ¬ c.graph.Edge c.getOutputGain b)
    (hshape : (c.graph.AtMostOneIn ∧ c.graph.Acyclic) ∨ ∃ layer last, c.graph.Layered c.getOutputGain layer last)
    (hprime : c.graph.AtMostOneIn ∨ ∀ (b : B) (x y : S), Block.prime (Block.prime b x) y = Block.prime (Block.prime b y) x)
    (xs ys ys' : List S) (he : runSound ComplexSound.process c h1 xs = .ok (ys, h2)) (he' : runSound ComplexSound.process c' h1' xs = .ok (ys', h2')) :
    ys = ys' := by
  obtain ⟨_, _, f3, f4, _, _, _, _, _, _, hr, _⟩ := built_network hco hc
  obtain ⟨_, _, f3', f4', _, _, _, _, _, _, hr', _⟩ := built_network hco' hc'
  have hE : c.graph.Edge = c'.graph.Edge := by
    funext a b
    exact propext (hedges a b)
  have hi : c'.getInputGain = c.getInputGain := by unfold ComplexSound.getInputGain; rw [f3, f3']
  have ho : c'.getOutputGain = c.getOutputGain := by unfold ComplexSound.getOutputGain; rw [f4, f4']
  have hlen : c.graph.nodes.length = c'.graph.nodes.length := by
    rw [built_length hco hc, built_length hco' hc', hblocks]
  have hshape' : (c'.graph.AtMostOneIn ∧ c'.graph.Acyclic) ∨ ∃ layer last, c'.graph.Layered c'.getOutputGain layer last := by
    rcases hshape with ⟨a1, a2⟩ | ⟨layer, last, a1⟩
    · left
      unfold Graph.AtMostOneIn Graph.Acyclic at *
      rw [← hE]
      exact ⟨a1, a2⟩
    · right
      rw [ho]
      refine ⟨layer, last, ?_, ?_, ?_, ?_, ?_⟩
      · intro s hs
        refine a1.source s ⟨hlen ▸ hs.1, fun a ha => hs.2 a ((hedges a s).mp ha)⟩
      · intro a b hab
        exact a1.next a b ((hedges a b).mpr hab)
      · intro a a' b h1 h2
        exact a1.merge a a' b ((hedges a b).mpr h1) ((hedges a' b).mpr h2)
      · intro a h1
        exact a1.into a ((hedges a _).mpr h1)
      · intro b h1
        exact a1.final b ((hedges _ b).mpr h1)
  refine C165_partial emb h h1 h2 h' h1' h2' ig og ig og l l' o o' hco hco' c c' hc hc' hin hout ?_ ?_ hshape hshape' hprime (fun n => n)
    ⟨fun a b h => h, rfl, rfl, fun b _ a' => ?_⟩ ?_ xs ys ys' he he'
  · rw [hi]; exact fun a ha => hin a ((hedges a _).mpr ha)
  · rw [ho]; exact fun a ha => hout a ((hedges _ a).mpr ha)
  · rw [← hedges]
    exact ⟨fun h => ⟨a', h, rfl⟩, fun ⟨a, h, e⟩ => e ▸ h⟩
  · intro n _
    unfold builtBlocks
    match n with
    | 0 => rfl
    | 1 => rfl
    | n + 2 => simp only [hblocks]
end

/-! ## Violations -/

/-- Outputs of a complex sound with added blocks of the given gains and the given connections. -/
def gainSound (gs : List ℚ) (conns : List (ℕ × ℕ)) (xs : List F32) : Res (List F32) :=
  match cxCalls (S := F32) (ComplexSound.new (B := GainBlock F32) _root_.id [] (lit 1 : F64) (lit 1 : F64)).2
    (ComplexSound.new (B := GainBlock F32) _root_.id [] (lit 1 : F64) (lit 1 : F64)).1
    (gs.map (fun g => .addBlock (StandardBlock.fromModifier (Gain.new (lit g)))) ++ conns.map (fun e => .connect e.1 e.2)) with
  | .ok (h, c) => (runSound ComplexSound.process c h xs).map Prod.fst
  | .error e => .error e

/-- The code violates C168: of two orders of making the same five connections, one gives 2, 0, 0 for an impulse and the other 1, 1, 0. -/
theorem C168_violated : ∃ conns conns' : List (ℕ × ℕ), conns.Perm conns' ∧
    gainSound [1, 1, 1] conns [lit 1, lit 0, lit 0] = .ok [lit 2, lit 0, lit 0] ∧
    gainSound [1, 1, 1] conns' [lit 1, lit 0, lit 0] = .ok [lit 1, lit 1, lit 0] :=
  ⟨[(0, 2), (2, 4), (2, 3), (3, 4), (4, 1)], [(0, 2), (2, 3), (2, 4), (3, 4), (4, 1)], by decide, by decide +kernel, by decide +kernel⟩

/-- Even when every block is processed in time, the order of wiring decides the order in which inputs are added, and with it
the rounding: three voices with gains 1, 2^-24 and 2^-24 mixed in the output gain. -/
theorem C168_rounding_violated : ∃ conns conns' : List (ℕ × ℕ), conns.Perm conns' ∧
    gainSound [1, 1 / 2 ^ 24, 1 / 2 ^ 24] conns [lit 1] = .ok [lit 1] ∧
    gainSound [1, 1 / 2 ^ 24, 1 / 2 ^ 24] conns' [lit 1] = .ok [lit (1 + 1 / 2 ^ 23)] :=
  ⟨[(0, 4), (0, 3), (0, 2), (2, 1), (3, 1), (4, 1)], [(0, 2), (0, 3), (0, 4), (2, 1), (3, 1), (4, 1)], by decide, by decide +kernel, by decide +kernel⟩

/-! ## Example -/

/-- Input → 2 → 3 → output, wired from the end, with a connection that is removed again. -/
def detourCalls : List (BuildCall (GainBlock F32)) :=
  [.block unity, .connect 2 1, .block unity, .connect 3 1, .disconnect 2 1, .connect 2 3]

/-- Non-vacuity of `C168_partial`: the sound of `plainCalls` made in another way. -/
example : ∃ (h1 h2 h1' h2' : Heap (GainBlock F32)) (c c' : ComplexSound),
    cxCalls (S := F32) (ComplexSound.new (B := GainBlock F32) _root_.id [] (lit 1 : F64) (lit 1 : F64)).2
      (ComplexSound.new (B := GainBlock F32) _root_.id [] (lit 1 : F64) (lit 1 : F64)).1 ((plainCalls ++ [BuildCall.connect 3 1]).map BuildCall.call) = .ok (h1, c) ∧
    cxCalls (S := F32) (ComplexSound.new (B := GainBlock F32) _root_.id [] (lit 1 : F64) (lit 1 : F64)).2
      (ComplexSound.new (B := GainBlock F32) _root_.id [] (lit 1 : F64) (lit 1 : F64)).1 ((detourCalls ++ [BuildCall.connect 0 2]).map BuildCall.call) = .ok (h1', c') ∧
    newBlocks plainCalls = newBlocks detourCalls ∧ c.graph ≠ c'.graph ∧ (∀ a b, c.graph.Edge a b ↔ c'.graph.Edge a b) ∧
    (∀ a, ¬ c.graph.Edge a c.getInputGain) ∧ (∀ b, ¬ c.graph.Edge c.getOutputGain b) ∧ (c.graph.AtMostOneIn ∧ c.graph.Acyclic) ∧
    runSound ComplexSound.process c h1 [(lit 1 : F32), lit 2] = .ok ([lit 1, lit 2], h2) ∧
    runSound ComplexSound.process c' h1' [(lit 1 : F32), lit 2] = .ok ([lit 1, lit 2], h2') := by
  refine ⟨List.replicate 4 ⟨unity, 1⟩, List.replicate 4 ⟨unity, 1⟩, List.replicate 4 ⟨unity, 1⟩, List.replicate 4 ⟨unity, 1⟩, plainSound,
    ⟨⟨[0, 1, 2, 3], [(0, 2), (2, 3), (3, 1)]⟩, [0, 2, 3, 1], 0, 1, none, false, false⟩, by decide +kernel, by decide +kernel, rfl, by decide, ?_, ?_, ?_,
    ⟨?_, ?_⟩, by decide +kernel, by decide +kernel⟩
  · intro a b
    exact (show plainSound.graph.edges.Perm [(0, 2), (2, 3), (3, 1)] by decide).mem_iff
  · have : ∀ e ∈ plainSound.graph.edges, e.2 ≠ 0 := by decide
    exact fun a h => this _ h rfl
  · have : ∀ e ∈ plainSound.graph.edges, e.1 ≠ 1 := by decide
    exact fun a h => this _ h rfl
  · have : ∀ e ∈ plainSound.graph.edges, ∀ e' ∈ plainSound.graph.edges, e.2 = e'.2 → e.1 = e'.1 := by decide
    exact fun a b d h1 h2 => this _ h1 _ h2 rfl
  · have hr : ∀ e ∈ plainSound.graph.edges, (if e.1 = 1 then 9 else e.1) < if e.2 = 1 then 9 else e.2 := by decide
    have : ∀ a b, Relation.TransGen plainSound.graph.Edge a b → (if a = 1 then 9 else a) < if b = 1 then 9 else b := by
      intro a b hab
      induction hab with
      | single h1 => exact hr _ h1
      | tail _ h2 ih => exact ih.trans (hr _ h2)
    exact fun a ha => lt_irrefl _ (this a a ha)

end Verif
