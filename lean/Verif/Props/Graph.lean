import Verif.Proofs.Order
import Verif.Float.Lemmas
import Mathlib.Logic.Relation
import Mathlib.Data.Fintype.Card
import Mathlib.Data.Fintype.EquivFin
import Mathlib.Data.Finite.Defs

set_option linter.unusedSectionVars false

/-! # The block graph and the processing order: C82, C83, C84, C88 -/

namespace Verif
open ComplexSound

deriving instance DecidableEq for Graph
deriving instance DecidableEq for ComplexSound

/-! ## Specification -/

/-- Calls that change the graph. -/
inductive GraphOp where
  | addBlock (block : ℕ) | connect (a b : ℕ) | disconnect (a b : ℕ)

/-- Effect of one call. -/
def ComplexSound.op (c : ComplexSound) : GraphOp → Res ComplexSound
  | .addBlock w => .ok (c.addBlock w).2
  | .connect a b => c.addConnection a b
  | .disconnect a b => .ok (c.removeConnection a b)

/-- Effect of a sequence of calls. -/
def ComplexSound.ops (c : ComplexSound) : List GraphOp → Res ComplexSound
  | [] => .ok c
  | o :: os => match c.op o with
    | .error e => .error e
    | .ok c' => c'.ops os

/-- The call changes connections. -/
def GraphOp.isConn : GraphOp → Prop
  | .addBlock _ => False
  | _ => True

/-- There is a connection from `a` to `b`. -/
def Graph.Edge (g : Graph) (a b : ℕ) : Prop := (a, b) ∈ g.edges
/-- A block without incoming connections. -/
def Graph.Source (g : Graph) (n : ℕ) : Prop := n < g.nodes.length ∧ ∀ a, ¬ g.Edge a n
/-- A path of connections, possibly empty. -/
def Graph.Reaches (g : Graph) : ℕ → ℕ → Prop := Relation.ReflTransGen g.Edge
/-- No cycle of connections. -/
def Graph.Acyclic (g : Graph) : Prop := ∀ a, ¬ Relation.TransGen g.Edge a a
/-- No block has two connections into it. -/
def Graph.AtMostOneIn (g : Graph) : Prop := ∀ a b c, g.Edge a c → g.Edge b c → a = b

/-- Connections lead from each layer to the next (up to number `last`), several connections into a block exist in the last
layer only, and the output gain `out` is fed from the last two layers and feeds nothing. -/
structure Graph.Layered (g : Graph) (out : ℕ) (layer : ℕ → ℕ) (last : ℕ) : Prop where
  source : ∀ s, g.Source s → s ≠ out → layer s = 0
  next : ∀ a b, g.Edge a b → b ≠ out → layer b = layer a + 1 ∧ layer b ≤ last
  merge : ∀ a a' b, g.Edge a b → g.Edge a' b → b ≠ out → layer b < last → a = a'
  into : ∀ a, g.Edge a out → last ≤ layer a + 1
  final : ∀ b, ¬ g.Edge out b

/-! ## Reachable states -/

private structure Inv (c : ComplexSound) : Prop where
  valid : c.graph.Valid
  nodup : c.graph.edges.Nodup
  ig : c.inputGain = 0
  og : c.outputGain = 1
  two : 2 ≤ c.graph.nodes.length

private def Synced (c : ComplexSound) : Prop := computeOrder c.graph c.inputGain c.outputGain = some c.processOrder

private theorem computeOrder_isSome {g : Graph} (h : g.Valid) (a b : ℕ) : ∃ v, computeOrder g a b = some v := by
  have := orderLoop_isSome h 0
  rw [Option.isSome_iff_exists] at this
  obtain ⟨v, hv⟩ := this
  exact ⟨_, by unfold computeOrder; rw [show g.nodes.length + 2 = g.nodes.length + 2 + 0 from rfl, hv]; rfl⟩

private theorem reorder_eq {c : ComplexSound} (h : c.graph.Valid) : ∃ v, computeOrder c.graph c.inputGain c.outputGain = some v ∧
    reorder c = { c with processOrder := v } := by
  obtain ⟨v, hv⟩ := computeOrder_isSome h c.inputGain c.outputGain
  exact ⟨v, hv, by unfold reorder; rw [hv]⟩

private theorem reorder_synced {c : ComplexSound} (h : c.graph.Valid) : Synced (reorder c) := by
  obtain ⟨v, hv, e⟩ := reorder_eq h
  unfold Synced
  rw [e]
  exact hv

private theorem updateEdge_ok {g g' : Graph} {a b : ℕ} (h : g.updateEdge a b = .ok g') :
    ((a, b) ∈ g.edges ∧ g' = g) ∨ ((a, b) ∉ g.edges ∧ a < g.nodes.length ∧ b < g.nodes.length ∧ g' = { g with edges := (a, b) :: g.edges }) := by
  unfold Graph.updateEdge Graph.hasEdge at h
  split_ifs at h with h1 h2
  · exact .inl ⟨List.contains_iff_mem.mp h1, (Except.ok.inj h).symm⟩
  · exact .inr ⟨fun h => h1 (List.contains_iff_mem.mpr h), h2.1, h2.2, (Except.ok.inj h).symm⟩

private theorem updateEdge_valid {g g' : Graph} {a b : ℕ} (hg : g.Valid) (hn : g.edges.Nodup) (h : g.updateEdge a b = .ok g') :
    g'.Valid ∧ g'.edges.Nodup ∧ g'.nodes = g.nodes := by
  rcases updateEdge_ok h with ⟨-, rfl⟩ | ⟨h1, h2, h3, rfl⟩
  · exact ⟨hg, hn, rfl⟩
  · refine ⟨fun e he => ?_, List.nodup_cons.mpr ⟨h1, hn⟩, rfl⟩
    rcases List.mem_cons.mp he with rfl | he
    · exact ⟨h2, h3⟩
    · exact hg e he

private theorem removeEdge_valid {g : Graph} (a b : ℕ) (hg : g.Valid) (hn : g.edges.Nodup) :
    (g.removeEdge a b).Valid ∧ (g.removeEdge a b).edges.Nodup ∧ (g.removeEdge a b).nodes = g.nodes :=
  ⟨fun e he => hg e (List.mem_of_mem_erase he), hn.erase _, rfl⟩

private theorem addConnection_ok {c c' : ComplexSound} {a b : ℕ} (h : c.addConnection a b = .ok c') :
    ∃ g, c.graph.updateEdge a b = .ok g ∧ c' = reorder { c with graph := g } := by
  unfold ComplexSound.addConnection at h
  cases hg : c.graph.updateEdge a b with
  | error e => rw [hg] at h; cases h
  | ok g => rw [hg] at h; exact ⟨g, rfl, (Except.ok.inj h).symm⟩

private theorem op_inv {c c' : ComplexSound} {o : GraphOp} (hi : Inv c) (h : c.op o = .ok c') : Inv c' ∧ (o.isConn → Synced c') := by
  cases o with
  | addBlock w =>
    cases h
    refine ⟨⟨fun e he => ?_, hi.nodup, hi.ig, hi.og, ?_⟩, fun h => h.elim⟩
    · obtain ⟨h1, h2⟩ := hi.valid e he
      simp only [ComplexSound.addBlock, Graph.addNode, List.length_append, List.length_singleton]
      omega
    · have := hi.two
      simp only [ComplexSound.addBlock, Graph.addNode, List.length_append, List.length_singleton]
      omega
  | connect a b =>
    obtain ⟨g, h1, rfl⟩ := addConnection_ok h
    obtain ⟨v1, v2, v3⟩ := updateEdge_valid hi.valid hi.nodup h1
    obtain ⟨v, hv, e⟩ := reorder_eq (c := { c with graph := g }) v1
    refine ⟨?_, fun _ => reorder_synced v1⟩
    rw [e]
    exact ⟨v1, v2, hi.ig, hi.og, by rw [v3]; exact hi.two⟩
  | disconnect a b =>
    cases h
    obtain ⟨v1, v2, v3⟩ := removeEdge_valid a b hi.valid hi.nodup
    obtain ⟨v, hv, e⟩ := reorder_eq (c := { c with graph := c.graph.removeEdge a b }) v1
    refine ⟨?_, fun _ => reorder_synced v1⟩
    unfold ComplexSound.removeConnection
    rw [e]
    exact ⟨v1, v2, hi.ig, hi.og, by rw [v3]; exact hi.two⟩

private theorem ops_inv {c c' : ComplexSound} {os : List GraphOp} (hi : Inv c) (h : c.ops os = .ok c') : Inv c' := by
  induction os generalizing c with
  | nil => cases h; exact hi
  | cons o os ih =>
    rw [ComplexSound.ops] at h
    cases ho : c.op o with
    | error e => rw [ho] at h; cases h
    | ok c1 => rw [ho] at h; exact ih (op_inv hi ho).1 h

private theorem ops_append {c c' : ComplexSound} {os : List GraphOp} {o : GraphOp} (h : c.ops (os ++ [o]) = .ok c') :
    ∃ c1, c.ops os = .ok c1 ∧ c1.op o = .ok c' := by
  induction os generalizing c with
  | nil =>
    refine ⟨c, rfl, ?_⟩
    rw [List.nil_append, ComplexSound.ops] at h
    cases ho : c.op o with
    | error e => rw [ho] at h; cases h
    | ok c1 => rw [ho] at h; cases h; rfl
  | cons o' os ih =>
    rw [List.cons_append, ComplexSound.ops] at h
    cases ho : c.op o' with
    | error e => rw [ho] at h; cases h
    | ok c1 =>
      rw [ho] at h
      obtain ⟨c2, h1, h2⟩ := ih h
      exact ⟨c2, by rw [ComplexSound.ops, ho]; exact h1, h2⟩

section
variable {B S M : Type} [Flt S] [Flt M] [SM S M]

private theorem new_inv (emb : GainBlock S → B) (h : Heap B) (ig og : M) : Inv (ComplexSound.new emb h ig og).1 :=
  ⟨fun _ h => (List.not_mem_nil h).elim, List.nodup_nil, rfl, rfl, le_rfl⟩

private theorem final {emb : GainBlock S → B} {h : Heap B} {ig og : M} {os : List GraphOp} {o : GraphOp} (ho : o.isConn) {c : ComplexSound}
    (hc : (ComplexSound.new emb h ig og).1.ops (os ++ [o]) = .ok c) :
    Inv c ∧ ∃ v, orderLoop c.graph (c.graph.nodes.length + 2) c.graph.externals 0 = some v ∧
      c.getNodes = 0 :: v.filter (fun e => e ≠ 0 ∧ e ≠ 1) ++ [1] := by
  obtain ⟨c1, h1, h2⟩ := ops_append hc
  have hi := op_inv (ops_inv (new_inv emb h ig og) h1) h2
  refine ⟨hi.1, ?_⟩
  have hs := hi.2 ho
  unfold Synced computeOrder at hs
  rw [Option.map_eq_some_iff] at hs
  obtain ⟨v, hv, e⟩ := hs
  refine ⟨v, hv, ?_⟩
  unfold ComplexSound.getNodes
  rw [← e, hi.1.ig, hi.1.og]

/-- The blocks added by some calls. -/
def addedBlocks : List GraphOp → List ℕ
  | [] => []
  | .addBlock w :: os => w :: addedBlocks os
  | _ :: os => addedBlocks os

private theorem reorder_same {c : ComplexSound} (h : c.graph.Valid) : (reorder c).graph = c.graph ∧ (reorder c).paused = c.paused ∧
    (reorder c).muted = c.muted := by
  obtain ⟨v, -, e⟩ := reorder_eq h
  rw [e]
  exact ⟨rfl, rfl, rfl⟩

private theorem ops_nodes {c c' : ComplexSound} {os : List GraphOp} (hi : Inv c) (h : c.ops os = .ok c') :
    c'.graph.nodes = c.graph.nodes ++ addedBlocks os ∧ c'.paused = c.paused ∧ c'.muted = c.muted := by
  induction os generalizing c with
  | nil => cases h; simp [addedBlocks]
  | cons o os ih =>
    rw [ComplexSound.ops] at h
    cases ho : c.op o with
    | error e => rw [ho] at h; cases h
    | ok c1 =>
      rw [ho] at h
      obtain ⟨h1, h2, h3⟩ := ih (op_inv hi ho).1 h
      cases o with
      | addBlock w =>
        cases ho
        refine ⟨?_, h2, h3⟩
        rw [h1]
        simp [ComplexSound.addBlock, Graph.addNode, addedBlocks]
      | connect a b =>
        obtain ⟨g, e1, rfl⟩ := addConnection_ok ho
        obtain ⟨v1, v2, v3⟩ := updateEdge_valid hi.valid hi.nodup e1
        obtain ⟨r1, r2, r3⟩ := reorder_same (c := { c with graph := g }) v1
        rw [h1, h2, h3, r1, r2, r3]
        exact ⟨by simp only [v3, addedBlocks], rfl, rfl⟩
      | disconnect a b =>
        cases ho
        obtain ⟨v1, v2, v3⟩ := removeEdge_valid a b hi.valid hi.nodup
        obtain ⟨r1, r2, r3⟩ := reorder_same (c := { c with graph := c.graph.removeEdge a b }) v1
        rw [h1, h2, h3]
        unfold ComplexSound.removeConnection
        rw [r1, r2, r3]
        exact ⟨by simp only [v3, addedBlocks], rfl, rfl⟩

/-- What holds for every sound built from a new one. -/
theorem built_facts {emb : GainBlock S → B} {h : Heap B} {ig og : M} {os : List GraphOp} {c : ComplexSound}
    (hc : (ComplexSound.new emb h ig og).1.ops os = .ok c) :
    c.graph.Valid ∧ c.graph.edges.Nodup ∧ c.inputGain = 0 ∧ c.outputGain = 1 ∧ c.graph.nodes = [h.length, h.length + 1] ++ addedBlocks os ∧
      c.paused = false ∧ c.muted = false := by
  have hi := ops_inv (new_inv emb h ig og) hc
  obtain ⟨h1, h2, h3⟩ := ops_nodes (new_inv emb h ig og) hc
  refine ⟨hi.valid, hi.nodup, hi.ig, hi.og, ?_, h2, h3⟩
  rw [h1]
  simp [ComplexSound.new, Heap.alloc]

/-! ## C82 -/

/-- The order computed after any calls ending in a connection change starts with the input gain, ends with the output
gain, contains no node twice, and only nodes of the graph. -/
theorem C82_order (emb : GainBlock S → B) (h : Heap B) (ig og : M) (os : List GraphOp) (o : GraphOp) (ho : o.isConn) (c : ComplexSound)
    (hc : (ComplexSound.new emb h ig og).1.ops (os ++ [o]) = .ok c) :
    (∃ mid, c.getNodes = c.getInputGain :: mid ++ [c.getOutputGain]) ∧ c.getNodes.Nodup ∧ ∀ n ∈ c.getNodes, n < c.graph.nodes.length := by
  obtain ⟨hi, v, hv, e⟩ := final ho hc
  refine ⟨⟨v.filter (fun e => e ≠ 0 ∧ e ≠ 1), ?_⟩, ?_, ?_⟩
  · unfold ComplexSound.getInputGain ComplexSound.getOutputGain
    rw [e, hi.ig, hi.og]
  · rw [e, List.cons_append, List.nodup_cons, List.nodup_append]
    refine ⟨?_, (orderLoop_nodup hv).filter _, List.nodup_singleton 1, ?_⟩
    · simp
    · rintro a ha b hb rfl
      rw [List.mem_singleton] at hb
      subst hb
      simp at ha
  · intro n hn
    have := hi.two
    rw [e] at hn
    simp only [List.cons_append, List.mem_cons, List.mem_append, List.mem_filter, List.not_mem_nil, or_false] at hn
    rcases hn with rfl | ⟨hn, -⟩ | rfl
    · omega
    · exact orderLoop_mem hi.valid hv n hn
    · omega

/-- The computation of the order stops within `nodes + 2` rounds, for every graph that any calls build. -/
theorem C82_terminates (emb : GainBlock S → B) (h : Heap B) (ig og : M) (os : List GraphOp) (c : ComplexSound)
    (hc : (ComplexSound.new emb h ig og).1.ops os = .ok c) :
    ∃ v, ∀ k, orderLoop c.graph (c.graph.nodes.length + 2 + k) c.graph.externals 0 = some v := by
  have hi := ops_inv (new_inv emb h ig og) hc
  obtain ⟨v, hv⟩ := Option.isSome_iff_exists.mp (orderLoop_isSome hi.valid 0)
  exact ⟨v, fun k => orderLoop_fuel _ _ _ _ hv k⟩

/-- Adding a block keeps the order, which still names only nodes of the graph. -/
theorem C82_addBlock (c : ComplexSound) (w : ℕ) : (c.addBlock w).2.getNodes = c.getNodes ∧
    (c.addBlock w).1 = c.graph.nodes.length ∧ (c.addBlock w).2.graph.nodes = c.graph.nodes ++ [w] := ⟨rfl, rfl, rfl⟩

/-- A new sound has an empty order, even without its input and output gain. -/
theorem C82_new (emb : GainBlock S → B) (h : Heap B) (ig og : M) : (ComplexSound.new emb h ig og).1.getNodes = [] := rfl

/-! ## C83, C84 -/

/-- The sources and the blocks they connect to are always in the order. -/
theorem C83_sources_partial (emb : GainBlock S → B) (h : Heap B) (ig og : M) (os : List GraphOp) (o : GraphOp) (ho : o.isConn) (c : ComplexSound)
    (hc : (ComplexSound.new emb h ig og).1.ops (os ++ [o]) = .ok c) (s : ℕ) (hs : c.graph.Source s) :
    s ∈ c.getNodes ∧ ∀ b, c.graph.Edge s b → b ∈ c.getNodes := by
  obtain ⟨hi, v, hv, e⟩ := final ho hc
  obtain ⟨h1, h2⟩ := orderLoop_sources hv
  have key : ∀ n ∈ v, n ∈ c.getNodes := by
    intro n hn
    rw [e]
    simp only [List.cons_append, List.mem_cons, List.mem_append, List.mem_filter, List.not_mem_nil, or_false, decide_eq_true_eq]
    by_cases h0 : n = 0
    · exact .inl h0
    · by_cases h1 : n = 1
      · exact .inr (.inr h1)
      · exact .inr (.inl ⟨hn, h0, h1⟩)
  have hse : s ∈ c.graph.externals := mem_externals.mpr hs
  exact ⟨key _ (h1 s hse), fun b hb => key _ (h2 s hse b hb)⟩

/-- If no block has two connections into it, every block reachable from a source is in the order. Missing: blocks with
several inputs. -/
theorem C83_forest_partial (emb : GainBlock S → B) (h : Heap B) (ig og : M) (os : List GraphOp) (o : GraphOp) (ho : o.isConn) (c : ComplexSound)
    (hc : (ComplexSound.new emb h ig og).1.ops (os ++ [o]) = .ok c) (hd : c.graph.AtMostOneIn)
    (s n : ℕ) (hs : c.graph.Source s) (hr : c.graph.Reaches s n) : n ∈ c.getNodes := by
  obtain ⟨hi, v, hv, e⟩ := final ho hc
  obtain ⟨h1, -⟩ := orderLoop_sources hv
  have h2 := orderLoop_forest hi.nodup hd hv
  have hn : n ∈ v := by
    induction hr with
    | refl => exact h1 s (mem_externals.mpr hs)
    | @tail x y _ hb ih =>
      have := (h2 x ih y hb).subset
      exact this (by simp)
  rw [e]
  simp only [List.cons_append, List.mem_cons, List.mem_append, List.mem_filter, List.not_mem_nil, or_false, decide_eq_true_eq]
  by_cases h0 : n = 0
  · exact .inl h0
  · by_cases h1 : n = 1
    · exact .inr (.inr h1)
    · exact .inr (.inl ⟨hn, h0, h1⟩)

private theorem acyclic_reached {g : Graph} (hv : g.Valid) (ha : g.Acyclic) (n : ℕ) (hn : n < g.nodes.length) :
    ∃ s, g.Source s ∧ g.Reaches s n := by
  let r : Fin g.nodes.length → Fin g.nodes.length → Prop := fun a b => Relation.TransGen g.Edge a b
  have : IsTrans _ r := ⟨fun a b c => Relation.TransGen.trans⟩
  have : Std.Irrefl r := ⟨fun a => ha a⟩
  have hwf : WellFounded r := Finite.wellFounded_of_trans_of_irrefl r
  have key : ∀ x : Fin g.nodes.length, ∃ s, g.Source s ∧ g.Reaches s x := by
    intro x
    induction x using hwf.induction with
    | _ x ih =>
      by_cases hx : ∃ a, g.Edge a x
      · obtain ⟨a, ha'⟩ := hx
        obtain ⟨s, h1, h2⟩ := ih ⟨a, (hv _ ha').1⟩ (Relation.TransGen.single ha')
        exact ⟨s, h1, h2.tail ha'⟩
      · exact ⟨x, ⟨x.2, fun a h => hx ⟨a, h⟩⟩, Relation.ReflTransGen.refl⟩
  exact key ⟨n, hn⟩

/-- In an acyclic graph without blocks with two inputs the order contains every block. -/
theorem C83_acyclic_partial (emb : GainBlock S → B) (h : Heap B) (ig og : M) (os : List GraphOp) (o : GraphOp) (ho : o.isConn) (c : ComplexSound)
    (hc : (ComplexSound.new emb h ig og).1.ops (os ++ [o]) = .ok c) (hd : c.graph.AtMostOneIn) (ha : c.graph.Acyclic)
    (n : ℕ) (hn : n < c.graph.nodes.length) : n ∈ c.getNodes := by
  obtain ⟨s, h1, h2⟩ := acyclic_reached (final ho hc).1.valid ha n hn
  exact C83_forest_partial emb h ig og os o ho c hc hd s n h1 h2

/-- If no block has two connections into it, nothing is connected to the input gain, and the output gain is connected to
nothing, then each block in the order comes before the blocks it is connected to. Missing: blocks with several inputs. -/
theorem C84_partial (emb : GainBlock S → B) (h : Heap B) (ig og : M) (os : List GraphOp) (o : GraphOp) (ho : o.isConn) (c : ComplexSound)
    (hc : (ComplexSound.new emb h ig og).1.ops (os ++ [o]) = .ok c) (hd : c.graph.AtMostOneIn)
    (hin : ∀ a, ¬ c.graph.Edge a c.getInputGain) (hout : ∀ b, ¬ c.graph.Edge c.getOutputGain b)
    (a b : ℕ) (ha : a ∈ c.getNodes) (hab : c.graph.Edge a b) : [a, b].Sublist c.getNodes := by
  obtain ⟨hi, v, hv, e⟩ := final ho hc
  unfold ComplexSound.getInputGain at hin
  unfold ComplexSound.getOutputGain at hout
  rw [hi.ig] at hin
  rw [hi.og] at hout
  obtain ⟨h1, -⟩ := orderLoop_sources hv
  have h2 := orderLoop_forest hi.nodup hd hv
  have h0v : 0 ∈ v := h1 0 (mem_externals.mpr ⟨by have := hi.two; omega, hin⟩)
  have hb0 : b ≠ 0 := by rintro rfl; exact hin a hab
  have ha1 : a ≠ 1 := by rintro rfl; exact hout b hab
  rw [e, List.cons_append] at ha ⊢
  simp only [List.mem_cons, List.mem_append, List.mem_filter, List.not_mem_nil, or_false, decide_eq_true_eq] at ha
  by_cases ha0 : a = 0
  · subst ha0
    refine List.Sublist.cons_cons 0 (List.singleton_sublist.mpr ?_)
    have hbv : b ∈ v := (h2 0 h0v b hab).subset (by simp)
    rw [List.mem_append, List.mem_filter, List.mem_singleton]
    by_cases hb1 : b = 1
    · exact .inr hb1
    · exact .inl ⟨hbv, by simp [hb0, hb1]⟩
  · have hav : a ∈ v := by
      rcases ha with h | h | h
      · exact absurd h ha0
      · exact h.1
      · exact absurd h ha1
    have hs := h2 a hav b hab
    apply List.Sublist.cons
    by_cases hb1 : b = 1
    · subst hb1
      have hs2 : ([a] ++ [1]).Sublist (v.filter (fun e => decide (e ≠ 0 ∧ e ≠ 1)) ++ [1]) := by
        refine List.Sublist.append (List.singleton_sublist.mpr ?_) (List.Sublist.refl _)
        rw [List.mem_filter]
        exact ⟨hav, by simp [ha0, ha1]⟩
      exact hs2
    · have := hs.filter (fun e => decide (e ≠ 0 ∧ e ≠ 1))
      rw [List.filter_cons_of_pos (by simp [ha0, ha1]), List.filter_cons_of_pos (by simp [hb0, hb1]), List.filter_nil] at this
      exact this.trans (List.sublist_append_left _ _)

/-- For an acyclic graph of this kind every connection goes forward in the order. -/
theorem C84_acyclic_partial (emb : GainBlock S → B) (h : Heap B) (ig og : M) (os : List GraphOp) (o : GraphOp) (ho : o.isConn) (c : ComplexSound)
    (hc : (ComplexSound.new emb h ig og).1.ops (os ++ [o]) = .ok c) (hd : c.graph.AtMostOneIn) (hac : c.graph.Acyclic)
    (hin : ∀ a, ¬ c.graph.Edge a c.getInputGain) (hout : ∀ b, ¬ c.graph.Edge c.getOutputGain b)
    (a b : ℕ) (hab : c.graph.Edge a b) : [a, b].Sublist c.getNodes :=
  C84_partial emb h ig og os o ho c hc hd hin hout a b
    (C83_acyclic_partial emb h ig og os o ho c hc hd hac a ((final ho hc).1.valid _ hab).1) hab

private theorem layered_acyclic {g : Graph} {out last : ℕ} {layer : ℕ → ℕ} (hl : g.Layered out layer last) : g.Acyclic := by
  have key : ∀ a b, Relation.TransGen g.Edge a b → a ≠ out ∧ (b = out ∨ layer a < layer b) := by
    intro a b h
    have he : ∀ x y, g.Edge x y → x ≠ out ∧ (y = out ∨ layer x < layer y) := by
      intro x y hxy
      refine ⟨by rintro rfl; exact hl.final y hxy, ?_⟩
      by_cases hy : y = out
      · exact .inl hy
      · have := (hl.next x y hxy hy).1
        exact .inr (by omega)
    induction h with
    | single h => exact he _ _ h
    | tail _ h2 ih =>
      obtain ⟨h3, h4⟩ := he _ _ h2
      refine ⟨ih.1, ?_⟩
      rcases h4 with h4 | h4
      · exact .inl h4
      · rcases ih.2 with h5 | h5
        · exact absurd h5 h3
        · exact .inr (by omega)
  intro a ha
  obtain ⟨h1, h2⟩ := key a a ha
  rcases h2 with h2 | h2
  · exact h1 h2
  · omega

private theorem sublist_of_sorted {v : List ℕ} {r : ℕ → ℕ} (h : v.Pairwise (fun x y => r x ≤ r y)) {a b : ℕ} (ha : a ∈ v) (hb : b ∈ v)
    (hab : r a < r b) : [a, b].Sublist v := by
  induction v with
  | nil => cases ha
  | cons x v ih =>
    rw [List.pairwise_cons] at h
    rcases List.mem_cons.mp ha with rfl | ha'
    · refine List.Sublist.cons_cons a (List.singleton_sublist.mpr ?_)
      rcases List.mem_cons.mp hb with rfl | hb'
      · omega
      · exact hb'
    · rcases List.mem_cons.mp hb with rfl | hb'
      · have := h.1 a ha'
        omega
      · exact (ih h.2 ha' hb').cons x

open Classical in
private theorem layered_order {g : Graph} (hn : g.edges.Nodup) (hv : g.Valid) {out last : ℕ} {layer : ℕ → ℕ} (hl : g.Layered out layer last)
    {fuel : ℕ} {v : List ℕ} (h : orderLoop g fuel g.externals 0 = some v) :
    (∀ n < g.nodes.length, n = out ∨ n ∈ v) ∧ ∀ a b, g.Edge a b → b ≠ out → [a, b].Sublist v := by
  have hs : ∀ a b, g.Edge a b → a ≠ out := by rintro a b hab rfl; exact hl.final b hab
  let r : ℕ → ℕ := fun x => if x = out then (if g.Source out then 0 else last) else layer x
  have hr : ∀ x, x ≠ out → r x = layer x := fun x hx => if_neg hx
  have hro : ∀ a, g.Edge a out → r out = last := by
    intro a ha
    show (if out = out then (if g.Source out then 0 else last) else layer out) = last
    rw [if_pos rfl, if_neg (fun hc => hc.2 a ha)]
  obtain ⟨h1, h2⟩ := orderLoop_layers (r := r) (D := last) hn (fun s hx => by
      have hx : g.Source s := mem_externals.mp hx
      by_cases hso : s = out
      · subst hso
        show (if s = s then (if g.Source s then 0 else last) else layer s) = 0
        rw [if_pos rfl, if_pos hx]
      · rw [hr s hso, hl.source s hx hso])
    (fun a b hab => by
      rw [hr a (hs a b hab)]
      by_cases hb : b = out
      · subst hb
        rw [hro a hab, min_eq_right (hl.into a hab)]
      · obtain ⟨h1, h2⟩ := hl.next a b hab hb
        rw [hr b hb, h1, min_eq_left (by omega)])
    (fun a b c hac hbc hc => by
      by_cases hco : c = out
      · subst hco
        rw [hro a hac] at hc
        omega
      · rw [hr c hco] at hc
        exact hl.merge a b c hac hbc hco hc) h
  have hmem : ∀ n < g.nodes.length, n = out ∨ n ∈ v := by
    intro n hnl
    obtain ⟨s, hs1, hs2⟩ := acyclic_reached hv (layered_acyclic hl) n hnl
    clear hnl
    induction hs2 with
    | refl => exact .inr ((orderLoop_sources h).1 s (mem_externals.mpr hs1))
    | @tail x y _ hxy ih =>
      by_cases hy : y = out
      · exact .inl hy
      · obtain ⟨h3, h4⟩ := hl.next x y hxy hy
        rcases ih with ih | ih
        · exact absurd ih (hs x y hxy)
        · exact .inr (h2 x ih (by rw [hr x (hs x y hxy)]; omega) y hxy)
  refine ⟨hmem, fun a b hab hb => ?_⟩
  have ha' := hs a b hab
  obtain ⟨h3, h4⟩ := hl.next a b hab hb
  exact sublist_of_sorted h1 ((hmem a (hv _ hab).1).resolve_left ha') ((hmem b (hv _ hab).2).resolve_left hb)
    (by rw [hr a ha', hr b hb]; omega)

/-- In a layered graph the order contains every block. This covers voices of equal length mixed at the end, into the output
gain or into blocks feeding it. Missing: merging earlier, or from different depths. -/
theorem C83_layers_partial (emb : GainBlock S → B) (h : Heap B) (ig og : M) (os : List GraphOp) (o : GraphOp) (ho : o.isConn) (c : ComplexSound)
    (hc : (ComplexSound.new emb h ig og).1.ops (os ++ [o]) = .ok c) (layer : ℕ → ℕ) (last : ℕ) (hl : c.graph.Layered c.getOutputGain layer last)
    (n : ℕ) (hn : n < c.graph.nodes.length) : n ∈ c.getNodes := by
  obtain ⟨hi, v, hv, e⟩ := final ho hc
  unfold ComplexSound.getOutputGain at hl
  rw [hi.og] at hl
  have h2 := (layered_order hi.nodup hi.valid hl hv).1 n hn
  rw [e]
  simp only [List.cons_append, List.mem_cons, List.mem_append, List.mem_filter, List.not_mem_nil, or_false, decide_eq_true_eq]
  by_cases h0 : n = 0
  · exact .inl h0
  · by_cases h1 : n = 1
    · exact .inr (.inr h1)
    · exact .inr (.inl ⟨h2.resolve_left h1, h0, h1⟩)

/-- In a layered graph without connections to the input gain every connection goes forward in the order. -/
theorem C84_layers_partial (emb : GainBlock S → B) (h : Heap B) (ig og : M) (os : List GraphOp) (o : GraphOp) (ho : o.isConn) (c : ComplexSound)
    (hc : (ComplexSound.new emb h ig og).1.ops (os ++ [o]) = .ok c) (layer : ℕ → ℕ) (last : ℕ) (hl : c.graph.Layered c.getOutputGain layer last)
    (hin : ∀ a, ¬ c.graph.Edge a c.getInputGain) (a b : ℕ) (hab : c.graph.Edge a b) : [a, b].Sublist c.getNodes := by
  have ham := C83_layers_partial emb h ig og os o ho c hc layer last hl a ((final ho hc).1.valid _ hab).1
  have hbm := C83_layers_partial emb h ig og os o ho c hc layer last hl b ((final ho hc).1.valid _ hab).2
  obtain ⟨hi, v, hv, e⟩ := final ho hc
  unfold ComplexSound.getOutputGain at hl
  unfold ComplexSound.getInputGain at hin
  rw [hi.og] at hl
  rw [hi.ig] at hin
  have h2 := (layered_order hi.nodup hi.valid hl hv).2 a b hab
  have ha1 : a ≠ 1 := by rintro rfl; exact hl.final b hab
  have hb0 : b ≠ 0 := by rintro rfl; exact hin a hab
  rw [e, List.cons_append] at ham hbm ⊢
  by_cases hb1 : b = 1
  · subst hb1
    rw [← List.cons_append, List.mem_append, List.mem_singleton] at ham
    have := List.Sublist.append (List.singleton_sublist.mpr (ham.resolve_right ha1)) (List.Sublist.refl [1])
    exact this
  · by_cases ha0 : a = 0
    · subst ha0
      exact List.Sublist.cons_cons 0 (List.singleton_sublist.mpr ((List.mem_cons.mp hbm).resolve_left hb0))
    · apply List.Sublist.cons
      have := (h2 hb1).filter (fun e => decide (e ≠ 0 ∧ e ≠ 1))
      rw [List.filter_cons_of_pos (by simp [ha0, ha1]), List.filter_cons_of_pos (by simp [hb0, hb1]), List.filter_nil] at this
      exact this.trans (List.sublist_append_left _ _)

/-- Blocks u=2, w=3, a=4, b=5, c=6, d=7 with u→a, w→a, a→b→c→d→output. -/
def dropOps : List GraphOp :=
  [.addBlock 2, .addBlock 3, .addBlock 4, .addBlock 5, .addBlock 6, .addBlock 7,
   .connect 2 4, .connect 3 4, .connect 4 5, .connect 5 6, .connect 6 7, .connect 7 1]

/-- The graph of `dropOps`. -/
def dropGraph : Graph := ⟨[0, 1, 2, 3, 4, 5, 6, 7], [(7, 1), (6, 7), (5, 6), (4, 5), (3, 4), (2, 4)]⟩

/-- The code violates C83: two sources feeding one block make the order lose a block further down the line, here the last
one before the output. -/
theorem C83_violated (emb : GainBlock S → B) (ig og : M) :
    ∃ (c : ComplexSound) (s n : ℕ), (ComplexSound.new emb [] ig og).1.ops dropOps = .ok c ∧ c.graph.Source s ∧ c.graph.Reaches s n ∧
      c.graph.Acyclic ∧ n ∉ c.getNodes := by
  refine ⟨⟨dropGraph, [0, 2, 3, 4, 5, 6, 1], 0, 1, none, false, false⟩, 2, 7, ?_, ⟨by decide, ?_⟩, ?_, ?_, by decide⟩
  · show (⟨⟨[0, 1], []⟩, [], 0, 1, none, false, false⟩ : ComplexSound).ops dropOps = _
    decide +kernel
  · intro a ha
    have : ∀ e ∈ dropGraph.edges, e.2 ≠ 2 := by decide
    exact this _ ha rfl
  · have h1 : dropGraph.Edge 2 4 := by unfold Graph.Edge; decide
    have h2 : dropGraph.Edge 4 5 := by unfold Graph.Edge; decide
    have h3 : dropGraph.Edge 5 6 := by unfold Graph.Edge; decide
    have h4 : dropGraph.Edge 6 7 := by unfold Graph.Edge; decide
    exact (((Relation.ReflTransGen.single h1).tail h2).tail h3).tail h4
  · intro a ha
    have hlt : ∀ x y, Relation.TransGen dropGraph.Edge x y → y = 1 ∨ x < y := by
      have he : ∀ e ∈ dropGraph.edges, e.2 = 1 ∨ e.1 < e.2 := by decide
      have he1 : ∀ e ∈ dropGraph.edges, e.1 ≠ 1 := by decide
      intro x y h
      induction h with
      | single h => exact he _ h
      | tail _ h2 ih =>
        rcases he _ h2 with h3 | h3
        · exact .inl h3
        · rcases ih with ih | ih
          · exact absurd ih (he1 _ h2)
          · right; simp only at h3; omega
    have hne : ∀ x y, Relation.TransGen dropGraph.Edge x y → x ≠ 1 := by
      have he1 : ∀ e ∈ dropGraph.edges, e.1 ≠ 1 := by decide
      intro x y h
      induction h with
      | single h => exact he1 _ h
      | tail _ _ ih => exact ih
    rcases hlt a a ha with h | h
    · exact hne a a ha h
    · omega

/-- The code violates C84: with a=2, b=3, c=4 and a→b→c, a→c the block c is processed before b. -/
theorem C84_violated (emb : GainBlock S → B) (ig og : M) :
    ∃ c : ComplexSound, (ComplexSound.new emb [] ig og).1.ops
      [.addBlock 2, .addBlock 3, .addBlock 4, .connect 2 3, .connect 2 4, .connect 3 4, .connect 4 1] = .ok c ∧
      c.graph.Edge 3 4 ∧ c.getNodes = [0, 2, 4, 3, 1] ∧ c.graph.Acyclic := by
  refine ⟨⟨⟨[0, 1, 2, 3, 4], [(4, 1), (3, 4), (2, 4), (2, 3)]⟩, [0, 2, 4, 3, 1], 0, 1, none, false, false⟩, ?_, by unfold Graph.Edge; decide, rfl, ?_⟩
  · show (⟨⟨[0, 1], []⟩, [], 0, 1, none, false, false⟩ : ComplexSound).ops _ = _
    decide +kernel
  intro a ha
  have hlt : ∀ x y, Relation.TransGen (Graph.Edge ⟨[0, 1, 2, 3, 4], [(4, 1), (3, 4), (2, 4), (2, 3)]⟩) x y → (y = 1 ∨ x < y) ∧ x ≠ 1 := by
    have he : ∀ e ∈ [(4, 1), (3, 4), (2, 4), (2, 3)], (e.2 = 1 ∨ e.1 < e.2) ∧ e.1 ≠ 1 := by decide
    intro x y h
    induction h with
    | single h => exact he _ h
    | tail _ h2 ih =>
      refine ⟨?_, ih.2⟩
      obtain ⟨h3, h4⟩ := he _ h2
      rcases h3 with h3 | h3
      · exact .inl h3
      · rcases ih.1 with ih | ih
        · exact absurd ih h4
        · right; simp only at h3; omega
  obtain ⟨h1, h2⟩ := hlt a a ha
  rcases h1 with h1 | h1
  · exact h2 h1
  · omega

/-! ## C88 -/

/-- A connection set twice is the same as once. -/
theorem C88_twice (emb : GainBlock S → B) (h : Heap B) (ig og : M) (os : List GraphOp) (c c' : ComplexSound)
    (hc : (ComplexSound.new emb h ig og).1.ops os = .ok c) (a b : ℕ) (h1 : c.addConnection a b = .ok c') : c'.addConnection a b = .ok c' := by
  have hi := ops_inv (new_inv emb h ig og) hc
  obtain ⟨g, h2, rfl⟩ := addConnection_ok h1
  obtain ⟨v1, v2, v3⟩ := updateEdge_valid hi.valid hi.nodup h2
  obtain ⟨v, hv, e⟩ := reorder_eq (c := { c with graph := g }) v1
  have hm : (a, b) ∈ g.edges := by
    rcases updateEdge_ok h2 with ⟨h3, rfl⟩ | ⟨-, -, -, rfl⟩
    · exact h3
    · exact List.mem_cons_self
  rw [e]
  have hu : g.updateEdge a b = .ok g := by
    unfold Graph.updateEdge Graph.hasEdge
    rw [if_pos (List.contains_iff_mem.mpr hm)]
  unfold ComplexSound.addConnection
  simp only [hu, bind, Except.bind]
  unfold reorder
  simp only at hv ⊢
  rw [hv]

/-- The connections after `add_connection` and `remove_connection`, which change no block, and the neighbours. -/
theorem C88_edges (emb : GainBlock S → B) (h : Heap B) (ig og : M) (os : List GraphOp) (c : ComplexSound)
    (hc : (ComplexSound.new emb h ig og).1.ops os = .ok c) (a b : ℕ) :
    (∀ c', c.addConnection a b = .ok c' → c'.graph.nodes = c.graph.nodes ∧
      ∀ x y, c'.graph.Edge x y ↔ c.graph.Edge x y ∨ (x = a ∧ y = b)) ∧
    (c.removeConnection a b).graph.nodes = c.graph.nodes ∧
    (∀ x y, (c.removeConnection a b).graph.Edge x y ↔ c.graph.Edge x y ∧ ¬ (x = a ∧ y = b)) ∧
    (∀ x, (c.graph.neighbors x).Nodup ∧ ∀ y, y ∈ c.graph.neighbors x ↔ c.graph.Edge x y) := by
  have hi := ops_inv (new_inv emb h ig og) hc
  refine ⟨fun c' hc' => ?_, ?_, ?_, fun x => ⟨neighbors_nodup hi.nodup x, fun y => mem_neighbors⟩⟩
  · obtain ⟨g, h2, rfl⟩ := addConnection_ok hc'
    obtain ⟨v1, v2, v3⟩ := updateEdge_valid hi.valid hi.nodup h2
    obtain ⟨v, hv, e⟩ := reorder_eq (c := { c with graph := g }) v1
    rw [e]
    refine ⟨v3, fun x y => ?_⟩
    unfold Graph.Edge
    rcases updateEdge_ok h2 with ⟨h3, rfl⟩ | ⟨-, -, -, rfl⟩
    · constructor
      · exact .inl
      · rintro (h | ⟨rfl, rfl⟩)
        · exact h
        · exact h3
    · simp only [List.mem_cons, Prod.mk.injEq]
      exact or_comm
  · obtain ⟨v1, v2, v3⟩ := removeEdge_valid a b hi.valid hi.nodup
    obtain ⟨v, hv, e⟩ := reorder_eq (c := { c with graph := c.graph.removeEdge a b }) v1
    unfold ComplexSound.removeConnection
    rw [e]
    exact v3
  · obtain ⟨v1, v2, v3⟩ := removeEdge_valid a b hi.valid hi.nodup
    obtain ⟨v, hv, e⟩ := reorder_eq (c := { c with graph := c.graph.removeEdge a b }) v1
    intro x y
    unfold ComplexSound.removeConnection
    rw [e]
    unfold Graph.Edge Graph.removeEdge
    rw [hi.nodup.mem_erase_iff]
    simp only [ne_eq, Prod.mk.injEq]
    exact and_comm

/-- Removing an absent connection changes no connection, and removing one just added restores the graph. -/
theorem C88_inverse (emb : GainBlock S → B) (h : Heap B) (ig og : M) (os : List GraphOp) (c : ComplexSound)
    (hc : (ComplexSound.new emb h ig og).1.ops os = .ok c) (a b : ℕ) (hab : ¬ c.graph.Edge a b) :
    (c.removeConnection a b).graph = c.graph ∧
    ∀ c', c.addConnection a b = .ok c' → (c'.removeConnection a b).graph = c.graph ∧
      (c.getNodes = (c.removeConnection a b).getNodes → c'.removeConnection a b = c) := by
  have hi := ops_inv (new_inv emb h ig og) hc
  have hrem : c.graph.removeEdge a b = c.graph := by
    unfold Graph.removeEdge
    rw [List.erase_of_not_mem hab]
  constructor
  · unfold ComplexSound.removeConnection
    obtain ⟨v, hv, e⟩ := reorder_eq (c := { c with graph := c.graph.removeEdge a b }) (removeEdge_valid a b hi.valid hi.nodup).1
    rw [e]
    exact hrem
  · intro c' hc'
    obtain ⟨g, h2, rfl⟩ := addConnection_ok hc'
    obtain ⟨v1, v2, v3⟩ := updateEdge_valid hi.valid hi.nodup h2
    obtain ⟨v, hv, e⟩ := reorder_eq (c := { c with graph := g }) v1
    have hg : g.removeEdge a b = c.graph := by
      rcases updateEdge_ok h2 with ⟨h3, rfl⟩ | ⟨-, -, -, rfl⟩
      · exact absurd h3 hab
      · unfold Graph.removeEdge; simp
    rw [e]
    unfold ComplexSound.removeConnection
    simp only [hg]
    obtain ⟨w, hw, ew⟩ := reorder_eq (c := { c with processOrder := v }) hi.valid
    simp only at hw ew
    rw [ew]
    refine ⟨rfl, fun ho => ?_⟩
    unfold ComplexSound.getNodes at ho
    simp only [hrem] at ho
    unfold reorder at ho
    simp only [hw] at ho
    simp only [← ho]

/-- `add_connection` panics exactly when the connection is new and one end is not a node. -/
theorem C88_panics (emb : GainBlock S → B) (h : Heap B) (ig og : M) (os : List GraphOp) (c : ComplexSound)
    (hc : (ComplexSound.new emb h ig og).1.ops os = .ok c) (a b : ℕ) :
    (∃ e, c.addConnection a b = .error e) ↔ ¬ (a < c.graph.nodes.length ∧ b < c.graph.nodes.length) := by
  have hi := ops_inv (new_inv emb h ig og) hc
  unfold ComplexSound.addConnection Graph.updateEdge Graph.hasEdge
  by_cases h1 : c.graph.edges.contains (a, b) = true
  · have := hi.valid _ (List.contains_iff_mem.mp h1)
    simp only [h1, if_true, bind, Except.bind]
    simp [this]
  · by_cases h2 : a < c.graph.nodes.length ∧ b < c.graph.nodes.length
    · rw [if_neg h1, if_pos h2]
      simp only [bind, Except.bind]
      simp [h2]
    · rw [if_neg h1, if_neg h2]
      simp only [bind, Except.bind]
      simp [h2]
end

/-- A chain input → 2 → output, 2 → 3, built step by step, meets the hypotheses of the partial results. -/
example : ∃ c, (ComplexSound.new (id : GainBlock F32 → _) [] (lit 1 : F64) (lit 1 : F64)).1.ops
      ([.addBlock 5, .addBlock 6, .connect 0 2, .connect 2 1] ++ [.connect 2 3]) = .ok c ∧ GraphOp.isConn (.connect 2 3) ∧
    c.getNodes = [0, 2, 3, 1] ∧ c.graph.AtMostOneIn ∧ c.graph.Acyclic ∧ (∀ a, ¬ c.graph.Edge a c.getInputGain) ∧ (∀ b, ¬ c.graph.Edge c.getOutputGain b) := by
  refine ⟨⟨⟨[0, 1, 5, 6], [(2, 3), (2, 1), (0, 2)]⟩, [0, 2, 3, 1], 0, 1, none, false, false⟩, ?_, trivial, rfl, ?_, ?_, ?_, ?_⟩
  · show (⟨⟨[0, 1], []⟩, [], 0, 1, none, false, false⟩ : ComplexSound).ops _ = _
    decide +kernel
  · intro a b c
    have : ∀ e ∈ [(2, 3), (2, 1), (0, 2)], ∀ f ∈ [(2, 3), (2, 1), (0, 2)], e.2 = f.2 → e.1 = f.1 := by decide
    intro h1 h2
    exact this _ h1 _ h2 rfl
  · intro a ha
    have hlt : ∀ x y, Relation.TransGen (Graph.Edge ⟨[0, 1, 5, 6], [(2, 3), (2, 1), (0, 2)]⟩) x y → (y = 1 ∨ x < y) ∧ x ≠ 1 := by
      have he : ∀ e ∈ [(2, 3), (2, 1), (0, 2)], (e.2 = 1 ∨ e.1 < e.2) ∧ e.1 ≠ 1 := by decide
      intro x y h
      induction h with
      | single h => exact he _ h
      | tail _ h2 ih =>
        refine ⟨?_, ih.2⟩
        obtain ⟨h3, h4⟩ := he _ h2
        rcases h3 with h3 | h3
        · exact .inl h3
        · rcases ih.1 with ih | ih
          · exact absurd ih h4
          · right; simp only at h3; omega
    have ha' : Relation.TransGen (Graph.Edge ⟨[0, 1, 5, 6], [(2, 3), (2, 1), (0, 2)]⟩) a a := ha
    obtain ⟨h1, h2⟩ := hlt a a ha'
    rcases h1 with h1 | h1
    · exact h2 h1
    · omega
  · intro a
    have : ∀ e ∈ [(2, 3), (2, 1), (0, 2)], e.2 ≠ 0 := by decide
    exact fun h => this _ h rfl
  · intro b
    have : ∀ e ∈ [(2, 3), (2, 1), (0, 2)], e.1 ≠ 1 := by decide
    exact fun h => this _ h rfl

/-- Two voices 2 → 4 and 3 → 5 with a send from 2 to 5, mixed in the output gain, are layered. -/
example : ∃ c, (ComplexSound.new (id : GainBlock F32 → _) [] (lit 1 : F64) (lit 1 : F64)).1.ops
      ([.addBlock 5, .addBlock 6, .addBlock 7, .addBlock 8, .connect 2 4, .connect 3 5, .connect 2 5, .connect 4 1] ++ [.connect 5 1]) = .ok c ∧
    c.graph.Layered c.getOutputGain (fun n => if n < 4 then 0 else 1) 1 ∧ c.getNodes = [0, 2, 3, 5, 4, 1] := by
  refine ⟨⟨⟨[0, 1, 5, 6, 7, 8], [(5, 1), (4, 1), (2, 5), (3, 5), (2, 4)]⟩, [0, 2, 3, 5, 4, 1], 0, 1, none, false, false⟩, ?_, ⟨?_, ?_, ?_, ?_, ?_⟩, rfl⟩
  · show (⟨⟨[0, 1], []⟩, [], 0, 1, none, false, false⟩ : ComplexSound).ops _ = _
    decide +kernel
  · have : ∀ n < 6, n ≠ 1 → (∀ e ∈ [(5, 1), (4, 1), (2, 5), (3, 5), (2, 4)], e.2 ≠ n) → (if n < 4 then 0 else 1) = 0 := by decide
    exact fun s hs h1 => this s hs.1 h1 (fun e he h => hs.2 e.1 (by rw [← h]; exact he))
  · have : ∀ e ∈ [(5, 1), (4, 1), (2, 5), (3, 5), (2, 4)], e.2 ≠ 1 → (if e.2 < 4 then 0 else 1) = (if e.1 < 4 then 0 else 1) + 1 ∧ (if e.2 < 4 then 0 else 1) ≤ 1 := by
      decide
    exact fun a b h => this _ h
  · have : ∀ e ∈ [(5, 1), (4, 1), (2, 5), (3, 5), (2, 4)], e.2 ≠ 1 → ¬ (if e.2 < 4 then 0 else 1) < 1 := by decide
    exact fun a a' b h _ h1 h2 => absurd h2 (this _ h h1)
  · have : ∀ e ∈ [(5, 1), (4, 1), (2, 5), (3, 5), (2, 4)], e.2 = 1 → 1 ≤ (if e.1 < 4 then 0 else 1) + 1 := by decide
    exact fun a h => this _ h rfl
  · have : ∀ e ∈ [(5, 1), (4, 1), (2, 5), (3, 5), (2, 4)], e.1 ≠ 1 := by decide
    exact fun b h => this _ h rfl

end Verif
