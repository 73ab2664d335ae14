import Verif.Props.Network
import Verif.Spec.SumBlock

/-! # C170: rewiring a sound while it plays

The specification follows the calls: which blocks there are, what is connected, and what state each block is in. -/

namespace Verif
open ComplexSound

section
variable {B S M : Type} [Flt S] [Block B S] [Flt M] [SM S M]

/-! ## Specification -/

/-- A call of a playing sound. -/
inductive LiveCall (B S : Type) where
  | block (b : B) | connect (a b : ℕ) | disconnect (a b : ℕ) | play (x : S) | pause | mute

/-- How a sound is wired: number of blocks, number of those that run (0: none yet), connections, paused, muted. -/
structure Wiring where
  count : ℕ
  running : ℕ
  wire : ℕ → ℕ → Bool
  paused : Bool
  muted : Bool

/-- A new sound: the two gains. -/
def Wiring.start : Wiring := ⟨2, 0, fun _ _ => false, false, false⟩

/-- What a call does to the wiring. A new block is idle until a connection is made or removed. -/
def Wiring.edit (w : Wiring) : LiveCall B S → Wiring
  | .block _ => { w with count := w.count + 1 }
  | .connect a b => { w with running := w.count, wire := fun u v => w.wire u v || (u == a && v == b) }
  | .disconnect a b => { w with running := w.count, wire := fun u v => w.wire u v && !(u == a && v == b) }
  | .play _ => w
  | .pause => { w with paused := !w.paused }
  | .mute => { w with muted := !w.muted }

/-- What a call does to the blocks, apart from playing. -/
def Wiring.add (w : Wiring) (st : ℕ → B) : LiveCall B S → ℕ → B
  | .block b => Function.update st w.count b
  | _ => st

/-- One sample: every running block is primed with the outputs of the blocks connected to it (block 0 with the input first) and
processed once; the idle ones do not change. -/
def Wiring.Step (w : Wiring) (st : ℕ → B) (x : S) (y : ℕ → S) (st' : ℕ → B) : Prop :=
  ∃ order : List ℕ, order.Perm (List.range w.running) ∧
    (∀ n < w.running, Block.process (primes (st n) ((if n = 0 then [x] else []) ++ (order.filter (fun m => w.wire m n)).map y)) = .ok (y n, st' n)) ∧
    ∀ n, w.running ≤ n → st' n = st n

/-- The outputs `ys` are right for the calls. -/
inductive Wiring.Plays : Wiring → (ℕ → B) → List (LiveCall B S) → List S → Prop
  | nil (w st) : Plays w st [] []
  | edit {w : Wiring} {st : ℕ → B} {o : LiveCall B S} {l ys} (ho : ∀ x, o ≠ .play x) (t : Plays (w.edit o) (w.add st o) l ys) : Plays w st (o :: l) ys
  | frozen {w : Wiring} {st : ℕ → B} {x : S} {l ys} (hp : w.paused = true) (t : Plays w st l ys) : Plays w st (.play x :: l) (Flt.lit 0 :: ys)
  | play {w : Wiring} {st st' : ℕ → B} {x : S} {y : ℕ → S} {l ys} (hp : w.paused = false) (h : w.Step st x y st') (t : Plays w st' l ys) :
      Plays w st (.play x :: l) ((if w.muted then Flt.lit 0 else y 1) :: ys)

/-- The shapes of C119, with at least one change of connections made. -/
def Wiring.Shape (w : Wiring) : Prop :=
  w.running ≠ 0 ∧ (∀ a, w.wire a 0 = false) ∧ (∀ b, w.wire 1 b = false) ∧
  (((∀ a b c, w.wire a c = true → w.wire b c = true → a = b) ∧ ∀ a, ¬ Relation.TransGen (fun u v => w.wire u v = true) a a) ∨
  ∃ (layer : ℕ → ℕ) (last : ℕ), (∀ s < w.running, (∀ a, w.wire a s = false) → s ≠ 1 → layer s = 0) ∧
    (∀ a b, w.wire a b = true → b ≠ 1 → layer b = layer a + 1 ∧ layer b ≤ last) ∧
    (∀ a a' b, w.wire a b = true → w.wire a' b = true → b ≠ 1 → layer b < last → a = a') ∧
    ∀ a, w.wire a 1 = true → last ≤ layer a + 1)

/-- The wiring has such a shape whenever a sample is played. -/
def Wiring.Fine : Wiring → List (LiveCall B S) → Prop
  | _, [] => True
  | w, .play _ :: l => (w.paused = false → w.Shape) ∧ Fine w l
  | w, o :: l => Fine (w.edit o) l

/-- Outputs of a sequence of calls, with the memory and the sound after it. -/
def liveRun (h : Heap B) (c : ComplexSound) : List (LiveCall B S) → Res (List S × Heap B × ComplexSound)
  | [] => .ok ([], h, c)
  | .block b :: l => liveRun (h.alloc b) (c.addBlock h.length).2 l
  | .connect a b :: l => match c.addConnection a b with
    | .error e => .error e
    | .ok c' => liveRun h c' l
  | .disconnect a b :: l => liveRun h (c.removeConnection a b) l
  | .play x :: l => match c.process h x with
    | .error e => .error e
    | .ok (y, h') => (liveRun h' c l).map (fun r => (y :: r.1, r.2))
  | .pause :: l => liveRun h c.togglePause l
  | .mute :: l => liveRun h c.toggleMute l

/-! ## Lemmas -/

private theorem ops_snoc {c c1 c2 : ComplexSound} {os : List GraphOp} {o : GraphOp} (h1 : c.ops os = .ok c1) (h2 : c1.op o = .ok c2) :
    c.ops (os ++ [o]) = .ok c2 := by
  induction os generalizing c with
  | nil => cases h1; rw [List.nil_append, ComplexSound.ops, h2]; rfl
  | cons p os ih =>
    rw [ComplexSound.ops] at h1
    rw [List.cons_append, ComplexSound.ops]
    cases hp : c.op p with
    | error e => rw [hp] at h1; cases h1
    | ok c' => rw [hp] at h1; exact ih h1

private theorem reorder_fields (c : ComplexSound) : (reorder c).graph = c.graph ∧ (reorder c).inputGain = c.inputGain ∧ (reorder c).outputGain = c.outputGain ∧
    (reorder c).paused = c.paused ∧ (reorder c).muted = c.muted ∧
    (reorder c).processOrder = (computeOrder c.graph c.inputGain c.outputGain).getD c.processOrder := by
  unfold reorder
  cases computeOrder c.graph c.inputGain c.outputGain <;> exact ⟨rfl, rfl, rfl, rfl, rfl, rfl⟩

/-- The parts of two sounds that the graph calls see. -/
private def SameNet (c c0 : ComplexSound) : Prop :=
  c.graph = c0.graph ∧ c.processOrder = c0.processOrder ∧ c.inputGain = c0.inputGain ∧ c.outputGain = c0.outputGain

private theorem sameNet_reorder {c c0 : ComplexSound} (h : SameNet c c0) : SameNet (reorder c) (reorder c0) := by
  obtain ⟨h1, h2, h3, h4⟩ := h
  obtain ⟨a1, a2, a3, -, -, a6⟩ := reorder_fields c
  obtain ⟨b1, b2, b3, -, -, b6⟩ := reorder_fields c0
  exact ⟨by rw [a1, b1, h1], by rw [a6, b6, h1, h2, h3, h4], by rw [a2, b2, h3], by rw [a3, b3, h4]⟩

private structure LiveInv (emb : GainBlock S → B) (h0 : Heap B) (ig og : M) (h : Heap B) (c : ComplexSound) (w : Wiring) (st : ℕ → B) : Prop where
  net : ∃ c0 os, (ComplexSound.new emb h0 ig og).1.ops os = .ok c0 ∧ SameNet c c0 ∧
    (w.running ≠ 0 → ∃ os1 g c1, GraphOp.isConn g ∧ (ComplexSound.new emb h0 ig og).1.ops (os1 ++ [g]) = .ok c1 ∧
      c1.graph.nodes.length = w.running ∧ c1.graph.edges = c0.graph.edges ∧ c1.processOrder = c0.processOrder)
  count : c.graph.nodes.length = w.count
  wire : ∀ a b, (a, b) ∈ c.graph.edges ↔ w.wire a b = true
  paused : c.paused = w.paused
  muted : c.muted = w.muted
  holds : Holds h c.graph st
  le : w.running ≤ w.count

omit [Block B S] in
private theorem inv_start (emb : GainBlock S → B) (h0 : Heap B) (ig og : M) :
    LiveInv emb h0 ig og (ComplexSound.new emb h0 ig og).2 (ComplexSound.new emb h0 ig og).1 Wiring.start (builtBlocks emb ig og []) := by
  refine ⟨⟨_, [], rfl, ⟨rfl, rfl, rfl, rfl⟩, fun h => absurd rfl h⟩, rfl, fun a b => ?_, rfl, rfl, ?_, by decide⟩
  · simp [ComplexSound.new, Wiring.start]
  · refine ⟨?_, ?_⟩
    · simp [ComplexSound.new, Heap.alloc]
    · intro n a ha
      match n with
      | 0 =>
        simp only [ComplexSound.new, Heap.alloc, List.getElem?_cons_zero, Option.some.injEq] at ha ⊢
        subst ha
        simp [builtBlocks]
      | 1 =>
        simp [ComplexSound.new, Heap.alloc] at ha ⊢
        subst ha
        simp [builtBlocks]
      | n + 2 => simp [ComplexSound.new] at ha

omit [Block B S] [Flt M] in
private theorem inv_block {emb : GainBlock S → B} {h0 : Heap B} {ig og : M} {h : Heap B} {c : ComplexSound} {w : Wiring} {st : ℕ → B}
    (hi : LiveInv emb h0 ig og h c w st) (b : B) :
    LiveInv emb h0 ig og (h.alloc b) (c.addBlock h.length).2 (w.edit (.block b : LiveCall B S)) (w.add st (.block b : LiveCall B S)) := by
  obtain ⟨⟨c0, os, e, hs, hr⟩, h2, h3, h4, h5, h6, h7⟩ := hi
  refine ⟨⟨(c0.addBlock h.length).2, os ++ [.addBlock h.length], ops_snoc e rfl, ?_, hr⟩, ?_, h3, h4, h5, ?_, ?_⟩
  · obtain ⟨a1, a2, a3, a4⟩ := hs
    exact ⟨by simp only [ComplexSound.addBlock, a1], a2, a3, a4⟩
  · simp [ComplexSound.addBlock, Graph.addNode, Wiring.edit, h2]
  · obtain ⟨n1, n2⟩ := h6
    have hlt : ∀ a ∈ c.graph.nodes, a < h.length := by
      intro a ha
      obtain ⟨n, hn⟩ := List.mem_iff_getElem?.mp ha
      exact (List.getElem?_eq_some_iff.mp (n2 n a hn)).1
    refine ⟨?_, ?_⟩
    · simp only [ComplexSound.addBlock, Graph.addNode]
      rw [List.nodup_append]
      refine ⟨n1, List.nodup_singleton _, ?_⟩
      intro a ha b' hb'
      rw [List.mem_singleton] at hb'
      have := hlt a ha
      omega
    · intro n a ha
      simp only [ComplexSound.addBlock, Graph.addNode] at ha
      by_cases hn : n < c.graph.nodes.length
      · rw [List.getElem?_append_left hn] at ha
        have h8 := n2 n a ha
        have hl := (List.getElem?_eq_some_iff.mp h8).1
        have hne : n ≠ w.count := by omega
        simp only [Heap.alloc, Wiring.add, Function.update_of_ne hne]
        rw [List.getElem?_append_left hl, h8]
      · have hn' : n = c.graph.nodes.length := by
          have := (List.getElem?_eq_some_iff.mp ha).1
          simp at this
          omega
        subst hn'
        simp at ha
        subst ha
        simp [Heap.alloc, Wiring.add, h2]
  · simp only [Wiring.edit]; omega

omit [Block B S] [Flt M] in
private theorem inv_conn {emb : GainBlock S → B} {h0 : Heap B} {ig og : M} {h : Heap B} {c c' : ComplexSound} {w : Wiring} {st : ℕ → B}
    (hi : LiveInv emb h0 ig og h c w st) (g : Graph) (o : GraphOp) (ho : o.isConn) (hg : g.nodes = c.graph.nodes) (hc' : c' = reorder { c with graph := g })
    (hop : ∀ c0 : ComplexSound, c0.graph = c.graph → c0.op o = .ok (reorder { c0 with graph := g })) (wire : ℕ → ℕ → Bool)
    (hw : ∀ a b, (a, b) ∈ g.edges ↔ wire a b = true) : LiveInv emb h0 ig og h c' { w with running := w.count, wire := wire } st := by
  obtain ⟨⟨c0, os, e, hs, hr⟩, h2, h3, h4, h5, h6, h7⟩ := hi
  subst hc'
  obtain ⟨a1, a2, a3, a4, a5, a6⟩ := reorder_fields { c with graph := g }
  obtain ⟨b1, b2, b3, b4, b5, b6⟩ := reorder_fields { c0 with graph := g }
  have e' := ops_snoc e (hop c0 hs.1.symm)
  refine ⟨⟨reorder { c0 with graph := g }, os ++ [o], e', sameNet_reorder ⟨rfl, hs.2.1, hs.2.2.1, hs.2.2.2⟩, fun _ => ⟨os, o, _, ho, e', ?_, rfl, rfl⟩⟩,
    ?_, ?_, by rw [a4]; exact h4, by rw [a5]; exact h5, ?_, le_refl _⟩
  · rw [b1]
    show g.nodes.length = w.count
    rw [hg, h2]
  · rw [a1]
    show g.nodes.length = w.count
    rw [hg, h2]
  · rw [a1]; exact hw
  · rw [a1]
    obtain ⟨n1, n2⟩ := h6
    refine ⟨?_, ?_⟩
    · show g.nodes.Nodup
      rw [hg]; exact n1
    · show ∀ n a, g.nodes[n]? = some a → _
      rw [hg]; exact n2

omit [Block B S] [Flt M] in
private theorem inv_connect {emb : GainBlock S → B} {h0 : Heap B} {ig og : M} {h : Heap B} {c c' : ComplexSound} {w : Wiring} {st : ℕ → B}
    (hi : LiveInv emb h0 ig og h c w st) (a b : ℕ) (hc : c.addConnection a b = .ok c') :
    LiveInv emb h0 ig og h c' (w.edit (.connect a b : LiveCall B S)) st := by
  unfold ComplexSound.addConnection at hc
  cases hg : c.graph.updateEdge a b with
  | error e => rw [hg] at hc; cases hc
  | ok g =>
    rw [hg] at hc
    have hc' := (Except.ok.inj hc).symm
    have hg2 : g.nodes = c.graph.nodes ∧ ∀ u v, (u, v) ∈ g.edges ↔ (u, v) ∈ c.graph.edges ∨ (u = a ∧ v = b) := by
      unfold Graph.updateEdge Graph.hasEdge at hg
      split_ifs at hg with h1 h2
      · cases hg
        refine ⟨rfl, fun u v => ⟨.inl, ?_⟩⟩
        rintro (h | ⟨rfl, rfl⟩)
        · exact h
        · exact List.contains_iff_mem.mp h1
      · cases hg
        refine ⟨rfl, fun u v => ?_⟩
        simp only [List.mem_cons, Prod.mk.injEq]
        tauto
    refine inv_conn hi g (.connect a b) trivial hg2.1 hc' ?_ _ ?_
    · intro c0 h0
      show c0.addConnection a b = _
      unfold ComplexSound.addConnection
      rw [h0, hg]; rfl
    · intro u v
      rw [hg2.2, hi.wire]
      simp

omit [Block B S] in
private theorem inv_disconnect {emb : GainBlock S → B} {h0 : Heap B} {ig og : M} {h : Heap B} {c : ComplexSound} {w : Wiring} {st : ℕ → B}
    (hi : LiveInv emb h0 ig og h c w st) (a b : ℕ) :
    LiveInv emb h0 ig og h (c.removeConnection a b) (w.edit (.disconnect a b : LiveCall B S)) st := by
  have hnd : c.graph.edges.Nodup := by
    obtain ⟨c0, os, e, hs, -⟩ := hi.net
    rw [hs.1]
    exact (built_facts e).2.1
  refine inv_conn hi (c.graph.removeEdge a b) (.disconnect a b) trivial rfl rfl ?_ _ ?_
  · intro c0 h0
    show Except.ok (c0.removeConnection a b) = _
    unfold ComplexSound.removeConnection
    rw [h0]
  · intro u v
    show (u, v) ∈ c.graph.edges.erase (a, b) ↔ _
    rw [hnd.mem_erase_iff, hi.wire]
    simp only [ne_eq, Prod.mk.injEq, Bool.and_eq_true, Bool.not_eq_true', Bool.and_eq_false_iff, beq_eq_false_iff_ne]
    tauto

private theorem fwd_fromOn {l : List ℕ} (hnd : l.Nodup) {a n : ℕ} (h : [a, n].Sublist l) : a ∉ fromOn l n := by
  unfold fromOn
  induction l with
  | nil => cases h
  | cons x xs ih =>
    rw [List.nodup_cons] at hnd
    by_cases hx : x = n
    · subst hx
      rw [List.dropWhile_cons_of_neg (by simp)]
      cases h with
      | cons _ h => exact absurd (h.subset (by simp)) hnd.1
      | cons_cons _ h => exact absurd (List.singleton_sublist.mp h) hnd.1
    · rw [List.dropWhile_cons_of_pos (by simp [hx])]
      cases h with
      | cons _ h => exact ih hnd.2 h
      | cons_cons _ h =>
        intro hm
        exact hnd.1 ((List.dropWhile_sublist _).subset hm)

private theorem inv_play {emb : GainBlock S → B} {h0 : Heap B} {ig og : M} {h h' : Heap B} {c : ComplexSound} {w : Wiring} {st : ℕ → B}
    (hi : LiveInv emb h0 ig og h c w st) (hp : w.paused = false) (hs : w.Shape) {x out : S} (he : c.process h x = .ok (out, h')) :
    ∃ (y : ℕ → S) (st' : ℕ → B), w.Step st x y st' ∧ out = (if w.muted then Flt.lit 0 else y 1) ∧ LiveInv emb h0 ig og h' c w st' := by
  obtain ⟨⟨c0, os, e, hnet, hr⟩, h2, h3, h4, h5, h6, h7⟩ := hi
  obtain ⟨hr0, hin, hout, hshape⟩ := hs
  obtain ⟨os1, g, c1, hg, e1, k1, k2, k3⟩ := hr hr0
  obtain ⟨f1, f2, f3, f4, -, -, -⟩ := built_facts e
  obtain ⟨g1, g2, g3, g4, -, -, -⟩ := built_facts e1
  obtain ⟨⟨mid, o1⟩, o2, o3⟩ := C82_order emb h0 ig og os1 g hg c1 e1
  have hE : ∀ a b, c1.graph.Edge a b ↔ w.wire a b = true := by
    intro a b
    unfold Graph.Edge
    rw [k2, ← hnet.1]
    exact h3 a b
  have hE' : c1.graph.Edge = fun u v => w.wire u v = true := by
    funext u v; exact propext (hE u v)
  have hin1 : ∀ a, ¬ c1.graph.Edge a c1.getInputGain := by
    intro a ha
    unfold ComplexSound.getInputGain at ha
    rw [g3, hE, hin a] at ha
    cases ha
  have hout1 : ∀ b, ¬ c1.graph.Edge c1.getOutputGain b := by
    intro b hb
    unfold ComplexSound.getOutputGain at hb
    rw [g4, hE, hout b] at hb
    cases hb
  have hgood : (∀ n < c1.graph.nodes.length, n ∈ c1.getNodes) ∧ ∀ a b, c1.graph.Edge a b → [a, b].Sublist c1.getNodes := by
    rcases hshape with ⟨a1, a2⟩ | ⟨layer, last, l1, l2, l3, l4⟩
    · have b1 : c1.graph.AtMostOneIn := fun a b c ha hb => a1 a b c ((hE _ _).mp ha) ((hE _ _).mp hb)
      have b2 : c1.graph.Acyclic := by
        intro a ha
        rw [hE'] at ha
        exact a2 a ha
      exact ⟨fun n hn => C83_acyclic_partial emb h0 ig og os1 g hg c1 e1 b1 b2 n hn,
        fun a b hab => C84_acyclic_partial emb h0 ig og os1 g hg c1 e1 b1 b2 hin1 hout1 a b hab⟩
    · have hl : c1.graph.Layered c1.getOutputGain layer last := by
        unfold ComplexSound.getOutputGain
        rw [g4]
        refine ⟨?_, ?_, ?_, ?_, ?_⟩
        · rintro s ⟨s1, s2⟩ hs1
          refine l1 s (by omega) (fun a => ?_) hs1
          have := s2 a
          rw [hE] at this
          simpa using this
        · exact fun a b ha hb => l2 a b ((hE _ _).mp ha) hb
        · exact fun a a' b ha ha' hb hl => l3 a a' b ((hE _ _).mp ha) ((hE _ _).mp ha') hb hl
        · exact fun a ha => l4 a ((hE _ _).mp ha)
        · intro b hb
          rw [hE, hout b] at hb
          cases hb
      exact ⟨fun n hn => C83_layers_partial emb h0 ig og os1 g hg c1 e1 layer last hl n hn,
        fun a b hab => C84_layers_partial emb h0 ig og os1 g hg c1 e1 layer last hl hin1 a b hab⟩
  have hnodes : c.getNodes = c1.getNodes := by
    show c.processOrder = c1.processOrder
    rw [hnet.2.1, k3]
  have hlen : c1.graph.nodes.length ≤ c.graph.nodes.length := by omega
  have hmem : ∀ n, n ∈ c.getNodes ↔ n < w.running := by
    intro n
    rw [hnodes, ← k1]
    exact ⟨o3 n, hgood.1 n⟩
  have hndC : c.getNodes.Nodup := by rw [hnodes]; exact o2
  have hfw : ∀ a b, (a, b) ∈ c.graph.edges → [a, b].Sublist c.getNodes := by
    intro a b hab
    rw [hnodes]
    exact hgood.2 a b ((hE a b).mpr ((h3 a b).mp hab))
  have hig : c.inputGain = 0 := by rw [hnet.2.2.1, f3]
  have hlast : c.getNodes.getLast? = some 1 := by
    rw [hnodes, o1]
    unfold ComplexSound.getOutputGain
    rw [List.getLast?_append, g4]; rfl
  have hv : c.graph.Valid := by rw [hnet.1]; exact f1
  have hnd : c.graph.edges.Nodup := by rw [hnet.1]; exact f2
  have hpos : c.inputGain < c.graph.nodes.length := by rw [hig]; omega
  obtain ⟨y, b', st', i1, -, i3, i4, i5⟩ := C85_process h h' c st x out h6 hv hnd hpos
    (fun n hn => by rw [hmem] at hn; omega) hndC (by unfold ComplexSound.isPaused; rw [h4, hp]) he
  have hsent : ∀ n l, sentTo c.graph y n l = (l.filter (fun m => w.wire m n)).map y := by
    intro n l
    unfold sentTo
    congr 1
    apply List.filter_congr
    intro m _
    have := h3 m n
    by_cases hw : w.wire m n = true
    · rw [hw]; simp [this.mpr hw]
    · rw [Bool.not_eq_true] at hw
      have hn : (m, n) ∉ c.graph.edges := fun hm => by rw [this.mp hm] at hw; cases hw
      rw [hw]; simp [hn]
  have hempty : ∀ n, sentTo c.graph y n (fromOn c.getNodes n) = [] := by
    intro n
    unfold sentTo
    rw [List.map_eq_nil_iff, List.filter_eq_nil_iff]
    intro a ha hab
    exact fwd_fromOn hndC (hfw a n (by simpa using hab)) ha
  have hbefore : ∀ n, sentTo c.graph y n (before c.getNodes n) = (c.getNodes.filter (fun m => w.wire m n)).map y := by
    intro n
    have hsplit : before c.getNodes n ++ fromOn c.getNodes n = c.getNodes := List.takeWhile_append_dropWhile
    rw [← hsent]
    conv_rhs => rw [← hsplit]
    have := hempty n
    unfold sentTo at this ⊢
    rw [List.filter_append, List.map_append, this, List.append_nil]
  refine ⟨y, st', ⟨c.getNodes, ?_, ?_, ?_⟩, ?_, ⟨⟨c0, os, e, hnet, hr⟩, h2, h3, h4, h5, i1, h7⟩⟩
  · rw [List.perm_ext_iff_of_nodup hndC List.nodup_range]
    intro n
    rw [hmem, List.mem_range]
  · intro n hn
    have q1 := i3 n ((hmem n).mpr hn)
    have q2 := i4 n
    rw [if_pos ((hmem n).mpr hn), hempty] at q2
    rw [hbefore] at q1
    rw [q2]
    unfold ComplexSound.getInputGain at q1
    rw [hig] at q1
    exact q1
  · intro n hn
    have q2 := i4 n
    have hnm : n ∉ c.getNodes := by rw [hmem]; omega
    have hs0 : sentTo c.graph y n c.getNodes = [] := by
      unfold sentTo
      rw [List.map_eq_nil_iff, List.filter_eq_nil_iff]
      intro a _ hab
      have hab' : (a, n) ∈ c.graph.edges := by simpa using hab
      exact hnm ((hfw a n hab').subset (by simp))
    have hn0 : n ≠ c.getInputGain := by
      unfold ComplexSound.getInputGain
      rw [hig]
      omega
    rw [if_neg hnm, hs0, if_neg hn0] at q2
    exact q2
  · rw [i5, hlast]
    unfold ComplexSound.isMuted
    rw [h5]
    rfl

/-! ## C170 -/

/-- Any arithmetic, any blocks, any sequence of calls on a new sound, playing and rewiring in any order: as long as the wiring has
one of the shapes of C119 whenever a sample is played, every sample is what the present wiring makes of the present state of the
blocks. Rewiring, pausing and muting change no block; a removed block goes on running; a new block is idle until the next time
a connection is made or removed. Missing: the other shapes (C83, C84), and samples played before the first connection (C87). -/
theorem C170_partial (emb : GainBlock S → B) (h0 h' : Heap B) (ig og : M) (l : List (LiveCall B S)) (c : ComplexSound) (ys : List S)
    (he : liveRun (ComplexSound.new emb h0 ig og).2 (ComplexSound.new emb h0 ig og).1 l = .ok (ys, h', c)) (hf : Wiring.start.Fine l) :
    Wiring.start.Plays (builtBlocks emb ig og []) l ys := by
  have key : ∀ (l : List (LiveCall B S)) (h : Heap B) (c : ComplexSound) (w : Wiring) (st : ℕ → B) (ys : List S) (r : Heap B × ComplexSound),
      LiveInv emb h0 ig og h c w st → liveRun h c l = .ok (ys, r) → w.Fine l → w.Plays st l ys := by
    intro l
    induction l with
    | nil =>
      intro h c w st ys r _ he _
      rw [liveRun] at he
      cases he
      exact .nil w st
    | cons o l ih =>
      intro h c w st ys r hi he hf
      cases o with
      | block b => exact .edit (by intro x hx; cases hx) (ih _ _ _ _ _ _ (inv_block hi b) he hf)
      | connect a b =>
        rw [liveRun] at he
        cases hc : c.addConnection a b with
        | error e => rw [hc] at he; cases he
        | ok c' => rw [hc] at he; exact .edit (by intro x hx; cases hx) (ih _ _ _ _ _ _ (inv_connect hi a b hc) he hf)
      | disconnect a b => exact .edit (by intro x hx; cases hx) (ih _ _ _ _ _ _ (inv_disconnect hi a b) he hf)
      | pause =>
        refine .edit (by intro x hx; cases hx) (ih h c.togglePause _ _ _ _ ⟨hi.net, hi.count, hi.wire, ?_, hi.muted, hi.holds, hi.le⟩ he hf)
        show (!c.paused) = !w.paused
        rw [hi.paused]
      | mute =>
        refine .edit (by intro x hx; cases hx) (ih h c.toggleMute _ _ _ _ ⟨hi.net, hi.count, hi.wire, hi.paused, ?_, hi.holds, hi.le⟩ he hf)
        show (!c.muted) = !w.muted
        rw [hi.muted]
      | play x =>
        rw [liveRun] at he
        cases hc : c.process h x with
        | error e => rw [hc] at he; cases he
        | ok q =>
          obtain ⟨out, h1⟩ := q
          rw [hc] at he
          simp only at he
          cases hl : liveRun h1 c l with
          | error e => rw [hl] at he; cases he
          | ok r1 =>
            rw [hl] at he
            simp only [Except.map, Except.ok.injEq, Prod.mk.injEq] at he
            obtain ⟨rfl, -⟩ := he
            by_cases hp : w.paused = true
            · unfold ComplexSound.process at hc
              rw [hi.paused, if_pos hp] at hc
              cases hc
              exact .frozen hp (ih _ _ _ _ _ r1.2 hi hl hf.2)
            · rw [Bool.not_eq_true] at hp
              obtain ⟨y, st', s1, rfl, s3⟩ := inv_play hi hp (hf.1 hp) hc
              exact .play hp s1 (ih _ _ _ _ _ r1.2 s3 hl hf.2)
  exact key l _ _ _ _ ys (h', c) (inv_start emb h0 ig og) he hf
end

/-! ## A new block is idle -/

/-- Gains and sawtooth oscillators. -/
abbrev OscBlock := GainBlock F32 ⊕ StandardBlock (Sawtooth F64) Passthrough StdInter F32

/-- An oscillator of 6 kHz. -/
def sawBlock : OscBlock := .inr (StandardBlock.fromGenerator (Sawtooth.new (Flt.lit 6000)))

/-- The oscillator is added, a sample is played, and the oscillator is connected to the output gain. -/
def addedLate : List (LiveCall OscBlock F32) := [.connect 0 1, .block sawBlock, .play (Flt.lit 0), .connect 2 1, .play (Flt.lit 0), .play (Flt.lit 0)]
/-- The same, but the oscillator has been connected for a moment before the first sample. -/
def addedTouched : List (LiveCall OscBlock F32) :=
  [.connect 0 1, .block sawBlock, .connect 2 1, .disconnect 2 1, .play (Flt.lit 0), .connect 2 1, .play (Flt.lit 0), .play (Flt.lit 0)]

/-- The outputs of the calls on a new sound with unity gains. -/
def oscOut (l : List (LiveCall OscBlock F32)) : Option (List F32) :=
  ((liveRun (ComplexSound.new (B := OscBlock) Sum.inl [] (Flt.lit 1 : F64) (Flt.lit 1 : F64)).2
    (ComplexSound.new (B := OscBlock) Sum.inl [] (Flt.lit 1 : F64) (Flt.lit 1 : F64)).1 l).map Prod.fst).toOption

/-- The connections there are at each sample played. -/
def Wiring.atPlays {B S : Type} : Wiring → List (LiveCall B S) → List (ℕ → ℕ → Bool)
  | _, [] => []
  | w, .play _ :: l => w.wire :: atPlays w l
  | w, o :: l => atPlays (w.edit o) l

private theorem fan_shape {w : Wiring} (h0 : w.running ≠ 0) (h : ∀ u v, w.wire u v = true → v = 1 ∧ u ≠ 1) : w.Shape := by
  refine ⟨h0, fun a => ?_, fun b => ?_, .inr ⟨fun _ => 0, 0, fun _ _ _ _ => rfl, fun a b hw hb => absurd (h a b hw).1 hb,
    fun a a' b hw _ hb => absurd (h a b hw).1 hb, fun _ _ => Nat.zero_le _⟩⟩
  · rw [Bool.eq_false_iff]
    intro hw
    exact absurd (h _ _ hw).1 (by omega)
  · rw [Bool.eq_false_iff]
    intro hw
    exact (h _ _ hw).2 rfl

private theorem late_fine : Wiring.start.Fine addedLate := by
  refine ⟨fun _ => fan_shape (by decide) ?_, fun _ => fan_shape (by decide) ?_, fun _ => fan_shape (by decide) ?_, trivial⟩ <;>
    intro u v <;> simp [Wiring.start, Wiring.edit] <;> omega

private theorem touched_fine : Wiring.start.Fine addedTouched := by
  refine ⟨fun _ => fan_shape (by decide) ?_, fun _ => fan_shape (by decide) ?_, fun _ => fan_shape (by decide) ?_, trivial⟩ <;>
    intro u v <;> simp [Wiring.start, Wiring.edit] <;> omega

/-- Playing depends on more than the connections there are: a block that has been connected and disconnected runs, one that was
only added does not, so that the oscillator is one sample behind. -/
theorem C170_violated : Wiring.start.Fine addedLate ∧ Wiring.start.Fine addedTouched ∧
    Wiring.start.atPlays addedLate = Wiring.start.atPlays addedTouched ∧
    oscOut addedLate = some [Flt.lit 0, Flt.lit 0, Flt.lit (1 / 4)] ∧ oscOut addedTouched = some [Flt.lit 0, Flt.lit (1 / 4), Flt.lit (1 / 2)] ∧
    oscOut addedLate ≠ oscOut addedTouched := by
  refine ⟨late_fine, touched_fine, ?_, by decide +kernel, by decide +kernel, by decide +kernel⟩
  simp only [addedLate, addedTouched, Wiring.atPlays, Wiring.start, Wiring.edit, List.cons.injEq, and_true]
  refine ⟨?_, ?_, ?_⟩ <;> funext u v <;> rw [Bool.eq_iff_iff] <;> simp <;> omega

example : ∃ (ys : List F32) (h' : Heap OscBlock) (c : ComplexSound),
    liveRun (ComplexSound.new (B := OscBlock) Sum.inl [] (Flt.lit 1 : F64) (Flt.lit 1 : F64)).2
      (ComplexSound.new (B := OscBlock) Sum.inl [] (Flt.lit 1 : F64) (Flt.lit 1 : F64)).1 addedLate = .ok (ys, h', c) ∧ Wiring.start.Fine addedLate ∧
      ys = [Flt.lit 0, Flt.lit 0, Flt.lit (1 / 4)] := by
  have h : oscOut addedLate = some [Flt.lit 0, Flt.lit 0, Flt.lit (1 / 4)] := by decide +kernel
  unfold oscOut at h
  generalize liveRun (ComplexSound.new (B := OscBlock) Sum.inl [] (Flt.lit 1 : F64) (Flt.lit 1 : F64)).2
      (ComplexSound.new (B := OscBlock) Sum.inl [] (Flt.lit 1 : F64) (Flt.lit 1 : F64)).1 addedLate = r at h ⊢
  cases r with
  | error e => cases h
  | ok q => exact ⟨q.1, q.2.1, q.2.2, rfl, late_fine, Option.some.inj h⟩
end Verif
