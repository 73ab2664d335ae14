import Verif.Props.ComplexSound
import Verif.Proofs.DecEq

set_option linter.unusedSectionVars false

/-! # A complex sound as a network of blocks: C119 -/

namespace Verif
open ComplexSound

section
variable {B S : Type} [Flt S] [Block B S]

/-! ## Specification -/

/-- One sample of a network: the blocks `st` give the outputs `y` and become `st'`. Each block is primed with the sample `x`
(the input gain only) and the outputs of all blocks connected to it, of the same instant, and processed once. `order` says
in which order the latter are primed. -/
def NetStep (g : Graph) (order : List ℕ) (ig : ℕ) (st : ℕ → B) (x : S) (y : ℕ → S) (st' : ℕ → B) : Prop :=
  ∀ n < g.nodes.length, Block.process (primes (st n) ((if n = ig then [x] else []) ++ (order.filter (fun m => (m, n) ∈ g.edges)).map y)) =
    .ok (y n, st' n)

/-- Several samples; the network's output is the output of block `og`. -/
inductive NetRun (g : Graph) (order : List ℕ) (ig og : ℕ) : (ℕ → B) → List S → List S → Prop
  | nil (st) : NetRun g order ig og st [] []
  | cons {st st' : ℕ → B} {x : S} {y : ℕ → S} {xs ys : List S} (h : NetStep g order ig st x y st')
      (t : NetRun g order ig og st' xs ys) : NetRun g order ig og st (x :: xs) (y og :: ys)

/-- Every block is in the order and every connection goes forward. -/
def GoodOrder (c : ComplexSound) : Prop :=
  (∀ n < c.graph.nodes.length, n ∈ c.getNodes) ∧ ∀ a b, c.graph.Edge a b → [a, b].Sublist c.getNodes

/-- Calls that build a sound; a new block is given a fresh `Arc`. -/
inductive BuildCall (B : Type) where
  | block (b : B) | connect (a b : ℕ) | disconnect (a b : ℕ)

/-- The call. -/
def BuildCall.call : BuildCall B → CxCall B S
  | .block b => .addBlock b
  | .connect a b => .connect a b
  | .disconnect a b => .disconnect a b

/-- The blocks added, in order. -/
def newBlocks : List (BuildCall B) → List B
  | [] => []
  | .block b :: l => b :: newBlocks l
  | _ :: l => newBlocks l

/-- The call changes connections. -/
def BuildCall.isConn : BuildCall B → Prop
  | .block _ => False
  | _ => True

/-! ## Lemmas -/

private theorem split_at {l : List ℕ} {n : ℕ} : before l n ++ fromOn l n = l := List.takeWhile_append_dropWhile

private theorem forward {l : List ℕ} (hnd : l.Nodup) {a n : ℕ} (h : [a, n].Sublist l) : a ∉ fromOn l n := by
  unfold fromOn
  induction l with
  | nil => cases h
  | cons x xs ih =>
    rw [List.nodup_cons] at hnd
    by_cases hx : x = n
    · subst hx
      rw [List.dropWhile_cons_of_neg (by simp)]
      cases h with
      | cons _ h => exact absurd (h.subset (by simp)) hnd.1
      | cons_cons _ h => exact absurd (List.singleton_sublist.mp h) hnd.1
    · rw [List.dropWhile_cons_of_pos (by simp [hx])]
      cases h with
      | cons _ h => exact ih hnd.2 h
      | cons_cons _ h =>
        intro hm
        exact hnd.1 ((List.dropWhile_sublist _).subset hm)

private theorem sentTo_fromOn {g : Graph} {y : ℕ → S} {l : List ℕ} (hnd : l.Nodup) (hf : ∀ a b, g.Edge a b → [a, b].Sublist l) (n : ℕ) :
    sentTo g y n (fromOn l n) = [] := by
  unfold sentTo
  rw [List.map_eq_nil_iff, List.filter_eq_nil_iff]
  intro a ha he
  exact forward hnd (hf a n (by unfold Graph.Edge; simpa using he)) ha

private theorem sentTo_before {g : Graph} {y : ℕ → S} {l : List ℕ} (hnd : l.Nodup) (hf : ∀ a b, g.Edge a b → [a, b].Sublist l) (n : ℕ) :
    sentTo g y n (before l n) = (l.filter (fun m => (m, n) ∈ g.edges)).map y := by
  have h := sentTo_fromOn (y := y) hnd hf n
  conv_rhs => rw [← split_at (l := l) (n := n)]
  rw [List.filter_append, List.map_append]
  unfold sentTo at h ⊢
  rw [h, List.append_nil]

private def buildOps : ℕ → List (BuildCall B) → List GraphOp
  | _, [] => []
  | k, .block _ :: l => .addBlock k :: buildOps (k + 1) l
  | k, .connect a b :: l => .connect a b :: buildOps k l
  | k, .disconnect a b :: l => .disconnect a b :: buildOps k l

private theorem buildOps_append (k : ℕ) (l m : List (BuildCall B)) : buildOps k (l ++ m) = buildOps k l ++ buildOps (k + (newBlocks l).length) m := by
  induction l generalizing k with
  | nil => rfl
  | cons o l ih =>
    cases o with
    | block b =>
      show GraphOp.addBlock k :: buildOps (k + 1) (l ++ m) = _
      rw [ih]
      have : k + 1 + (newBlocks l).length = k + (newBlocks (.block b :: l)).length := by
        show _ = k + ((newBlocks l).length + 1)
        omega
      rw [this]
      rfl
    | connect a b =>
      show GraphOp.connect a b :: buildOps k (l ++ m) = _
      rw [ih]; rfl
    | disconnect a b =>
      show GraphOp.disconnect a b :: buildOps k (l ++ m) = _
      rw [ih]; rfl

private theorem addedBlocks_build (k : ℕ) (l : List (BuildCall B)) : addedBlocks (buildOps k l) = List.range' k (newBlocks l).length := by
  induction l generalizing k with
  | nil => rfl
  | cons o l ih =>
    cases o with
    | block b =>
      show k :: addedBlocks (buildOps (k + 1) l) = _
      rw [ih]
      rfl
    | connect a b => exact ih k
    | disconnect a b => exact ih k

private theorem build_eq (l : List (BuildCall B)) : ∀ (h h' : Heap B) (c c' : ComplexSound),
    cxCalls (S := S) h c (l.map BuildCall.call) = .ok (h', c') →
    c.ops (buildOps h.length l) = .ok c' ∧ h' = h ++ (newBlocks l).map (fun b => ⟨b, 1⟩) := by
  induction l with
  | nil =>
    intro h h' c c' he
    cases he
    exact ⟨rfl, by simp [newBlocks]⟩
  | cons o l ih =>
    intro h h' c c' he
    rw [List.map_cons, cxCalls] at he
    cases o with
    | block b =>
      obtain ⟨h1, h2⟩ := ih _ _ _ _ he
      have hl : (h.alloc b).length = h.length + 1 := by simp [Heap.alloc]
      rw [hl] at h1
      refine ⟨h1, ?_⟩
      rw [h2]
      simp [Heap.alloc, newBlocks]
    | connect a b =>
      simp only [BuildCall.call, cxCall] at he
      cases ha : c.addConnection a b with
      | error e => rw [ha] at he; cases he
      | ok c1 =>
        rw [ha] at he
        obtain ⟨h1, h2⟩ := ih _ _ _ _ he
        refine ⟨?_, h2⟩
        rw [buildOps, ComplexSound.ops, ComplexSound.op, ha]
        exact h1
    | disconnect a b =>
      obtain ⟨h1, h2⟩ := ih _ _ _ _ he
      exact ⟨h1, h2⟩

/-! ## C119 -/

/-- Any arithmetic, any blocks. If every block is in the order and every connection goes forward, one call of `process` is one
sample of the network. -/
theorem C119_step (h h' : Heap B) (c : ComplexSound) (st : ℕ → B) (x out : S) (hr : Holds h c.graph st)
    (hv : c.graph.Valid) (hn : c.graph.edges.Nodup) (hi : c.inputGain < c.graph.nodes.length)
    (ho : ∃ mid, c.getNodes = mid ++ [c.getOutputGain]) (hlt : ∀ n ∈ c.getNodes, n < c.graph.nodes.length) (hnd : c.getNodes.Nodup)
    (hg : GoodOrder c) (hp : c.isPaused = false) (hm : c.isMuted = false) (he : c.process h x = .ok (out, h')) :
    ∃ (y : ℕ → S) (st' : ℕ → B), NetStep c.graph c.getNodes c.getInputGain st x y st' ∧ out = y c.getOutputGain ∧ Holds h' c.graph st' := by
  obtain ⟨y, b', st', i1, -, i3, i4, i5⟩ := C85_process h h' c st x out hr hv hn hi hlt hnd hp he
  refine ⟨y, st', fun n hnl => ?_, ?_, i1⟩
  · have h1 := i3 n (hg.1 n hnl)
    have h2 := i4 n
    rw [if_pos (hg.1 n hnl), sentTo_fromOn hnd hg.2 n] at h2
    rw [sentTo_before hnd hg.2 n] at h1
    rw [h2]
    exact h1
  · obtain ⟨mid, hmid⟩ := ho
    rw [i5, hm, hmid, List.getLast?_append]
    rfl

/-- The same for any number of samples. -/
theorem C119_run (c : ComplexSound) (hv : c.graph.Valid) (hn : c.graph.edges.Nodup) (hi : c.inputGain < c.graph.nodes.length)
    (ho : ∃ mid, c.getNodes = mid ++ [c.getOutputGain]) (hlt : ∀ n ∈ c.getNodes, n < c.graph.nodes.length) (hnd : c.getNodes.Nodup)
    (hg : GoodOrder c) (hp : c.isPaused = false) (hm : c.isMuted = false) (xs : List S) :
    ∀ (h h' : Heap B) (st : ℕ → B) (ys : List S), Holds h c.graph st →
      runSound ComplexSound.process c h xs = .ok (ys, h') → NetRun c.graph c.getNodes c.getInputGain c.getOutputGain st xs ys := by
  induction xs with
  | nil =>
    intro h h' st ys _ he
    rw [runSound] at he
    cases he
    exact .nil st
  | cons x xs ih =>
    intro h h' st ys hr he
    rw [runSound] at he
    cases hpr : c.process h x with
    | error e => rw [hpr] at he; cases he
    | ok q =>
      obtain ⟨out, h1⟩ := q
      rw [hpr] at he
      simp only at he
      cases hru : runSound ComplexSound.process c h1 xs with
      | error e => rw [hru] at he; cases he
      | ok r =>
        rw [hru] at he
        simp only [Except.map, Except.ok.injEq, Prod.mk.injEq] at he
        obtain ⟨rfl, -⟩ := he
        obtain ⟨y, st', s1, rfl, s3⟩ := C119_step h h1 c st x out hr hv hn hi ho hlt hnd hg hp hm hpr
        exact .cons s1 (ih h1 r.2 st' r.1 s3 hru)

/-- The blocks of a sound built by `l`: input gain, output gain, and the blocks added. -/
def builtBlocks {M : Type} [Flt M] [SM S M] (emb : GainBlock S → B) (ig og : M) (l : List (BuildCall B)) : ℕ → B
  | 0 => emb (StandardBlock.fromModifier (Gain.new (SM.down ig)))
  | 1 => emb (StandardBlock.fromModifier (Gain.new (SM.down og)))
  | n + 2 => (newBlocks l).getD n (emb (StandardBlock.fromModifier (Gain.new (SM.down og))))

/-- What is known of a sound built by calls, the last of them changing a connection. -/
theorem built_network {M : Type} [Flt M] [SM S M] {emb : GainBlock S → B} {h h' : Heap B} {ig og : M} {l : List (BuildCall B)} {o : BuildCall B}
    (hco : o.isConn) {c : ComplexSound}
    (hc : cxCalls (S := S) (ComplexSound.new emb h ig og).2 (ComplexSound.new emb h ig og).1 ((l ++ [o]).map BuildCall.call) = .ok (h', c)) :
    c.graph.Valid ∧ c.graph.edges.Nodup ∧ c.inputGain = 0 ∧ c.outputGain = 1 ∧ 2 ≤ c.graph.nodes.length ∧ c.paused = false ∧ c.muted = false ∧
    (∃ mid, c.getNodes = mid ++ [c.getOutputGain]) ∧ c.getNodes.Nodup ∧ (∀ n ∈ c.getNodes, n < c.graph.nodes.length) ∧
    Holds h' c.graph (builtBlocks emb ig og l) ∧ ∃ os g, GraphOp.isConn g ∧ (ComplexSound.new emb h ig og).1.ops (os ++ [g]) = .ok c := by
  obtain ⟨h1, h2⟩ := build_eq _ _ _ _ _ hc
  have hb1 : newBlocks (l ++ [o]) = newBlocks l ∧ ∀ k, ∃ g : GraphOp, g.isConn ∧ buildOps k (l ++ [o]) = buildOps k l ++ [g] := by
    constructor
    · have : ∀ l' : List (BuildCall B), newBlocks (l' ++ [o]) = newBlocks l' := by
        intro l'
        induction l' with
        | nil => cases o with
          | block b => exact hco.elim
          | connect a b => rfl
          | disconnect a b => rfl
        | cons p l' ih => cases p with
          | block b => show b :: newBlocks (l' ++ [o]) = b :: newBlocks l'; rw [ih]
          | connect a b => exact ih
          | disconnect a b => exact ih
      exact this l
    · intro k
      cases o with
      | block b => exact hco.elim
      | connect a b => exact ⟨.connect a b, trivial, buildOps_append k l _⟩
      | disconnect a b => exact ⟨.disconnect a b, trivial, buildOps_append k l _⟩
  obtain ⟨f1, f2, f3, f4, f5, f6, f7⟩ := built_facts h1
  obtain ⟨g, hg1, hg2⟩ := hb1.2 (ComplexSound.new emb h ig og).2.length
  rw [hg2] at h1
  obtain ⟨⟨mid, o1⟩, o2, o3⟩ := C82_order emb h ig og _ g hg1 c h1
  have hlen : (ComplexSound.new emb h ig og).2.length = h.length + 2 := by simp [ComplexSound.new, Heap.alloc]
  rw [addedBlocks_build, hlen, hb1.1] at f5
  have hnodes : c.graph.nodes = List.range' h.length ((newBlocks l).length + 2) := by
    rw [f5]
    rfl
  have hh : h' = h ++ ([emb (StandardBlock.fromModifier (Gain.new (SM.down ig))), emb (StandardBlock.fromModifier (Gain.new (SM.down og)))] ++
      newBlocks l).map (fun b => ⟨b, 1⟩) := by
    rw [h2, hb1.1]
    simp [ComplexSound.new, Heap.alloc]
  have hr : Holds h' c.graph (builtBlocks emb ig og l) := by
    rw [Holds, hnodes]
    refine ⟨List.nodup_range', fun n a ha => ?_⟩
    have hn : n < (newBlocks l).length + 2 := by
      have := (List.getElem?_eq_some_iff.mp ha).1
      rwa [List.length_range'] at this
    rw [List.getElem?_range' hn] at ha
    cases ha
    rw [hh, List.getElem?_append_right (by omega), show h.length + 1 * n - h.length = n by omega, List.getElem?_map]
    match n, hn with
    | 0, _ => rfl
    | 1, _ => rfl
    | n + 2, hn =>
      show Option.map (fun b => (⟨b, 1⟩ : Cell B)) (newBlocks l)[n]? = _
      rw [List.getElem?_eq_getElem (by omega)]
      simp [builtBlocks, List.getD_eq_getElem?_getD, List.getElem?_eq_getElem (show n < (newBlocks l).length by omega)]
  have hlen2 : c.graph.nodes.length = (newBlocks l).length + 2 := by rw [hnodes, List.length_range']
  exact ⟨f1, f2, f3, f4, by omega, f6, f7, ⟨_, o1⟩, o2, o3, hr, _, g, hg1, h1⟩

/-- A built sound has its two gains and the blocks added. -/
theorem built_length {M : Type} [Flt M] [SM S M] {emb : GainBlock S → B} {h h' : Heap B} {ig og : M} {l : List (BuildCall B)} {o : BuildCall B}
    (hco : o.isConn) {c : ComplexSound}
    (hc : cxCalls (S := S) (ComplexSound.new emb h ig og).2 (ComplexSound.new emb h ig og).1 ((l ++ [o]).map BuildCall.call) = .ok (h', c)) :
    c.graph.nodes.length = (newBlocks l).length + 2 := by
  obtain ⟨h1, -⟩ := build_eq _ _ _ _ _ hc
  have hb : ∀ l' : List (BuildCall B), newBlocks (l' ++ [o]) = newBlocks l' := by
    intro l'
    induction l' with
    | nil => cases o with
      | block b => exact hco.elim
      | connect a b => rfl
      | disconnect a b => rfl
    | cons p l' ih => cases p with
      | block b => show b :: newBlocks (l' ++ [o]) = b :: newBlocks l'; rw [ih]
      | connect a b => exact ih
      | disconnect a b => exact ih
  obtain ⟨-, -, -, -, f5, -⟩ := built_facts h1
  rw [f5, addedBlocks_build, hb l]
  simp [ComplexSound.new]

/-- A sound built by any calls, the last of them changing a connection, whose graph is layered or an acyclic graph with at
most one connection into each block, with nothing connected into the input gain or out of the output gain, computes the
network of its blocks. Missing: the other graphs, for which C83 and C84 have counterexamples. -/
theorem C119_built_partial {M : Type} [Flt M] [SM S M] (emb : GainBlock S → B) (h h' h'' : Heap B) (ig og : M) (l : List (BuildCall B)) (o : BuildCall B)
    (hco : o.isConn) (c : ComplexSound)
    (hc : cxCalls (S := S) (ComplexSound.new emb h ig og).2 (ComplexSound.new emb h ig og).1 ((l ++ [o]).map BuildCall.call) = .ok (h', c))
    (hin : ∀ a, ¬ c.graph.Edge a c.getInputGain) (hout : ∀ b, ¬ c.graph.Edge c.getOutputGain b)
    (hshape : (c.graph.AtMostOneIn ∧ c.graph.Acyclic) ∨ ∃ layer last, c.graph.Layered c.getOutputGain layer last)
    (xs ys : List S) (he : runSound ComplexSound.process c h' xs = .ok (ys, h'')) :
    c.getNodes.Perm (List.range c.graph.nodes.length) ∧ NetRun c.graph c.getNodes 0 1 (builtBlocks emb ig og l) xs ys := by
  obtain ⟨f1, f2, f3, f4, f5, f6, f7, ho, o2, o3, hr, os, g, hg1, h1⟩ := built_network hco hc
  have hgood : GoodOrder c := by
    rcases hshape with ⟨a1, a2⟩ | ⟨layer, last, a1⟩
    · exact ⟨fun n hn => C83_acyclic_partial emb h ig og os g hg1 c h1 a1 a2 n hn,
        fun a b hab => C84_acyclic_partial emb h ig og os g hg1 c h1 a1 a2 hin hout a b hab⟩
    · exact ⟨fun n hn => C83_layers_partial emb h ig og os g hg1 c h1 layer last a1 n hn,
        fun a b hab => C84_layers_partial emb h ig og os g hg1 c h1 layer last a1 hin a b hab⟩
  have := C119_run c f1 f2 (by rw [f3]; omega) ho o3 o2 hgood f6 f7 xs h' h'' (builtBlocks emb ig og l) ys hr he
  unfold ComplexSound.getInputGain ComplexSound.getOutputGain at this
  rw [f3, f4] at this
  refine ⟨(List.perm_ext_iff_of_nodup o2 List.nodup_range).mpr fun n => ?_, this⟩
  rw [List.mem_range]
  exact ⟨o3 n, hgood.1 n⟩
end

/-! ## Standard blocks -/

section
variable {G X I S : Type} [Flt S] [Generator G S] [Modifier X S] [InterFn I S]

/-- A standard block with nothing pending gets the sum of what it is primed with, and has nothing pending after `process`. -/
theorem C119_standard (b b' : StandardBlock G X I S) (l : List S) (y : S) (h : b.input = lit 0)
    (he : Block.process (primes b l) = .ok (y, b')) :
    StandardBlock.process { b with input := l.foldl (· + ·) (lit 0) } = .ok (y, b') ∧ b'.input = lit 0 := by
  rw [C85_standard_block, h] at he
  refine ⟨he, ?_⟩
  generalize ({ b with input := l.foldl (· + ·) (lit 0) } : StandardBlock G X I S) = b0 at he
  have he : StandardBlock.process b0 = .ok (y, b') := he
  unfold StandardBlock.process at he
  cases h1 : b0.i.getMutUnwrap with
  | error e => rw [h1] at he; cases he
  | ok i =>
    cases h2 : b0.g.getMutUnwrap with
    | error e => rw [h1, h2] at he; cases he
    | ok g =>
      cases h3 : (Generator.process g : Res (S × G)) with
      | error e => rw [h1, h2] at he; simp only [bind, Except.bind, h3] at he; cases he
      | ok p =>
        cases h4 : b0.m.getMutUnwrap with
        | error e => rw [h1, h2] at he; simp only [bind, Except.bind, h3, h4] at he; cases he
        | ok m =>
          cases h5 : (Modifier.process m b0.input : Res (S × X)) with
          | error e => rw [h1, h2] at he; simp only [bind, Except.bind, h3, h4, h5] at he; cases he
          | ok q =>
            cases h6 : (InterFn.call i p.1 q.1 : Res (S × I)) with
            | error e => rw [h1, h2] at he; simp only [bind, Except.bind, h3, h4, h5, h6] at he; cases he
            | ok r =>
              rw [h1, h2] at he
              simp only [bind, Except.bind, h3, h4, h5, h6, Except.ok.injEq, Prod.mk.injEq] at he
              rw [← he.2]
              rfl
end

/-! ## Violation -/

/-- Gain 1. -/
def unity : GainBlock F32 := StandardBlock.fromModifier (Gain.new (lit 1))

/-- input → 2 → 3 → 4 → output and 2 → 4. -/
def delayCalls : List (BuildCall (GainBlock F32)) :=
  [.block unity, .block unity, .block unity, .connect 0 2, .connect 2 3, .connect 2 4, .connect 3 4, .connect 4 1]

/-- The sound of `delayCalls`. -/
def delaySound : ComplexSound := ⟨⟨[0, 1, 2, 3, 4], [(4, 1), (3, 4), (2, 4), (2, 3), (0, 2)]⟩, [0, 2, 4, 3, 1], 0, 1, none, false, false⟩

private theorem inputs_eq {order : List ℕ} (hp : order.Perm (List.range 5)) (p : ℕ → Bool) (y : ℕ → F32) (v : F32) (k : ℕ)
    (hk : ((List.range 5).filter p).length = k) (hy : ∀ m ∈ (List.range 5).filter p, y m = v) : (order.filter p).map y = List.replicate k v := by
  have hp' := hp.filter p
  rw [List.eq_replicate_iff]
  refine ⟨by rw [List.length_map, hp'.length_eq, hk], fun b hb => ?_⟩
  obtain ⟨m, hm, rfl⟩ := List.mem_map.mp hb
  exact hy m (hp'.subset hm)

private theorem unity_process (l : List F32) (y : F32) (b' : GainBlock F32) (w : F32)
    (h : Block.process (primes unity l) = .ok (y, b')) (hw : (Block.process (primes unity l)).map Prod.fst = .ok w) : y = w := by
  rw [h] at hw
  cases hw
  rfl

private theorem netRun_one {g : Graph} {order : List ℕ} {st : ℕ → GainBlock F32} {x z : F32} (h : NetRun g order 0 1 st [x] [z]) :
    ∃ (st' : ℕ → GainBlock F32) (y : ℕ → F32), NetStep g order 0 st x y st' ∧ y 1 = z := by
  generalize hys : [z] = ys at h
  generalize hxs : [x] = xs at h
  cases h with
  | nil => cases hys
  | cons h t =>
    injection hxs with e1 e2
    injection hys with e3 e4
    exact ⟨_, _, e1 ▸ h, e3.symm⟩

/-- The code violates C119: with gain 1 everywhere, a sample of 1 must give 2 (directly and through block 3), in whichever
order the inputs of the blocks are added. The code gives 1; the other part comes one sample late. -/
theorem C119_violated : ∃ (h' h'' : Heap (GainBlock F32)) (c : ComplexSound),
    cxCalls (S := F32) (ComplexSound.new (B := GainBlock F32) _root_.id [] (lit 1 : F64) (lit 1 : F64)).2
      (ComplexSound.new (B := GainBlock F32) _root_.id [] (lit 1 : F64) (lit 1 : F64)).1 (delayCalls.map BuildCall.call) = .ok (h', c) ∧
    c.graph.Acyclic ∧ (∀ a, ¬ c.graph.Edge a c.getInputGain) ∧ (∀ b, ¬ c.graph.Edge c.getOutputGain b) ∧
    runSound ComplexSound.process c h' [(lit 1 : F32)] = .ok ([lit 1], h'') ∧
    ∀ order : List ℕ, order.Perm (List.range c.graph.nodes.length) →
      ¬ NetRun c.graph order 0 1 (builtBlocks _root_.id (lit 1 : F64) (lit 1 : F64) delayCalls) [(lit 1 : F32)] [lit 1] := by
  refine ⟨List.replicate 5 ⟨unity, 1⟩, [⟨unity, 1⟩, ⟨unity, 1⟩, ⟨unity, 1⟩, ⟨unity, 1⟩, ⟨{ unity with input := lit 1 }, 1⟩], delaySound, ?_, ?_, ?_, ?_, ?_, ?_⟩
  · decide +kernel
  · intro a ha
    have hlt : ∀ x y, Relation.TransGen (Graph.Edge delaySound.graph) x y → (y = 1 ∨ x < y) ∧ x ≠ 1 := by
      have he : ∀ e ∈ delaySound.graph.edges, (e.2 = 1 ∨ e.1 < e.2) ∧ e.1 ≠ 1 := by decide
      intro x y h
      induction h with
      | single h => exact he _ h
      | tail _ h2 ih =>
        refine ⟨?_, ih.2⟩
        obtain ⟨h3, h4⟩ := he _ h2
        rcases h3 with h3 | h3
        · exact .inl h3
        · rcases ih.1 with ih | ih
          · exact absurd ih h4
          · right; simp only at h3; omega
    obtain ⟨h1, h2⟩ := hlt a a ha
    rcases h1 with h1 | h1
    · exact h2 h1
    · omega
  · have : ∀ e ∈ delaySound.graph.edges, e.2 ≠ 0 := by decide
    exact fun a h => this _ h rfl
  · have : ∀ e ∈ delaySound.graph.edges, e.1 ≠ 1 := by decide
    exact fun a h => this _ h rfl
  · decide +kernel
  · intro order hp hr
    have key : ∀ (st' : ℕ → GainBlock F32) (y : ℕ → F32),
        NetStep delaySound.graph order 0 (builtBlocks _root_.id (lit 1 : F64) (lit 1 : F64) delayCalls) (lit 1) y st' → y 1 = lit 2 := by
      intro st' y h
      have hb : ∀ n < 5, builtBlocks _root_.id (lit 1 : F64) (lit 1 : F64) delayCalls n = unity := by decide +kernel
      have st : ∀ (n : ℕ) (k : ℕ) (v w : F32), n < 5 → ((List.range 5).filter (fun m => decide ((m, n) ∈ delaySound.graph.edges))).length = k →
          (∀ m ∈ (List.range 5).filter (fun m => decide ((m, n) ∈ delaySound.graph.edges)), y m = v) →
          (Block.process (primes unity ((if n = 0 then [lit 1] else []) ++ List.replicate k v))).map Prod.fst = .ok w → y n = w := by
        intro n k v w hn hk hv hw
        have h1 := h n hn
        rw [hb n hn, inputs_eq hp _ y v k hk hv] at h1
        exact unity_process _ _ _ _ h1 hw
      have y0 : y 0 = lit 1 := st 0 0 (lit 1) (lit 1) (by decide) (by decide) (by
        intro m hm
        have : False := by revert m; decide
        exact this.elim) (by decide +kernel)
      have y2 : y 2 = lit 1 := st 2 1 (lit 1) (lit 1) (by decide) (by decide) (by
        intro m hm
        have : m = 0 := by revert m; decide
        rw [this, y0]) (by decide +kernel)
      have y3 : y 3 = lit 1 := st 3 1 (lit 1) (lit 1) (by decide) (by decide) (by
        intro m hm
        have : m = 2 := by revert m; decide
        rw [this, y2]) (by decide +kernel)
      have y4 : y 4 = lit 2 := st 4 2 (lit 1) (lit 2) (by decide) (by decide) (by
        intro m hm
        have : m = 2 ∨ m = 3 := by revert m; decide
        rcases this with rfl | rfl
        · exact y2
        · exact y3) (by decide +kernel)
      exact st 1 1 (lit 2) (lit 2) (by decide) (by decide) (by
        intro m hm
        have : m = 4 := by revert m; decide
        rw [this, y4]) (by decide +kernel)
    have : ∃ (st' : ℕ → GainBlock F32) (y : ℕ → F32),
        NetStep delaySound.graph order 0 (builtBlocks _root_.id (lit 1 : F64) (lit 1 : F64) delayCalls) (lit 1) y st' ∧ y 1 = lit 1 := by
      exact netRun_one hr
    obtain ⟨st', y, h1, h2⟩ := this
    rw [key st' y h1] at h2
    exact absurd h2 (by decide +kernel)

/-! ## Examples -/

/-- input → 2 (gain 1/2), 3 (gain 1/4) → output: the network gives 3/4 of the input. -/
example : ∃ (l : List (BuildCall (GainBlock F32))) (c : ComplexSound), newBlocks l = [StandardBlock.fromModifier (Gain.new (lit (1 / 2))), StandardBlock.fromModifier (Gain.new (lit (1 / 4)))] ∧
    c.graph.edges = [(3, 1), (2, 1), (0, 3), (0, 2)] ∧
    NetRun c.graph c.getNodes 0 1 (builtBlocks _root_.id (lit 1 : F64) (lit 1 : F64) l) [lit 1, (lit 2 : F32)] [lit (3 / 4), lit (3 / 2)] := by
  let bs : List (GainBlock F32) := [StandardBlock.fromModifier (Gain.new (lit (1 / 2))), StandardBlock.fromModifier (Gain.new (lit (1 / 4)))]
  refine ⟨bs.map .block ++ [.connect 0 2, .connect 0 3, .connect 2 1], ⟨⟨[0, 1, 2, 3], [(3, 1), (2, 1), (0, 3), (0, 2)]⟩, [0, 3, 2, 1], 0, 1, none, false, false⟩, rfl, rfl, ?_⟩
  have h := C119_built_partial (S := F32) (B := GainBlock F32) _root_.id [] ([unity, unity] ++ bs |>.map (⟨·, 1⟩)) ([unity, unity] ++ bs |>.map (⟨·, 1⟩)) (lit 1 : F64) (lit 1 : F64)
    (bs.map .block ++ [.connect 0 2, .connect 0 3, .connect 2 1]) (.connect 3 1) trivial
    ⟨⟨[0, 1, 2, 3], [(3, 1), (2, 1), (0, 3), (0, 2)]⟩, [0, 3, 2, 1], 0, 1, none, false, false⟩ (by decide +kernel) ?_ ?_
    (.inr ⟨fun n => if n < 2 then 0 else 1, 1, ?_, ?_, ?_, ?_, ?_⟩) [lit 1, (lit 2 : F32)] [lit (3 / 4), lit (3 / 2)] (by decide +kernel)
  · exact h.2
  · have : ∀ e ∈ [(3, 1), (2, 1), (0, 3), (0, 2)], e.2 ≠ 0 := by decide
    exact fun a h => this _ h rfl
  · have : ∀ e ∈ [(3, 1), (2, 1), (0, 3), (0, 2)], e.1 ≠ 1 := by decide
    exact fun a h => this _ h rfl
  · have : ∀ n < 4, n ≠ 1 → (∀ e ∈ [(3, 1), (2, 1), (0, 3), (0, 2)], e.2 ≠ n) → (if n < 2 then 0 else 1) = 0 := by decide
    exact fun s hs h1 => this s hs.1 h1 (fun e he h => hs.2 e.1 (by rw [← h]; exact he))
  · have : ∀ e ∈ [(3, 1), (2, 1), (0, 3), (0, 2)], e.2 ≠ 1 → (if e.2 < 2 then 0 else 1) = (if e.1 < 2 then 0 else 1) + 1 ∧ (if e.2 < 2 then 0 else 1) ≤ 1 := by
      decide
    exact fun a b h => this _ h
  · have : ∀ e ∈ [(3, 1), (2, 1), (0, 3), (0, 2)], e.2 ≠ 1 → ¬ (if e.2 < 2 then 0 else 1) < 1 := by decide
    exact fun a a' b h _ h1 h2 => absurd h2 (this _ h h1)
  · have : ∀ e ∈ [(3, 1), (2, 1), (0, 3), (0, 2)], e.2 = 1 → 1 ≤ (if e.1 < 2 then 0 else 1) + 1 := by decide
    exact fun a h => this _ h rfl
  · have : ∀ e ∈ [(3, 1), (2, 1), (0, 3), (0, 2)], e.1 ≠ 1 := by decide
    exact fun b h => this _ h rfl

/-- Hypotheses of C119_standard. -/
example : ∃ (y : F32) (b' : GainBlock F32), Block.process (primes unity [(lit 1 : F32), lit 2]) = .ok (y, b') ∧ unity.input = lit 0 ∧ y = lit 3 :=
  ⟨_, _, rfl, rfl, by decide +kernel⟩

end Verif
