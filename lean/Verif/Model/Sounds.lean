import Verif.Model.Generators
import Verif.Model.Modifiers

/-! # Model of `src/sounds/*.rs`

`Arc` pointers are addresses into an explicit heap whose cells count the pointers (strong and weak)
to them; `Arc::get_mut` succeeds exactly when the count is one. Trait objects are an arbitrary type
with the trait's operations; their own state is part of the cell value. -/

namespace Verif
open Flt

/-! ## `Arc` -/

/-- A reference-counted allocation. `refs` counts every `Arc` and `Weak` pointing to it. -/
structure Cell (B : Type) where
  val : B
  refs : ℕ

/-- The allocations reachable through some `Arc`; an address is a position in the list. -/
abbrev Heap (B : Type) := List (Cell B)

namespace Heap
variable {B : Type}
/-- `Arc::get_mut`: the contents, if this is the only pointer. -/
def getMut (h : Heap B) (a : ℕ) : Option B :=
  match h[a]? with
  | some c => if c.refs = 1 then some c.val else none
  | none => none
/-- Write through the reference obtained by `Arc::get_mut`. -/
def put (h : Heap B) (a : ℕ) (b : B) : Heap B :=
  match h[a]? with
  | some c => h.set a { c with val := b }
  | none => h
/-- `Arc::new`: the new heap; the address is the length of the old one. -/
def alloc (h : Heap B) (b : B) : Heap B := h ++ [⟨b, 1⟩]
/-- `Arc::clone`. -/
def incr (h : Heap B) (a : ℕ) : Heap B :=
  match h[a]? with
  | some c => h.set a { c with refs := c.refs + 1 }
  | none => h
/-- Drop of one `Arc`. -/
def decr (h : Heap B) (a : ℕ) : Heap B :=
  match h[a]? with
  | some c => h.set a { c with refs := c.refs - 1 }
  | none => h
end Heap

/-! ## sounds/mod.rs -/

/-- sounds/mod.rs 25-38 `trait Block`. -/
class Block (B S : Type) where
  /-- sounds/mod.rs 27 -/
  prime : B → S → B
  /-- sounds/mod.rs 37 -/
  process : B → Res (S × B)

/-- sounds/mod.rs 49-113 `trait Sound`. -/
class Sound (T S : Type) where
  togglePause : T → T
  isPaused : T → Bool
  toggleMute : T → T
  isMuted : T → Bool
  process : T → S → Res (S × T)
  register : T → ℕ → T
  unregister : T → T
  getId : T → Option ℕ

/-! ## sounds/standard_block.rs -/

/-- An `Arc` owned by a single struct field: the contents and the number of other pointers to it. -/
structure Arc (α : Type) where
  val : α
  others : ℕ

/-- `Arc::get_mut(..).unwrap()`. -/
def Arc.getMutUnwrap {α : Type} (a : Arc α) : Res α :=
  if a.others = 0 then .ok a.val else .error .unwrapNone

/-- standard_block.rs 26 `dyn FnMut(SampleT, SampleT) -> SampleT`: a closure with captured state. -/
class InterFn (I S : Type) where
  call : I → S → S → Res (S × I)

/-- standard_block.rs 136-154: the three interactors provided. -/
inductive StdInter where
  /-- 136-138 `default_interactor` -/
  | mul
  /-- 144-146 `generator_passthrough` -/
  | gen
  /-- 152-154 `modifier_passthrough` -/
  | mod

/-- standard_block.rs 137, 145, 153. -/
def StdInter.call {S : Type} [Flt S] : StdInter → S → S → S
  | .mul, ge, mo => ge * mo
  | .gen, ge, _ => ge
  | .mod, _, mo => mo

instance {S : Type} [Flt S] : InterFn StdInter S := ⟨fun i g m => .ok (i.call g m, i)⟩

/-- standard_block.rs 50-55. -/
structure StandardBlock (G X I S : Type) where
  g : Arc G
  m : Arc X
  i : Arc I
  input : S

namespace StandardBlock
variable {G X I S : Type} [Flt S]

/-- standard_block.rs 72-82. The interactor is passed as an `Arc`, so it may be shared. -/
def new (g : G) (m : X) (i : Arc I) : StandardBlock G X I S := ⟨⟨g, 0⟩, ⟨m, 0⟩, i, dflt⟩
/-- standard_block.rs 96-107. -/
def fromGenerator (g : G) : StandardBlock G Passthrough StdInter S := ⟨⟨g, 0⟩, ⟨⟨⟩, 0⟩, ⟨.gen, 0⟩, dflt⟩
/-- standard_block.rs 121-132. -/
def fromModifier (m : X) : StandardBlock Zero X StdInter S := ⟨⟨⟨⟩, 0⟩, ⟨m, 0⟩, ⟨.mod, 0⟩, dflt⟩
/-- standard_block.rs 186-188. -/
def primeInput (b : StandardBlock G X I S) (x : S) : StandardBlock G X I S :=
  { b with input := b.input + x }
/-- standard_block.rs 190-199; the callee is evaluated before the arguments, left to right. -/
def process [Generator G S] [Modifier X S] [InterFn I S] (b : StandardBlock G X I S) :
    Res (S × StandardBlock G X I S) := do
  let i ← b.i.getMutUnwrap
  let g ← b.g.getMutUnwrap
  let (yg, g') ← Generator.process g
  let m ← b.m.getMutUnwrap
  let (ym, m') ← Modifier.process m b.input
  let (y, i') ← InterFn.call i yg ym
  .ok (y, ⟨{ b.g with val := g' }, { b.m with val := m' }, { b.i with val := i' }, dflt⟩)
/-- A caller clones the `Arc` obtained from `get_g` (standard_block.rs 159-161). -/
def shareG (b : StandardBlock G X I S) : StandardBlock G X I S :=
  { b with g := { b.g with others := b.g.others + 1 } }
/-- A caller clones the `Arc` obtained from `get_m` (standard_block.rs 166-168). -/
def shareM (b : StandardBlock G X I S) : StandardBlock G X I S :=
  { b with m := { b.m with others := b.m.others + 1 } }
/-- A caller stores an `Arc` in the field borrowed by `get_g_mut` (standard_block.rs 173-175); the old one is dropped. -/
def setG (b : StandardBlock G X I S) (a : Arc G) : StandardBlock G X I S := { b with g := a }
/-- A caller stores an `Arc` in the field borrowed by `get_m_mut` (standard_block.rs 180-182); the old one is dropped. -/
def setM (b : StandardBlock G X I S) (a : Arc X) : StandardBlock G X I S := { b with m := a }
/-- standard_block.rs 185. -/
instance [Generator G S] [Modifier X S] [InterFn I S] : Block (StandardBlock G X I S) S :=
  ⟨primeInput, process⟩
end StandardBlock

/-! ## sounds/simple_sound.rs -/

/-- simple_sound.rs 21-29; blocks are heap addresses. -/
structure SimpleSound (S : Type) where
  generator : ℕ
  modifierList : List ℕ
  inputGain : S
  outputGain : S
  id : Option ℕ
  muted : Bool
  paused : Bool

namespace SimpleSound
variable {B S M : Type} [Flt S] [Flt M] [SM S M] [Block B S]

/-- simple_sound.rs 41-51; takes ownership of the `Arc` at address `generator`. -/
def new (ig og : M) (generator : ℕ) : SimpleSound S :=
  ⟨generator, [], SM.down ig, SM.down og, none, false, false⟩
/-- simple_sound.rs 57-61. -/
def addModifier (s : SimpleSound S) (m : ℕ) : SimpleSound S :=
  { s with modifierList := s.modifierList ++ [m] }
/-- simple_sound.rs 67-69. -/
def extendModifiers (s : SimpleSound S) (ms : List ℕ) : SimpleSound S :=
  { s with modifierList := s.modifierList ++ ms }
/-- simple_sound.rs 72-74. -/
def getInputGain (s : SimpleSound S) : M := SM.up s.inputGain
/-- simple_sound.rs 77-79. -/
def getOutputGain (s : SimpleSound S) : M := SM.up s.outputGain
/-- simple_sound.rs 82-84. -/
def setInputGain (s : SimpleSound S) (g : M) : SimpleSound S := { s with inputGain := SM.down g }
/-- simple_sound.rs 87-89. -/
def setOutputGain (s : SimpleSound S) (g : M) : SimpleSound S := { s with outputGain := SM.down g }
/-- simple_sound.rs 93-95. -/
def togglePause (s : SimpleSound S) : SimpleSound S := { s with paused := !s.paused }
/-- simple_sound.rs 97-99. -/
def isPaused (s : SimpleSound S) : Bool := s.paused
/-- simple_sound.rs 101-103. -/
def toggleMute (s : SimpleSound S) : SimpleSound S := { s with muted := !s.muted }
/-- simple_sound.rs 105-107. -/
def isMuted (s : SimpleSound S) : Bool := s.muted
/-- simple_sound.rs 109-111. -/
def register (s : SimpleSound S) (id : ℕ) : SimpleSound S := { s with id := some id }
/-- simple_sound.rs 113-115. -/
def unregister (s : SimpleSound S) : SimpleSound S := { s with id := none }
/-- simple_sound.rs 143-145. -/
def getId (s : SimpleSound S) : Option ℕ := s.id

/-- simple_sound.rs 122-127: the generator block, `Default::default()` if it is shared. -/
def runGen (h : Heap B) (a : ℕ) (x : S) : Res (S × Heap B) :=
  match h.getMut a with
  | none => .ok (dflt, h)
  | some b => do
    let (y, b') ← Block.process (Block.prime b x)
    .ok (y, h.put a b')

/-- simple_sound.rs 129-134: the modifiers in order; shared ones are skipped. -/
def runMods (h : Heap B) : List ℕ → S → Res (S × Heap B)
  | [], out => .ok (out, h)
  | a :: as, out =>
    match h.getMut a with
    | none => runMods h as out
    | some b => do
      let (y, b') ← Block.process (Block.prime b out)
      runMods (h.put a b') as y
  termination_by l => l.length

/-- simple_sound.rs 117-141. The struct itself is not changed, the blocks in the heap are. -/
def process (h : Heap B) (s : SimpleSound S) (input : S) : Res (S × Heap B) :=
  if s.paused then .ok (dflt, h)
  else do
    let (out, h) ← runGen h s.generator (input * s.inputGain)
    let (out, h) ← runMods h s.modifierList out
    .ok (if s.muted then dflt else out * s.outputGain, h)

/-- simple_sound.rs 20 `derive(Clone)`: the `Arc`s are cloned, the rest is copied. -/
def clone (h : Heap B) (s : SimpleSound S) : SimpleSound S × Heap B :=
  (s, s.modifierList.foldl Heap.incr (h.incr s.generator))
/-- Dropping a `SimpleSound` drops its `Arc`s. -/
def drop (h : Heap B) (s : SimpleSound S) : Heap B :=
  s.modifierList.foldl Heap.decr (h.decr s.generator)
/-- simple_sound.rs 92 `impl Sound for SimpleSound`, for a sound together with the memory its blocks
live in. -/
instance : Sound (SimpleSound S × Heap B) S where
  togglePause t := (t.1.togglePause, t.2)
  isPaused t := t.1.isPaused
  toggleMute t := (t.1.toggleMute, t.2)
  isMuted t := t.1.isMuted
  process t x := do
    let (y, h) ← process t.2 t.1 x
    .ok (y, (t.1, h))
  register t id := (t.1.register id, t.2)
  unregister t := (t.1.unregister, t.2)
  getId t := t.1.getId
end SimpleSound

/-! ## sounds/complex_sound.rs -/

/-- petgraph `DiGraph<BlockSP, ()>` (complex_sound.rs 18). Node `n` has weight `nodes[n]`, a heap
address. `edges` lists the edges, most recently added first: petgraph's `add_edge` inserts at the
head of the source node's list of outgoing edges and `remove_edge` unlinks without reordering. -/
structure Graph where
  nodes : List ℕ
  edges : List (ℕ × ℕ)

namespace Graph
/-- petgraph `Graph::add_node`. -/
def addNode (g : Graph) (w : ℕ) : Graph := { g with nodes := g.nodes ++ [w] }
/-- petgraph `Graph::find_edge(..).is_some()`. -/
def hasEdge (g : Graph) (a b : ℕ) : Bool := g.edges.contains (a, b)
/-- petgraph `Graph::update_edge`: nothing changes if the edge exists (the weight is `()`),
otherwise `add_edge`, which panics on an index that is not a node. -/
def updateEdge (g : Graph) (a b : ℕ) : Res Graph :=
  if g.hasEdge a b then .ok g
  else if a < g.nodes.length ∧ b < g.nodes.length then .ok { g with edges := (a, b) :: g.edges }
  else .error .badNode
/-- `find_edge` then `remove_edge`: removes the first matching edge. -/
def removeEdge (g : Graph) (a b : ℕ) : Graph := { g with edges := g.edges.erase (a, b) }
/-- petgraph `Graph::neighbors`: targets of outgoing edges, most recently added first. -/
def neighbors (g : Graph) (a : ℕ) : List ℕ :=
  g.edges.filterMap (fun e => if e.1 = a then some e.2 else none)
/-- petgraph `Graph::externals(Incoming)`: nodes without incoming edges, in index order. -/
def externals (g : Graph) : List ℕ :=
  (List.range g.nodes.length).filter (fun n => g.edges.all (fun e => e.2 ≠ n))
end Graph

/-- complex_sound.rs 37-45. -/
structure ComplexSound where
  graph : Graph
  processOrder : List ℕ
  inputGain : ℕ
  outputGain : ℕ
  id : Option ℕ
  muted : Bool
  paused : Bool

namespace ComplexSound

/-- complex_sound.rs 168-178 `remove_dups`, the loop: from position `i` on, remove the elements equal
to `w`. -/
def removeDupsFrom (w : ℕ) : List ℕ → List ℕ
  | [] => []
  | x :: xs => if x = w then removeDupsFrom w xs else x :: removeDupsFrom w xs

/-- complex_sound.rs 168-178 `remove_dups`: everything after position `wl` equal to `v[wl]` is
removed. When the loop body runs, `wl < v.len()`, so `v[whitelist]` does not panic. -/
def removeDups (v : List ℕ) (wl : ℕ) : List ℕ :=
  match v[wl]? with
  | none => v
  | some w => v.take (wl + 1) ++ removeDupsFrom w (v.drop (wl + 1))

/-- complex_sound.rs 147-151: `for j in 0..i { remove_dups(j) }`. -/
def removeDupsBelow (v : List ℕ) (i : ℕ) : List ℕ := (List.range i).foldl removeDups v

/-- complex_sound.rs 143-154, the outer loop. `none` means the fuel ran out; see
`orderLoop_isSome` for the bound used by `computeOrder`. -/
def orderLoop (g : Graph) : ℕ → List ℕ → ℕ → Option (List ℕ)
  | 0, _, _ => none
  | fuel + 1, v, i =>
    match v[i]? with
    | none => some v
    | some n => orderLoop g fuel (removeDupsBelow (v ++ g.neighbors n) i) (i + 1)

/-- complex_sound.rs 138-163 `process_order`. The loop runs at most `nodes + 2` times. -/
def computeOrder (g : Graph) (ig og : ℕ) : Option (List ℕ) :=
  (orderLoop g (g.nodes.length + 2) g.externals 0).map fun v =>
    ig :: (v.filter (fun e => e ≠ ig ∧ e ≠ og)) ++ [og]

/-- complex_sound.rs 114, 125, 138: recompute the stored order. -/
def reorder (c : ComplexSound) : ComplexSound :=
  match computeOrder c.graph c.inputGain c.outputGain with
  | some v => { c with processOrder := v }
  | none => c

variable {B S M : Type} [Flt S] [Flt M] [SM S M]

/-- The block created by complex_sound.rs 55-59 and 62-66. -/
abbrev GainBlock (S : Type) := StandardBlock Zero (Gain S) StdInter S

/-- complex_sound.rs 52-78. `emb` is the coercion of the gain block to `dyn Block`; the two new
allocations extend the heap. -/
def new (emb : GainBlock S → B) (h : Heap B) (ig og : M) : ComplexSound × Heap B :=
  let h1 := h.alloc (emb (StandardBlock.fromModifier (Gain.new (SM.down ig))))
  let h2 := h1.alloc (emb (StandardBlock.fromModifier (Gain.new (SM.down og))))
  (⟨⟨[h.length, h1.length], []⟩, [], 0, 1, none, false, false⟩, h2)
/-- complex_sound.rs 84-86. -/
def getInputGain (c : ComplexSound) : ℕ := c.inputGain
/-- complex_sound.rs 92-94. -/
def getOutputGain (c : ComplexSound) : ℕ := c.outputGain
/-- complex_sound.rs 104-106; does not recompute the order. -/
def addBlock (c : ComplexSound) (block : ℕ) : ℕ × ComplexSound :=
  (c.graph.nodes.length, { c with graph := c.graph.addNode block })
/-- complex_sound.rs 111-115. -/
def addConnection (c : ComplexSound) (a b : ℕ) : Res ComplexSound := do
  let g ← c.graph.updateEdge a b
  .ok (reorder { c with graph := g })
/-- complex_sound.rs 120-126. -/
def removeConnection (c : ComplexSound) (a b : ℕ) : ComplexSound :=
  reorder { c with graph := c.graph.removeEdge a b }
/-- complex_sound.rs 130-132. -/
def getNodes (c : ComplexSound) : List ℕ := c.processOrder
/-- complex_sound.rs 182-184. -/
def togglePause (c : ComplexSound) : ComplexSound := { c with paused := !c.paused }
/-- complex_sound.rs 186-188. -/
def isPaused (c : ComplexSound) : Bool := c.paused
/-- complex_sound.rs 190-192. -/
def toggleMute (c : ComplexSound) : ComplexSound := { c with muted := !c.muted }
/-- complex_sound.rs 194-196. -/
def isMuted (c : ComplexSound) : Bool := c.muted
/-- complex_sound.rs 198-200. -/
def register (c : ComplexSound) (id : ℕ) : ComplexSound := { c with id := some id }
/-- complex_sound.rs 202-204. -/
def unregister (c : ComplexSound) : ComplexSound := { c with id := none }
/-- complex_sound.rs 236-238. -/
def getId (c : ComplexSound) : Option ℕ := c.id

variable [Block B S]

/-- `BlockSP::get_mut(graph.node_weight_mut(n).unwrap()).unwrap()` (complex_sound.rs 213-215, 218,
224): the heap address and the block. -/
def blockAt (h : Heap B) (g : Graph) (n : ℕ) : Res (ℕ × B) :=
  match g.nodes[n]? with
  | none => .error .unwrapNone
  | some a =>
    match h.getMut a with
    | none => .error .unwrapNone
    | some b => .ok (a, b)

/-- complex_sound.rs 213-215, 224-225: prime the block of node `n`. -/
def primeNode (h : Heap B) (g : Graph) (n : ℕ) (x : S) : Res (Heap B) := do
  let (a, b) ← blockAt h g n
  .ok (h.put a (Block.prime b x))

/-- complex_sound.rs 223-226: prime all neighbours. -/
def primeAll (g : Graph) (x : S) : List ℕ → Heap B → Res (Heap B)
  | [], h => .ok h
  | n :: ns, h => do primeAll g x ns (← primeNode h g n x)

/-- complex_sound.rs 217-227: process the nodes in order. -/
def runOrder (g : Graph) : List ℕ → S → Heap B → Res (S × Heap B)
  | [], out, h => .ok (out, h)
  | n :: ns, _, h => do
    let (a, b) ← blockAt h g n
    let (y, b') ← Block.process b
    let h ← primeAll g y (g.neighbors n) (h.put a b')
    runOrder g ns y h

/-- complex_sound.rs 206-234. The struct itself is unchanged. -/
def process (h : Heap B) (c : ComplexSound) (input : S) : Res (S × Heap B) :=
  if c.paused then .ok (dflt, h)
  else do
    let h ← primeNode h c.graph c.inputGain input
    let (out, h) ← runOrder c.graph c.processOrder dflt h
    .ok (if c.muted then dflt else out, h)

/-- complex_sound.rs 36 `derive(Clone)`: cloning the graph clones the node weights (`Arc`s). -/
def clone (h : Heap B) (c : ComplexSound) : ComplexSound × Heap B :=
  (c, c.graph.nodes.foldl Heap.incr h)
/-- Dropping a `ComplexSound` drops its node weights. -/
def drop (h : Heap B) (c : ComplexSound) : Heap B := c.graph.nodes.foldl Heap.decr h
/-- complex_sound.rs 181 `impl Sound for ComplexSound`, for a sound together with the memory its
blocks live in. -/
instance : Sound (ComplexSound × Heap B) S where
  togglePause t := (t.1.togglePause, t.2)
  isPaused t := t.1.isPaused
  toggleMute t := (t.1.toggleMute, t.2)
  isMuted t := t.1.isMuted
  process t x := do
    let (y, h) ← process t.2 t.1 x
    .ok (y, (t.1, h))
  register t id := (t.1.register id, t.2)
  unregister t := (t.1.unregister, t.2)
  getId t := t.1.getId

end ComplexSound
end Verif
