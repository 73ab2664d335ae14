import Verif.Proofs.Heap
import Verif.Props.Graph
import Verif.Props.SimpleSound
import Verif.Props.Block

set_option linter.unusedSectionVars false

/-! # Complex sounds: C81, C85, C86, C87 -/

namespace Verif
open ComplexSound

section
variable {B S : Type} [Flt S] [Block B S]

/-! ## Specification -/

/-- Node `n` of the graph is the block `st n`, with a single pointer to it, and different nodes have different blocks. -/
def Holds (h : Heap B) (g : Graph) (st : ℕ → B) : Prop :=
  g.nodes.Nodup ∧ ∀ n a, g.nodes[n]? = some a → h[a]? = some (Cell.mk (st n) 1)

/-- Several inputs primed in order. -/
def primes (b : B) (xs : List S) : B := xs.foldl Block.prime b

/-- The outputs that the nodes in `l` send to `n`, in the order of `l`. -/
def sentTo (g : Graph) (y : ℕ → S) (n : ℕ) (l : List ℕ) : List S := (l.filter (fun m => (m, n) ∈ g.edges)).map y

/-- The nodes before `n`. -/
def before (order : List ℕ) (n : ℕ) : List ℕ := order.takeWhile (· ≠ n)
/-- `n` and the nodes after it. -/
def fromOn (order : List ℕ) (n : ℕ) : List ℕ := order.dropWhile (· ≠ n)

/-! ## Lemmas -/

private theorem getElem?_lt {α : Type} {l : List α} {n : ℕ} {a : α} (h : l[n]? = some a) : n < l.length := by
  by_contra hn
  rw [List.getElem?_eq_none (by omega)] at h
  cases h

private theorem holds_put {h : Heap B} {g : Graph} {st : ℕ → B} (hr : Holds h g st) {m a : ℕ} (hm : g.nodes[m]? = some a) (b : B) :
    Holds (h.put a b) g (fun n => if n = m then b else st n) := by
  refine ⟨hr.1, fun n a' hn => ?_⟩
  rw [Heap.getElem?_put]
  dsimp only
  by_cases hnm : n = m
  · subst hnm
    rw [hm] at hn
    cases hn
    rw [if_pos rfl, if_pos rfl, hr.2 n a hm]
    rfl
  · rw [if_neg hnm, if_neg, hr.2 n a' hn]
    rintro rfl
    apply hnm
    have h1 := getElem?_lt hm
    have h2 := getElem?_lt hn
    rw [List.getElem?_eq_getElem h1] at hm
    rw [List.getElem?_eq_getElem h2] at hn
    exact (List.Nodup.getElem_inj_iff hr.1).mp (Option.some.inj (hn.trans hm.symm))

private theorem sameElse_put {h : Heap B} {g : Graph} {m a : ℕ} (hm : g.nodes[m]? = some a) (b : B) : SameElse h (h.put a b) g.nodes := by
  refine ⟨Heap.put_length h a b, fun c hc => ?_⟩
  rw [Heap.getElem?_put, if_neg]
  rintro rfl
  exact hc (List.mem_of_getElem? hm)

private theorem SameElse.trans {h1 h2 h3 : Heap B} {l : List ℕ} (a : SameElse h1 h2 l) (b : SameElse h2 h3 l) : SameElse h1 h3 l :=
  ⟨b.1.trans a.1, fun c hc => (b.2 c hc).trans (a.2 c hc)⟩

private theorem blockAt_ok {h : Heap B} {g : Graph} {st : ℕ → B} (hr : Holds h g st) {m : ℕ} (hm : m < g.nodes.length) :
    ∃ a, g.nodes[m]? = some a ∧ blockAt h g m = .ok (a, st m) := by
  have e : g.nodes[m]? = some g.nodes[m] := List.getElem?_eq_getElem hm
  refine ⟨_, e, ?_⟩
  unfold blockAt
  rw [e]
  have : h.getMut g.nodes[m] = some (st m) := Heap.getMut_eq_some.mpr (hr.2 m _ e)
  simp only [this]

private theorem primeNode_ok {h : Heap B} {g : Graph} {st : ℕ → B} (hr : Holds h g st) {m : ℕ} (hm : m < g.nodes.length) (x : S) :
    ∃ h', primeNode h g m x = .ok h' ∧ Holds h' g (fun n => if n = m then Block.prime (st m) x else st n) ∧ SameElse h h' g.nodes := by
  obtain ⟨a, h1, h2⟩ := blockAt_ok hr hm
  refine ⟨h.put a (Block.prime (st m) x), ?_, holds_put hr h1 _, sameElse_put h1 _⟩
  unfold primeNode
  rw [h2]
  rfl

private theorem primeAll_ok {g : Graph} (x : S) (ns : List ℕ) : ∀ {h : Heap B} {st : ℕ → B}, Holds h g st → (∀ n ∈ ns, n < g.nodes.length) → ns.Nodup →
    ∃ h', primeAll g x ns h = .ok h' ∧ Holds h' g (fun n => if n ∈ ns then Block.prime (st n) x else st n) ∧ SameElse h h' g.nodes := by
  induction ns with
  | nil => intro h st hr _ _; exact ⟨h, rfl, by simpa using hr, rfl, fun _ _ => rfl⟩
  | cons m ns ih =>
    intro h st hr hv hn
    rw [List.nodup_cons] at hn
    obtain ⟨h1, e1, r1, s1⟩ := primeNode_ok hr (hv m List.mem_cons_self) x
    obtain ⟨h2, e2, r2, s2⟩ := ih r1 (fun n hn => hv n (List.mem_cons_of_mem _ hn)) hn.2
    refine ⟨h2, ?_, ?_, s1.trans s2⟩
    · rw [primeAll]
      simp only [e1, bind, Except.bind]
      exact e2
    · convert r2 using 2 with n
      by_cases hnm : n = m
      · subst hnm
        simp [hn.1]
      · simp [hnm]

private theorem sentTo_cons (g : Graph) (y : ℕ → S) (n m : ℕ) (l : List ℕ) :
    sentTo g y n (m :: l) = (if (m, n) ∈ g.edges then [y m] else []) ++ sentTo g y n l := by
  unfold sentTo
  by_cases h : (m, n) ∈ g.edges
  · rw [List.filter_cons_of_pos (by simpa using h), if_pos h]; rfl
  · rw [List.filter_cons_of_neg (by simpa using h), if_neg h]; rfl

private theorem sentTo_congr {g : Graph} {y y' : ℕ → S} {n : ℕ} {l : List ℕ} (h : ∀ m ∈ l, y m = y' m) : sentTo g y n l = sentTo g y' n l := by
  unfold sentTo
  apply List.map_congr_left
  intro m hm
  exact h m (List.mem_filter.mp hm).1

private theorem before_subset (l : List ℕ) (n : ℕ) : ∀ m ∈ before l n, m ∈ l := fun _ hm => (List.takeWhile_sublist _).subset hm
private theorem fromOn_subset (l : List ℕ) (n : ℕ) : ∀ m ∈ fromOn l n, m ∈ l := fun _ hm => (List.dropWhile_sublist _).subset hm

private theorem before_self (n : ℕ) (l : List ℕ) : before (n :: l) n = [] := by simp [before]
private theorem fromOn_self (n : ℕ) (l : List ℕ) : fromOn (n :: l) n = n :: l := by simp [fromOn]
private theorem before_ne {n m : ℕ} (h : m ≠ n) (l : List ℕ) : before (m :: l) n = m :: before l n := by simp [before, h]
private theorem fromOn_ne {n m : ℕ} (h : m ≠ n) (l : List ℕ) : fromOn (m :: l) n = fromOn l n := by simp [fromOn, h]

private theorem primes_append (b : B) (xs ys : List S) : primes b (xs ++ ys) = primes (primes b xs) ys := List.foldl_append

private theorem runOrder_cons {g : Graph} {m : ℕ} {ms : List ℕ} {o0 : S} {h : Heap B} {st : ℕ → B} (hr : Holds h g st) (hm : m < g.nodes.length)
    {y : S} {b : B} (hp : Block.process (st m) = .ok (y, b)) (hv : g.Valid) (hn : g.edges.Nodup) :
    ∃ h', runOrder g (m :: ms) o0 h = runOrder g ms y h' ∧ SameElse h h' g.nodes ∧
      Holds h' g (fun n => if (m, n) ∈ g.edges then Block.prime (if n = m then b else st n) y else if n = m then b else st n) := by
  obtain ⟨a, e1, e2⟩ := blockAt_ok hr hm
  have r1 := holds_put hr e1 b
  obtain ⟨h2, e3, r2, s2⟩ := primeAll_ok y (g.neighbors m) r1 (fun n hn => (hv _ (mem_neighbors.mp hn)).2) (neighbors_nodup hn m)
  refine ⟨h2, ?_, (sameElse_put e1 b).trans s2, ?_⟩
  · rw [runOrder]
    simp only [e2, hp, e3, bind, Except.bind]
  · simpa only [mem_neighbors] using r2

private theorem runOrder_spec {g : Graph} (hv : g.Valid) (hn : g.edges.Nodup) (order : List ℕ) : ∀ {h h' : Heap B} {st : ℕ → B} {o0 out : S},
    Holds h g st → (∀ n ∈ order, n < g.nodes.length) → order.Nodup → runOrder g order o0 h = .ok (out, h') →
    ∃ (y : ℕ → S) (b' st' : ℕ → B), Holds h' g st' ∧ SameElse h h' g.nodes ∧
      (∀ n ∈ order, Block.process (primes (st n) (sentTo g y n (before order n))) = .ok (y n, b' n)) ∧
      (∀ n, st' n = if n ∈ order then primes (b' n) (sentTo g y n (fromOn order n)) else primes (st n) (sentTo g y n order)) ∧
      out = (order.getLast?.map y).getD o0 := by
  induction order with
  | nil =>
    intro h h' st o0 out hr _ _ he
    rw [runOrder] at he
    cases he
    exact ⟨fun _ => o0, st, st, hr, ⟨rfl, fun _ _ => rfl⟩, fun n hn => by simp at hn, fun n => by simp [sentTo, primes], rfl⟩
  | cons m ms ih =>
    intro h h' st o0 out hr hlt hnd he
    rw [List.nodup_cons] at hnd
    have hm := hlt m List.mem_cons_self
    cases hp : (Block.process (st m) : Res (S × B)) with
    | error e =>
      exfalso
      obtain ⟨a, e1, e2⟩ := blockAt_ok hr hm
      rw [runOrder] at he
      simp [e2, hp, bind, Except.bind] at he
    | ok p =>
      obtain ⟨ym, bm⟩ := p
      obtain ⟨h2, e2, s2, r2⟩ := runOrder_cons (ms := ms) (o0 := o0) hr hm hp hv hn
      rw [e2] at he
      obtain ⟨y0, b0, st', i1, i2, i3, i4, i5⟩ := ih r2 (fun n hn => hlt n (List.mem_cons_of_mem _ hn)) hnd.2 he
      let y : ℕ → S := fun n => if n = m then ym else y0 n
      have hy : ∀ n ∈ ms, y0 n = y n := by
        intro n hn
        have : n ≠ m := by rintro rfl; exact hnd.1 hn
        simp [y, this]
      have hym : y m = ym := by simp [y]
      refine ⟨y, fun n => if n = m then bm else b0 n, st', i1, s2.trans i2, fun n hn => ?_, fun n => ?_, ?_⟩
      · by_cases hnm : n = m
        · subst hnm
          simp only [before_self, if_true]
          rw [hym]
          exact hp
        · have hn' : n ∈ ms := by simpa [hnm] using hn
          have := i3 n hn'
          simp only [hnm, if_false] at this ⊢
          rw [before_ne (Ne.symm hnm), sentTo_cons, hym, primes_append, ← hy n hn', ← this,
            sentTo_congr (fun k hk => (hy k (before_subset ms n k hk)).symm)]
          by_cases he : (m, n) ∈ g.edges
          · simp only [he, if_true]; rfl
          · simp only [he, if_false]; rfl
      · rw [i4 n]
        by_cases hnm : n = m
        · subst hnm
          simp only [hnd.1, if_false, if_true, List.mem_cons_self, fromOn_self, sentTo_cons, hym, primes_append]
          rw [sentTo_congr hy]
          by_cases he : (n, n) ∈ g.edges
          · simp only [he, if_true]; rfl
          · simp only [he, if_false]; rfl
        · by_cases hn' : n ∈ ms
          · simp only [hn', if_true, List.mem_cons_of_mem, fromOn_ne (Ne.symm hnm), hnm, if_false]
            rw [sentTo_congr (fun k hk => (hy k (fromOn_subset ms n k hk)))]
          · simp only [hn', if_false, List.mem_cons, hnm, or_self, sentTo_cons, hym, primes_append]
            rw [sentTo_congr hy]
            by_cases he : (m, n) ∈ g.edges
            · simp only [he, if_true]; rfl
            · simp only [he, if_false]; rfl
      · rw [i5]
        cases hms : ms.getLast? with
        | none =>
          rw [List.getLast?_eq_none_iff] at hms
          subst hms
          simp [y]
        | some k =>
          have hk : k ∈ ms := List.mem_of_getLast? hms
          rw [List.getLast?_cons, hms]
          simp [hy k hk]

/-! ## C85 -/

/-- Any arithmetic, any blocks. If an unpaused `process` returns, then there are outputs `y` and processed blocks `b'` with:
every node in the order was processed once, on the block as it was before the call primed with the call's input (input
gain only) and then with the outputs of the nodes before it that connect to it, in order; the outputs of the nodes at or
after it that connect to it were primed afterwards and stay pending; nodes outside the order only collect; the result is
the output of the last node; memory outside the graph is untouched. -/
theorem C85_process (h h' : Heap B) (c : ComplexSound) (st : ℕ → B) (x out : S) (hr : Holds h c.graph st) (hv : c.graph.Valid)
    (hn : c.graph.edges.Nodup) (hi : c.inputGain < c.graph.nodes.length) (hlt : ∀ n ∈ c.getNodes, n < c.graph.nodes.length)
    (hnd : c.getNodes.Nodup) (hp : c.isPaused = false) (he : c.process h x = .ok (out, h')) :
    ∃ (y : ℕ → S) (b' st' : ℕ → B), Holds h' c.graph st' ∧ SameElse h h' c.graph.nodes ∧
      (∀ n ∈ c.getNodes, Block.process (primes (st n) ((if n = c.getInputGain then [x] else []) ++ sentTo c.graph y n (before c.getNodes n))) = .ok (y n, b' n)) ∧
      (∀ n, st' n = if n ∈ c.getNodes then primes (b' n) (sentTo c.graph y n (fromOn c.getNodes n))
        else primes (st n) ((if n = c.getInputGain then [x] else []) ++ sentTo c.graph y n c.getNodes)) ∧
      out = if c.isMuted then lit 0 else (c.getNodes.getLast?.map y).getD (lit 0) := by
  unfold ComplexSound.isPaused at hp
  unfold ComplexSound.process at he
  obtain ⟨h1, e1, r1, s1⟩ := primeNode_ok hr hi x
  simp only [hp, Bool.false_eq_true, if_false, e1, bind, Except.bind] at he
  cases hro : runOrder c.graph c.processOrder (dflt : S) h1 with
  | error e => rw [hro] at he; cases he
  | ok p =>
    rw [hro] at he
    obtain ⟨o, h2⟩ := p
    simp only [Except.ok.injEq, Prod.mk.injEq] at he
    obtain ⟨he1, rfl⟩ := he
    obtain ⟨y, b', st', i1, i2, i3, i4, i5⟩ := runOrder_spec hv hn c.processOrder r1 hlt hnd hro
    have key : ∀ n (l : List S), primes (if n = c.inputGain then Block.prime (st c.inputGain) x else st n) l =
        primes (st n) ((if n = c.getInputGain then [x] else []) ++ l) := by
      intro n l
      unfold ComplexSound.getInputGain
      by_cases hnig : n = c.inputGain
      · subst hnig; simp only [if_true, primes_append]; rfl
      · simp only [hnig, if_false, List.nil_append]
    refine ⟨y, b', st', i1, s1.trans i2, fun n hn => ?_, fun n => ?_, ?_⟩
    · rw [← key]; exact i3 n hn
    · rw [← key]; exact i4 n
    · rw [← he1, i5]; rfl

/-- `primes` on a standard block: the pending input grows by the inputs, left to right; nothing else changes. -/
theorem C85_standard_block {G X I : Type} [Generator G S] [Modifier X S] [InterFn I S] (b : StandardBlock G X I S) (xs : List S) :
    primes b xs = { b with input := xs.foldl (· + ·) b.input } := by
  unfold primes
  induction xs generalizing b with
  | nil => rfl
  | cons x xs ih => rw [List.foldl_cons, ih]; rfl

/-! ## C86 -/

private theorem runOrder_total {I : B → Prop} (hI : ∀ b, I b → ∃ (y : S) (b' : B), Block.process b = .ok (y, b') ∧ I b')
    (hIp : ∀ b (x : S), I b → I (Block.prime b x)) {g : Graph} (hv : g.Valid) (hn : g.edges.Nodup) (order : List ℕ) :
    ∀ {h : Heap B} {st : ℕ → B} (o0 : S), Holds h g st → (∀ n < g.nodes.length, I (st n)) → (∀ n ∈ order, n < g.nodes.length) →
      ∃ out h' st', runOrder g order o0 h = .ok (out, h') ∧ Holds h' g st' ∧ (∀ n < g.nodes.length, I (st' n)) ∧ SameElse h h' g.nodes := by
  induction order with
  | nil => intro h st o0 hr hi _; exact ⟨o0, h, st, by rw [runOrder], hr, hi, rfl, fun _ _ => rfl⟩
  | cons m ms ih =>
    intro h st o0 hr hi hlt
    have hm := hlt m List.mem_cons_self
    obtain ⟨y, b, hp, hb⟩ := hI _ (hi m hm)
    obtain ⟨h2, e2, s2, r2⟩ := runOrder_cons (ms := ms) (o0 := o0) hr hm hp hv hn
    obtain ⟨out, h', st', i1, i2, i3, i4⟩ := ih y r2 (fun n hn => by
      split_ifs
      · exact hIp _ _ hb
      · exact hIp _ _ (hi n hn)
      · exact hb
      · exact hi n hn) (fun n hn => hlt n (List.mem_cons_of_mem _ hn))
    exact ⟨out, h', st', by rw [e2]; exact i1, i2, i3, s2.trans i4⟩

/-- If every block of the graph is unshared and satisfies `I`, and blocks satisfying `I` do not panic and keep satisfying
it, then `process` does not panic and the same holds afterwards. -/
theorem C86_process {I : B → Prop} (hI : ∀ b, I b → ∃ (y : S) (b' : B), Block.process b = .ok (y, b') ∧ I b')
    (hIp : ∀ b (x : S), I b → I (Block.prime b x)) (h : Heap B) (c : ComplexSound) (st : ℕ → B) (x : S)
    (hr : Holds h c.graph st) (hst : ∀ n < c.graph.nodes.length, I (st n)) (hv : c.graph.Valid)
    (hn : c.graph.edges.Nodup) (hi : c.inputGain < c.graph.nodes.length) (hlt : ∀ n ∈ c.getNodes, n < c.graph.nodes.length) :
    ∃ out h' st', c.process h x = .ok (out, h') ∧ Holds h' c.graph st' ∧ (∀ n < c.graph.nodes.length, I (st' n)) ∧ SameElse h h' c.graph.nodes := by
  unfold ComplexSound.process
  by_cases hp : c.paused = true
  · rw [if_pos hp]
    exact ⟨_, h, st, rfl, hr, hst, rfl, fun _ _ => rfl⟩
  · rw [if_neg hp]
    obtain ⟨h1, e1, r1, s1⟩ := primeNode_ok hr hi x
    obtain ⟨out, h', st', i1, i2, i3, i4⟩ := runOrder_total hI hIp hv hn c.processOrder (dflt : S) r1 (fun n hn => by
      split_ifs
      · exact hIp _ _ (hst _ hi)
      · exact hst n hn) hlt
    exact ⟨if c.muted then dflt else out, h', st', by simp only [e1, i1, bind, Except.bind], i2, i3, s1.trans i4⟩

/-- Calls on a complex sound; a new block is given a fresh `Arc`. -/
inductive CxCall (B S : Type) where
  | addBlock (b : B) | connect (a b : ℕ) | disconnect (a b : ℕ) | process (x : S) | pause | mute | register (k : ℕ) | unregister

/-- Effect of one call on memory and the sound. -/
def cxCall (h : Heap B) (c : ComplexSound) : CxCall B S → Res (Heap B × ComplexSound)
  | .addBlock b => .ok (h.alloc b, (c.addBlock h.length).2)
  | .connect a b => (c.addConnection a b).map (fun c' => (h, c'))
  | .disconnect a b => .ok (h, c.removeConnection a b)
  | .process x => (c.process h x).map (fun r => (r.2, c))
  | .pause => .ok (h, c.togglePause)
  | .mute => .ok (h, c.toggleMute)
  | .register k => .ok (h, c.register k)
  | .unregister => .ok (h, c.unregister)

/-- Effect of a sequence of calls. -/
def cxCalls (h : Heap B) (c : ComplexSound) : List (CxCall B S) → Res (Heap B × ComplexSound)
  | [] => .ok (h, c)
  | o :: os => match cxCall h c o with
    | .error e => .error e
    | .ok (h', c') => cxCalls h' c' os

/-- The calls connect only nodes that exist at the time (`k` nodes so far) and add only blocks satisfying `I`. -/
def CxLegal (I : B → Prop) : ℕ → List (CxCall B S) → Prop
  | _, [] => True
  | k, .addBlock b :: os => I b ∧ CxLegal I (k + 1) os
  | k, .connect a b :: os => a < k ∧ b < k ∧ CxLegal I k os
  | k, _ :: os => CxLegal I k os

private structure CxOk (I : B → Prop) (h : Heap B) (c : ComplexSound) : Prop where
  holds : ∃ st, Holds h c.graph st ∧ ∀ n < c.graph.nodes.length, I (st n)
  addr : ∀ a ∈ c.graph.nodes, a < h.length
  valid : c.graph.Valid
  nodup : c.graph.edges.Nodup
  ig : c.inputGain < c.graph.nodes.length
  og : c.outputGain < c.graph.nodes.length
  order : ∀ n ∈ c.getNodes, n < c.graph.nodes.length

private theorem reorder_order {c : ComplexSound} (hv : c.graph.Valid) (hi : c.inputGain < c.graph.nodes.length) (ho : c.outputGain < c.graph.nodes.length) :
    (∀ n ∈ (reorder c).getNodes, n < c.graph.nodes.length) ∧ (reorder c).graph = c.graph ∧ (reorder c).inputGain = c.inputGain ∧
    (reorder c).outputGain = c.outputGain := by
  obtain ⟨v, hv'⟩ := Option.isSome_iff_exists.mp (orderLoop_isSome hv 0)
  have e : computeOrder c.graph c.inputGain c.outputGain = some (c.inputGain :: v.filter (fun e => e ≠ c.inputGain ∧ e ≠ c.outputGain) ++ [c.outputGain]) := by
    unfold computeOrder
    rw [show c.graph.nodes.length + 2 = c.graph.nodes.length + 2 + 0 from rfl, hv']
    rfl
  unfold reorder
  rw [e]
  refine ⟨fun n hn => ?_, rfl, rfl, rfl⟩
  unfold ComplexSound.getNodes at hn
  simp only [List.cons_append, List.mem_cons, List.mem_append, List.mem_filter, List.not_mem_nil, or_false] at hn
  rcases hn with rfl | ⟨hn, -⟩ | rfl
  · exact hi
  · exact orderLoop_mem hv hv' n hn
  · exact ho

/-- No sequence of calls on existing nodes panics, as long as the added blocks do not panic and are not shared. -/
theorem C86_calls {M : Type} [Flt M] [SM S M] {I : B → Prop} (hI : ∀ b, I b → ∃ (y : S) (b' : B), Block.process b = .ok (y, b') ∧ I b')
    (hIp : ∀ b (x : S), I b → I (Block.prime b x)) (emb : GainBlock S → B) (hemb : ∀ g : S, I (emb (StandardBlock.fromModifier (Gain.new g))))
    (h : Heap B) (ig og : M) (os : List (CxCall B S)) (hos : CxLegal I 2 os) :
    ∃ h' c', cxCalls (ComplexSound.new emb h ig og).2 (ComplexSound.new emb h ig og).1 os = .ok (h', c') := by
  have key : ∀ (os : List (CxCall B S)) (h : Heap B) (c : ComplexSound), CxOk I h c → CxLegal I c.graph.nodes.length os → ∃ h' c', cxCalls h c os = .ok (h', c') := by
    intro os
    induction os with
    | nil => intro h c _ _; exact ⟨h, c, rfl⟩
    | cons o os ih =>
      intro h c hk hl
      obtain ⟨⟨st, hr, hst⟩, haddr, hv, hn, hig, hog, hord⟩ := hk
      rw [cxCalls]
      cases o with
      | addBlock b =>
        have hlen : (c.addBlock h.length).2.graph.nodes.length = c.graph.nodes.length + 1 := by
          simp [ComplexSound.addBlock, Graph.addNode]
        refine ih (h.alloc b) _ ⟨⟨fun n => if n = c.graph.nodes.length then b else st n, ⟨?_, fun n a hna => ?_⟩, fun n hn => ?_⟩, ?_, fun e he => ?_, hn, ?_, ?_, fun n hn => ?_⟩ ?_
        · show (c.graph.nodes ++ [h.length]).Nodup
          rw [List.nodup_append]
          refine ⟨hr.1, List.nodup_singleton _, ?_⟩
          rintro a ha b hb rfl
          rw [List.mem_singleton] at hb
          have := haddr a ha
          omega
        · have hna : (c.graph.nodes ++ [h.length])[n]? = some a := hna
          unfold Heap.alloc
          dsimp only
          by_cases hlt : n < c.graph.nodes.length
          · rw [List.getElem?_append_left hlt] at hna
            have := haddr a (List.mem_of_getElem? hna)
            rw [List.getElem?_append_left this, hr.2 n a hna, if_neg (by omega)]
          · rw [List.getElem?_append_right (by omega)] at hna
            have hn0 : n - c.graph.nodes.length = 0 := by
              have := getElem?_lt hna
              simp at this
              omega
            rw [hn0] at hna
            simp at hna
            subst hna
            rw [if_pos (by omega)]
            simp
        · simp only [hlen] at hn
          dsimp only
          split_ifs
          · exact hl.1
          · exact hst n (by omega)
        · intro a ha
          have ha : a ∈ c.graph.nodes ++ [h.length] := ha
          unfold Heap.alloc
          rw [List.length_append, List.length_singleton]
          rw [List.mem_append, List.mem_singleton] at ha
          rcases ha with ha | ha
          · have := haddr a ha; omega
          · omega
        · have := hv e he; rw [hlen]; omega
        · rw [hlen]; show c.inputGain < _; omega
        · rw [hlen]; show c.outputGain < _; omega
        · have := hord n hn; rw [hlen]; omega
        · rw [hlen]; exact hl.2
      | connect a b =>
        obtain ⟨hla, hlb, hl⟩ := hl
        have hu : ∃ g, c.graph.updateEdge a b = .ok g ∧ g.Valid ∧ g.edges.Nodup ∧ g.nodes = c.graph.nodes := by
          unfold Graph.updateEdge Graph.hasEdge
          by_cases h1 : c.graph.edges.contains (a, b) = true
          · exact ⟨c.graph, by rw [if_pos h1], hv, hn, rfl⟩
          · refine ⟨{ c.graph with edges := (a, b) :: c.graph.edges }, by rw [if_neg h1, if_pos ⟨hla, hlb⟩], fun e he => ?_, List.nodup_cons.mpr ⟨fun h => h1 (List.contains_iff_mem.mpr h), hn⟩, rfl⟩
            rcases List.mem_cons.mp he with rfl | he
            · exact ⟨hla, hlb⟩
            · exact hv e he
        obtain ⟨g, e1, v1, v2, v3⟩ := hu
        have e2 : c.addConnection a b = .ok (reorder { c with graph := g }) := by
          unfold ComplexSound.addConnection
          rw [e1]
          rfl
        obtain ⟨o1, o2, o3, o4⟩ := reorder_order (c := { c with graph := g }) v1 (by simp only [v3]; exact hig) (by simp only [v3]; exact hog)
        simp only [cxCall, e2, Except.map]
        have hlen : (reorder { c with graph := g }).graph.nodes = c.graph.nodes := by rw [o2]; exact v3
        refine ih h _ ⟨⟨st, ⟨by rw [hlen]; exact hr.1, fun n a hna => hr.2 n a (by rw [hlen] at hna; exact hna)⟩, by rw [hlen]; exact hst⟩, by rw [hlen]; exact haddr, by rw [o2]; exact v1, by rw [o2]; exact v2, by rw [o3, hlen]; exact hig, by rw [o4, hlen]; exact hog, by rw [hlen, ← v3]; exact o1⟩ (by rw [hlen]; exact hl)
      | disconnect a b =>
        have v1 : (c.graph.removeEdge a b).Valid := fun e he => hv e (List.mem_of_mem_erase he)
        obtain ⟨o1, o2, o3, o4⟩ := reorder_order (c := { c with graph := c.graph.removeEdge a b }) v1 hig hog
        simp only [cxCall]
        have e2 : c.removeConnection a b = reorder { c with graph := c.graph.removeEdge a b } := rfl
        have hlen : (reorder { c with graph := c.graph.removeEdge a b }).graph.nodes = c.graph.nodes := by rw [o2]; rfl
        rw [e2]
        refine ih h _ ⟨⟨st, ⟨by rw [hlen]; exact hr.1, fun n a hna => hr.2 n a (by rw [hlen] at hna; exact hna)⟩, by rw [hlen]; exact hst⟩, by rw [hlen]; exact haddr, by rw [o2]; exact v1, by rw [o2]; exact hn.erase _, by rw [o3, hlen]; exact hig, by rw [o4, hlen]; exact hog, by rw [hlen]; exact o1⟩ (by rw [hlen]; exact hl)
      | process x =>
        obtain ⟨out, h', st', i1, i2, i3, i4⟩ := C86_process hI hIp h c st x hr hst hv hn hig hord
        simp only [cxCall, i1, Except.map]
        exact ih h' c ⟨⟨st', i2, i3⟩, fun a ha => by rw [i4.1]; exact haddr a ha, hv, hn, hig, hog, hord⟩ hl
      | pause => exact ih h c.togglePause ⟨⟨st, hr, hst⟩, haddr, hv, hn, hig, hog, hord⟩ hl
      | mute => exact ih h c.toggleMute ⟨⟨st, hr, hst⟩, haddr, hv, hn, hig, hog, hord⟩ hl
      | register k => exact ih h (c.register k) ⟨⟨st, hr, hst⟩, haddr, hv, hn, hig, hog, hord⟩ hl
      | unregister => exact ih h c.unregister ⟨⟨st, hr, hst⟩, haddr, hv, hn, hig, hog, hord⟩ hl
  refine key os _ _ ⟨⟨fun n => if n = 0 then emb (StandardBlock.fromModifier (Gain.new (SM.down ig))) else emb (StandardBlock.fromModifier (Gain.new (SM.down og))), ⟨?_, fun n a hna => ?_⟩, fun n _ => ?_⟩, ?_, fun e he => (List.not_mem_nil he).elim, List.nodup_nil, Nat.zero_lt_two, Nat.one_lt_two, fun n hn => (List.not_mem_nil hn).elim⟩ hos
  · show [h.length, (h.alloc _).length].Nodup
    unfold Heap.alloc
    simp
  · have hna : [h.length, (h.alloc (emb (StandardBlock.fromModifier (Gain.new (SM.down ig))))).length][n]? = some a := hna
    unfold Heap.alloc at hna
    show ((h ++ [_]) ++ [_])[a]? = _
    match n, hna with
    | 0, hna =>
      simp at hna
      subst hna
      simp
    | 1, hna =>
      simp at hna
      subst hna
      rw [List.getElem?_append_right (by simp)]
      simp
    | n + 2, hna => simp at hna
  · dsimp only
    split_ifs <;> exact hemb _
  · intro a ha
    have ha : a ∈ [h.length, (h.alloc (emb (StandardBlock.fromModifier (Gain.new (SM.down ig))))).length] := ha
    show a < ((h ++ [_]) ++ [_]).length
    unfold Heap.alloc at ha
    simp at ha ⊢
    omega

/-! ## C81 -/

/-- The code violates C81: after a clone, processing an unpaused original or clone panics, whatever it contains. -/
theorem C81_violated (h : Heap B) (c : ComplexSound) (x : S) (hv : ∀ a ∈ c.graph.nodes, ∃ e, h[a]? = some e ∧ 1 ≤ e.refs) (hp : c.isPaused = false) :
    c.process (c.clone h).2 x = .error .unwrapNone ∧ (c.clone h).1.process (c.clone h).2 x = .error .unwrapNone := by
  have e1 : (c.clone h).1 = c := rfl
  rw [e1]
  have key : c.process (c.clone h).2 x = .error .unwrapNone := by
    unfold ComplexSound.isPaused at hp
    have hb : blockAt (c.clone h).2 c.graph c.inputGain = .error .unwrapNone := by
      unfold blockAt
      cases hc : c.graph.nodes[c.inputGain]? with
      | none => rfl
      | some a =>
        have ha := List.mem_of_getElem? hc
        have : (c.clone h).2.getMut a = none := by
          rw [Heap.getMut_eq_none]
          show ∀ e, (c.graph.nodes.foldl Heap.incr h)[a]? = some e → _
          intro e he
          rw [Heap.getElem?_foldl_incr] at he
          obtain ⟨e0, h1, h2⟩ := hv a ha
          rw [h1] at he
          have hcount := List.count_pos_iff.mpr ha
          rw [← Option.some.inj he]
          show e0.refs + _ ≠ 1
          omega
        simp only [this]
    unfold ComplexSound.process primeNode
    simp only [hp, Bool.false_eq_true, if_false, hb, bind, Except.bind]
  exact ⟨key, key⟩

/-- What holds: a paused original or clone can be processed, and dropping the clone (or the original) restores memory
exactly, so the other one works again. -/
theorem C81_partial (h : Heap B) (c : ComplexSound) (x : S) :
    (c.isPaused = true → c.process (c.clone h).2 x = .ok (lit 0, (c.clone h).2) ∧ (c.clone h).1.process (c.clone h).2 x = .ok (lit 0, (c.clone h).2)) ∧
    (c.clone h).1.drop (c.clone h).2 = h ∧ c.drop (c.clone h).2 = h := by
  have e1 : (c.clone h).1 = c := rfl
  rw [e1]
  have hd : c.drop (c.clone h).2 = h := by
    show c.graph.nodes.foldl Heap.decr (c.graph.nodes.foldl Heap.incr h) = h
    apply List.ext_getElem?
    intro i
    rw [Heap.getElem?_foldl_decr, Heap.getElem?_foldl_incr]
    cases h[i]? with
    | none => rfl
    | some c => simp
  refine ⟨fun hp => ?_, hd, hd⟩
  have : c.process (c.clone h).2 x = .ok (lit 0, (c.clone h).2) := by
    unfold ComplexSound.isPaused at hp
    unfold ComplexSound.process
    rw [if_pos hp]
    rfl
  exact ⟨this, this⟩

/-! ## C87 -/

/-- After a call the input gain keeps nothing of the call's input, provided the order has been computed and nothing
connects to the input gain. Missing: calls before the first connection. -/
theorem C87_partial {G X I : Type} [Generator G S] [Modifier X S] [InterFn I S] (h h' : Heap (StandardBlock G X I S)) (c : ComplexSound)
    (st : ℕ → StandardBlock G X I S) (x out : S) (hr : Holds h c.graph st) (hv : c.graph.Valid)
    (hn : c.graph.edges.Nodup) (hi : c.inputGain < c.graph.nodes.length) (hlt : ∀ n ∈ c.getNodes, n < c.graph.nodes.length)
    (hnd : c.getNodes.Nodup) (hp : c.isPaused = false) (he : c.process h x = .ok (out, h'))
    (ho : c.getInputGain ∈ c.getNodes) (hno : ∀ a, ¬ c.graph.Edge a c.getInputGain) :
    ∃ a b, c.graph.nodes[c.getInputGain]? = some a ∧ h'[a]? = some ⟨b, 1⟩ ∧ b.input = lit 0 := by
  obtain ⟨y, b', st', i1, i2, i3, i4, i5⟩ := C85_process h h' c st x out hr hv hn hi hlt hnd hp he
  have e : c.graph.nodes[c.getInputGain]? = some c.graph.nodes[c.inputGain] := List.getElem?_eq_getElem hi
  refine ⟨_, st' c.getInputGain, e, i1.2 _ _ e, ?_⟩
  rw [i4, if_pos ho]
  have hnil : ∀ l, sentTo c.graph y c.getInputGain l = [] := by
    intro l
    unfold sentTo
    rw [List.filter_eq_nil_iff.mpr]
    · rfl
    · intro m _
      rw [decide_eq_true_eq]
      exact hno m
  rw [hnil]
  have hproc := i3 _ ho
  rw [hnil] at hproc
  show (b' c.getInputGain).input = lit 0
  have hz : ∀ (b b2 : StandardBlock G X I S) (y : S), StandardBlock.process b = .ok (y, b2) → b2.input = lit 0 := by
    intro b b2 y hb
    unfold StandardBlock.process at hb
    simp only [bind, Except.bind] at hb
    split at hb
    · cases hb
    split at hb
    · cases hb
    split at hb
    · cases hb
    split at hb
    · cases hb
    split at hb
    · cases hb
    split at hb
    · cases hb
    cases hb
    rfl
  exact hz _ _ _ hproc

end

/-- The code violates C87: three samples of 1 given before the first connection produce nothing, and arrive together as 3
in the first call after it, whose own input is 0. -/
theorem C87_violated : ∃ (h : Heap (GainBlock F32)) (c : ComplexSound), (h, c) = ((ComplexSound.new _root_.id [] (lit 1 : F64) (lit 1 : F64)).2, (ComplexSound.new (B := GainBlock F32) _root_.id [] (lit 1 : F64) (lit 1 : F64)).1) ∧
    (runSound ComplexSound.process c h [lit 1, lit 1, lit 1]).map (·.1) = .ok [(lit 0 : F32), lit 0, lit 0] ∧
    (match cxCalls (S := F32) h c [.process (lit 1), .process (lit 1), .process (lit 1), .connect 0 1] with
      | .ok (h', c') => (c'.process h' (lit 0 : F32)).map Prod.fst
      | .error e => .error e) = .ok (lit 3 : F32) := by
  refine ⟨_, _, rfl, ?_, ?_⟩ <;> decide +kernel

/-- Outputs of a complex sound of unit gains with `k` added blocks and the given connections. -/
def unitSound (k : ℕ) (conns : List (ℕ × ℕ)) (xs : List F32) : Res (List F32) :=
  match cxCalls (S := F32) (ComplexSound.new (B := GainBlock F32) _root_.id [] (lit 1 : F64) (lit 1 : F64)).2
    (ComplexSound.new (B := GainBlock F32) _root_.id [] (lit 1 : F64) (lit 1 : F64)).1
    (List.replicate k (.addBlock (StandardBlock.fromModifier (Gain.new (lit 1)))) ++ conns.map (fun e => .connect e.1 e.2)) with
  | .ok (h, c) => (runSound ComplexSound.process c h xs).map Prod.fst
  | .error e => .error e

/-- What the lost block of C83 means: input → 2, 3; 2, 3 → 4 → 5 → 6 → 7 → output, all with gain 1, stays silent. -/
theorem C83_violated_silent : unitSound 6 [(0, 2), (0, 3), (2, 4), (3, 4), (4, 5), (5, 6), (6, 7), (7, 1)]
    [lit 1, lit 1, lit 1, lit 1, lit 1, lit 1, lit 1, lit 1] = .ok [lit 0, lit 0, lit 0, lit 0, lit 0, lit 0, lit 0, lit 0] := by
  decide +kernel

/-- Mixing in the output gain alone is enough: input → 2, 3, 4; 2 → output, 3 → output, 4 → 5 → 6 → 7 → output, all with gain 1.
Every block has one input, but blocks 6 and 7 are lost and of the three voices only two are heard. -/
theorem C83_violated_mix : unitSound 6 [(0, 4), (0, 2), (0, 3), (2, 1), (3, 1), (4, 5), (5, 6), (6, 7), (7, 1)]
    [lit 1, lit 1, lit 1, lit 1] = .ok [lit 2, lit 2, lit 2, lit 2] ∧
    unitSound 6 [(0, 4), (0, 2), (2, 1), (4, 5), (5, 6), (6, 7), (7, 1)] [lit 1, lit 1, lit 1, lit 1] = .ok [lit 2, lit 2, lit 2, lit 2] := by
  decide +kernel

/-- What the wrong order of C84 means: input → 2 → 3 → 4 → output and 2 → 4, all with gain 1, spreads an impulse over two
calls; adding the connections in another order gives 2, 0. -/
theorem C84_violated_delay : unitSound 3 [(0, 2), (2, 3), (2, 4), (3, 4), (4, 1)] [lit 1, lit 0, lit 0] = .ok [lit 1, lit 1, lit 0] ∧
    unitSound 3 [(0, 2), (2, 4), (2, 3), (3, 4), (4, 1)] [lit 1, lit 0, lit 0] = .ok [lit 2, lit 0, lit 0] := by
  decide +kernel

/-! ## Examples -/

/-- Blocks that do not panic: gains with unshared parts. -/
def unsharedGain (b : GainBlock F32) : Prop := b.g.others = 0 ∧ b.m.others = 0 ∧ b.i.others = 0

private theorem unsharedGain_ok : (∀ b, unsharedGain b → ∃ (y : F32) (b' : GainBlock F32), Block.process b = .ok (y, b') ∧ unsharedGain b') ∧
    (∀ b (x : F32), unsharedGain b → unsharedGain (Block.prime b x)) ∧ ∀ g : F32, unsharedGain (_root_.id (StandardBlock.fromModifier (Gain.new g))) := by
  refine ⟨?_, fun b x h => h, fun g => ⟨rfl, rfl, rfl⟩⟩
  rintro ⟨⟨g, go⟩, ⟨m, mo⟩, ⟨i, io⟩, inp⟩ ⟨h1, h2, h3⟩
  simp only at h1 h2 h3
  subst h1 h2 h3
  exact ⟨_, _, rfl, rfl, rfl, rfl⟩

/-- Hypotheses of C86_calls for a sound with a feedback loop. -/
example : ∃ h' c', cxCalls (S := F32) (ComplexSound.new (B := GainBlock F32) _root_.id [] (lit 1 : F64) (lit 1 : F64)).2
    (ComplexSound.new (B := GainBlock F32) _root_.id [] (lit 1 : F64) (lit 1 : F64)).1
    [.addBlock (StandardBlock.fromModifier (Gain.new (lit (1 / 2)))), .connect 0 2, .connect 2 2, .connect 2 1, .process (lit 1), .pause, .process (lit 1)] = .ok (h', c') :=
  C86_calls unsharedGain_ok.1 unsharedGain_ok.2.1 _root_.id unsharedGain_ok.2.2 [] _ _ _
    ⟨⟨rfl, rfl, rfl⟩, by decide, by decide, by decide, by decide, by decide, by decide, trivial⟩

/-- A feedback loop through one block delays by one call: the impulse response is 1/2, 1/4, 1/8. -/
example : (match cxCalls (S := F32) (ComplexSound.new (B := GainBlock F32) _root_.id [] (lit 1 : F64) (lit 1 : F64)).2
    (ComplexSound.new (B := GainBlock F32) _root_.id [] (lit 1 : F64) (lit 1 : F64)).1
    [.addBlock (StandardBlock.fromModifier (Gain.new (lit (1 / 2)))), .connect 0 2, .connect 2 2, .connect 2 1] with
    | .ok (h, c) => (runSound ComplexSound.process c h [lit 1, lit 0, (lit 0 : F32)]).map Prod.fst
    | .error e => .error e) = .ok [lit (1 / 2), lit (1 / 4), lit (1 / 8)] := by decide +kernel

/-- Hypotheses of C85 and C87_partial for input → output. -/
example : ∃ (h h' : Heap (GainBlock F32)) (c : ComplexSound) (st : ℕ → GainBlock F32) (out : F32), Holds h c.graph st ∧ c.graph.Valid ∧
    c.graph.edges.Nodup ∧ c.inputGain < c.graph.nodes.length ∧ (∀ n ∈ c.getNodes, n < c.graph.nodes.length) ∧ c.getNodes.Nodup ∧
    c.isPaused = false ∧ c.process h (lit 5) = .ok (out, h') ∧ c.getInputGain ∈ c.getNodes ∧ (∀ a, ¬ c.graph.Edge a c.getInputGain) ∧
    out = lit 5 := by
  refine ⟨[⟨StandardBlock.fromModifier (Gain.new (lit 1)), 1⟩, ⟨StandardBlock.fromModifier (Gain.new (lit 1)), 1⟩], _,
    ⟨⟨[0, 1], [(0, 1)]⟩, [0, 1], 0, 1, none, false, false⟩, fun _ => StandardBlock.fromModifier (Gain.new (lit 1)), _, ⟨by decide, fun n a h => ?_⟩, ?_, by decide, by decide, by decide, by decide,
    rfl, rfl, by decide, ?_, ?_⟩
  · match n, h with
    | 0, h => cases h; rfl
    | 1, h => cases h; rfl
    | n + 2, h => cases h
  · intro e he
    rcases List.mem_singleton.mp he with rfl
    decide
  · intro a h
    have : ∀ e ∈ [(0, 1)], e.2 ≠ 0 := by decide
    exact this _ h rfl
  · decide +kernel

/-- Hypothesis of C81: every node's block exists. -/
example : ∀ a ∈ (ComplexSound.new (B := GainBlock F32) _root_.id [] (lit 1 : F64) (lit 1 : F64)).1.graph.nodes,
    ∃ e, (ComplexSound.new (B := GainBlock F32) _root_.id [] (lit 1 : F64) (lit 1 : F64)).2[a]? = some e ∧ 1 ≤ e.refs := by
  intro a ha
  have ha : a ∈ [0, 1] := ha
  simp only [List.mem_cons, List.not_mem_nil, or_false] at ha
  rcases ha with rfl | rfl
  · exact ⟨_, rfl, le_rfl⟩
  · exact ⟨_, rfl, le_rfl⟩

end Verif
