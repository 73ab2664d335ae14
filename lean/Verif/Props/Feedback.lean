import Verif.Props.Network
import Verif.Spec.Filter
import Verif.Spec.History
import Verif.Model.ArithReal
import Mathlib.Algebra.BigOperators.Intervals

set_option linter.unusedSectionVars false

/-! # Loops and connections against the order: C142 -/

namespace Verif
open ComplexSound

section
variable {B S : Type} [Flt S] [Block B S]

/-! ## Specification -/

/-- What block `n` is given at time `t`, if `y t m` is the output of block `m` at time `t`: the outputs of one sample ago along the
connections that go backward in the order (or stay in place), the sample `x t` (the block `ig` only) and the outputs of the same
instant along the connections that go forward. -/
def received (g : Graph) (order : List ℕ) (ig : ℕ) (x : ℕ → S) (y : ℕ → ℕ → S) : ℕ → ℕ → List S
  | 0, n => (if n = ig then [x 0] else []) ++ sentTo g (y 0) n (before order n)
  | t + 1, n => sentTo g (y t) n (fromOn order n) ++ ((if n = ig then [x (t + 1)] else []) ++ sentTo g (y (t + 1)) n (before order n))

/-! ## Lemmas -/

private theorem primes_append (b : B) (xs ys : List S) : primes b (xs ++ ys) = primes (primes b xs) ys := List.foldl_append

/-- As `received`, with `l n` pending at the start. -/
private def receivedL (g : Graph) (order : List ℕ) (ig : ℕ) (l : ℕ → List S) (x : ℕ → S) (y : ℕ → ℕ → S) : ℕ → ℕ → List S
  | 0, n => l n ++ ((if n = ig then [x 0] else []) ++ sentTo g (y 0) n (before order n))
  | t + 1, n => received g order ig x y (t + 1) n

private theorem receivedL_shift {g : Graph} {order : List ℕ} {ig : ℕ} {l : ℕ → List S} {x : ℕ → S} {y : ℕ → ℕ → S} {y0 : ℕ → S} (t n : ℕ)
    (hl : t = 0 → l n = sentTo g y0 n (fromOn order n)) : receivedL g order ig l (fun t => x (t + 1)) y t n =
      received g order ig x (fun t => match t with | 0 => y0 | t + 1 => y t) (t + 1) n := by
  cases t with
  | zero => rw [receivedL, hl rfl]; rfl
  | succ t => rfl

private theorem run (c : ComplexSound) (hv : c.graph.Valid) (hn : c.graph.edges.Nodup) (hi : c.inputGain < c.graph.nodes.length)
    (ho : ∃ mid, c.getNodes = mid ++ [c.getOutputGain]) (hlt : ∀ n ∈ c.getNodes, n < c.graph.nodes.length) (hnd : c.getNodes.Nodup)
    (hp : c.isPaused = false) (hm : c.isMuted = false) (T : ℕ) : ∀ (x : ℕ → S) (h h' : Heap B) (st b0 : ℕ → B) (l : ℕ → List S) (ys : List S),
      Holds h c.graph st → (∀ n ∈ c.getNodes, st n = primes (b0 n) (l n)) →
      runSound ComplexSound.process c h ((List.range T).map x) = .ok (ys, h') →
      ∃ (y : ℕ → ℕ → S) (b : ℕ → ℕ → B), (∀ n, b 0 n = b0 n) ∧ ∀ t < T, ys[t]? = some (y t c.getOutputGain) ∧
        ∀ n ∈ c.getNodes, Block.process (primes (b t n) (receivedL c.graph c.getNodes c.getInputGain l x y t n)) = .ok (y t n, b (t + 1) n) := by
  induction T with
  | zero => intro x h h' st b0 l ys _ _ _; exact ⟨fun _ _ => lit 0, fun _ => b0, fun _ => rfl, fun t ht => absurd ht (by omega)⟩
  | succ T ih =>
    intro x h h' st b0 l ys hr hst he
    rw [List.range_succ_eq_map, List.map_cons, List.map_map, runSound] at he
    cases hpr : c.process h (x 0) with
    | error e => rw [hpr] at he; cases he
    | ok q =>
      obtain ⟨out, h1⟩ := q
      rw [hpr] at he
      simp only at he
      cases hru : runSound ComplexSound.process c h1 ((List.range T).map (fun t => x (t + 1))) with
      | error e =>
        have hru' : runSound ComplexSound.process c h1 ((List.range T).map (x ∘ Nat.succ)) = .error e := hru
        rw [hru'] at he; cases he
      | ok r =>
        have hru' : runSound ComplexSound.process c h1 ((List.range T).map (x ∘ Nat.succ)) = .ok r := hru
        rw [hru'] at he
        simp only [Except.map, Except.ok.injEq, Prod.mk.injEq] at he
        obtain ⟨rfl, -⟩ := he
        obtain ⟨y0, b', st', i1, -, i3, i4, i5⟩ := C85_process h h1 c st (x 0) out hr hv hn hi hlt hnd hp hpr
        obtain ⟨y, b, j1, j2⟩ := ih (fun t => x (t + 1)) h1 r.2 st' b' (fun n => sentTo c.graph y0 n (fromOn c.getNodes n)) r.1 i1
          (fun n hn => by rw [i4 n, if_pos hn]) hru
        refine ⟨fun t => match t with | 0 => y0 | t + 1 => y t, fun t => match t with | 0 => b0 | t + 1 => b t, fun _ => rfl, fun t ht => ?_⟩
        cases t with
        | zero =>
          refine ⟨?_, fun n hn => ?_⟩
          · obtain ⟨mid, hmid⟩ := ho
            rw [i5, hm, hmid, List.getLast?_append]
            rfl
          · show Block.process (primes (b0 n) (l n ++ _)) = .ok (y0 n, b 0 n)
            rw [primes_append, ← hst n hn, j1]
            exact i3 n hn
        | succ t =>
          obtain ⟨k1, k2⟩ := j2 t (by omega)
          refine ⟨k1, fun n hn => ?_⟩
          rw [receivedL, ← receivedL_shift t n (l := fun n => sentTo c.graph y0 n (fromOn c.getNodes n)) (fun _ => rfl)]
          exact k2 n hn

/-! ## C142 -/

/-- Any arithmetic, any blocks, any graph: a sound built by any calls, the last of them changing a connection, computes the signal
flow in which every connection that goes forward in the order is instantaneous and every other one delays by exactly one sample.
In particular feedback loops of any length are delayed by one sample per connection against the order, and nothing is lost or
counted twice between blocks of the order. -/
theorem C142_flow {M : Type} [Flt M] [SM S M] (emb : GainBlock S → B) (h h' h'' : Heap B) (ig og : M) (l : List (BuildCall B)) (o : BuildCall B)
    (hco : o.isConn) (c : ComplexSound)
    (hc : cxCalls (S := S) (ComplexSound.new emb h ig og).2 (ComplexSound.new emb h ig og).1 ((l ++ [o]).map BuildCall.call) = .ok (h', c))
    (x : ℕ → S) (T : ℕ) (ys : List S) (he : runSound ComplexSound.process c h' ((List.range T).map x) = .ok (ys, h'')) :
    ∃ (y : ℕ → ℕ → S) (b : ℕ → ℕ → B), b 0 = builtBlocks emb ig og l ∧ ∀ t < T, ys[t]? = some (y t 1) ∧
      ∀ n ∈ c.getNodes, Block.process (primes (b t n) (received c.graph c.getNodes 0 x y t n)) = .ok (y t n, b (t + 1) n) := by
  obtain ⟨f1, f2, f3, f4, f5, f6, f7, ho, o2, o3, hr, -⟩ := built_network hco hc
  obtain ⟨y, b, h1, h2⟩ := run c f1 f2 (by rw [f3]; omega) ho o3 o2 f6 f7 T x h' h'' (builtBlocks emb ig og l) (builtBlocks emb ig og l)
    (fun _ => []) ys hr (fun _ _ => rfl) he
  unfold ComplexSound.getInputGain ComplexSound.getOutputGain at h2
  rw [f3, f4] at h2
  refine ⟨y, b, funext h1, fun t ht => ⟨(h2 t ht).1, fun n hn => ?_⟩⟩
  have := (h2 t ht).2 n hn
  cases t with
  | zero => exact this
  | succ t => exact this

/-- For standard blocks with nothing pending: block `n` processes at each time the sum of what it is given. -/
theorem C142_standard {G X I : Type} [Generator G S] [Modifier X S] [InterFn I S] {M : Type} [Flt M] [SM S M] (emb : GainBlock S → StandardBlock G X I S)
    (h h' h'' : Heap (StandardBlock G X I S)) (ig og : M) (l : List (BuildCall (StandardBlock G X I S)))
    (o : BuildCall (StandardBlock G X I S)) (hl : ∀ n, (builtBlocks emb ig og l n).input = lit 0) (hco : o.isConn) (c : ComplexSound)
    (hc : cxCalls (S := S) (ComplexSound.new emb h ig og).2 (ComplexSound.new emb h ig og).1 ((l ++ [o]).map BuildCall.call) = .ok (h', c))
    (x : ℕ → S) (T : ℕ) (ys : List S) (he : runSound ComplexSound.process c h' ((List.range T).map x) = .ok (ys, h'')) :
    ∃ (y : ℕ → ℕ → S) (b : ℕ → ℕ → StandardBlock G X I S), b 0 = builtBlocks emb ig og l ∧ ∀ t < T, ys[t]? = some (y t 1) ∧
      ∀ n ∈ c.getNodes, StandardBlock.process { b t n with input := (received c.graph c.getNodes 0 x y t n).foldl (· + ·) (lit 0) } =
        .ok (y t n, b (t + 1) n) := by
  obtain ⟨y, b, h1, h2⟩ := C142_flow emb h h' h'' ig og l o hco c hc x T ys he
  have hin : ∀ t ≤ T, ∀ n ∈ c.getNodes, (b t n).input = lit 0 := by
    intro t
    induction t with
    | zero => intro _ n _; rw [h1]; exact hl n
    | succ t ih =>
      intro ht n hn
      exact (C119_standard _ _ _ _ (ih (by omega) n hn) ((h2 t (by omega)).2 n hn)).2
  exact ⟨y, b, h1, fun t ht => ⟨(h2 t ht).1, fun n hn => (C119_standard _ _ _ _ (hin t ht.le n hn) ((h2 t ht).2 n hn)).1⟩⟩

/-- The block diagram, in terms of signals: if block `n` consists of generator `g n`, modifier `m n` and interactor `i n`, then its output
at time `t` is the interactor's value of sample `t` of the generator alone and sample `t` of the modifier alone, the latter run over
the sums of what the block is given. -/
theorem C142_diagram {G X : Type} [Generator G S] [Modifier X S] {M : Type} [Flt M] [SM S M] (emb : GainBlock S → StandardBlock G X StdInter S)
    (h h' h'' : Heap (StandardBlock G X StdInter S)) (ig og : M) (l : List (BuildCall (StandardBlock G X StdInter S)))
    (o : BuildCall (StandardBlock G X StdInter S)) (g : ℕ → G) (m : ℕ → X) (i : ℕ → StdInter)
    (hl : ∀ n, builtBlocks emb ig og l n = ⟨⟨g n, 0⟩, ⟨m n, 0⟩, ⟨i n, 0⟩, lit 0⟩) (hco : o.isConn) (c : ComplexSound)
    (hc : cxCalls (S := S) (ComplexSound.new emb h ig og).2 (ComplexSound.new emb h ig og).1 ((l ++ [o]).map BuildCall.call) = .ok (h', c))
    (x : ℕ → S) (T : ℕ) (ys : List S) (he : runSound ComplexSound.process c h' ((List.range T).map x) = .ok (ys, h'')) :
    ∃ y : ℕ → ℕ → S, ∀ t < T, ys[t]? = some (y t 1) ∧ ∀ n ∈ c.getNodes, ∃ yg ym,
      nthR Generator.process (g n) t = .ok yg ∧
      modOut Modifier.process (fun t => (received c.graph c.getNodes 0 x y t n).foldl (· + ·) (lit 0)) (m n) t = .ok ym ∧
      y t n = (i n).call yg ym := by
  obtain ⟨y, b, h1, h2⟩ := C142_standard emb h h' h'' ig og l o (fun n => by rw [hl]) hco c hc x T ys he
  refine ⟨y, fun t ht => ⟨(h2 t ht).1, fun n hn => ?_⟩⟩
  set u : ℕ → S := fun t => (received c.graph c.getNodes 0 x y t n).foldl (· + ·) (lit 0) with hu
  -- one step of a block with unshared parts
  have step : ∀ (g0 : G) (m0 : X) (v z : S) (b' : StandardBlock G X StdInter S),
      StandardBlock.process (⟨⟨g0, 0⟩, ⟨m0, 0⟩, ⟨i n, 0⟩, v⟩ : StandardBlock G X StdInter S) = .ok (z, b') →
      ∃ yg g' ym m', (Generator.process g0 : Res (S × G)) = .ok (yg, g') ∧ (Modifier.process m0 v : Res (S × X)) = .ok (ym, m') ∧ z = (i n).call yg ym ∧
        b' = ⟨⟨g', 0⟩, ⟨m', 0⟩, ⟨i n, 0⟩, lit 0⟩ := by
    intro g0 m0 v z b' hp
    unfold StandardBlock.process at hp
    simp only [Arc.getMutUnwrap, bind, Except.bind, if_true] at hp
    cases hg : (Generator.process g0 : Res (S × G)) with
    | error e => rw [hg] at hp; cases hp
    | ok p =>
      cases hm : (Modifier.process m0 v : Res (S × X)) with
      | error e => rw [hg] at hp; simp only [hm] at hp; cases hp
      | ok q =>
        rw [hg] at hp
        simp only [hm] at hp
        cases hp
        exact ⟨p.1, p.2, q.1, q.2, rfl, rfl, rfl, rfl⟩
  have key : ∀ t ≤ T, ∃ gt mt, afterR (S := S) Generator.process t (g n) = .ok gt ∧
      modAfter Modifier.process u (m n) t = .ok mt ∧ b t n = ⟨⟨gt, 0⟩, ⟨mt, 0⟩, ⟨i n, 0⟩, lit 0⟩ := by
    intro t
    induction t with
    | zero => intro _; exact ⟨g n, m n, rfl, rfl, by rw [h1, hl]⟩
    | succ t ih =>
      intro ht
      obtain ⟨gt, mt, e1, e2, e3⟩ := ih (by omega)
      have := (h2 t (by omega)).2 n hn
      rw [e3] at this
      obtain ⟨yg, g', ym, m', k1, k2, -, k4⟩ := step gt mt _ _ _ this
      exact ⟨g', m', afterR_succ e1 k1, modAfter_succ e2 k2, k4⟩
  obtain ⟨gt, mt, e1, e2, e3⟩ := key t ht.le
  have := (h2 t ht).2 n hn
  rw [e3] at this
  obtain ⟨yg, g', ym, m', k1, k2, k3, -⟩ := step gt mt _ _ _ this
  exact ⟨yg, ym, by simp only [nthR, e1, k1, Except.map], modOut_of e2 k2, k3⟩

end

/-! ## A loop -/

section
/-- input → 2 → output, and 2 → 2; block 2 is a gain `a`. -/
def loopCalls {S : Type} [Flt S] (a : S) : List (BuildCall (GainBlock S)) :=
  [.block (StandardBlock.fromModifier (Gain.new a)), .connect 0 2, .connect 2 2, .connect 2 1]

private theorem real_zero : (lit 0 : ℝ) = 0 := by real_simp

/-- The sound of `loopCalls`. -/
def loopSound : ComplexSound := ⟨⟨[0, 1, 2], [(2, 1), (2, 2), (0, 2)]⟩, [0, 2, 1], 0, 1, none, false, false⟩

/-- Its blocks, `v` pending at block 2. -/
private noncomputable def loopHeap (a v : ℝ) : Heap (GainBlock ℝ) :=
  [⟨StandardBlock.fromModifier (Gain.new 1), 1⟩, ⟨StandardBlock.fromModifier (Gain.new 1), 1⟩, ⟨{ (StandardBlock.fromModifier (Gain.new a) : GainBlock ℝ) with input := v }, 1⟩]

private theorem loop_process (a v z : ℝ) : loopSound.process (loopHeap a v) z = .ok ((v + z) * a, loopHeap a ((v + z) * a)) := by
  have : loopSound.process (loopHeap a v) z =
      .ok ((lit 0 + (v + (lit 0 + z) * 1) * a) * 1, loopHeap a (lit 0 + (v + (lit 0 + z) * 1) * a)) := rfl
  rw [this, real_zero, zero_add, zero_add, mul_one, mul_one]

private theorem loop_run (a : ℝ) (T : ℕ) : ∀ (v : ℝ) (x : ℕ → ℝ), ∃ ys h'', runSound ComplexSound.process loopSound (loopHeap a v) ((List.range T).map x) = .ok (ys, h'') ∧
    ∀ t < T, ys[t]? = some (a ^ (t + 1) * v + ∑ k ∈ Finset.range (t + 1), a ^ (k + 1) * x (t - k)) := by
  induction T with
  | zero => intro v x; exact ⟨[], _, rfl, fun t ht => absurd ht (by omega)⟩
  | succ T ih =>
    intro v x
    obtain ⟨ys, h'', h1, h2⟩ := ih ((v + x 0) * a) (fun t => x (t + 1))
    refine ⟨(v + x 0) * a :: ys, h'', ?_, fun t ht => ?_⟩
    · rw [List.range_succ_eq_map, List.map_cons, List.map_map, runSound, loop_process]
      have h1' : runSound ComplexSound.process loopSound (loopHeap a ((v + x 0) * a)) ((List.range T).map (x ∘ Nat.succ)) = .ok (ys, h'') := h1
      simp only [h1', Except.map]
    · cases t with
      | zero => simp; ring
      | succ t =>
        rw [List.getElem?_cons_succ, h2 t (by omega), Finset.sum_range_succ _ (t + 1)]
        congr 1
        have : ∑ k ∈ Finset.range (t + 1), a ^ (k + 1) * x (t - k + 1) = ∑ k ∈ Finset.range (t + 1), a ^ (k + 1) * x (t + 1 - k) := by
          refine Finset.sum_congr rfl fun k hk => ?_
          rw [Finset.mem_range] at hk
          rw [show t - k + 1 = t + 1 - k by omega]
        rw [this, Nat.sub_self]
        ring

/-- The calls of `loopCalls` make the sound `loopSound`, which plays the series. -/
theorem loop_built (a : ℝ) : ∃ h' : Heap (GainBlock ℝ),
    cxCalls (S := ℝ) (ComplexSound.new (B := GainBlock ℝ) (M := ℝ) _root_.id [] 1 1).2 (ComplexSound.new (B := GainBlock ℝ) (M := ℝ) _root_.id [] 1 1).1
      ((loopCalls a).map BuildCall.call) = .ok (h', loopSound) ∧
    ∀ (x : ℕ → ℝ) (T : ℕ), ∃ (ys : List ℝ) (h'' : Heap (GainBlock ℝ)), runSound ComplexSound.process loopSound h' ((List.range T).map x) = .ok (ys, h'') ∧
      ∀ t < T, ys[t]? = some (∑ k ∈ Finset.range (t + 1), a ^ (k + 1) * x (t - k)) := by
  refine ⟨loopHeap a 0, ?_, fun x T => ?_⟩
  · have e : (StandardBlock.fromModifier (Gain.new a) : GainBlock ℝ) = { (StandardBlock.fromModifier (Gain.new a) : GainBlock ℝ) with input := 0 } := by
      unfold StandardBlock.fromModifier; congr 1; exact real_zero
    unfold loopHeap
    rw [← e]
    rfl
  · obtain ⟨ys, h'', h1, h2⟩ := loop_run a T 0 x
    exact ⟨ys, h'', h1, fun t ht => by rw [h2 t ht, mul_zero, zero_add]⟩

/-- Exact arithmetic: a gain `a` connected to itself is the recursion `y t = a (x t + y (t - 1))`: the sound plays without panic and
its response to an impulse is `a, a², a³, …`. -/
theorem C142_loop (a : ℝ) (x : ℕ → ℝ) (T : ℕ) : ∃ (h' h'' : Heap (GainBlock ℝ)) (c : ComplexSound) (ys : List ℝ),
    cxCalls (S := ℝ) (ComplexSound.new (B := GainBlock ℝ) (M := ℝ) _root_.id [] 1 1).2 (ComplexSound.new (B := GainBlock ℝ) (M := ℝ) _root_.id [] 1 1).1
      ((loopCalls a).map BuildCall.call) = .ok (h', c) ∧
    runSound ComplexSound.process c h' ((List.range T).map x) = .ok (ys, h'') ∧
    ∀ t < T, ys[t]? = some (∑ k ∈ Finset.range (t + 1), a ^ (k + 1) * x (t - k)) := by
  obtain ⟨h', h1, h2⟩ := loop_built a
  obtain ⟨ys, h'', h3, h4⟩ := h2 x T
  exact ⟨h', h'', loopSound, ys, h1, h3, h4⟩

/-- In f32, gain 1/2: an impulse gives 1/2, 1/4, 1/8. -/
example : (match cxCalls (S := F32) (ComplexSound.new (B := GainBlock F32) _root_.id [] (lit 1 : F64) (lit 1 : F64)).2
      (ComplexSound.new (B := GainBlock F32) _root_.id [] (lit 1 : F64) (lit 1 : F64)).1 ((loopCalls (lit (1 / 2) : F32)).map BuildCall.call) with
    | .ok (h, c) => (runSound ComplexSound.process c h [lit 1, lit 0, lit 0]).map Prod.fst
    | .error e => .error e) = (.ok [lit (1 / 2), lit (1 / 4), lit (1 / 8)] : Res (List F32)) := by decide +kernel

/-- The hypotheses of `C142_diagram` for that sound: the calls end with a connection and every block is a gain with nothing pending. -/
example : (loopCalls (lit (1 / 2) : F32)) = [.block (StandardBlock.fromModifier (Gain.new (lit (1 / 2) : F32))), .connect 0 2, .connect 2 2] ++ [.connect 2 1] ∧
    (BuildCall.connect 2 1 : BuildCall (GainBlock F32)).isConn ∧
    ∀ n, builtBlocks (S := F32) (B := GainBlock F32) _root_.id (lit 1 : F64) (lit 1 : F64)
      [.block (StandardBlock.fromModifier (Gain.new (lit (1 / 2) : F32))), .connect 0 2, .connect 2 2] n =
      ⟨⟨⟨⟩, 0⟩, ⟨⟨if n = 2 then lit (1 / 2) else SM.down (lit 1 : F64)⟩, 0⟩, ⟨.mod, 0⟩, lit 0⟩ :=
  ⟨rfl, trivial, fun n => match n with | 0 => rfl | 1 => rfl | 2 => rfl | _ + 3 => rfl⟩

end
end Verif
