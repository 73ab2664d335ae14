import Verif.Props.Network
import Verif.Model.ArithReal

set_option linter.unusedSectionVars false

/-! # Branches that lead nowhere: C165

A meter, a tap for a recorder that is not connected yet, a voice that is being prepared: blocks from which no path of
connections leads to the output must not change what is heard. -/

namespace Verif
open ComplexSound

section
variable {B S : Type} [Flt S] [Block B S]

/-! ## Specification -/

/-- The part of `g` that leads to block 1 (the output gain) is found in `g'` under the numbers `f`, with the same
connections into each of its blocks, and there are no others. -/
structure SameBefore (g g' : Graph) (f : ℕ → ℕ) : Prop where
  inj : Function.Injective f
  input : f 0 = 0
  output : f 1 = 1
  edges : ∀ b, g.Reaches b 1 → ∀ a', g'.Edge a' (f b) ↔ ∃ a, g.Edge a b ∧ f a = a'

/-! ## Lemmas -/

private theorem idxOf_lt_of_sublist {a b : ℕ} : ∀ {l : List ℕ}, l.Nodup → [a, b].Sublist l → l.idxOf a < l.idxOf b
  | [], _, h => by cases h
  | c :: l, hn, h => by
    rw [List.nodup_cons] at hn
    by_cases hca : c = a
    · subst hca
      have hb : b ∈ l := by
        rcases List.sublist_cons_iff.mp h with h | ⟨r, h1, h2⟩
        · exact absurd (h.subset (by simp)) hn.1
        · injection h1 with _ h1
          subst h1
          exact h2.subset (by simp)
      have hcb : c ≠ b := by rintro rfl; exact hn.1 hb
      rw [List.idxOf_cons_self, List.idxOf_cons_ne _ hcb]
      omega
    · rcases List.sublist_cons_iff.mp h with h | ⟨r, h1, _⟩
      · have hb : b ∈ l := h.subset (by simp)
        have hcb : c ≠ b := by rintro rfl; exact hn.1 hb
        rw [List.idxOf_cons_ne _ hca, List.idxOf_cons_ne _ hcb]
        have := idxOf_lt_of_sublist hn.2 h
        omega
      · injection h1 with h1 _
        exact absurd h1.symm hca

private theorem primes_perm (hcomm : ∀ (b : B) (x y : S), Block.prime (Block.prime b x) y = Block.prime (Block.prime b y) x)
    {l l' : List S} (h : l.Perm l') : ∀ b : B, primes b l = primes b l' := by
  induction h with
  | nil => exact fun _ => rfl
  | cons x _ ih => exact fun b => ih _
  | swap x y l => exact fun b => by simp only [primes, List.foldl_cons, hcomm]
  | trans _ _ ih1 ih2 => exact fun b => (ih1 b).trans (ih2 b)

private theorem perm_singleton_like {l l' : List ℕ} (hn : l.Nodup) (h1 : ∀ a ∈ l, ∀ b ∈ l, a = b) (hp : l.Perm l') : l = l' := by
  match l, hn, h1, hp with
  | [], _, _, hp => exact (List.nil_perm.mp hp).symm
  | [a], _, _, hp => exact List.singleton_perm.mp hp
  | a :: b :: l, hn, h1, _ =>
    have := h1 a (by simp) b (by simp)
    subst this
    simp at hn

/-- The inputs of a block in both networks. -/
private theorem inputs_perm {g g' : Graph} {f : ℕ → ℕ} (hs : SameBefore g g' f) {order order' : List ℕ} (hn : order.Nodup) (hn' : order'.Nodup)
    (hall : ∀ a b, g.Edge a b → a ∈ order) (hall' : ∀ a b, g'.Edge a b → a ∈ order') {b : ℕ} (hb : g.Reaches b 1) :
    ((order.filter (fun m => (m, b) ∈ g.edges)).map f).Perm (order'.filter (fun m => (m, f b) ∈ g'.edges)) := by
  refine (List.perm_ext_iff_of_nodup ((hn.filter _).map hs.inj) (hn'.filter _)).mpr fun m => ?_
  simp only [List.mem_map, List.mem_filter, decide_eq_true_eq]
  constructor
  · rintro ⟨a, ⟨_, h2⟩, rfl⟩
    have := (hs.edges b hb (f a)).mpr ⟨a, h2, rfl⟩
    exact ⟨hall' _ _ this, this⟩
  · rintro ⟨_, h2⟩
    obtain ⟨a, h3, h4⟩ := (hs.edges b hb m).mp h2
    exact ⟨a, ⟨hall _ _ h3, h3⟩, h4⟩

/-- Two networks that agree in what leads to the output have the same output. `order` is any list of the blocks in which
connections go forward. -/
theorem sameBefore_run {g g' : Graph} {f : ℕ → ℕ} (hs : SameBefore g g' f) {order order' : List ℕ} (hn : order.Nodup) (hn' : order'.Nodup)
    (hfwd : ∀ a b, g.Edge a b → [a, b].Sublist order) (hall' : ∀ a b, g'.Edge a b → a ∈ order')
    (hg : ∀ n, g.Reaches n 1 → n < g.nodes.length) (hg' : ∀ n, g.Reaches n 1 → f n < g'.nodes.length)
    (hprime : g.AtMostOneIn ∨ ∀ (b : B) (x y : S), Block.prime (Block.prime b x) y = Block.prime (Block.prime b y) x)
    {st st' : ℕ → B} {xs ys ys' : List S} (hst : ∀ n, g.Reaches n 1 → st n = st' (f n)) (h : NetRun g order 0 1 st xs ys)
    (h' : NetRun g' order' 0 1 st' xs ys') : ys = ys' := by
  have hall : ∀ a b, g.Edge a b → a ∈ order := fun a b h => (hfwd a b h).subset (by simp)
  induction h generalizing st' ys' with
  | nil st => cases h'; rfl
  | @cons st st1 x y xs ys hstep _ ih =>
    cases h' with
    | @cons _ st1' _ y' _ ys' hstep' t' =>
      have key : ∀ k n, order.idxOf n = k → g.Reaches n 1 → y n = y' (f n) ∧ st1 n = st1' (f n) := by
        intro k
        induction k using Nat.strong_induction_on with
        | _ k ihk =>
          intro n hk hr
          have e1 := hstep n (hg n hr)
          have e2 := hstep' (f n) (hg' n hr)
          have hz : (f n = 0) = (n = 0) := by
            apply propext
            constructor
            · intro h0
              exact hs.inj (h0.trans hs.input.symm)
            · rintro rfl
              exact hs.input
          have hin : (order.filter (fun m => (m, n) ∈ g.edges)).map y = ((order.filter (fun m => (m, n) ∈ g.edges)).map f).map y' := by
            rw [List.map_map]
            refine List.map_congr_left fun m hm => ?_
            have hm2 : g.Edge m n := by have := (List.mem_filter.mp hm).2; simp only [decide_eq_true_eq] at this; exact this
            exact (ihk _ (hk ▸ idxOf_lt_of_sublist hn (hfwd m n hm2)) m rfl (Relation.ReflTransGen.head hm2 hr)).1
          have hp := inputs_perm hs hn hn' hall hall' hr
          have hpr : primes (st n) ((if n = 0 then [x] else []) ++ (order.filter (fun m => (m, n) ∈ g.edges)).map y) =
              primes (st' (f n)) ((if f n = 0 then [x] else []) ++ (order'.filter (fun m => (m, f n) ∈ g'.edges)).map y') := by
            rw [hst n hr, hin]
            simp only [hz]
            rcases hprime with hp1 | hp1
            · have : (order.filter (fun m => (m, n) ∈ g.edges)).map f = order'.filter (fun m => (m, f n) ∈ g'.edges) := by
                refine perm_singleton_like ((hn.filter _).map hs.inj) ?_ hp
                intro a ha b hb
                obtain ⟨a, ha1, rfl⟩ := List.mem_map.mp ha
                obtain ⟨b, hb1, rfl⟩ := List.mem_map.mp hb
                exact congrArg f (hp1 a b n (by have := (List.mem_filter.mp ha1).2; simp only [decide_eq_true_eq] at this; exact this) (by have := (List.mem_filter.mp hb1).2; simp only [decide_eq_true_eq] at this; exact this))
              rw [this]
            · exact primes_perm hp1 (List.Perm.append_left _ (hp.map y')) _
          rw [hpr, e2] at e1
          injection e1 with e1
          injection e1 with e1 e3
          exact ⟨e1.symm, e3.symm⟩
      have h1 : y 1 = y' 1 := by
        have := (key _ 1 rfl .refl).1
        rwa [hs.output] at this
      rw [h1, ih (fun n hr => (key _ n rfl hr).2) t']

/-- Order of a built sound of good shape. -/
private theorem good_built {M : Type} [Flt M] [SM S M] {emb : GainBlock S → B} {h h' : Heap B} {ig og : M} {l : List (BuildCall B)} {o : BuildCall B}
    (hco : o.isConn) {c : ComplexSound}
    (hc : cxCalls (S := S) (ComplexSound.new emb h ig og).2 (ComplexSound.new emb h ig og).1 ((l ++ [o]).map BuildCall.call) = .ok (h', c))
    (hin : ∀ a, ¬ c.graph.Edge a c.getInputGain) (hout : ∀ b, ¬ c.graph.Edge c.getOutputGain b)
    (hshape : (c.graph.AtMostOneIn ∧ c.graph.Acyclic) ∨ ∃ layer last, c.graph.Layered c.getOutputGain layer last) :
    c.graph.Valid ∧ 2 ≤ c.graph.nodes.length ∧ c.getNodes.Nodup ∧ ∀ a b, c.graph.Edge a b → [a, b].Sublist c.getNodes := by
  obtain ⟨f1, f2, f3, f4, f5, f6, f7, ho, o2, o3, hr, os, g, hg1, h1⟩ := built_network hco hc
  refine ⟨f1, f5, o2, ?_⟩
  rcases hshape with ⟨a1, a2⟩ | ⟨layer, last, a1⟩
  · exact fun a b hab => C84_acyclic_partial emb h ig og os g hg1 c h1 a1 a2 hin hout a b hab
  · exact fun a b hab => C84_layers_partial emb h ig og os g hg1 c h1 layer last a1 hin a b hab

/-! ## Theorems -/

/-- Two sounds of good shape (C119), built in whatever way, that agree in the blocks and connections leading to the output,
give the same samples for the same input. Their blocks may be numbered differently and either may have any further blocks.
Where several connections into a block are used, adding must not depend on the order. Missing: the other graphs, for which
`C165_violated` has counterexamples. -/
theorem C165_partial {M : Type} [Flt M] [SM S M] (emb : GainBlock S → B) (h h1 h2 h' h1' h2' : Heap B) (ig og ig' og' : M)
    (l l' : List (BuildCall B)) (o o' : BuildCall B) (hco : o.isConn) (hco' : o'.isConn) (c c' : ComplexSound)
    (hc : cxCalls (S := S) (ComplexSound.new emb h ig og).2 (ComplexSound.new emb h ig og).1 ((l ++ [o]).map BuildCall.call) = .ok (h1, c))
    (hc' : cxCalls (S := S) (ComplexSound.new emb h' ig' og').2 (ComplexSound.new emb h' ig' og').1 ((l' ++ [o']).map BuildCall.call) = .ok (h1', c'))
    (hin : ∀ a, ¬ c.graph.Edge a c.getInputGain) (hout : ∀ b, ¬ c.graph.Edge c.getOutputGain b)
    (hin' : ∀ a, ¬ c'.graph.Edge a c'.getInputGain) (hout' : ∀ b, ¬ c'.graph.Edge c'.getOutputGain b)
    (hshape : (c.graph.AtMostOneIn ∧ c.graph.Acyclic) ∨ ∃ layer last, c.graph.Layered c.getOutputGain layer last)
    (hshape' : (c'.graph.AtMostOneIn ∧ c'.graph.Acyclic) ∨ ∃ layer last, c'.graph.Layered c'.getOutputGain layer last)
    (hprime : c.graph.AtMostOneIn ∨ ∀ (b : B) (x y : S), Block.prime (Block.prime b x) y = Block.prime (Block.prime b y) x)
    (f : ℕ → ℕ) (hs : SameBefore c.graph c'.graph f)
    (hblocks : ∀ n, c.graph.Reaches n 1 → builtBlocks emb ig og l n = builtBlocks emb ig' og' l' (f n))
    (xs ys ys' : List S) (he : runSound ComplexSound.process c h1 xs = .ok (ys, h2)) (he' : runSound ComplexSound.process c' h1' xs = .ok (ys', h2')) :
    ys = ys' := by
  obtain ⟨_, r⟩ := C119_built_partial emb h h1 h2 ig og l o hco c hc hin hout hshape xs ys he
  obtain ⟨_, r'⟩ := C119_built_partial emb h' h1' h2' ig' og' l' o' hco' c' hc' hin' hout' hshape' xs ys' he'
  obtain ⟨v, v2, nd, fw⟩ := good_built hco hc hin hout hshape
  obtain ⟨v', v2', nd', fw'⟩ := good_built hco' hc' hin' hout' hshape'
  refine sameBefore_run hs nd nd' fw (fun a b hab => (fw' a b hab).subset (by simp)) ?_ ?_ hprime hblocks r r'
  · intro n hn
    rcases Relation.ReflTransGen.cases_head hn with rfl | ⟨m, hm, _⟩
    · omega
    · exact (v _ hm).1
  · intro n hn
    rcases Relation.ReflTransGen.cases_head hn with rfl | ⟨m, hm, hm2⟩
    · rw [hs.output]
      omega
    · exact (v' _ ((hs.edges m hm2 (f n)).mpr ⟨n, hm, rfl⟩)).1
end

/-- In exact arithmetic the order in which a standard block is primed does not matter. -/
theorem C165_standard {G X I : Type} [Generator G ℝ] [Modifier X ℝ] [InterFn I ℝ] (b : StandardBlock G X I ℝ) (x y : ℝ) :
    Block.prime (Block.prime b x) y = Block.prime (Block.prime b y) x := by
  show ({ b with input := b.input + x + y } : StandardBlock G X I ℝ) = { b with input := b.input + y + x }
  rw [add_right_comm]

/-! ## Violation -/

/-- The code violates C165. input → 2 → 3 → 4 → output with gain 1 lets an impulse through. Connecting taps to it, input → 5 →
6 and 2 → 6, where nothing leads on from 5 and 6, silences it; so does another source, block 5, mixed with the input in a
block 6 that leads nowhere. -/
theorem C165_violated : ∃ (live taps source : List (ℕ × ℕ)),
    (∀ e ∈ live, e.1 ≠ 5 ∧ e.1 ≠ 6) ∧ (∀ e ∈ taps ++ source, e.2 = 5 ∨ e.2 = 6) ∧
    unitSound 5 live [lit 1, lit 0, lit 0, lit 0] = .ok [lit 1, lit 0, lit 0, lit 0] ∧
    unitSound 5 (live ++ taps) [lit 1, lit 0, lit 0, lit 0] = .ok [lit 0, lit 0, lit 0, lit 0] ∧
    unitSound 5 (source ++ live) [lit 1, lit 0, lit 0, lit 0] = .ok [lit 0, lit 0, lit 0, lit 0] :=
  ⟨[(0, 2), (2, 3), (3, 4), (4, 1)], [(0, 5), (2, 6), (5, 6)], [(0, 6), (5, 6)], by decide, by decide, by decide +kernel, by decide +kernel,
    by decide +kernel⟩

/-! ## Examples -/

/-- The plain sound: input → 2 → 3 → output. -/
def plainCalls : List (BuildCall (GainBlock F32)) := [.block unity, .block unity, .connect 0 2, .connect 2 3]
/-- The sound of `plainCalls` and 3 → output. -/
def plainSound : ComplexSound := ⟨⟨[0, 1, 2, 3], [(3, 1), (2, 3), (0, 2)]⟩, [0, 2, 3, 1], 0, 1, none, false, false⟩
/-- The same with a tap, block 2, connected to the first block, which is block 3 now. -/
def tapCalls : List (BuildCall (GainBlock F32)) := [.block unity, .block unity, .block unity, .connect 0 3, .connect 3 2, .connect 3 4]
/-- The sound of `tapCalls` and 4 → output. -/
def tapSound : ComplexSound := ⟨⟨[0, 1, 2, 3, 4], [(4, 1), (3, 4), (3, 2), (0, 3)]⟩, [0, 3, 4, 2, 1], 0, 1, none, false, false⟩
/-- The numbers of the blocks of the plain sound in the sound with the tap. -/
def tapNumber : ℕ → ℕ
  | 2 => 3
  | 3 => 4
  | 4 => 2
  | n => n

private theorem acyclic_of_rank {g : Graph} (r : ℕ → ℕ) (h : ∀ e ∈ g.edges, r e.1 < r e.2) : g.Acyclic := by
  have : ∀ a b, Relation.TransGen g.Edge a b → r a < r b := by
    intro a b hab
    induction hab with
    | single h1 => exact h _ h1
    | tail _ h2 ih => exact ih.trans (h _ h2)
  exact fun a ha => lt_irrefl _ (this a a ha)

/-- Non-vacuity of `C165_partial`. -/
example : ∃ (h1 h2 h1' h2' : Heap (GainBlock F32)) (c c' : ComplexSound),
    cxCalls (S := F32) (ComplexSound.new (B := GainBlock F32) _root_.id [] (lit 1 : F64) (lit 1 : F64)).2
      (ComplexSound.new (B := GainBlock F32) _root_.id [] (lit 1 : F64) (lit 1 : F64)).1 ((plainCalls ++ [BuildCall.connect 3 1]).map BuildCall.call) = .ok (h1, c) ∧
    cxCalls (S := F32) (ComplexSound.new (B := GainBlock F32) _root_.id [] (lit 1 : F64) (lit 1 : F64)).2
      (ComplexSound.new (B := GainBlock F32) _root_.id [] (lit 1 : F64) (lit 1 : F64)).1 ((tapCalls ++ [BuildCall.connect 4 1]).map BuildCall.call) = .ok (h1', c') ∧
    (∀ a, ¬ c.graph.Edge a c.getInputGain) ∧ (∀ b, ¬ c.graph.Edge c.getOutputGain b) ∧
    (∀ a, ¬ c'.graph.Edge a c'.getInputGain) ∧ (∀ b, ¬ c'.graph.Edge c'.getOutputGain b) ∧
    (c.graph.AtMostOneIn ∧ c.graph.Acyclic) ∧ (c'.graph.AtMostOneIn ∧ c'.graph.Acyclic) ∧ SameBefore c.graph c'.graph tapNumber ∧
    (∀ n, c.graph.Reaches n 1 → builtBlocks _root_.id (lit 1 : F64) (lit 1 : F64) plainCalls n =
      builtBlocks _root_.id (lit 1 : F64) (lit 1 : F64) tapCalls (tapNumber n)) ∧
    runSound ComplexSound.process c h1 [(lit 1 : F32), lit 2] = .ok ([lit 1, lit 2], h2) ∧
    runSound ComplexSound.process c' h1' [(lit 1 : F32), lit 2] = .ok ([lit 1, lit 2], h2') := by
  have hreach : ∀ n, plainSound.graph.Reaches n 1 → n < 4 := by
    intro n hn
    rcases Relation.ReflTransGen.cases_head hn with rfl | ⟨m, hm, _⟩
    · omega
    · have : ∀ e ∈ plainSound.graph.edges, e.1 < 4 := by decide
      exact this _ hm
  have one : ∀ (g : Graph), (∀ e ∈ g.edges, ∀ e' ∈ g.edges, e.2 = e'.2 → e.1 = e'.1) → g.AtMostOneIn :=
    fun g h a b d h1 h2 => h _ h1 _ h2 rfl
  refine ⟨List.replicate 4 ⟨unity, 1⟩, List.replicate 4 ⟨unity, 1⟩, List.replicate 5 ⟨unity, 1⟩, List.replicate 5 ⟨unity, 1⟩, plainSound, tapSound,
    by decide +kernel, by decide +kernel, ?_, ?_, ?_, ?_,
    ⟨one _ (by decide), acyclic_of_rank (fun n => if n = 1 then 9 else n) (by decide)⟩,
    ⟨one _ (by decide), acyclic_of_rank (fun n => if n = 1 ∨ n = 2 then 9 else n) (by decide)⟩, ?_, ?_, by decide +kernel, by decide +kernel⟩
  · have : ∀ e ∈ plainSound.graph.edges, e.2 ≠ 0 := by decide
    exact fun a h => this _ h rfl
  · have : ∀ e ∈ plainSound.graph.edges, e.1 ≠ 1 := by decide
    exact fun a h => this _ h rfl
  · have : ∀ e ∈ tapSound.graph.edges, e.2 ≠ 0 := by decide
    exact fun a h => this _ h rfl
  · have : ∀ e ∈ tapSound.graph.edges, e.1 ≠ 1 := by decide
    exact fun a h => this _ h rfl
  · refine ⟨?_, rfl, rfl, ?_⟩
    · intro a b hab
      have hbig : ∀ n, 5 ≤ n → tapNumber n = n := by
        intro n hn
        match n, hn with
        | n + 5, _ => rfl
      have hsmall : ∀ n < 5, tapNumber n < 5 := by decide
      by_cases ha : a < 5 <;> by_cases hb : b < 5
      · have : ∀ a < 5, ∀ b < 5, tapNumber a = tapNumber b → a = b := by decide
        exact this a ha b hb hab
      · have := hsmall a ha; rw [hbig b (by omega)] at hab; omega
      · have := hsmall b hb; rw [hbig a (by omega)] at hab; omega
      · rwa [hbig a (by omega), hbig b (by omega)] at hab
    · intro b hb a'
      have h1 : ∀ b < 4, ∀ e ∈ tapSound.graph.edges, e.2 = tapNumber b → ∃ d ∈ plainSound.graph.edges, d.2 = b ∧ tapNumber d.1 = e.1 := by decide
      have h2 : ∀ d ∈ plainSound.graph.edges, (tapNumber d.1, tapNumber d.2) ∈ tapSound.graph.edges := by decide
      constructor
      · intro h
        obtain ⟨⟨d1, d2⟩, k1, k2, k3⟩ := h1 b (hreach b hb) _ h rfl
        subst k2
        exact ⟨d1, k1, k3⟩
      · rintro ⟨a, k1, rfl⟩
        exact h2 _ k1
  · intro n hn
    have : ∀ n < 4, builtBlocks _root_.id (lit 1 : F64) (lit 1 : F64) plainCalls n =
      builtBlocks _root_.id (lit 1 : F64) (lit 1 : F64) tapCalls (tapNumber n) := by decide +kernel
    exact this n (hreach n hn)

/-- Non-vacuity of `C165_standard`: a block primed with 1 and 2. -/
example : (Block.prime (Block.prime (StandardBlock.fromModifier (Gain.new (lit 1)) : GainBlock ℝ) (1 : ℝ)) (2 : ℝ)).input = 3 := by
  show (lit 0 : ℝ) + 1 + 2 = 3
  real_simp
  norm_num

end Verif
