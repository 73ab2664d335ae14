import Verif.Props.Network
import Verif.Props.SimpleSound
import Verif.Spec.SumBlock
import Verif.Model.ArithReal

set_option linter.unusedSectionVars false

/-! # One sound, two ways to build it: C174

A chain of blocks can be put into a `SimpleSound` or wired up in a `ComplexSound`. A user moves from the first to the second
when a branch is to be added later; until then nothing must be heard of it. -/

namespace Verif
open ComplexSound

/-! ## Specification -/

/-- The connections of a chain of `K` blocks, numbered from 2 as they were added: input gain, the blocks in order, output
gain. -/
def ChainEdge (K a b : ℕ) : Prop := (a = 0 ∧ b = 2) ∨ (2 ≤ a ∧ b = a + 1 ∧ b < K + 2) ∨ (a = K + 1 ∧ b = 1)

/-- Equal, or both zero: the two zeros are the same pressure. -/
def SameSample (x y : F32) : Prop := x = y ∨ x.Is 0 ∧ y.Is 0

section
variable {A S : Type} [Flt S] [Block A S]

/-! ## Lemmas -/

private theorem filter_one {l : List ℕ} (hnd : l.Nodup) {p : ℕ} (hp : p ∈ l) {q : ℕ → Prop} [DecidablePred q] (hq : ∀ m, q m ↔ m = p) :
    l.filter (fun m => q m) = [p] := by
  have : (l.filter fun m => q m) = l.filter (fun m => m == p) := List.filter_congr fun m _ => by
    by_cases h : m = p <;> simp [h, hq]
  rw [this, List.filter_beq, List.count_eq_one_of_mem hnd hp]
  rfl

private theorem filter_none {l : List ℕ} {q : ℕ → Prop} [DecidablePred q] (hq : ∀ m, ¬ q m) : l.filter (fun m => q m) = [] := by
  rw [List.filter_eq_nil_iff]
  intro m _
  simpa using hq m

private theorem chain_series (bs : List A) : ∀ (k : ℕ) (st st' : ℕ → A ⊕ GainBlock S) (v : ℕ → S),
    (∀ j b, bs[j]? = some b → st (k + j) = .inl b) →
    (∀ j < bs.length, Block.process (Block.prime (st (k + j)) (v j)) = .ok (v (j + 1), st' (k + j))) →
    ∃ bs', series bs (v 0) = .ok (v bs.length, bs') ∧ bs'.length = bs.length ∧ ∀ j b, bs'[j]? = some b → st' (k + j) = .inl b := by
  induction bs with
  | nil => intro k st st' v _ _; exact ⟨[], rfl, rfl, fun j b h => by simp at h⟩
  | cons b bs ih =>
    intro k st st' v h1 h2
    have hb : st k = .inl b := h1 0 b rfl
    have hp := h2 0 (by simp)
    simp only [Nat.add_zero, zero_add] at hp
    rw [hb] at hp
    have hp' : (Block.process (Block.prime b (v 0)) : Res (S × A)).map (fun r => (r.1, (.inl r.2 : A ⊕ GainBlock S))) = .ok (v 1, st' k) := hp
    cases hq : (Block.process (Block.prime b (v 0)) : Res (S × A)) with
    | error e => rw [hq] at hp'; simp [Except.map] at hp'
    | ok r =>
      obtain ⟨y, b'⟩ := r
      rw [hq] at hp'
      simp only [Except.map, Except.ok.injEq, Prod.mk.injEq] at hp'
      obtain ⟨e1, e2⟩ := hp'
      obtain ⟨bs', g1, g2, g3⟩ := ih (k + 1) st st' (fun j => v (j + 1))
        (fun j c hc => by rw [show k + 1 + j = k + (j + 1) by omega]; exact h1 (j + 1) c (by simpa using hc))
        (fun j hj => by rw [show k + 1 + j = k + (j + 1) by omega]; exact h2 (j + 1) (by simpa using hj))
      refine ⟨b' :: bs', ?_, by simp [g2], ?_⟩
      · unfold series
        rw [hq]
        simp only
        rw [e1]
        simp only [zero_add] at g1
        rw [g1]
        simp
      · intro j c hc
        cases j with
        | zero =>
          simp only [List.getElem?_cons_zero, Option.some.injEq] at hc
          rw [Nat.add_zero, ← e2, hc]
        | succ j =>
          rw [show k + (j + 1) = k + 1 + j by omega]
          exact g3 j c (by simpa using hc)

/-- The blocks of the chain and the gains in their places. -/
private def Placed (ig og : S) (bs : List A) (st : ℕ → A ⊕ GainBlock S) : Prop :=
  st 0 = .inr (StandardBlock.fromModifier (Gain.new ig)) ∧ st 1 = .inr (StandardBlock.fromModifier (Gain.new og)) ∧
  ∀ j b, bs[j]? = some b → st (j + 2) = .inl b

private theorem gain_step (a x y : S) (st' : A ⊕ GainBlock S)
    (h : Block.process (primes (.inr (StandardBlock.fromModifier (Gain.new a)) : A ⊕ GainBlock S) [x]) = .ok (y, st')) :
    y = (lit 0 + x) * a ∧ st' = .inr (StandardBlock.fromModifier (Gain.new a)) := by
  have h' : (.ok ((lit 0 + x) * a, .inr (StandardBlock.fromModifier (Gain.new a))) : Res (S × (A ⊕ GainBlock S))) = .ok (y, st') := h
  simp only [Except.ok.injEq, Prod.mk.injEq] at h'
  exact ⟨h'.1.symm, h'.2.symm⟩

private theorem chain_step {g : Graph} {order : List ℕ} {bs : List A} (hb : bs ≠ []) (hlen : g.nodes.length = bs.length + 2)
    (hord : order.Perm (List.range g.nodes.length)) (hE : ∀ a b, g.Edge a b ↔ ChainEdge bs.length a b) {ig og : S} {st st' : ℕ → A ⊕ GainBlock S} {x : S} {y : ℕ → S}
    (hp : Placed ig og bs st) (h : NetStep g order 0 st x y st') :
    ∃ z bs', series bs ((lit 0 + x) * ig) = .ok (z, bs') ∧ bs'.length = bs.length ∧ y 1 = (lit 0 + z) * og ∧ Placed ig og bs' st' := by
  have hK : 0 < bs.length := List.length_pos_iff.mpr hb
  have hnd : order.Nodup := hord.nodup_iff.mpr List.nodup_range
  have hmem : ∀ n, n < bs.length + 2 → n ∈ order := fun n hn => hord.mem_iff.mpr (List.mem_range.mpr (by omega))
  have hone : ∀ n p, p < bs.length + 2 → (∀ m, ChainEdge bs.length m n ↔ m = p) → (order.filter fun m => (m, n) ∈ g.edges) = [p] := by
    intro n p hp hn
    exact filter_one hnd (hmem p hp) fun m => (hE m n).trans (hn m)
  have s0 := h 0 (by omega)
  have s1 := h 1 (by omega)
  have e0 : (order.filter fun m => (m, 0) ∈ g.edges) = [] := filter_none fun m hm => by
    have := (hE m 0).mp hm
    unfold ChainEdge at this; omega
  have e1 := hone 1 (bs.length + 1) (by omega) fun m => by unfold ChainEdge; omega
  rw [if_pos rfl, e0, hp.1] at s0
  rw [if_neg (by omega), e1, hp.2.1] at s1
  obtain ⟨a1, a2⟩ := gain_step ig x (y 0) (st' 0) s0
  obtain ⟨b1, b2⟩ := gain_step og (y (bs.length + 1)) (y 1) (st' 1) s1
  obtain ⟨bs', g1, g2, g3⟩ := chain_series bs 2 st st' (fun j => if j = 0 then y 0 else y (j + 1))
    (fun j b hj => by rw [Nat.add_comm]; exact hp.2.2 j b hj)
    (fun j hj => by
      have s := h (2 + j) (by omega)
      have e : (order.filter fun m => (m, 2 + j) ∈ g.edges) = [if j = 0 then 0 else j + 1] :=
        hone _ _ (by split_ifs <;> omega) fun m => by unfold ChainEdge; split_ifs <;> omega
      rw [if_neg (by omega), e] at s
      have s' : Block.process (Block.prime (st (2 + j)) (y (if j = 0 then 0 else j + 1))) = .ok (y (2 + j), st' (2 + j)) := s
      simp only [Nat.succ_ne_zero, if_false]
      rw [show j + 1 + 1 = 2 + j by omega, ← s']
      split_ifs <;> rfl)
  simp only [if_true] at g1
  rw [if_neg (by omega), a1] at g1
  exact ⟨y (bs.length + 1), bs', g1, g2, b1, a2, b2, fun j b hj => by rw [Nat.add_comm]; exact g3 j b hj⟩

private theorem chain_run {g : Graph} {order : List ℕ} {ig og : S} {J : A → Prop}
    (hJ : ∀ b x, J b → Block.prime b ((lit 0 + x) * ig) = Block.prime b (x * ig))
    (hJ' : ∀ b b' (x y : S), J b → Block.process (Block.prime b x) = .ok (y, b') → J b')
    (xs : List S) : ∀ (bs : List A) (st : ℕ → A ⊕ GainBlock S) (ys : List S), bs ≠ [] → g.nodes.length = bs.length + 2 →
      order.Perm (List.range g.nodes.length) → (∀ a b, g.Edge a b ↔ ChainEdge bs.length a b) → (∀ b ∈ bs.head?, J b) → Placed ig og bs st →
      NetRun g order 0 1 st xs ys →
      ∃ zs : List S, zs.length = xs.length ∧ seriesRun ig og bs xs = .ok (zs.map (· * og)) ∧ ys = zs.map fun z => (lit 0 + z) * og := by
  induction xs with
  | nil =>
    intro bs st ys _ _ _ _ _ _ hr
    cases hr
    exact ⟨[], rfl, rfl, rfl⟩
  | cons x xs ih =>
    intro bs st ys hb hlen hord hE hj hp hr
    cases hr with
    | @cons _ st' _ y _ ys h t =>
      obtain ⟨z, bs', e1, e2, e3, e4⟩ := chain_step hb hlen hord hE hp h
      have hser : series bs (x * ig) = .ok (z, bs') ∧ ∀ b ∈ bs'.head?, J b := by
        cases bs with
        | nil => exact absurd rfl hb
        | cons b r =>
          have hjb := hj b (by simp)
          unfold series at e1 ⊢
          rw [hJ b x hjb] at e1
          refine ⟨e1, ?_⟩
          cases hq : (Block.process (Block.prime b (x * ig)) : Res (S × A)) with
          | error e => rw [hq] at e1; simp at e1
          | ok w =>
            obtain ⟨w, b'⟩ := w
            rw [hq] at e1
            simp only at e1
            cases hs : series r w with
            | error e => rw [hs] at e1; simp at e1
            | ok v =>
              rw [hs] at e1
              simp only [Except.ok.injEq, Prod.mk.injEq] at e1
              rw [← e1.2]
              intro c hc
              simp only [List.head?_cons, Option.mem_def, Option.some.injEq] at hc
              rw [← hc]
              exact hJ' b b' _ w hjb hq
      have hb' : bs' ≠ [] := by
        intro h0
        rw [h0] at e2
        exact hb (List.length_eq_zero_iff.mp e2.symm)
      obtain ⟨zs, g1, g2, g3⟩ := ih bs' st' ys hb' (by omega) hord (by rw [e2]; exact hE) hser.2 e4 t
      refine ⟨z :: zs, by simp [g1], ?_, by simp [e3, g3]⟩
      unfold seriesRun
      rw [hser.1]
      simp only [g2]
      rfl

private theorem chain_acyclic {g : Graph} {K : ℕ} (hK : 0 < K) (hE : ∀ a b, g.Edge a b ↔ ChainEdge K a b) : g.AtMostOneIn ∧ g.Acyclic := by
  constructor
  · intro a b c h1 h2
    have h1 := (hE a c).mp h1
    have h2 := (hE b c).mp h2
    unfold ChainEdge at h1 h2
    omega
  · intro a ha
    have key : ∀ a b, Relation.TransGen g.Edge a b → (if a = 1 then K + 2 else a) < (if b = 1 then K + 2 else b) := by
      intro a b h
      have one : ∀ a b, g.Edge a b → (if a = 1 then K + 2 else a) < (if b = 1 then K + 2 else b) := by
        intro a b h
        have := (hE a b).mp h
        unfold ChainEdge at this
        split_ifs <;> omega
      induction h with
      | single h => exact one _ _ h
      | tail _ h ih => exact ih.trans (one _ _ h)
    exact absurd (key a a ha) (lt_irrefl _)

/-! ## Theorems -/

/-- Any arithmetic, blocks of any kind: if the `K` blocks of a simple sound are wired into a chain in a complex sound with the
same gains, by whatever calls, then for every input there is one sequence of samples of the last block that the two give,
times the output gain; the complex sound has added it to zero. (`J`: the first block does not see that its input was added
to zero either.) -/
theorem C174_chain {M : Type} [Flt M] [SM S M] (ig og : M) (bs : List A) (hb : bs ≠ [])
    {J : A → Prop} (hJ : ∀ b (x : S), J b → Block.prime b ((lit 0 + x) * SM.down ig) = Block.prime b (x * SM.down ig))
    (hJ' : ∀ b b' (x y : S), J b → Block.process (Block.prime b x) = .ok (y, b') → J b') (hj : ∀ b ∈ bs.head?, J b)
    (k : Heap A) (a : ℕ) (ms : List ModAdd) (ho : Owns k (a :: added ms) bs)
    (h h' h'' : Heap (A ⊕ GainBlock S)) (l : List (BuildCall (A ⊕ GainBlock S))) (o : BuildCall (A ⊕ GainBlock S)) (hco : o.isConn)
    (hl : newBlocks l = bs.map .inl) (c : ComplexSound)
    (hc : cxCalls (S := S) (ComplexSound.new .inr h ig og).2 (ComplexSound.new .inr h ig og).1 ((l ++ [o]).map BuildCall.call) = .ok (h', c))
    (hE : ∀ a b, c.graph.Edge a b ↔ ChainEdge bs.length a b)
    (xs ys : List S) (he : runSound ComplexSound.process c h' xs = .ok (ys, h'')) :
    ∃ zs : List S, zs.length = xs.length ∧
      SimpleSound.outputs (ms.foldl SimpleSound.add (SimpleSound.new ig og a)) k xs = .ok (zs.map (· * SM.down og)) ∧
      ys = zs.map fun z => (lit 0 + z) * SM.down og := by
  have hK : 0 < bs.length := List.length_pos_iff.mpr hb
  obtain ⟨_, _, f3, f4, -⟩ := built_network hco hc
  have hi : c.getInputGain = 0 := f3
  have ho' : c.getOutputGain = 1 := f4
  obtain ⟨p, r⟩ := C119_built_partial .inr h h' h'' ig og l o hco c hc
    (fun a ha => by rw [hi, hE] at ha; unfold ChainEdge at ha; omega)
    (fun b hb => by rw [ho', hE] at hb; unfold ChainEdge at hb; omega) (Or.inl (chain_acyclic hK hE)) xs ys he
  rw [C76_built k ig og a ms bs ho xs]
  refine chain_run hJ hJ' xs bs _ ys hb ?_ p hE hj ⟨rfl, rfl, fun j b hjb => ?_⟩ r
  · rw [built_length hco hc, hl, List.length_map]
  · show (newBlocks l).getD j _ = _
    rw [hl]
    simp [List.getD_eq_getElem?_getD, hjb]

end

/-- In exact arithmetic the two sounds give the same samples. -/
theorem C174_exact {A : Type} [Block A ℝ] (ig og : ℝ) (bs : List A) (hb : bs ≠ [])
    (k : Heap A) (a : ℕ) (ms : List ModAdd) (ho : Owns k (a :: added ms) bs)
    (h h' h'' : Heap (A ⊕ GainBlock ℝ)) (l : List (BuildCall (A ⊕ GainBlock ℝ))) (o : BuildCall (A ⊕ GainBlock ℝ)) (hco : o.isConn)
    (hl : newBlocks l = bs.map .inl) (c : ComplexSound)
    (hc : cxCalls (S := ℝ) (ComplexSound.new .inr h ig og).2 (ComplexSound.new .inr h ig og).1 ((l ++ [o]).map BuildCall.call) = .ok (h', c))
    (hE : ∀ a b, c.graph.Edge a b ↔ ChainEdge bs.length a b)
    (xs ys : List ℝ) (he : runSound ComplexSound.process c h' xs = .ok (ys, h'')) :
    SimpleSound.outputs (ms.foldl SimpleSound.add (SimpleSound.new ig og a)) k xs = .ok ys := by
  have z0 : ∀ x : ℝ, (lit 0 : ℝ) + x = x := fun x => by real_simp; exact zero_add x
  obtain ⟨zs, -, h1, h2⟩ := C174_chain (J := fun _ => True) ig og bs hb (fun b x _ => by rw [z0]) (fun _ _ _ _ _ _ => trivial) (fun _ _ => trivial)
    k a ms ho h h' h'' l o hco hl c hc hE xs ys he
  rw [h1, h2]
  simp only [z0]

private theorem ok0 : b32.Ok false 0 := by
  have h : (lit 0 : F32).Is 0 := by decide +kernel
  have h' : ∀ x : F32, x.Is 0 → b32.Repr 0 ∧ |(0 : ℚ)| < pow2 (b32.emax + 1) := by
    intro x hx
    cases x with
    | nan => simp [Fl.Is, Fl.toQ?] at hx
    | inf t => simp [Fl.Is, Fl.toQ?] at hx
    | fin t b hb =>
      have e : b = 0 := by simpa [Fl.Is, Fl.toQ?] using hx
      subst e
      exact ⟨hb.1, hb.2.1⟩
  exact ⟨(h' _ h).1, (h' _ h).2, fun h => absurd h (lt_irrefl _), fun h => absurd h (lt_irrefl _)⟩

/-- `0 + x` is `x`, but for the sign of zero. -/
private theorem zero_add_fl (x : F32) : lit 0 + x = x ∨ lit 0 + x = (lit 0 : F32) ∧ x.Is 0 := by
  have l0 : (lit 0 : F32) = .fin false 0 ok0 := by decide +kernel
  rw [l0]
  cases x with
  | nan => exact Or.inl rfl
  | inf t => exact Or.inl rfl
  | fin t b hb =>
    show Fl.ofQ (false && t) (0 + b) = _ ∨ Fl.ofQ (false && t) (0 + b) = _ ∧ _
    rw [zero_add]
    by_cases h0 : b = 0
    · subst h0
      right
      refine ⟨?_, rfl⟩
      rw [Bool.false_and]
      decide +kernel
    · left
      have hr : b32.rnd b = b := b32.rnd_of_repr hb.1
      unfold Fl.ofQ
      rw [dif_pos (by rw [hr]; exact hb.2.1)]
      have hs : (if b < 0 then true else if 0 < b then false else (false && t)) = t := by
        rcases lt_or_gt_of_ne h0 with h | h
        · rw [if_pos h, hb.2.2.1 h]
        · rw [if_neg (by linarith), if_pos h, hb.2.2.2 h]
      simp only [hs, hr]

private theorem zero_mul_fl {x : F32} (hx : x.Is 0) (a : F32) : SameSample (lit 0 * a) (x * a) ∧ lit 0 + lit 0 * a = lit 0 + x * a := by
  have l0 : (lit 0 : F32) = .fin false 0 ok0 := by decide +kernel
  cases x with
  | nan => simp [Fl.Is, Fl.toQ?] at hx
  | inf t => simp [Fl.Is, Fl.toQ?] at hx
  | fin t b hb =>
    have e : b = 0 := by simpa [Fl.Is, Fl.toQ?] using hx
    subst e
    rw [l0]
    have q0 : ∀ s : Bool, (Fl.ofQ s 0 : F32).Is 0 ∧ (Fl.fin false 0 ok0 : F32) + Fl.ofQ s 0 = lit 0 := by decide +kernel
    cases a with
    | nan => exact ⟨Or.inl rfl, rfl⟩
    | inf t =>
      have : ∀ s t h, (Fl.fin s 0 h : F32) * Fl.inf t = .nan := fun s t h => by
        exact (if_pos rfl : (if (0 : ℚ) = 0 then Fl.nan else Fl.inf (xor s t) : F32) = Fl.nan)
      rw [this, this]
      exact ⟨Or.inl rfl, rfl⟩
    | fin u r hr =>
      have : ∀ s h, (Fl.fin s 0 h : F32) * Fl.fin u r hr = Fl.ofQ (xor s u) 0 := fun s h => by
        show Fl.ofQ _ (0 * r) = _
        rw [zero_mul]
      rw [this, this]
      exact ⟨Or.inr ⟨(q0 _).1, (q0 _).1⟩, (q0 _).2.trans (q0 _).2.symm⟩

/-- IEEE, standard blocks with any generator, modifier and interaction, and all gains and samples (NaN and infinities
included): the samples are the same, but for the sign of zero. -/
theorem C174_f32 {G X I : Type} [Generator G F32] [Modifier X F32] [InterFn I F32] (ig og : F64)
    (bs : List (StandardBlock G X I F32)) (hb : bs ≠ []) (hb0 : ∀ b ∈ bs.head?, b.input = lit 0)
    (k : Heap (StandardBlock G X I F32)) (a : ℕ) (ms : List ModAdd) (ho : Owns k (a :: added ms) bs)
    (h h' h'' : Heap (StandardBlock G X I F32 ⊕ GainBlock F32)) (l : List (BuildCall (StandardBlock G X I F32 ⊕ GainBlock F32)))
    (o : BuildCall (StandardBlock G X I F32 ⊕ GainBlock F32)) (hco : o.isConn)
    (hl : newBlocks l = bs.map .inl) (c : ComplexSound)
    (hc : cxCalls (S := F32) (ComplexSound.new .inr h ig og).2 (ComplexSound.new .inr h ig og).1 ((l ++ [o]).map BuildCall.call) = .ok (h', c))
    (hE : ∀ a b, c.graph.Edge a b ↔ ChainEdge bs.length a b)
    (xs ys : List F32) (he : runSound ComplexSound.process c h' xs = .ok (ys, h'')) :
    ∃ ys', SimpleSound.outputs (ms.foldl SimpleSound.add (SimpleSound.new ig og a)) k xs = .ok ys' ∧ List.Forall₂ SameSample ys ys' := by
  suffices hs : ∃ zs : List F32, zs.length = xs.length ∧
      SimpleSound.outputs (ms.foldl SimpleSound.add (SimpleSound.new ig og a)) k xs = .ok (zs.map (· * SM.down og)) ∧
      ys = zs.map fun z => (lit 0 + z) * SM.down og by
    obtain ⟨zs, -, h1, h2⟩ := hs
    refine ⟨_, h1, ?_⟩
    rw [h2]
    clear h1 h2
    induction zs with
    | nil => exact .nil
    | cons z zs ih =>
      refine .cons ?_ ih
      show SameSample ((lit 0 + z) * SM.down og) (z * SM.down og)
      rcases zero_add_fl z with e | ⟨e1, e2⟩
      · rw [e]; exact Or.inl rfl
      · rw [e1]; exact (zero_mul_fl e2 _).1
  refine C174_chain (J := fun b : StandardBlock G X I F32 => b.input = lit 0) ig og bs hb ?_ ?_ hb0
    k a ms ho h h' h'' l o hco hl c hc hE xs ys he
  · intro b x hb
    show StandardBlock.primeInput b _ = StandardBlock.primeInput b _
    unfold StandardBlock.primeInput
    rw [hb]
    rcases zero_add_fl x with e | ⟨e1, e2⟩
    · rw [e]
    · rw [e1, (zero_mul_fl e2 _).2]
  · intro b b' x y hb hp
    exact (C119_standard b b' [x] y hb hp).2

/-! ## Examples -/

private abbrev CB := GainBlock F32 ⊕ GainBlock F32
private def gain (a : ℚ) : GainBlock F32 := StandardBlock.fromModifier (Gain.new (lit a))
private def chainCalls : List (BuildCall CB) := [.block (.inl (gain 3)), .connect 0 2, .block (.inl (gain (-1 / 2))), .connect 3 1]
private def chainSound : Res (Heap CB × ComplexSound) :=
  cxCalls (S := F32) (ComplexSound.new (S := F32) (B := CB) (M := F64) Sum.inr [] (lit 2) (lit 1)).2 (ComplexSound.new (S := F32) (B := CB) (M := F64) Sum.inr [] (lit 2) (lit 1)).1
    ((chainCalls ++ [BuildCall.connect 2 3]).map BuildCall.call)

/-- Two gains in a chain: what is asked of the sounds holds, and both play; for the input 0 the one gives `0.0` and the other
`-0.0`. -/
example : newBlocks chainCalls = [gain 3, gain (-1 / 2)].map .inl ∧ (∀ b ∈ [gain 3, gain (-1 / 2)].head?, b.input = lit 0) ∧
    Owns [⟨gain 3, 1⟩, ⟨gain (-1 / 2), 1⟩] (0 :: added [.one 1]) [gain 3, gain (-1 / 2)] ∧
    (∃ h' c, chainSound = .ok (h', c) ∧ (∀ a b, c.graph.Edge a b ↔ ChainEdge 2 a b) ∧
      ∃ ys k, runSound ComplexSound.process c h' [lit 1, (lit 0 : F32)] = .ok (ys, k) ∧ ys = [lit (-3), lit 0]) ∧
    (SimpleSound.outputs (SimpleSound.add (SimpleSound.new (lit 2 : F64) (lit 1 : F64) 0) (.one 1)) [⟨gain 3, 1⟩, ⟨gain (-1 / 2), 1⟩]
      [lit 1, (lit 0 : F32)]).toOption = some [lit (-3), -lit 0] := by
  refine ⟨rfl, fun b hb => ?_, ⟨by decide, .cons rfl (.cons rfl .nil)⟩, ?_, by decide +kernel⟩
  · simp only [List.head?_cons, Option.mem_def, Option.some.injEq] at hb
    rw [← hb]; rfl
  · have e : chainSound.toOption.map (fun r => (r.2.graph.edges, (runSound ComplexSound.process r.2 r.1 [lit 1, (lit 0 : F32)]).toOption.map (·.1))) =
        some ([(2, 3), (3, 1), (0, 2)], some [lit (-3), lit 0]) := by decide +kernel
    cases hs : chainSound with
    | error e' => rw [hs] at e; simp [Except.toOption] at e
    | ok r =>
      obtain ⟨h', c⟩ := r
      rw [hs] at e
      simp only [Except.toOption, Option.map_some, Option.some.injEq, Prod.mk.injEq] at e
      refine ⟨h', c, rfl, fun a b => ?_, ?_⟩
      · unfold Graph.Edge ChainEdge
        rw [e.1]
        simp only [List.mem_cons, Prod.mk.injEq, List.not_mem_nil, or_false]
        omega
      · have e2 := e.2
        cases hr : runSound ComplexSound.process c h' [lit 1, (lit 0 : F32)] with
        | error e' => rw [hr] at e2; simp at e2
        | ok w =>
          rw [hr] at e2
          simp only [Option.map_some, Option.some.injEq] at e2
          exact ⟨w.1, w.2, rfl, e2⟩

end Verif
