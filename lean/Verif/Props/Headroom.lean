import Verif.Props.NetError
import Verif.Props.Voice
import Verif.Spec.SumBlock

/-! # Headroom: mixing without clipping in a network, C173 -/

namespace Verif
open Fl ComplexSound

/-! ## Specification

Levels are counted in steps of `2^-k`; up to `2^24` steps every number of steps is an `f32`, so levels can be added and compared without
an allowance for rounding. -/

/-- The sample `v` is a number of at most `L` steps of `2^-k`. -/
def UpTo (k L : ℕ) (v : F32) : Prop := v.In (-(L / 2 ^ k)) (L / 2 ^ k)

/-- Samples that together make at most `S` steps. -/
def SumUpTo (k S : ℕ) (us : List F32) : Prop := ∃ Ls : List ℕ, List.Forall₂ (fun u L => UpTo k L u) us Ls ∧ Ls.sum ≤ S

/-- A block in a state of `Q`, given at most `I` steps in all, does not panic, puts out at most `L` steps and stays in `Q`. -/
def Limits {B : Type} [Block B F32] (Q : B → Prop) (k I L : ℕ) : Prop := ∀ (b : B) (us : List F32), Q b → SumUpTo k I us →
  ∃ (y : F32) (b' : B), Block.process (primes b us) = .ok (y, b') ∧ UpTo k L y ∧ Q b'

/-- What each block is given, if block `m` puts out at most `L m` and the input of the sound is at most `A`, is covered by `I`. -/
def Headroom (g : Graph) (order : List ℕ) (L I : ℕ → ℕ) (A : ℕ) : Prop :=
  ∀ n ∈ order, (if n = 0 then A else 0) + ((sources g order n).map L).sum ≤ I n

/-! ## Lemmas -/

private theorem repr_step {k L : ℕ} (hk : k ≤ 100) (hL : L ≤ 2 ^ 24) : b32.Repr ((L : ℚ) / 2 ^ k) ∧ b32.Repr (-((L : ℚ) / 2 ^ k)) := by
  have e : pow2 (-(k : ℤ)) = 1 / 2 ^ k := by
    rw [pow2_eq, zpow_neg, zpow_natCast, one_div]
  have h : b32.emin ≤ -(k : ℤ) := by
    rw [show b32.emin = -149 by decide]; omega
  have h2 : (L : ℤ) ≤ 2 ^ 24 := by exact_mod_cast hL
  constructor
  · refine ⟨L, -k, ?_, ?_, h⟩
    · rw [e, Int.cast_natCast]; ring
    · rw [abs_of_nonneg (by positivity)]; exact h2
  · refine ⟨-L, -k, ?_, ?_, h⟩
    · rw [e]; push_cast; ring
    · rw [abs_neg, abs_of_nonneg (by positivity)]; exact h2

private theorem fits_step {k L : ℕ} (hL : L ≤ 2 ^ 24) {q : ℚ} (h : |q| ≤ L / 2 ^ k) : b32.Fits q := by
  refine fits32' 24 (by norm_num) (h.trans ?_)
  have h1 : (L : ℚ) ≤ 2 ^ 24 := by exact_mod_cast hL
  have h2 : (1 : ℚ) ≤ 2 ^ k := one_le_pow₀ (by norm_num)
  rw [div_le_iff₀ (by positivity)]
  nlinarith

private theorem upTo_rnd {k L : ℕ} (hk : k ≤ 100) (hL : L ≤ 2 ^ 24) {v : F32} {q : ℚ} (hv : v.Is (b32.rnd q)) (h : |q| ≤ L / 2 ^ k) : UpTo k L v := by
  obtain ⟨r1, r2⟩ := repr_step hk hL
  obtain ⟨h1, h2⟩ := abs_le.mp h
  exact ⟨_, hv, b32.repr_le_rnd r2 h1, b32.rnd_le_repr r1 h2⟩

private theorem UpTo.abs {k L : ℕ} {v : F32} (h : UpTo k L v) : ∃ q : ℚ, v.Is q ∧ |q| ≤ L / 2 ^ k := by
  obtain ⟨q, h1, h2, h3⟩ := h
  exact ⟨q, h1, abs_le.mpr ⟨h2, h3⟩⟩

private theorem UpTo.mono {k L L' : ℕ} {v : F32} (h : UpTo k L v) (hL : L ≤ L') : UpTo k L' v := by
  have : (L : ℚ) / 2 ^ k ≤ L' / 2 ^ k := by gcongr
  exact In.mono h (by linarith) this

private theorem UpTo.add {k L M : ℕ} (hk : k ≤ 100) (hL : L + M ≤ 2 ^ 24) {v w : F32} (hv : UpTo k L v) (hw : UpTo k M w) : UpTo k (L + M) (v + w) := by
  obtain ⟨p, p1, p2⟩ := hv.abs
  obtain ⟨q, q1, q2⟩ := hw.abs
  have h : |p + q| ≤ ((L + M : ℕ) : ℚ) / 2 ^ k := by
    rw [Nat.cast_add, add_div]
    exact (abs_add_le _ _).trans (add_le_add p2 q2)
  exact upTo_rnd hk hL (p1.add q1 (fits_step hL h)) h

private theorem upTo_zero (k : ℕ) : UpTo k 0 (dflt : F32) := ⟨0, show (lit 0 : F32).Is 0 by decide +kernel, by simp, by simp⟩

private theorem upTo_fold {k S : ℕ} (hk : k ≤ 100) (hS : S ≤ 2 ^ 24) {us : List F32} (h : SumUpTo k S us) : UpTo k S (us.foldl (· + ·) dflt) := by
  obtain ⟨Ls, h1, h2⟩ := h
  have key : ∀ (us : List F32) (Ls : List ℕ), List.Forall₂ (fun u L => UpTo k L u) us Ls → ∀ (a : F32) (A : ℕ), UpTo k A a → A + Ls.sum ≤ 2 ^ 24 →
      UpTo k (A + Ls.sum) (us.foldl (· + ·) a) := by
    intro us Ls h
    induction h with
    | nil => intro a A ha _; simpa using ha
    | @cons u L us Ls hu _ ih =>
      intro a A ha hA
      rw [List.sum_cons, ← add_assoc] at hA ⊢
      exact ih _ _ (ha.add hk (by omega) hu) hA
  have := key us Ls h1 dflt 0 (upTo_zero k) (by omega)
  rw [zero_add] at this
  exact this.mono h2

private theorem primes_standard {G X I : Type} [Generator G F32] [Modifier X F32] [InterFn I F32] (b : StandardBlock G X I F32) (us : List F32) :
    primes b us = { b with input := us.foldl (· + ·) b.input } := by
  unfold primes
  induction us generalizing b with
  | nil => rfl
  | cons u us ih =>
    rw [List.foldl_cons, List.foldl_cons, ih]
    rfl

private theorem SumUpTo.append {k S S' : ℕ} {us us' : List F32} (h : SumUpTo k S us) (h' : SumUpTo k S' us') : SumUpTo k (S + S') (us ++ us') := by
  obtain ⟨Ls, a1, a2⟩ := h
  obtain ⟨Ls', b1, b2⟩ := h'
  exact ⟨Ls ++ Ls', List.rel_append a1 b1, by rw [List.sum_append]; omega⟩

private theorem SumUpTo.mono {k S S' : ℕ} {us : List F32} (h : SumUpTo k S us) (hS : S ≤ S') : SumUpTo k S' us := by
  obtain ⟨Ls, a1, a2⟩ := h
  exact ⟨Ls, a1, a2.trans hS⟩

private theorem sum_sentTo {g : Graph} {k n : ℕ} {y : ℕ → F32} {L : ℕ → ℕ} (l : List ℕ) (h : ∀ m ∈ l, UpTo k (L m) (y m)) :
    SumUpTo k ((sources g l n).map L).sum (sentTo g y n l) := by
  refine ⟨(sources g l n).map L, ?_, le_rfl⟩
  unfold sentTo sources
  have h' : ∀ m ∈ l.filter (fun m => (m, n) ∈ g.edges), UpTo k (L m) (y m) := fun m hm => h m (List.mem_filter.mp hm).1
  generalize l.filter (fun m => (m, n) ∈ g.edges) = l' at h'
  induction l' with
  | nil => exact .nil
  | cons m l' ih => exact .cons (h' m (by simp)) (ih fun j hj => h' j (by simp [hj]))

private theorem sources_split' (g : Graph) (order : List ℕ) (n : ℕ) : sources g order n = sources g (before order n) n ++ sources g (fromOn order n) n := by
  unfold sources before fromOn
  rw [← List.filter_append, List.takeWhile_append_dropWhile]

/-! ## C173: networks -/

section
variable {B : Type} [Block B F32]

/-- IEEE, any graph (loops included), blocks of any kind: if what the blocks may put out is covered by what they may be given, every
output of every block stays within its limit for ever; in particular that of the sound. -/
theorem C173_network (emb : GainBlock F32 → B) (h h' : Heap B) (ig og : F64) (l : List (BuildCall B)) (o : BuildCall B) (hco : o.isConn) (c : ComplexSound)
    (hc : cxCalls (S := F32) (ComplexSound.new emb h ig og).2 (ComplexSound.new emb h ig og).1 ((l ++ [o]).map BuildCall.call) = .ok (h', c))
    {N : B → Prop} (hN : ∀ b, N b → ∃ (y : F32) (b' : B), Block.process b = .ok (y, b') ∧ N b') (hNp : ∀ b (x : F32), N b → N (Block.prime b x))
    (hNb : ∀ n, N (builtBlocks emb ig og l n))
    {k A : ℕ} {L I : ℕ → ℕ} {Q : ℕ → B → Prop} (hr : Headroom c.graph c.getNodes L I A) (hQ : ∀ n ∈ c.getNodes, Limits (Q n) k (I n) (L n))
    (hb : ∀ n ∈ c.getNodes, Q n (builtBlocks emb ig og l n)) (x : ℕ → F32) (hx : ∀ t, UpTo k A (x t)) (T : ℕ) :
    ∃ ys h'', runSound ComplexSound.process c h' ((List.range T).map x) = .ok (ys, h'') ∧ ys.length = T ∧ ∀ y ∈ ys, UpTo k (L 1) y := by
  obtain ⟨f1, f2, f3, f4, f5, f6, f7, ⟨mid, ho⟩, o2, o3, hh, -⟩ := built_network hco hc
  have h1 : 1 ∈ c.getNodes := by
    rw [ho]; unfold ComplexSound.getOutputGain; rw [f4]; simp
  have play : ∀ (xs : List F32) (k : Heap B) (st : ℕ → B), Holds k c.graph st →
      (∀ n < c.graph.nodes.length, N (st n)) → ∃ ys k', runSound ComplexSound.process c k xs = .ok (ys, k') ∧ ys.length = xs.length := by
    intro xs
    induction xs with
    | nil => intro k st _ _; exact ⟨[], k, rfl, rfl⟩
    | cons z xs ih =>
      intro k st hr hst
      obtain ⟨out, k1, st', e1, e2, e3, -⟩ := C86_process hN hNp k c st z hr hst f1 f2 (by rw [f3]; omega) o3
      obtain ⟨ys, k', e4, e5⟩ := ih k1 st' e2 e3
      exact ⟨out :: ys, k', by rw [runSound, e1]; simp only [e4, Except.map], by simp [e5]⟩
  obtain ⟨ys, h'', he, hlen⟩ := play ((List.range T).map x) h' _ hh fun n _ => hNb n
  rw [List.length_map, List.length_range] at hlen
  refine ⟨ys, h'', he, hlen, ?_⟩
  obtain ⟨y, b, b0, hy⟩ := C142_flow emb h h' h'' ig og l o hco c hc x T ys he
  have key : ∀ t < T, ∀ n ∈ c.getNodes, UpTo k (L n) (y t n) ∧ Q n (b t n) ∧ Q n (b (t + 1) n) := by
    refine time_order fun t ht n hn ih1 ih2 => ?_
    have hq : Q n (b t n) := by
      cases t with
      | zero => rw [b0]; exact hb n hn
      | succ t => exact (ih1 t (by omega) n hn).2.2
    have hcov := hr n hn
    rw [sources_split', List.map_append, List.sum_append] at hcov
    have n1 := sum_sentTo (g := c.graph) (n := n) (y := y t) (L := L) (before c.getNodes n) fun m hm => (ih2 m hm).1
    have n2 : ∀ t, SumUpTo k (if n = 0 then A else 0) (if n = 0 then [x t] else []) := by
      intro t
      split_ifs
      · exact ⟨[A], .cons (hx t) .nil, by simp⟩
      · exact ⟨[], .nil, le_rfl⟩
    have hin : SumUpTo k (I n) (received c.graph c.getNodes 0 x y t n) := by
      cases t with
      | zero =>
        unfold received
        exact ((n2 0).append n1).mono (by omega)
      | succ t =>
        have n3 := sum_sentTo (g := c.graph) (n := n) (y := y t) (L := L) (fromOn c.getNodes n) fun m hm => (ih1 t (by omega) m (fromOn_mem hm)).1
        unfold received
        exact (n3.append ((n2 (t + 1)).append n1)).mono (by omega)
    obtain ⟨y', b', e1, e2, e3⟩ := hQ n hn _ _ hq hin
    have := ((hy t ht).2 n hn).symm.trans e1
    injection this with this
    injection this with i1 i2
    rw [i1, i2]
    exact ⟨e2, hq, e3⟩
  intro v hv
  obtain ⟨t, ht, rfl⟩ := List.mem_iff_getElem.mp hv
  have := (hy t (by omega)).1
  rw [List.getElem?_eq_getElem ht] at this
  injection this with this
  rw [this]
  exact (key t (by omega) 1 h1).1
end

/-! ## C173: blocks -/

/-- An effect in a state of `J`, given at most `I` steps, puts out at most `L` and stays in `J`. -/
def ModLimits {X : Type} [Modifier X F32] (J : X → Prop) (k I L : ℕ) : Prop := ∀ (m : X) (x : F32), J m → UpTo k I x →
  ∃ (y : F32) (m' : X), Modifier.process m x = .ok (y, m') ∧ UpTo k L y ∧ J m'

/-- Generators that stay in `[-1, 1]` put out at most one, whatever the block is given. -/
theorem C173_generator {G : Type} [Generator G F32] {J : G → Prop} (hJ : GenSafe J) (k I : ℕ) :
    Limits (fun b : StandardBlock G Passthrough StdInter F32 => ∃ g, b = StandardBlock.fromGenerator g ∧ J g) k I (2 ^ k) := by
  rintro b us ⟨g, rfl, hg⟩ -
  obtain ⟨y, g', e1, e2, e3⟩ := hJ g hg
  refine ⟨y, StandardBlock.fromGenerator g', ?_, ?_, g', rfl, e3⟩
  · rw [primes_standard]
    show StandardBlock.process _ = _
    simp only [StandardBlock.process, StandardBlock.fromGenerator, Arc.getMutUnwrap, if_true, bind, Except.bind, e1]
    rfl
  · unfold UpTo
    rw [Nat.cast_pow, Nat.cast_ofNat, div_self (by positivity)]
    exact e2

/-- The block of an effect has the limits of the effect. -/
theorem C173_modifier {X : Type} [Modifier X F32] {J : X → Prop} {k I L : ℕ} (hk : k ≤ 100) (hI : I ≤ 2 ^ 24) (hJ : ModLimits J k I L) :
    Limits (fun b : StandardBlock Zero X StdInter F32 => ∃ m, b = StandardBlock.fromModifier m ∧ J m) k I L := by
  rintro b us ⟨m, rfl, hm⟩ hus
  obtain ⟨y, m', e1, e2, e3⟩ := hJ m _ hm (upTo_fold hk hI hus)
  refine ⟨y, StandardBlock.fromModifier m', ?_, e2, m', rfl, e3⟩
  rw [primes_standard]
  show StandardBlock.process _ = _
  simp only [StandardBlock.process, StandardBlock.fromModifier, Arc.getMutUnwrap, if_true, bind, Except.bind, e1]
  rfl

private theorem upTo_mul {k I L : ℕ} (hk : k ≤ 100) (hL : L ≤ 2 ^ 24) {x a : F32} {γ : ℚ} (hx : UpTo k I x) (ha : a.Is γ) (h : I * |γ| ≤ L) : UpTo k L (x * a) := by
  obtain ⟨q, q1, q2⟩ := hx.abs
  have hb : |q * γ| ≤ (L : ℚ) / 2 ^ k := by
    rw [abs_mul]
    refine (mul_le_mul_of_nonneg_right q2 (abs_nonneg _)).trans ?_
    rw [div_mul_eq_mul_div]
    gcongr
  exact upTo_rnd hk hL (q1.mul ha (fits_step hL hb)) hb

/-- A gain scales the limit; delays and envelopes keep it. -/
theorem C173_effects {k I : ℕ} (hk : k ≤ 100) (hI : I ≤ 2 ^ 24) :
    (∀ (a : F32) (γ : ℚ) (L : ℕ), a.Is γ → I * |γ| ≤ L → L ≤ 2 ^ 24 → ModLimits (fun m : Gain F32 => m = Gain.new a) k I L) ∧
    ModLimits (fun _ : Passthrough => True) k I I ∧
    ModLimits (fun m : Delay F32 => ∀ y ∈ m.delay, UpTo k I y) k I I ∧ ModLimits AdsrOk k I I := by
  refine ⟨?_, fun m x _ hx => ⟨x, m, rfl, hx, trivial⟩, ?_, ?_⟩
  · rintro a γ L ha h hL _ x rfl hx
    exact ⟨_, _, rfl, upTo_mul hk hL hx ha h, rfl⟩
  · rintro ⟨q⟩ x hm hx
    cases q with
    | nil => exact ⟨x, ⟨[]⟩, rfl, hx, by simp⟩
    | cons y q =>
      refine ⟨y, ⟨q ++ [x]⟩, rfl, hm y (by simp), fun z hz => ?_⟩
      rcases List.mem_append.mp hz with h | h
      · exact hm z (by simp [h])
      · rw [List.mem_singleton.mp h]; exact hx
  · intro m x hm hx
    refine ⟨(m.process x).1, (m.process x).2, rfl, ?_, hm.process x⟩
    obtain ⟨γ, g1, g2, g3⟩ := (hm.process x).g
    have key : (m.process x).1 = lit 0 ∨ (m.process x).1 = x * (m.process x).2.g := by
      unfold ADSR.process
      cases m.state
      · exact Or.inr rfl
      · exact Or.inr rfl
      · exact Or.inr rfl
      · exact Or.inr rfl
      · exact Or.inl rfl
    rcases key with e | e
    · rw [e]; exact (upTo_zero k).mono (Nat.zero_le I)
    · rw [e]
      refine upTo_mul hk hI hx g1 ?_
      rw [abs_of_nonneg g2]
      exact mul_le_of_le_one_right (by positivity) g3

/-- In a network of blocks of two types each keeps its limits. -/
theorem C173_sum {B C : Type} [Block B F32] [Block C F32] {k I L : ℕ} :
    (∀ {Q : B → Prop}, Limits Q k I L → Limits (fun b : B ⊕ C => ∃ b', b = .inl b' ∧ Q b') k I L) ∧
    ∀ {Q : C → Prop}, Limits Q k I L → Limits (fun b : B ⊕ C => ∃ b', b = .inr b' ∧ Q b') k I L := by
  have p1 : ∀ (us : List F32) (b : B), primes (.inl b : B ⊕ C) us = .inl (primes b us) := by
    intro us
    induction us with
    | nil => intro b; rfl
    | cons u us ih => intro b; exact ih (Block.prime b u)
  have p2 : ∀ (us : List F32) (b : C), primes (.inr b : B ⊕ C) us = .inr (primes b us) := by
    intro us
    induction us with
    | nil => intro b; rfl
    | cons u us ih => intro b; exact ih (Block.prime b u)
  constructor
  · rintro Q hQ _ us ⟨b, rfl, hb⟩ hus
    obtain ⟨y, b', e1, e2, e3⟩ := hQ b us hb hus
    refine ⟨y, .inl b', ?_, e2, b', rfl, e3⟩
    rw [p1]
    show (Block.process (primes b us)).map _ = _
    rw [e1]; rfl
  · rintro Q hQ _ us ⟨b, rfl, hb⟩ hus
    obtain ⟨y, b', e1, e2, e3⟩ := hQ b us hb hus
    refine ⟨y, .inr b', ?_, e2, b', rfl, e3⟩
    rw [p2]
    show (Block.process (primes b us)).map _ = _
    rw [e1]; rfl

/-! ## C173: the rule of thumb -/

/-- IEEE: a sound made of generators, with at most K blocks connected to its output and an output gain of at most 1/K, never leaves
`[-1, 1]`, whatever the generators play. -/
theorem C173_voices {G : Type} [Generator G F32] {J : G → Prop} (hJ : GenSafe J)
    (h h' : Heap (StandardBlock G Passthrough StdInter F32 ⊕ GainBlock F32)) (ig og : F64) {γi γ : ℚ} (hi : (SM.down ig : F32).Is γi) (hi1 : |γi| ≤ 1)
    (ho : (SM.down og : F32).Is γ)
    (l : List (BuildCall (StandardBlock G Passthrough StdInter F32 ⊕ GainBlock F32))) (o : BuildCall (StandardBlock G Passthrough StdInter F32 ⊕ GainBlock F32))
    (hl : ∀ b ∈ newBlocks l, ∃ g, b = .inl (StandardBlock.fromGenerator g) ∧ J g) (hco : o.isConn) (c : ComplexSound)
    (hc : cxCalls (S := F32) (ComplexSound.new .inr h ig og).2 (ComplexSound.new .inr h ig og).1 ((l ++ [o]).map BuildCall.call) = .ok (h', c))
    {K : ℕ} (hK : (sources c.graph c.getNodes 1).length ≤ K) (hK24 : K ≤ 2 ^ 24) (hγ : K * |γ| ≤ 1) (h0 : sources c.graph c.getNodes 0 = [])
    (x : ℕ → F32) (hx : ∀ t, (x t).In (-1) 1) (T : ℕ) :
    ∃ ys h'', runSound ComplexSound.process c h' ((List.range T).map x) = .ok (ys, h'') ∧ ys.length = T ∧ ∀ y ∈ ys, y.In (-1) 1 := by
  let Nb : StandardBlock G Passthrough StdInter F32 ⊕ GainBlock F32 → Prop := fun b => match b with
    | .inl b => ∃ g v, b = { (StandardBlock.fromGenerator g : StandardBlock G Passthrough StdInter F32) with input := v } ∧ J g
    | .inr b => ∃ a v, b = { (StandardBlock.fromModifier (Gain.new a) : GainBlock F32) with input := v }
  have hbig : ∀ n, (newBlocks l).length ≤ n → builtBlocks (S := F32) (M := F64) Sum.inr ig og l (n + 2) = .inr (StandardBlock.fromModifier (Gain.new (SM.down og))) := by
    intro n hn
    simp only [builtBlocks, List.getD_eq_getElem?_getD]
    rw [List.getElem?_eq_none hn]
    rfl
  have hsmall : ∀ n, n < (newBlocks l).length → ∃ g, builtBlocks (S := F32) (M := F64) Sum.inr ig og l (n + 2) = .inl (StandardBlock.fromGenerator g) ∧ J g := by
    intro n hn
    simp only [builtBlocks, List.getD_eq_getElem?_getD]
    rw [List.getElem?_eq_getElem hn]
    exact hl _ (List.getElem_mem hn)
  obtain ⟨f1, f2, f3, f4, f5, f6, f7, -, o2, o3, hh, -⟩ := built_network hco hc
  have hlen := built_length hco hc
  have e1 : ∀ v : F32, UpTo 0 1 v ↔ v.In (-1) 1 := fun v => by unfold UpTo; norm_num
  let L : ℕ → ℕ := fun _ => 1
  let I : ℕ → ℕ := fun n => if n = 0 then 1 else if n = 1 then K else (sources c.graph c.getNodes n).length
  let Q : ℕ → StandardBlock G Passthrough StdInter F32 ⊕ GainBlock F32 → Prop := fun n b =>
    if n = 0 then ∃ b', b = .inr b' ∧ ∃ m, b' = StandardBlock.fromModifier m ∧ m = Gain.new (SM.down ig)
    else if n = 1 then ∃ b', b = .inr b' ∧ ∃ m, b' = StandardBlock.fromModifier m ∧ m = Gain.new (SM.down og)
    else ∃ b', b = .inl b' ∧ ∃ g, b' = StandardBlock.fromGenerator g ∧ J g
  suffices hs : ∃ ys h'', runSound ComplexSound.process c h' ((List.range T).map x) = .ok (ys, h'') ∧ ys.length = T ∧ ∀ y ∈ ys, UpTo 0 (L 1) y by
    obtain ⟨ys, h'', r1, r2, r3⟩ := hs
    exact ⟨ys, h'', r1, r2, fun y hy => (e1 y).mp (r3 y hy)⟩
  refine C173_network .inr h h' ig og l o hco c hc (N := Nb) ?_ ?_ ?_ (k := 0) (A := 1) (L := L) (I := I) (Q := Q) ?_ ?_ ?_ x
    (fun t => (e1 _).mpr (hx t)) T
  · rintro (b | b) hb
    · obtain ⟨g, v, rfl, hg⟩ := hb
      obtain ⟨y, g', a1, a2, a3⟩ := hJ g hg
      refine ⟨y, .inl (StandardBlock.fromGenerator g'), ?_, g', dflt, rfl, a3⟩
      show (StandardBlock.process _).map _ = _
      simp only [StandardBlock.process, StandardBlock.fromGenerator, Arc.getMutUnwrap, if_true, bind, Except.bind, a1]
      rfl
    · obtain ⟨a, v, rfl⟩ := hb
      exact ⟨v * a, .inr (StandardBlock.fromModifier (Gain.new a)), rfl, a, dflt, rfl⟩
  · rintro (b | b) z hb
    · obtain ⟨g, v, rfl, hg⟩ := hb
      exact ⟨g, v + z, rfl, hg⟩
    · obtain ⟨a, v, rfl⟩ := hb
      exact ⟨a, v + z, rfl⟩
  · intro n
    match n with
    | 0 => exact ⟨SM.down ig, dflt, rfl⟩
    | 1 => exact ⟨SM.down og, dflt, rfl⟩
    | n + 2 =>
      by_cases hn : n < (newBlocks l).length
      · obtain ⟨g, a1, a2⟩ := hsmall n hn
        rw [a1]
        exact ⟨g, dflt, rfl, a2⟩
      · rw [hbig n (by omega)]
        exact ⟨SM.down og, dflt, rfl⟩
  · intro n _
    have hs : ((sources c.graph c.getNodes n).map L).sum = (sources c.graph c.getNodes n).length := by simp [L]
    rw [hs]
    simp only [I]
    split_ifs with n0 n1
    · rw [n0, h0]; simp
    · rw [n1]; omega
    · omega
  · intro n _
    simp only [Q, I, L]
    split_ifs with n0 n1
    · exact C173_sum.2 (C173_modifier (by norm_num) (by norm_num) ((C173_effects (by norm_num) (by norm_num)).1 _ γi 1 hi (by simpa using hi1) (by norm_num)))
    · exact C173_sum.2 (C173_modifier (by norm_num) hK24 ((C173_effects (by norm_num) hK24).1 _ γ 1 ho (by simpa using hγ) (by norm_num)))
    · exact C173_sum.1 (by simpa using C173_generator hJ 0 _)
  · intro n hn
    have hlt := o3 n hn
    simp only [Q]
    match n with
    | 0 => exact ⟨_, rfl, _, rfl, rfl⟩
    | 1 => exact ⟨_, rfl, _, rfl, rfl⟩
    | n + 2 =>
      rw [if_neg (by omega), if_neg (by omega)]
      obtain ⟨g, a1, a2⟩ := hsmall n (by omega)
      exact ⟨_, a1, g, rfl, a2⟩

/-! ## Examples -/

/-- Three voices side by side, all connected to the output but for the last connection. -/
private def threeVoices {G : Type} (g1 g2 g3 : G) : List (BuildCall (StandardBlock G Passthrough StdInter F32 ⊕ GainBlock F32)) :=
  [.block (.inl (StandardBlock.fromGenerator g1)), .block (.inl (StandardBlock.fromGenerator g2)), .block (.inl (StandardBlock.fromGenerator g3)),
    .connect 2 1, .connect 3 1]

private abbrev VB := StandardBlock (Square F64) Passthrough StdInter F32 ⊕ GainBlock F32
private abbrev toVB : GainBlock F32 → VB := Sum.inr

/-- The sound of three square waves with the output gain `og`. -/
private def threeBuilt (og : F64) : Res (Heap VB × ComplexSound) :=
  cxCalls (S := F32) (ComplexSound.new toVB [] (lit 1 : F64) og).2 (ComplexSound.new toVB [] (lit 1 : F64) og).1
    ((threeVoices (Square.new (lit 440)) (Square.new (lit 550)) (Square.new (lit 660)) ++ [BuildCall.connect 4 1]).map BuildCall.call)

/-- With output gain 1/4 it stays in `[-1, 1]`. -/
example (x : ℕ → F32) (hx : ∀ t, (x t).In (-1) 1) (T : ℕ) : ∃ (h' : Heap VB) (c : ComplexSound) (ys : List F32) (h'' : Heap VB),
    threeBuilt (lit (1 / 4)) = .ok (h', c) ∧ runSound ComplexSound.process c h' ((List.range T).map x) = .ok (ys, h'') ∧ ys.length = T ∧
    ∀ y ∈ ys, y.In (-1) 1 := by
  have hr : ∀ n : ℕ, n ≤ 24000 → Reached (G := Square F64) Square.new Square.setFrequency (Square.new (lit n)) := fun n hn =>
    ⟨lit n, [], ⟨n, lit64_nat (n := n) (by omega), by positivity, by exact_mod_cast hn⟩, by simp [FreqsOk], rfl⟩
  have e : (threeBuilt (lit (1 / 4))).toOption.map (fun r => (r.2.graph.nodes, r.2.graph.edges, r.2.getNodes)) =
      some ([0, 1, 2, 3, 4], [(4, 1), (3, 1), (2, 1)], [0, 2, 3, 4, 1]) := by decide +kernel
  cases hb : threeBuilt (lit (1 / 4)) with
  | error e' => rw [hb] at e; cases e
  | ok r =>
    obtain ⟨h', c⟩ := r
    rw [hb] at e
    simp only [Except.toOption, Option.map_some, Option.some.injEq, Prod.mk.injEq] at e
    obtain ⟨-, e2, e3⟩ := e
    obtain ⟨ys, h'', r1, r2, r3⟩ := C173_voices C122_generators.2.2.1 [] h' (lit 1) (lit (1 / 4)) (γi := 1) (γ := 1 / 4) (by decide +kernel) (by norm_num)
      (by decide +kernel) (threeVoices (Square.new (lit 440)) (Square.new (lit 550)) (Square.new (lit 660))) (.connect 4 1) (by
        intro b hb
        simp only [threeVoices, newBlocks, List.mem_cons, List.not_mem_nil, or_false] at hb
        rcases hb with rfl | rfl | rfl
        · exact ⟨_, rfl, hr 440 (by norm_num)⟩
        · exact ⟨_, rfl, hr 550 (by norm_num)⟩
        · exact ⟨_, rfl, hr 660 (by norm_num)⟩) trivial c hb (K := 3) (by unfold sources; rw [e2, e3]; decide) (by norm_num)
      (by rw [abs_of_pos (by norm_num)]; norm_num) (by unfold sources; rw [e2, e3]; decide) x hx T
    exact ⟨h', c, ys, h'', rfl, r1, r2, r3⟩

/-- With output gain 1 it does not: the first sample is 3. -/
example : (match threeBuilt (lit 1) with
    | .ok (h, c) => ((runSound ComplexSound.process c h [lit 0]).map Prod.fst).toOption
    | .error _ => none) = some [(lit 3 : F32)] := by decide +kernel

end Verif
