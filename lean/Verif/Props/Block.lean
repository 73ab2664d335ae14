import Verif.Model.Sounds
import Verif.Spec.Block
import Verif.Spec.Filter
import Verif.Spec.History
import Verif.Float.Lemmas

set_option linter.unusedSectionVars false

/-! # StandardBlock: C74, C75 -/

namespace Verif

section
variable {G X I S : Type} [Flt S] [Generator G S] [Modifier X S] [InterFn I S]

private theorem foldl_prime (b : StandardBlock G X I S) (xs : List S) :
    xs.foldl StandardBlock.primeInput b = { b with input := xs.foldl (· + ·) b.input } := by
  induction xs generalizing b with
  | nil => rfl
  | cons x xs ih => rw [List.foldl_cons, ih]; rfl

/-- Any arithmetic, any generator, modifier and interactor: the modifier gets the left-to-right sum `0 + x₁ + … + xₙ` of
the primed inputs, the interactor combines generator and modifier output, and the accumulated input is 0 afterwards. -/
theorem C74_process (g g' : G) (m m' : X) (i i' : I) (xs : List S) (yg ym y : S)
    (hg : Generator.process g = .ok (yg, g')) (hm : Modifier.process m (xs.foldl (· + ·) (lit 0)) = .ok (ym, m'))
    (hi : InterFn.call i yg ym = .ok (y, i')) :
    StandardBlock.process (xs.foldl StandardBlock.primeInput (StandardBlock.new g m ⟨i, 0⟩)) = .ok (y, ⟨⟨g', 0⟩, ⟨m', 0⟩, ⟨i', 0⟩, lit 0⟩) := by
  rw [foldl_prime]
  have hm' : Modifier.process m (xs.foldl (· + ·) (dflt : S)) = .ok (ym, m') := hm
  simp only [StandardBlock.process, StandardBlock.new, Arc.getMutUnwrap, if_true, bind, Except.bind, hg, hm', hi]
  rfl

/-- Inputs 1 and 2 into a gain of 3. -/
example : StandardBlock.process (([lit 1, lit 2] : List F32).foldl StandardBlock.primeInput (StandardBlock.new (⟨⟩ : Zero) (Gain.new (lit 3 : F32)) ⟨StdInter.mod, 0⟩)) =
    .ok (lit 9, ⟨⟨⟨⟩, 0⟩, ⟨Gain.new (lit 3), 0⟩, ⟨StdInter.mod, 0⟩, lit 0⟩) := by
  have h : (lit 0 + lit 1 + lit 2 : F32) * lit 3 = lit 9 := by decide +kernel
  rw [C74_process (⟨⟩ : Zero) _ (Gain.new (lit 3)) _ StdInter.mod _ [lit 1, lit 2] (lit 0) _ _ rfl rfl rfl]
  exact congrArg (fun y => Except.ok (y, _)) h

/-- The converse: a `process` that returns did exactly that. -/
theorem C74_returns (g : G) (m : X) (i : I) (xs : List S) (y : S) (b : StandardBlock G X I S)
    (h : StandardBlock.process (xs.foldl StandardBlock.primeInput (StandardBlock.new g m ⟨i, 0⟩)) = .ok (y, b)) :
    ∃ yg g' ym m' i', Generator.process g = .ok (yg, g') ∧ Modifier.process m (xs.foldl (· + ·) (lit 0)) = .ok (ym, m') ∧
      InterFn.call i yg ym = .ok (y, i') ∧ b = ⟨⟨g', 0⟩, ⟨m', 0⟩, ⟨i', 0⟩, lit 0⟩ := by
  rw [foldl_prime] at h
  simp only [StandardBlock.process, StandardBlock.new, Arc.getMutUnwrap, if_true, bind, Except.bind] at h
  cases hg : (Generator.process g : Res (S × G)) with
  | error e => simp [hg] at h
  | ok p =>
    cases hm : Modifier.process m (xs.foldl (· + ·) (dflt : S)) with
    | error e => simp [hg, hm] at h
    | ok q =>
      cases hi : InterFn.call i p.1 q.1 with
      | error e => simp [hg, hm, hi] at h
      | ok r =>
        simp only [hg, hm, hi] at h
        injection h with h
        injection h with h1 h2
        exact ⟨p.1, p.2, q.1, q.2, r.2, rfl, hm, by rw [hi, ← h1], h2.symm⟩

/-- The block above returns, so its parts do. -/
example : ∃ yg g' ym m' i', Generator.process (⟨⟩ : Zero) = .ok ((yg : F32), g') ∧ Modifier.process (Gain.new (lit 3 : F32)) (lit 0 + lit 1) = .ok (ym, m') ∧
    InterFn.call StdInter.mod yg ym = .ok ((lit 0 + lit 1 : F32) * lit 3, i') ∧
    (⟨⟨⟨⟩, 0⟩, ⟨Gain.new (lit 3), 0⟩, ⟨StdInter.mod, 0⟩, lit 0⟩ : StandardBlock Zero (Gain F32) StdInter F32) = ⟨⟨g', 0⟩, ⟨m', 0⟩, ⟨i', 0⟩, lit 0⟩ :=
  C74_returns _ _ _ [lit 1] _ _ rfl

/-- A block whose generator, modifier or interactor is shared panics. -/
theorem C74_shared (b : StandardBlock G X I S) (h : 0 < b.g.others ∨ 0 < b.m.others ∨ 0 < b.i.others) :
    ∃ e, b.process = .error e := by
  cases hp : b.process with
  | error e => exact ⟨e, rfl⟩
  | ok r =>
    exfalso
    unfold StandardBlock.process at hp
    simp only [Arc.getMutUnwrap, bind, Except.bind] at hp
    by_cases h3 : b.i.others = 0
    · by_cases h1 : b.g.others = 0
      · have h2 : ¬ b.m.others = 0 := by omega
        simp only [h3, h1, h2, if_true, if_false] at hp
        cases hg : (Generator.process b.g.val : Res (S × G)) with
        | error e => simp [hg] at hp
        | ok p => simp [hg] at hp
      · simp [h3, h1] at hp
    · simp [h3] at hp

/-- A generator with one other owner. -/
example : ∃ e, (⟨⟨⟨⟩, 1⟩, ⟨Gain.new (lit 3), 0⟩, ⟨StdInter.mod, 0⟩, lit 0⟩ : StandardBlock Zero (Gain F32) StdInter F32).process = .error e :=
  C74_shared _ (.inl (by decide))

/-- State after `k` steps with one of the three provided interactors. -/
theorem block_after (g : G) (m : X) (i : StdInter) (u : ℕ → List S) : ∀ k g' m', afterR (S := S) Generator.process k g = .ok g' →
    modAfter Modifier.process (fun k => (u k).foldl (· + ·) (lit 0)) m k = .ok m' →
    blockAfter StandardBlock.primeInput StandardBlock.process u (StandardBlock.new g m ⟨i, 0⟩) k = .ok (StandardBlock.new g' m' ⟨i, 0⟩) := by
  intro k
  induction k with
  | zero => intro g' m' h1 h2; cases h1; cases h2; rfl
  | succ k ih =>
    intro g' m' h1 h2
    simp only [modAfter] at h2
    cases hk : modAfter Modifier.process (fun k => (u k).foldl (· + ·) (lit 0)) m k with
    | error e => simp [hk] at h2
    | ok mk =>
      rw [hk] at h2
      cases hgk : afterR (S := S) (E := Panic) Generator.process k g with
      | error e =>
        exfalso
        have : ∀ k (g : G) e, afterR (S := S) (E := Panic) Generator.process k g = .error e → ∀ g', afterR (S := S) (E := Panic) Generator.process (k + 1) g ≠ .ok g' := by
          intro k
          induction k with
          | zero => intro g e h; cases h
          | succ k ih =>
            intro g e h g' h'
            rw [afterR] at h h'
            split at h'
            · cases h'
            · rename_i heq
              rw [heq] at h
              exact ih _ _ h _ h'
        exact this k g e hgk g' h1
      | ok gk =>
        rw [blockAfter, ih gk mk hgk hk]
        cases hp : (Generator.process gk : Res (S × G)) with
        | error e =>
          exfalso
          have : ∀ k (g gk : G), afterR (S := S) (E := Panic) Generator.process k g = .ok gk → Generator.process (S := S) gk = .error e →
              ∀ g', afterR (S := S) (E := Panic) Generator.process (k + 1) g ≠ .ok g' := by
            intro k
            induction k with
            | zero => intro g gk h h2 g' h'; cases h; rw [afterR, h2] at h'; cases h'
            | succ k ih =>
              intro g gk h h2 g' h'
              rw [afterR] at h h'
              split at h'
              · cases h'
              · rename_i heq
                rw [heq] at h
                exact ih _ _ h h2 _ h'
          exact this k g gk hgk hp g' h1
        | ok p =>
          have hg' : g' = p.2 := by
            have := afterR_succ hgk hp
            rw [h1] at this
            exact Except.ok.inj this
          cases hq : Modifier.process mk ((u k).foldl (· + ·) (lit 0)) with
          | error e => simp [hq, Except.map] at h2
          | ok q =>
            simp only [hq, Except.map] at h2
            have hm' := Except.ok.inj h2
            simp only [C74_process gk p.2 mk q.2 i i (u k) p.1 q.1 (i.call p.1 q.1) hp hq rfl, Except.map, hg', ← hm']
            rfl

/-- Any number of steps with one of the three provided interactors: output `n` is the interactor applied to the
generator's sample `n` and the modifier's output for the sequence of primed sums. -/
theorem C75_steps (g : G) (m : X) (i : StdInter) (u : ℕ → List S) (n : ℕ) (yg ym : S)
    (hg : nthR Generator.process g n = .ok yg) (hm : modOut Modifier.process (fun k => (u k).foldl (· + ·) (lit 0)) m n = .ok ym) :
    blockOut StandardBlock.primeInput StandardBlock.process u (StandardBlock.new g m ⟨i, 0⟩) n = .ok (i.call yg ym) := by
  have key := block_after (S := S) g m i u
  unfold nthR at hg
  unfold modOut at hm
  cases hgk : afterR (S := S) (E := Panic) Generator.process n g with
  | error e => simp [hgk] at hg
  | ok gk =>
    cases hmk : modAfter Modifier.process (fun k => (u k).foldl (· + ·) (lit 0)) m n with
    | error e => simp [hmk] at hm
    | ok mk =>
      rw [hgk] at hg
      rw [hmk] at hm
      simp only [] at hg hm
      unfold blockOut
      rw [key n gk mk hgk hmk]
      cases hp : (Generator.process gk : Res (S × G)) with
      | error e => simp [hp, Except.map] at hg
      | ok p =>
        cases hq : Modifier.process mk ((u n).foldl (· + ·) (lit 0)) with
        | error e => simp [hq, Except.map] at hm
        | ok q =>
          simp only [hp, Except.map] at hg
          simp only [hq, Except.map] at hm
          simp only [C74_process gk p.2 mk q.2 i i (u n) p.1 q.1 (i.call p.1 q.1) hp hq rfl, Except.map]
          rw [Except.ok.inj hg, Except.ok.inj hm]

/-- A sum of generator and modifier, at the third sample. -/
example : blockOut StandardBlock.primeInput StandardBlock.process (fun _ => [(lit 2 : F32)]) (StandardBlock.new (⟨⟩ : Zero) (Gain.new (lit 3 : F32)) ⟨StdInter.mod, 0⟩) 2 =
    .ok (StdInter.call .mod (lit 0) ((lit 0 + lit 2) * lit 3)) :=
  C75_steps _ _ _ _ 2 _ _ rfl rfl

private theorem passthrough_out (x : ℕ → S) (n : ℕ) : modOut Modifier.process x (⟨⟩ : Passthrough) n = .ok (x n) := by
  have : modAfter (E := Panic) Modifier.process x (⟨⟩ : Passthrough) n = .ok ⟨⟩ := by
    induction n with
    | zero => rfl
    | succ n ih => exact modAfter_succ ih (y := x n) rfl
  exact modOut_of this (m'' := ⟨⟩) rfl

private theorem zero_out (n : ℕ) : nthR (S := S) Generator.process (⟨⟩ : Zero) n = .ok (lit 0) := by
  have : afterR (S := S) (E := Panic) Generator.process n (⟨⟩ : Zero) = .ok ⟨⟩ := by
    induction n with
    | zero => rfl
    | succ n ih => exact afterR_succ ih (y := (lit 0 : S)) rfl
  unfold nthR
  rw [this]
  rfl

/-- `from_generator(g)` emits exactly `g`'s samples, whatever is primed. -/
theorem C75_from_generator (g : G) (u : ℕ → List S) (n : ℕ) (y : S) (hg : nthR Generator.process g n = .ok y) :
    blockOut StandardBlock.primeInput StandardBlock.process u (StandardBlock.fromGenerator g) n = .ok y :=
  C75_steps g (⟨⟩ : Passthrough) .gen u n y _ hg (passthrough_out _ n)

example : blockOut StandardBlock.primeInput StandardBlock.process (fun _ => [(lit 2 : F32)]) (StandardBlock.fromGenerator (⟨⟩ : Zero)) 5 = .ok (lit 0) :=
  C75_from_generator _ _ 5 _ rfl

/-- `from_modifier(m)` emits exactly `m` applied to the sums of the primed inputs. -/
theorem C75_from_modifier (m : X) (u : ℕ → List S) (n : ℕ) (y : S)
    (hm : modOut Modifier.process (fun k => (u k).foldl (· + ·) (lit 0)) m n = .ok y) :
    blockOut StandardBlock.primeInput StandardBlock.process u (StandardBlock.fromModifier m) n = .ok y :=
  C75_steps (⟨⟩ : Zero) m .mod u n _ y (zero_out n) hm

/-- With the default interactor the two outputs are multiplied. -/
theorem C75_default (g : G) (m : X) (u : ℕ → List S) (n : ℕ) (yg ym : S) (hg : nthR Generator.process g n = .ok yg)
    (hm : modOut Modifier.process (fun k => (u k).foldl (· + ·) (lit 0)) m n = .ok ym) :
    blockOut StandardBlock.primeInput StandardBlock.process u (StandardBlock.new g m ⟨StdInter.mul, 0⟩) n = .ok (yg * ym) :=
  C75_steps g m .mul u n yg ym hg hm
example : blockOut StandardBlock.primeInput StandardBlock.process (fun _ => [(lit 2 : F32)]) (StandardBlock.new (⟨⟩ : Zero) (Gain.new (lit 3 : F32)) ⟨StdInter.mul, 0⟩) 1 =
    .ok (lit 0 * ((lit 0 + lit 2) * lit 3)) :=
  C75_default _ _ _ 1 _ _ rfl rfl

end

example : blockOut StandardBlock.primeInput StandardBlock.process (fun k => if k = 1 then [lit 1, lit 2] else ([] : List F32))
    (StandardBlock.fromModifier (Gain.new (lit 3 : F32))) 1 = .ok (lit 9) := by
  refine C75_from_modifier _ _ 1 _ ?_
  have : ((lit 0 + lit 1 + lit 2 : F32) * lit 3) = lit 9 := by decide +kernel
  show Except.ok _ = _
  exact congrArg Except.ok this

end Verif
