import Verif.Props.Block
import Verif.Props.OscState

set_option linter.unusedSectionVars false

/-! # Replacing the parts of a running block: C131 -/

namespace Verif

section
variable {G X I S : Type} [Flt S] [Generator G S] [Modifier X S] [InterFn I S]

private theorem modOut_shift {Y E : Type} {p : Y → S → Except E (S × Y)} {x : ℕ → S} {m m' : Y} {k : ℕ}
    (h : modAfter p x m k = .ok m') (n : ℕ) : modOut p (fun j => x (k + j)) m' n = modOut p x m (k + n) := by
  have key : ∀ n, modAfter p (fun j => x (k + j)) m' n = modAfter p x m (k + n) := by
    intro n
    induction n with
    | zero => rw [Nat.add_zero, h]; rfl
    | succ n ih => rw [modAfter, ih]; rfl
  unfold modOut
  rw [key]

private theorem nthR_shift {Y E : Type} {p : Y → Except E (S × Y)} (k : ℕ) : ∀ {g g' : Y}, afterR p k g = .ok g' → ∀ n,
    nthR p g' n = nthR p g (k + n) := by
  have key : ∀ (k : ℕ) (g g' : Y), afterR p k g = .ok g' → ∀ n, afterR p n g' = afterR p (k + n) g := by
    intro k
    induction k with
    | zero => intro g g' h n; cases h; rw [Nat.zero_add]
    | succ k ih =>
      intro g g' h n
      rw [Nat.succ_add, afterR]
      rw [afterR] at h
      split at h
      · cases h
      · exact ih _ _ h n
  intro g g' h n
  unfold nthR
  rw [key k g g' h]

/-- A new generator stored in a running block after `k` steps: it starts from its own first sample, and the modifier goes
on as if nothing had happened. -/
theorem C131_generator (g g' : G) (m : X) (i : StdInter) (u : ℕ → List S) (k n : ℕ) (gk : G) (yg ym : S)
    (hk : afterR (S := S) Generator.process k g = .ok gk) (hg : nthR Generator.process g' n = .ok yg)
    (hm : modOut Modifier.process (fun j => (u j).foldl (· + ·) (lit 0)) m (k + n) = .ok ym) :
    ∃ b, blockAfter StandardBlock.primeInput StandardBlock.process u (StandardBlock.new g m ⟨i, 0⟩) k = .ok b ∧
      blockOut StandardBlock.primeInput StandardBlock.process (fun j => u (k + j)) (b.setG ⟨g', 0⟩) n = .ok (i.call yg ym) := by
  cases hmk : modAfter Modifier.process (fun j => (u j).foldl (· + ·) (lit 0)) m k with
  | error e =>
    exfalso
    have : ∀ n, modAfter Modifier.process (fun j => (u j).foldl (· + ·) (lit 0)) m (k + n) = .error e := by
      intro n
      induction n with
      | zero => exact hmk
      | succ n ih => rw [← Nat.add_assoc, modAfter, ih]
    rw [modOut, this n] at hm
    cases hm
  | ok mk =>
    refine ⟨_, block_after g m i u k gk mk hk hmk, ?_⟩
    refine C75_steps g' mk i (fun j => u (k + j)) n yg ym hg ?_
    rw [← hm]
    exact modOut_shift hmk n

/-- Replacing the generator of a block after three samples. -/
example : ∃ b, blockAfter StandardBlock.primeInput StandardBlock.process (fun _ => ([] : List F32)) (StandardBlock.new (⟨⟩ : Zero) (Gain.new (lit 3 : F32)) ⟨StdInter.mul, 0⟩) 3 = .ok b ∧
    blockOut StandardBlock.primeInput StandardBlock.process (fun _ => ([] : List F32)) (b.setG ⟨⟨⟩, 0⟩) 1 = .ok (StdInter.call .mul (lit 0) (lit 0 * lit 3)) :=
  C131_generator _ _ _ _ (fun _ => []) 3 1 _ (lit 0) (lit 0 * lit 3) rfl rfl rfl

/-- A new modifier stored in a running block after `k` steps: it sees only the inputs from then on, and the generator goes
on as if nothing had happened. -/
theorem C131_modifier (g : G) (m m' : X) (i : StdInter) (u : ℕ → List S) (k n : ℕ) (gk : G) (mk : X) (yg ym : S)
    (hk : afterR (S := S) Generator.process k g = .ok gk)
    (hmk : modAfter Modifier.process (fun j => (u j).foldl (· + ·) (lit 0)) m k = .ok mk)
    (hg : nthR Generator.process g (k + n) = .ok yg)
    (hm : modOut Modifier.process (fun j => (u (k + j)).foldl (· + ·) (lit 0)) m' n = .ok ym) :
    ∃ b, blockAfter StandardBlock.primeInput StandardBlock.process u (StandardBlock.new g m ⟨i, 0⟩) k = .ok b ∧
      blockOut StandardBlock.primeInput StandardBlock.process (fun j => u (k + j)) (b.setM ⟨m', 0⟩) n = .ok (i.call yg ym) := by
  refine ⟨_, block_after g m i u k gk mk hk hmk, ?_⟩
  refine C75_steps gk m' i (fun j => u (k + j)) n yg ym ?_ hm
  rw [nthR_shift k hk, hg]

/-- Inputs primed before the replacement are not lost, in either order. -/
theorem C131_pending (b : StandardBlock G X I S) (xs : List S) (a : Arc G) (c : Arc X) :
    (xs.foldl StandardBlock.primeInput b).setG a = xs.foldl StandardBlock.primeInput (b.setG a) ∧
    (xs.foldl StandardBlock.primeInput b).setM c = xs.foldl StandardBlock.primeInput (b.setM c) ∧
    (b.setG a).setM c = (b.setM c).setG a := by
  refine ⟨?_, ?_, rfl⟩
  · induction xs generalizing b with
    | nil => rfl
    | cons x xs ih => rw [List.foldl_cons, List.foldl_cons, ih]; rfl
  · induction xs generalizing b with
    | nil => rfl
    | cons x xs ih => rw [List.foldl_cons, List.foldl_cons, ih]; rfl

/-- A block that panics because its generator or modifier is shared works again once both are replaced by unshared ones,
and one whose replacement is shared panics. -/
theorem C131_unshare (b : StandardBlock G X I S) (g g' : G) (m m' : X) (i' : I) (yg ym y : S) (hi : b.i.others = 0)
    (hg : Generator.process g = .ok (yg, g')) (hm : Modifier.process m b.input = .ok (ym, m'))
    (hc : InterFn.call b.i.val yg ym = .ok (y, i')) :
    ((b.setG ⟨g, 0⟩).setM ⟨m, 0⟩).process = .ok (y, ⟨⟨g', 0⟩, ⟨m', 0⟩, ⟨i', 0⟩, lit 0⟩) ∧
    (∀ k, ∃ e, (b.setG ⟨g, k + 1⟩).process = .error e) ∧ (∀ k, ∃ e, (b.setM ⟨m, k + 1⟩).process = .error e) := by
  refine ⟨?_, fun k => C74_shared _ (Or.inl (Nat.succ_pos k)), fun k => C74_shared _ (Or.inr (Or.inl (Nat.succ_pos k)))⟩
  simp only [StandardBlock.process, StandardBlock.setG, StandardBlock.setM, Arc.getMutUnwrap, if_true, bind, Except.bind, hg, hm, hc, hi]
  rfl

/-- Keeping a clone of the `Arc` that `get_g` or `get_m` hands out makes the block panic; priming it still works. -/
theorem C131_share (b : StandardBlock G X I S) (xs : List S) :
    (∃ e, (xs.foldl StandardBlock.primeInput b.shareG).process = .error e) ∧ (∃ e, (xs.foldl StandardBlock.primeInput b.shareM).process = .error e) := by
  have hp : ∀ b : StandardBlock G X I S, (xs.foldl StandardBlock.primeInput b).g = b.g ∧ (xs.foldl StandardBlock.primeInput b).m = b.m := by
    induction xs with
    | nil => exact fun b => ⟨rfl, rfl⟩
    | cons x xs ih => exact fun b => ih (b.primeInput x)
  exact ⟨C74_shared _ (Or.inl (by rw [(hp _).1]; exact Nat.succ_pos _)), C74_shared _ (Or.inr (Or.inl (by rw [(hp _).2]; exact Nat.succ_pos _)))⟩
end

/-- A block that amplifies by 3 is switched to 5 after one step. -/
example : ∃ b : StandardBlock Zero (Gain F32) StdInter F32,
    blockAfter StandardBlock.primeInput StandardBlock.process (fun _ => [lit 2]) (StandardBlock.fromModifier (Gain.new (lit 3 : F32))) 1 = .ok b ∧
    blockOut StandardBlock.primeInput StandardBlock.process (fun _ => [lit 2]) (b.setM ⟨Gain.new (lit 5 : F32), 0⟩) 0 = .ok (lit 10) := by
  have h : StdInter.call .mod (lit 0 : F32) ((lit 0 + lit 2 : F32) * lit 5) = lit 10 := by decide +kernel
  have := C131_modifier (S := F32) (⟨⟩ : Zero) (Gain.new (lit 3 : F32)) (Gain.new (lit 5 : F32)) .mod (fun _ => [lit 2]) 1 0 ⟨⟩ _ (lit 0)
    ((lit 0 + lit 2 : F32) * lit 5) rfl rfl rfl rfl
  rwa [h] at this

/-! ## Noise as the generator of a block (C43) -/

/-- In IEEE arithmetic: what a block made from white noise emits at step `n`, whatever is primed, is the `n`-th draw scaled to
`[-1, 1)`. -/
theorem C43_block {R : Type} [Draw R F32] (r : R) (hd : ∀ r : R, ∃ k : ℕ, k < 2 ^ 24 ∧ (Draw.draw r : F32 × R).1.Is (k / 2 ^ 24))
    (u : ℕ → List F32) (n : ℕ) :
    ∃ (k : ℕ) (y : F32), k < 2 ^ 24 ∧
      (Draw.draw ((fun r : R => (Draw.draw r : F32 × R).2)^[n] r) : F32 × R).1.Is (k / 2 ^ 24) ∧
      blockOut StandardBlock.primeInput StandardBlock.process u (StandardBlock.fromGenerator (Noise.new r)) n = .ok y ∧
      y.Is (2 * (k / 2 ^ 24) - 1) ∧ (-1 : ℚ) ≤ 2 * (k / 2 ^ 24) - 1 ∧ (2 * (k / 2 ^ 24) - 1 : ℚ) < 1 := by
  obtain ⟨k, h1, h2, h3, h4, h5⟩ := C43_noise (Draw.draw : R → F32 × R) r hd n
  refine ⟨k, _, h1, ?_, C75_from_generator (Noise.new r) u n _ ?_, h3, h4, h5⟩
  · convert h2 using 3
    have : ∀ (n : ℕ) (r : R), (fun r : R => (Draw.draw r : F32 × R).2)^[n] r = drawAfter (Draw.draw : R → F32 × R) n r := by
      intro n
      induction n with
      | zero => intro r; rfl
      | succ n ih => intro r; rw [Function.iterate_succ_apply, ih]; rfl
    exact this n r
  · have : ∀ (n : ℕ) (g : Noise R), afterR (S := F32) (E := Panic) Generator.process n g = .ok (after (Noise.process (Draw.draw : R → F32 × R)) n g) := by
      intro n
      induction n with
      | zero => intro g; rfl
      | succ n ih => intro g; rw [after_succ']; exact ih _
    unfold nthR
    rw [this]
    rfl

/-- A generator of random numbers that counts through the 2^24 values. -/
example : ∃ (_ : Draw ℕ F32), ∀ r : ℕ, ∃ k : ℕ, k < 2 ^ 24 ∧ (Draw.draw r : F32 × ℕ).1.Is (k / 2 ^ 24) := by
  refine ⟨⟨fun r => (lit ((r % 2 ^ 24 : ℕ) / 2 ^ 24), r + 1)⟩, fun r => ⟨r % 2 ^ 24, Nat.mod_lt _ (by norm_num), ?_⟩⟩
  have h : ((r % 2 ^ 24 : ℕ) : ℚ) < 2 ^ 24 := by exact_mod_cast Nat.mod_lt r (by norm_num)
  refine Fl.lit_is_repr (fits32' 0 (by norm_num) ?_) ⟨(r % 2 ^ 24 : ℕ), -24, ?_, ?_, by decide⟩
  · rw [abs_of_nonneg (by positivity), div_le_iff₀ (by norm_num)]; linarith
  · rw [show pow2 (-24) = 1 / 2 ^ 24 by decide +kernel, Int.cast_natCast]; ring
  · rw [abs_of_nonneg (by positivity)]; exact_mod_cast h.le

end Verif
