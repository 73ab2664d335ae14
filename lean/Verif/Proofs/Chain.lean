import Verif.Spec.Steady
import Verif.Spec.SumBlock
import Verif.Props.SimpleSound

/-! # A SimpleSound as modifiers one after the other -/

namespace Verif
open Flt

section
variable {B S : Type} [Flt S] [Block B S]

/-- One sample through a block, as a modifier. -/
def blockStep (b : B) (x : S) : Res (S × B) := Block.process (Block.prime b x)

/-- A modifier in a block gets each input added to 0. -/
theorem modOut_block {X : Type} [Modifier X S] (m : X) (x : ℕ → S) (n : ℕ) :
    modOut blockStep x (StandardBlock.fromModifier m : StandardBlock Zero X StdInter S) n = modOut Modifier.process (fun n => dflt + x n) m n := by
  have e : modOut Modifier.process (fun n => (dflt : S) + x n) m n = modOut (fun (k : X) v => Modifier.process k (dflt + v)) x m n := by
    have h : ∀ n, modAfter Modifier.process (fun n => (dflt : S) + x n) m n = modAfter (fun (k : X) v => Modifier.process k (dflt + v)) x m n := by
      intro n
      induction n with
      | zero => rfl
      | succ n ih => simp only [modAfter, ih]
    simp only [modOut, h]
  rw [e]
  refine modOut_sim (fun (k : X) (b : StandardBlock Zero X StdInter S) => b = StandardBlock.fromModifier k) (fun k b v hb => ?_) rfl n
  subst hb
  cases hk : (Modifier.process k (dflt + v) : Res (S × X)) with
  | error e =>
    refine .inr ⟨e, rfl, ?_⟩
    simp [blockStep, Block.process, Block.prime, StandardBlock.primeInput, StandardBlock.process, StandardBlock.fromModifier, hk,
      Arc.getMutUnwrap, Bind.bind, Except.bind, Generator.process]
  | ok r =>
    refine .inl ⟨r.1, r.2, StandardBlock.fromModifier r.2, rfl, ?_, rfl⟩
    simp [blockStep, Block.process, Block.prime, StandardBlock.primeInput, StandardBlock.process, StandardBlock.fromModifier, hk,
      Arc.getMutUnwrap, Bind.bind, Except.bind, Generator.process, InterFn.call, StdInter.call]

omit [Flt S] in
theorem modOut_series_nil (x : ℕ → S) (n : ℕ) : modOut series x ([] : List B) n = .ok (x n) := by
  have : modAfter series x ([] : List B) n = .ok [] := by
    induction n with
    | zero => rfl
    | succ n ih => exact modAfter_succ (y := x n) ih rfl
  exact modOut_of this rfl

omit [Flt S] in
theorem modOut_series_cons (b : B) (bs : List B) (x : ℕ → S) (n : ℕ) :
    modOut series x (b :: bs) n = modOut (andThen blockStep series) x (b, bs) n := by
  refine modOut_sim (m := (b, bs)) (fun (k : B × List B) (l : List B) => l = k.1 :: k.2) (fun k l v hl => ?_) rfl n
  subst hl
  unfold andThen
  rw [series]
  cases h1 : (Block.process (Block.prime k.1 v) : Res (S × B)) with
  | error e => exact .inr ⟨e, by simp [blockStep, h1], by simp⟩
  | ok r =>
    cases h2 : series k.2 r.1 with
    | error e => exact .inr ⟨e, by simp [blockStep, h1, h2], by simp [h2]⟩
    | ok r' => exact .inl ⟨r'.1, (r.2, r'.2), r.2 :: r'.2, by simp [blockStep, h1, h2], by simp [h2], rfl⟩

/-- A sound that plays is its input gain, its blocks and its output gain in series. -/
theorem modOut_sound (h : Heap B) (s : SimpleSound S) {bs : List B} (ho : Owns h (s.generator :: s.modifierList) bs)
    (hp : s.paused = false) (hm : s.muted = false) (x : ℕ → S) (n : ℕ) :
    modOut (fun h x => SimpleSound.process h s x) x h n =
      modOut (andThen (andThen Modifier.process series) Modifier.process) x ((Gain.new s.inputGain, bs), Gain.new s.outputGain) n := by
  refine modOut_sim (fun (k : (Gain S × List B) × Gain S) (h : Heap B) => k.1.1 = Gain.new s.inputGain ∧ k.2 = Gain.new s.outputGain ∧
    Owns h (s.generator :: s.modifierList) k.1.2) (fun k h v hk => ?_) ⟨rfl, rfl, ho⟩ n
  obtain ⟨⟨k1, k2⟩, k3⟩ := k
  obtain ⟨rfl, rfl, hk⟩ := hk
  have hc := C76_process h s k2 hk hp hm v
  cases hser : series k2 (v * s.inputGain) with
  | error e =>
    rw [hser] at hc
    refine .inr ⟨e, ?_, hc⟩
    have : andThen (Modifier.process : Gain S → S → Res (S × Gain S)) series (Gain.new s.inputGain, k2) v = .error e := by
      simp only [andThen, Modifier.process, Gain.process, Gain.new, hser]
    simp only [andThen] at this ⊢
    rw [this]
  | ok r =>
    rw [hser] at hc
    obtain ⟨h', e1, e2, -⟩ := hc
    refine .inl ⟨r.1 * s.outputGain, ((Gain.new s.inputGain, r.2), Gain.new s.outputGain), h', ?_, e1, rfl, rfl, e2⟩
    have : andThen (Modifier.process : Gain S → S → Res (S × Gain S)) series (Gain.new s.inputGain, k2) v = .ok (r.1, (Gain.new s.inputGain, r.2)) := by
      simp only [andThen, Modifier.process, Gain.process, Gain.new, hser]
    rw [andThen, this]
    rfl
end

section
variable {A C S : Type} [Block A S] [Block C S]

theorem modOut_inl (a : A) (x : ℕ → S) (n : ℕ) : modOut blockStep x (.inl a : A ⊕ C) n = modOut blockStep x a n := by
  refine modOut_sim (fun (k : A) (b : A ⊕ C) => b = .inl k) (fun k b v hb => ?_) rfl n
  subst hb
  cases hk : (Block.process (Block.prime k v) : Res (S × A)) with
  | error e => exact .inr ⟨e, hk, by simp [blockStep, Block.process, Block.prime, hk, Except.map]⟩
  | ok r => exact .inl ⟨r.1, r.2, .inl r.2, hk, by simp [blockStep, Block.process, Block.prime, hk, Except.map], rfl⟩

theorem modOut_inr (c : C) (x : ℕ → S) (n : ℕ) : modOut blockStep x (.inr c : A ⊕ C) n = modOut blockStep x c n := by
  refine modOut_sim (fun (k : C) (b : A ⊕ C) => b = .inr k) (fun k b v hb => ?_) rfl n
  subst hb
  cases hk : (Block.process (Block.prime k v) : Res (S × C)) with
  | error e => exact .inr ⟨e, hk, by simp [blockStep, Block.process, Block.prime, hk, Except.map]⟩
  | ok r => exact .inl ⟨r.1, r.2, .inr r.2, hk, by simp [blockStep, Block.process, Block.prime, hk, Except.map], rfl⟩
end

end Verif
