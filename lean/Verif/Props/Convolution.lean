import Verif.Props.Linear
import Verif.Props.Transfer
import Verif.Props.LinearNet
import Mathlib.Algebra.BigOperators.NatAntidiagonal
import Mathlib.RingTheory.PowerSeries.Basic

/-! # Impulse responses, and the order of effects: C144 (exact arithmetic) -/

namespace Verif

/-- One sample of 1.0, then silence. -/
def unitImpulse (n : ℕ) : ℝ := if n = 0 then 1 else 0

/-- An effect that is linear and time invariant is the convolution with its answer to one sample of 1.0. -/
theorem C144_convolution {X E : Type} {p : X → ℝ → Except E (ℝ × X)} {m : X} (h : LTI p m) :
    ∃ g : ℕ → ℝ, (∀ n, modOut p unitImpulse m n = .ok (g n)) ∧
      ∀ (x : ℕ → ℝ) (n : ℕ), modOut p x m n = .ok (∑ k ∈ Finset.range (n + 1), x k * g (n - k)) := by
  have hg : ∀ n, ∃ s, modOut p unitImpulse m n = .ok s := fun n => by
    obtain ⟨s, -, hs, -⟩ := h.superposition unitImpulse unitImpulse 1 1 n
    exact ⟨s, hs⟩
  choose g hg using hg
  refine ⟨g, hg, fun x n => ?_⟩
  have zero : modOut p (fun _ => 0) m n = .ok 0 := by
    obtain ⟨s, t, -, -, e⟩ := h.superposition unitImpulse unitImpulse 0 0 n
    simpa using e
  have key : ∀ j ≤ n + 1, modOut p (fun i => ∑ k ∈ Finset.range j, x k * delayed 0 unitImpulse k i) m n =
      .ok (∑ k ∈ Finset.range j, x k * g (n - k)) := by
    intro j hj
    induction j with
    | zero => simpa using zero
    | succ j ih =>
      obtain ⟨s, t, e1, e2, e3⟩ := h.superposition (fun i => ∑ k ∈ Finset.range j, x k * delayed 0 unitImpulse k i) (delayed 0 unitImpulse j) 1 (x j) n
      rw [ih (by omega)] at e1
      rw [h.shift, if_neg (by omega), hg] at e2
      injection e1 with e1
      injection e2 with e2
      rw [← e1, ← e2, one_mul] at e3
      rw [Finset.sum_range_succ, ← e3]
      congr 1
      funext i
      rw [Finset.sum_range_succ, one_mul]
  rw [← key (n + 1) le_rfl]
  refine modOut_congr fun s hs => ?_
  rw [Finset.sum_eq_single_of_mem s (Finset.mem_range.mpr (by omega))]
  · simp [delayed, unitImpulse]
  · intro k _ hk
    unfold delayed unitImpulse
    split
    · simp
    · rw [if_neg (by omega), mul_zero]

/-- Two effects with the same answer to one sample of 1.0 have the same answer to every input. -/
theorem C144_determined {X Y E : Type} {p : X → ℝ → Except E (ℝ × X)} {q : Y → ℝ → Except E (ℝ × Y)} {m : X} {k : Y} (h : LTI p m) (h' : LTI q k)
    (he : ∀ n, modOut p unitImpulse m n = modOut q unitImpulse k n) (x : ℕ → ℝ) (n : ℕ) : modOut p x m n = modOut q x k n := by
  obtain ⟨g, hg, hx⟩ := C144_convolution h
  obtain ⟨g', hg', hx'⟩ := C144_convolution h'
  have : g = g' := funext fun n => by
    have := he n
    rw [hg, hg'] at this
    exact Except.ok.inj this
  rw [hx, hx', this]

private theorem conv_eq (x g : ℕ → ℝ) (n : ℕ) :
    ∑ k ∈ Finset.range (n + 1), x k * g (n - k) = PowerSeries.coeff n (PowerSeries.mk x * PowerSeries.mk g) := by
  rw [PowerSeries.coeff_mul, Finset.Nat.sum_antidiagonal_eq_sum_range_succ_mk]
  simp

/-- The answer of an effect as a product of power series. -/
private theorem lti_series {X E : Type} {p : X → ℝ → Except E (ℝ × X)} {m : X} (h : LTI p m) :
    ∃ G : PowerSeries ℝ, ∀ (x : ℕ → ℝ) (n : ℕ), modOut p x m n = .ok (PowerSeries.coeff n (PowerSeries.mk x * G)) := by
  obtain ⟨g, -, hx⟩ := C144_convolution h
  exact ⟨PowerSeries.mk g, fun x n => by rw [hx, conv_eq]⟩

private theorem mk_coeff (F : PowerSeries ℝ) : PowerSeries.mk (fun n => PowerSeries.coeff n F) = F := by
  ext n; simp

private theorem andThen_series {X Y E : Type} {p : X → ℝ → Except E (ℝ × X)} {q : Y → ℝ → Except E (ℝ × Y)} {m : X} {k : Y} {F G : PowerSeries ℝ}
    (h : ∀ (x : ℕ → ℝ) (n : ℕ), modOut p x m n = .ok (PowerSeries.coeff n (PowerSeries.mk x * F)))
    (h' : ∀ (x : ℕ → ℝ) (n : ℕ), modOut q x k n = .ok (PowerSeries.coeff n (PowerSeries.mk x * G))) (x : ℕ → ℝ) (n : ℕ) :
    modOut (andThen p q) x (m, k) n = .ok (PowerSeries.coeff n (PowerSeries.mk x * (F * G))) := by
  rw [modOut_andThen (h x) (h' _), mk_coeff, mul_assoc]

/-- Two linear effects in series can be exchanged. -/
theorem C144_exchange {X Y E : Type} {p : X → ℝ → Except E (ℝ × X)} {q : Y → ℝ → Except E (ℝ × Y)} {m : X} {k : Y} (h : LTI p m) (h' : LTI q k)
    (x : ℕ → ℝ) (n : ℕ) : modOut (andThen p q) x (m, k) n = modOut (andThen q p) x (k, m) n := by
  obtain ⟨F, hF⟩ := lti_series h
  obtain ⟨G, hG⟩ := lti_series h'
  rw [andThen_series hF hG, andThen_series hG hF, mul_comm F G]

section
variable {B : Type} [Block B ℝ]

private theorem series_prod : ∃ G : B → PowerSeries ℝ, ∀ ms : List B, (∀ b ∈ ms, LTI blockStep b) →
    ∀ (x : ℕ → ℝ) (n : ℕ), modOut series x ms n = .ok (PowerSeries.coeff n (PowerSeries.mk x * (ms.map G).prod)) := by
  classical
  have hG : ∀ b : B, ∃ G : PowerSeries ℝ, LTI blockStep b → ∀ (x : ℕ → ℝ) (n : ℕ),
      modOut blockStep x b n = .ok (PowerSeries.coeff n (PowerSeries.mk x * G)) := by
    intro b
    by_cases hb : LTI blockStep b
    · obtain ⟨G, hG⟩ := lti_series hb
      exact ⟨G, fun _ => hG⟩
    · exact ⟨0, fun h => absurd h hb⟩
  choose G hG using hG
  refine ⟨G, fun ms h => ?_⟩
  induction ms with
  | nil => intro x n; rw [modOut_series_nil]; simp
  | cons b ms ih =>
    intro x n
    rw [modOut_series_cons, List.map_cons, List.prod_cons]
    exact andThen_series (hG b (h b (by simp))) (ih fun b hb => h b (by simp [hb])) x n

/-- The order of the effects in a chain does not matter. -/
theorem C144_chain {ms ms' : List B} (hp : ms.Perm ms') (h : ∀ b ∈ ms, LTI blockStep b) (x : ℕ → ℝ) (n : ℕ) :
    modOut series x ms n = modOut series x ms' n := by
  obtain ⟨G, hG⟩ := series_prod (B := B)
  rw [hG ms h, hG ms' fun b hb => h b (hp.mem_iff.mpr hb), (hp.map G).prod_eq]

/-- Two simple sounds with the same generator, the same gains and the same effects, in whatever order, sound the same. -/
theorem C144_sound (h h' : Heap B) (s s' : SimpleSound ℝ) {g : B} {ms ms' : List B} (ho : Owns h (s.generator :: s.modifierList) (g :: ms))
    (ho' : Owns h' (s'.generator :: s'.modifierList) (g :: ms')) (hi : s.inputGain = s'.inputGain) (hog : s.outputGain = s'.outputGain)
    (hp : s.paused = false) (hm : s.muted = false) (hp' : s'.paused = false) (hm' : s'.muted = false)
    (hg : ∀ x : ℕ → ℝ, ∃ y : ℕ → ℝ, ∀ n, modOut blockStep x g n = .ok (y n))
    (hperm : ms.Perm ms') (hl : ∀ b ∈ ms, LTI blockStep b) (x : ℕ → ℝ) (n : ℕ) :
    modOut (fun h x => SimpleSound.process h s x) x h n = modOut (fun h x => SimpleSound.process h s' x) x h' n := by
  obtain ⟨G, hG⟩ := series_prod (B := B)
  have gain : ∀ (a : ℝ) (x : ℕ → ℝ) n, modOut Modifier.process x (Gain.new a) n = .ok (x n * a) := by
    intro a x n
    have : modAfter Modifier.process x (Gain.new a) n = .ok (Gain.new a) := by
      induction n with
      | zero => rfl
      | succ n ih => exact modAfter_succ (y := x n * a) ih rfl
    exact modOut_of this rfl
  obtain ⟨y, hy⟩ := hg (fun n => x n * s.inputGain)
  have all : ∀ l : List B, (∀ b ∈ l, LTI blockStep b) → ∀ n, modOut series (fun n => x n * s.inputGain) (g :: l) n =
      .ok (PowerSeries.coeff n (PowerSeries.mk y * (l.map G).prod)) := fun l hl n => by
    rw [modOut_series_cons]
    exact modOut_andThen hy (hG l hl y) n
  rw [modOut_sound h s ho hp hm x n, modOut_sound h' s' ho' hp' hm' x n, ← hi, ← hog,
    modOut_andThen (modOut_andThen (gain s.inputGain x) (all ms hl)) (gain s.outputGain _),
    modOut_andThen (modOut_andThen (gain s.inputGain x) (all ms' fun b hb => hl b (hperm.mem_iff.mpr hb))) (gain s.outputGain _),
    (hperm.map G).prod_eq]
end

/-- An effect in a block. -/
theorem C144_block {X : Type} [Modifier X ℝ] {m : X} (h : LTI Modifier.process m) :
    LTI blockStep (StandardBlock.fromModifier m : StandardBlock Zero X StdInter ℝ) := by
  have e : ∀ (x : ℕ → ℝ) n, modOut blockStep x (StandardBlock.fromModifier m : StandardBlock Zero X StdInter ℝ) n = modOut Modifier.process x m n := by
    intro x n
    rw [modOut_block]
    have : (fun n => (dflt : ℝ) + x n) = x := funext fun n => by unfold dflt; real_simp; ring
    rw [this]
  refine ⟨fun u v a b n => ?_, fun u k n => ?_⟩
  · simp only [e]; exact h.superposition u v a b n
  · simp only [e]; exact h.shift u k n

/-! ## Examples -/

/-- A low pass and an echo. -/
example (x : ℕ → ℝ) (n : ℕ) : modOut (andThen Modifier.process Echo.process) x ((LowPass.new 1000 0 : LowPass ℝ ℝ), (⟨[0, 0, 0], 1 / 2⟩ : Echo ℝ)) n =
    modOut (andThen Echo.process Modifier.process) x ((⟨[0, 0, 0], 1 / 2⟩ : Echo ℝ), (LowPass.new 1000 0 : LowPass ℝ ℝ)) n :=
  C144_exchange (C58_new 1000 0).1 (C58_echo _ 3 (by norm_num) rfl) x n

/-- A low pass and a high pass in blocks of one type. -/
private noncomputable def lowBlock : StandardBlock Zero LinearEffect StdInter ℝ := .fromModifier (.low (LowPass.new 1000 0))
private noncomputable def highBlock : StandardBlock Zero LinearEffect StdInter ℝ := .fromModifier (.high (HighPass.new 200 0))
private noncomputable def echoBlock : StandardBlock Zero LinearEffect StdInter ℝ := .fromModifier (.echo ⟨[0, 0, 0], 1 / 2⟩)

example (x : ℕ → ℝ) (n : ℕ) : modOut series x [lowBlock, highBlock, echoBlock] n = modOut series x [echoBlock, highBlock, lowBlock] n := by
  refine C144_chain (List.reverse_perm [echoBlock, highBlock, lowBlock]) (fun b hb => ?_) x n
  simp only [List.mem_reverse, List.mem_cons, List.not_mem_nil, or_false] at hb
  rcases hb with rfl | rfl | rfl
  · exact C144_block (lti_map LinearEffect.echo (fun _ _ => rfl) (C58_echo _ 3 (by norm_num) rfl))
  · exact C144_block (lti_map LinearEffect.high (fun _ _ => rfl) (C58_new 200 0).2.1)
  · exact C144_block (lti_map LinearEffect.low (fun _ _ => rfl) (C58_new 1000 0).1)

/-- Two sounds with the same blocks, the effects in two orders. -/
example (x : ℕ → ℝ) (n : ℕ) :
    modOut (fun h x => SimpleSound.process h (⟨0, [1, 2], 1, 1 / 2, none, false, false⟩ : SimpleSound ℝ) x) x
      ([⟨highBlock, 1⟩, ⟨lowBlock, 1⟩, ⟨echoBlock, 1⟩] : Heap (StandardBlock Zero LinearEffect StdInter ℝ)) n =
    modOut (fun h x => SimpleSound.process h (⟨0, [2, 1], 1, 1 / 2, none, false, false⟩ : SimpleSound ℝ) x) x
      ([⟨highBlock, 1⟩, ⟨lowBlock, 1⟩, ⟨echoBlock, 1⟩] : Heap (StandardBlock Zero LinearEffect StdInter ℝ)) n := by
  have h1 : LTI blockStep lowBlock := C144_block (lti_map LinearEffect.low (fun _ _ => rfl) (C58_new 1000 0).1)
  have h2 : LTI blockStep highBlock := C144_block (lti_map LinearEffect.high (fun _ _ => rfl) (C58_new 200 0).2.1)
  have h3 : LTI blockStep echoBlock := C144_block (lti_map LinearEffect.echo (fun _ _ => rfl) (C58_echo _ 3 (by norm_num) rfl))
  refine C144_sound _ _ ⟨0, [1, 2], 1, 1 / 2, none, false, false⟩ ⟨0, [2, 1], 1, 1 / 2, none, false, false⟩ (g := highBlock) (ms := [lowBlock, echoBlock]) (ms' := [echoBlock, lowBlock])
    ⟨by decide, .cons rfl (.cons rfl (.cons rfl .nil))⟩ ⟨by decide, .cons rfl (.cons rfl (.cons rfl .nil))⟩
    rfl rfl rfl rfl rfl rfl (fun x => ?_) (.swap _ _ _) (fun b hb => ?_) x n
  · obtain ⟨g, -, hx⟩ := C144_convolution h2
    exact ⟨_, hx x⟩
  · simp only [List.mem_cons, List.not_mem_nil, or_false] at hb
    rcases hb with rfl | rfl
    · exact h1
    · exact h3

/-- The claim is about exact arithmetic: in `f32` two gains in the other order can give silence. -/
example : modOut (andThen Modifier.process Modifier.process) (fun _ => (lit (2 ^ 100)⁻¹ : F32)) ((Gain.new (lit (2 ^ 100)⁻¹) : Gain F32), (Gain.new (lit (2 ^ 100)) : Gain F32)) 0 = (.ok (lit 0) : Res F32) ∧
    modOut (andThen Modifier.process Modifier.process) (fun _ => (lit (2 ^ 100)⁻¹ : F32)) ((Gain.new (lit (2 ^ 100)) : Gain F32), (Gain.new (lit (2 ^ 100)⁻¹) : Gain F32)) 0 =
      (.ok (lit (2 ^ 100)⁻¹) : Res F32) := by
  constructor <;> exact congrArg Except.ok (by decide +kernel)

end Verif
