import Verif.Float.Fast
import Verif.Props.Delay
import Verif.Props.Generic
import Verif.Props.Adsr
import Verif.Proofs.Tuned

/-! # One bad sample: C139

What a single NaN or infinity in the input of an effect does to the output that follows. -/

namespace Verif
open Fl

/-! ## filters, envelope follower and echo: never recovers -/

private theorem not_finite_neg {f : Fmt} {x : Fl f} (h : ¬ x.Finite) : ¬ (-x).Finite := by
  rcases not_finite_iff.mp h with rfl | ⟨s, rfl⟩
  · exact not_finite_iff.mpr (.inl rfl)
  · exact not_finite_iff.mpr (.inr ⟨!s, rfl⟩)

private theorem not_finite_abs {f : Fmt} {x : Fl f} (h : ¬ x.Finite) : ¬ (Flt.abs x).Finite := by
  rcases not_finite_iff.mp h with rfl | ⟨s, rfl⟩
  · exact not_finite_iff.mpr (.inl rfl)
  · exact not_finite_iff.mpr (.inr ⟨false, rfl⟩)

private theorem not_finite_sub_left {f : Fmt} {x y : Fl f} (h : ¬ x.Finite) : ¬ (x - y).Finite := not_finite_add_left h

private theorem not_finite_up {x : F32} (h : ¬ x.Finite) : ¬ (SM.up x : F64).Finite := by
  rcases not_finite_iff.mp h with rfl | ⟨s, rfl⟩
  · exact not_finite_iff.mpr (.inl rfl)
  · exact not_finite_iff.mpr (.inr ⟨s, rfl⟩)

private theorem not_finite_down {x : F64} (h : ¬ x.Finite) : ¬ (SM.down x : F32).Finite := by
  rcases not_finite_iff.mp h with rfl | ⟨s, rfl⟩
  · exact not_finite_iff.mpr (.inl rfl)
  · exact not_finite_iff.mpr (.inr ⟨s, rfl⟩)

/-- If a bad sample makes the state bad, and a bad state makes the output and the next state bad, nothing ever recovers. -/
private theorem poison {X P : Type} (set : X → P → X) (p : X → F32 → F32 × X) (Bad : X → Prop) (hset : ∀ m q, Bad m → Bad (set m q))
    (h : ∀ m v, ¬ v.Finite ∨ Bad m → ¬ (p m v).1.Finite ∧ Bad (p m v).2) (q : ℕ → P) (x : ℕ → F32) (m : X) {k n : ℕ}
    (hk : ¬ (x k).Finite) (hn : k ≤ n) :
    ∃ y, tunedOut set (fun m v => (.ok (p m v) : Res (F32 × X))) q x m n = .ok y ∧ ¬ y.Finite := by
  obtain ⟨s, -, hs, -, ho⟩ := tuned_exists (E := Panic) set p q x m
  refine ⟨_, ho n, ?_⟩
  have bad : ∀ n, k ≤ n → Bad (s (n + 1)) := by
    intro n hn
    induction n, hn using Nat.le_induction with
    | base => rw [hs]; exact (h _ _ (.inl hk)).2
    | succ n _ ih => rw [hs]; exact (h _ _ (.inr (hset _ _ ih))).2
  rcases Nat.eq_or_lt_of_le hn with rfl | hn
  · exact (h _ _ (.inl hk)).1
  · obtain ⟨j, rfl⟩ : ∃ j, n = j + 1 := ⟨n - 1, by omega⟩
    exact (h _ _ (.inr (hset _ _ (bad j (by omega))))).1

/-- The property fails for every LowPass: one NaN or infinite sample, and no later output is finite, whatever comes after it and
however the filter is retuned (`set` is anything that keeps the last output). -/
theorem C139_lowpass_violated {P : Type} (set : LowPass F32 F64 → P → LowPass F32 F64) (hset : ∀ m q, (set m q).o0 = m.o0)
    (q : ℕ → P) (x : ℕ → F32) (m : LowPass F32 F64) {k n : ℕ} (hk : ¬ (x k).Finite) (hn : k ≤ n) :
    ∃ y, tunedOut set Modifier.process q x m n = (.ok y : Res F32) ∧ ¬ y.Finite := by
  refine poison set LowPass.process (fun m => ¬ m.o0.Finite) (fun m q h => by rwa [hset]) (fun m v h => ?_) q x m hk hn
  have : ¬ (m.process v).1.Finite := by
    unfold LowPass.process
    refine not_finite_add_left (not_finite_add_left ?_)
    rcases h with h | h
    · exact not_finite_add_left (not_finite_mul_right h)
    · exact not_finite_add_right (not_finite_mul_right h)
  exact ⟨this, this⟩

/-- The same for every HighPass. -/
theorem C139_highpass_violated {P : Type} (set : HighPass F32 F64 → P → HighPass F32 F64) (hset : ∀ m q, (set m q).y1 = m.y1)
    (q : ℕ → P) (x : ℕ → F32) (m : HighPass F32 F64) {k n : ℕ} (hk : ¬ (x k).Finite) (hn : k ≤ n) :
    ∃ y, tunedOut set Modifier.process q x m n = (.ok y : Res F32) ∧ ¬ y.Finite := by
  refine poison set HighPass.process (fun m => ¬ m.y1.Finite) (fun m q h => by rwa [hset]) (fun m v h => ?_) q x m hk hn
  have : ¬ (m.process v).1.Finite := by
    unfold HighPass.process
    refine not_finite_add_left (not_finite_add_left ?_)
    rcases h with h | h
    · exact not_finite_add_left (not_finite_add_left (not_finite_add_left (not_finite_add_left (not_finite_mul_right h))))
    · exact not_finite_add_right (not_finite_mul_right h)
  exact ⟨this, this⟩

/-- The same for every BandPass. -/
theorem C139_bandpass_violated {P : Type} (set : BandPass F32 F64 → P → BandPass F32 F64) (hset : ∀ m q, (set m q).y1 = m.y1)
    (q : ℕ → P) (x : ℕ → F32) (m : BandPass F32 F64) {k n : ℕ} (hk : ¬ (x k).Finite) (hn : k ≤ n) :
    ∃ y, tunedOut set Modifier.process q x m n = (.ok y : Res F32) ∧ ¬ y.Finite := by
  refine poison set BandPass.process (fun m => ¬ m.y1.Finite) (fun m q h => by rwa [hset]) (fun m v h => ?_) q x m hk hn
  have : ¬ (m.process v).1.Finite := by
    unfold BandPass.process
    refine not_finite_down (not_finite_sub_left ?_)
    rcases h with h | h
    · exact not_finite_add_left (not_finite_mul_right (not_finite_up (not_finite_sub_left h)))
    · exact not_finite_add_right (not_finite_mul_right (not_finite_up h))
  exact ⟨this, this⟩

/-- The public setters keep the last output, so the theorems above cover every use of them. -/
example [Libm F64] (q : ℕ → F64 × F64) (m : BandPass F32 F64) (l : LowPass F32 F64) (h : HighPass F32 F64) (n : ℕ) (hn : 3 ≤ n) :
    let x : ℕ → F32 := fun n => if n = 3 then .nan else lit 1
    (∃ y, tunedOut LowPass.tune Modifier.process q x l n = (.ok y : Res F32) ∧ ¬ y.Finite) ∧
    (∃ y, tunedOut HighPass.tune Modifier.process q x h n = (.ok y : Res F32) ∧ ¬ y.Finite) ∧
    (∃ y, tunedOut BandPass.setCornerFrequencies Modifier.process q x m n = (.ok y : Res F32) ∧ ¬ y.Finite) := by
  intro x
  have h3 : ¬ (x 3).Finite := not_finite_iff.mpr (.inl rfl)
  exact ⟨C139_lowpass_violated LowPass.tune (fun _ _ => rfl) q x l h3 hn, C139_highpass_violated HighPass.tune (fun _ _ => rfl) q x h h3 hn,
    C139_bandpass_violated BandPass.setCornerFrequencies (fun _ _ => rfl) q x m h3 hn⟩

/-- The same for every envelope follower: no later level is finite. -/
theorem C139_envelope_violated (x : ℕ → F32) (m : Envelope F32) {k n : ℕ} (hk : ¬ (x k).Finite) (hn : k ≤ n) :
    ∃ y, tunedOut (fun m _ => m) Modifier.process (fun _ => ()) x m n = (.ok y : Res F32) ∧ ¬ y.Finite := by
  refine poison (fun m (_ : Unit) => m) Envelope.process (fun m => ¬ m.y1.Finite) (fun m q h => h) (fun m v h => ?_) (fun _ => ()) x m hk hn
  have : ¬ (m.process v).1.Finite := by
    unfold Envelope.process
    dsimp only
    rcases h with h | h
    · split_ifs <;> exact not_finite_add_left (not_finite_mul_right (not_finite_add_left (not_finite_abs h)))
    · split_ifs <;> exact not_finite_add_right (not_finite_mul_right h)
  exact ⟨this, this⟩

/-- An Echo with any gain, 0 included, repeats a bad sample for ever, every `D` samples. -/
theorem C139_echo_violated (m : Echo F32) (D : ℕ) (hD : 0 < D) (hm : m.delay = List.replicate D (lit 0)) (x : ℕ → F32) {k : ℕ}
    (hk : ¬ (x k).Finite) (j : ℕ) : ∃ y, modOut Echo.process x m (k + j * D) = .ok y ∧ ¬ y.Finite := by
  obtain ⟨y, hy⟩ := C54_echo m D hD hm x
  refine ⟨_, (hy _).1, ?_⟩
  induction j with
  | zero =>
    rw [(hy _).2, zero_mul, add_zero]
    exact not_finite_add_right hk
  | succ j ih =>
    rw [(hy _).2, if_neg (by rw [add_mul]; omega)]
    refine not_finite_add_left ?_
    rw [show k + (j + 1) * D - D = k + j * D by rw [add_mul]; omega]
    generalize y (k + j * D) = v at ih ⊢
    generalize m.gain = g
    rcases not_finite_iff.mp ih with rfl | ⟨s, rfl⟩
    · exact not_finite_iff.mpr (.inl (by cases g <;> rfl))
    · rcases g with _ | t | ⟨t, b, hb⟩
      · exact not_finite_iff.mpr (.inl rfl)
      · exact not_finite_iff.mpr (.inr ⟨_, rfl⟩)
      · show ¬ (if b = 0 then (.nan : F32) else .inf (xor s t)).Finite
        split_ifs
        · exact not_finite_iff.mpr (.inl rfl)
        · exact not_finite_iff.mpr (.inr ⟨_, rfl⟩)

/-- A one-sample Echo with gain 0 given `1, ∞, 1, 1, …`: the sixth output is NaN. -/
example : (modOut Echo.process (fun n => if n = 1 then (.inf false : F32) else lit 1) ⟨[lit 0], lit 0⟩ 5).toOption = some .nan := by
  decide +kernel

/-! ## the other effects: recover at once -/

/-- What holds, in any arithmetic: two inputs that differ in sample `k` only give the same output except for sample `k` in Gain,
Passthrough and ADSR (in any state), sample `k + D` in a Delay of `D` samples, and samples `k … k + K` in a Generic filter without
feedback whose taps reach back `K` samples. Missing: every effect with feedback, where it is false. -/
theorem C139_recover_partial {S : Type} [Flt S] (x x' : ℕ → S) (k : ℕ) (hx : ∀ n, n ≠ k → x n = x' n) (n : ℕ) :
    (n ≠ k → ∀ a : S, modOut Modifier.process x (Gain.new a) n = modOut Modifier.process x' (Gain.new a) n) ∧
    (n ≠ k → modOut Modifier.process x Passthrough.mk n = modOut Modifier.process x' Passthrough.mk n) ∧
    (n ≠ k → ∀ m : ADSR S, modOut Modifier.process x m n = modOut Modifier.process x' m n) ∧
    (∀ D, n ≠ k + D → modOut Delay.process x (⟨List.replicate D (lit 0)⟩ : Delay S) n = modOut Delay.process x' ⟨List.replicate D (lit 0)⟩ n) ∧
    (∀ (zeros : List (ℕ × S)) (K : ℕ), LastLargest zeros → (∀ t ∈ zeros, t.1 ≤ K) → n < k ∨ k + K < n →
      modOut Generic.process x (Generic.new zeros []) n = modOut Generic.process x' (Generic.new zeros []) n) := by
  refine ⟨fun h a => ?_, fun h => ?_, fun h m => ?_, fun D h => ?_, fun zeros K hz hK h => ?_⟩
  · rw [(C73_memoryless a x n).1, (C73_memoryless a x' n).1, hx n h]
  · rw [(C73_memoryless (lit 0 : S) x n).2.1, (C73_memoryless (lit 0 : S) x' n).2.1, hx n h]
  · have st : ∀ (m : ADSR S) (u v : S), (m.process u).2 = (m.process v).2 := by
      intro m u v
      unfold ADSR.process
      cases m.state <;> rfl
    have key : ∀ n, modAfter (E := Panic) Modifier.process x m n = modAfter Modifier.process x' m n := by
      intro n
      induction n with
      | zero => rfl
      | succ n ih =>
        rw [modAfter, modAfter, ih]
        cases modAfter (E := Panic) Modifier.process x' m n with
        | error e => rfl
        | ok m' => exact congrArg Except.ok (st m' (x n) (x' n))
    unfold modOut
    rw [key n, hx n h]
  · rw [(C51_delay (⟨List.replicate D (lit 0)⟩ : Delay S) D rfl x n).1, (C51_delay (⟨List.replicate D (lit 0)⟩ : Delay S) D rfl x' n).1]
    split_ifs with h1
    · rfl
    · rw [hx (n - D) (by omega)]
  · have hp : LastLargest ([] : List (ℕ × S)) := by intro t ht; simp at ht
    obtain ⟨y, hy⟩ := C56_generic zeros [] hz hp x
    obtain ⟨y', hy'⟩ := C56_generic zeros [] hz hp x'
    rw [(hy n).1, (hy' n).1, (hy n).2, (hy' n).2]
    congr 1
    simp only [tapSum, List.foldl_nil]
    refine List.foldl_ext _ _ _ fun acc t ht => ?_
    have e : (if n < t.1 then (lit 0 : S) else x (n - t.1)) = if n < t.1 then lit 0 else x' (n - t.1) := by
      have := hK t ht
      split_ifs with h1
      · rfl
      · exact hx _ (by omega)
    rw [e]

/-- A three-tap average given a NaN as sample 10: from sample 13 on the output is that of the clean input. -/
example (n : ℕ) (hn : 12 < n) :
    modOut Generic.process (fun n => if n = 10 then (.nan : F32) else lit 1) (Generic.new [(0, lit 1), (1, lit 1), (2, lit 1)] []) n =
    modOut Generic.process (fun _ => lit 1) (Generic.new [(0, lit 1), (1, lit 1), (2, lit 1)] []) n :=
  (C139_recover_partial _ _ 10 (fun n h => if_neg h) n).2.2.2.2 _ 2 (by intro t ht l hl; simp at ht hl; subst hl; rcases ht with rfl | rfl | rfl <;> simp)
    (by intro t ht; simp at ht; rcases ht with rfl | rfl | rfl <;> simp) (.inr (by omega))

end Verif
