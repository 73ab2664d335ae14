import Mathlib.Algebra.Ring.Defs
import Mathlib.Data.Real.Basic

/-! # Running a modifier over an input signal, independent of the model

A modifier is given by its `process`, which may panic (`E` the panics). Inputs are infinite sequences; a finite
input is a prefix of one. -/

namespace Verif
section
variable {X S E : Type} (p : X → S → Except E (S × X)) (x : ℕ → S)

/-- State after the first `n` samples of `x`. -/
def modAfter (m : X) : ℕ → Except E X
  | 0 => .ok m
  | n + 1 => match modAfter m n with
    | .error e => .error e
    | .ok m' => (p m' (x n)).map Prod.snd

/-- Output for sample `n`, after processing samples `0..n-1`. -/
def modOut (m : X) (n : ℕ) : Except E S :=
  match modAfter p x m n with
  | .error e => .error e
  | .ok m' => (p m' (x n)).map Prod.fst

variable {p x}

theorem modAfter_succ {m m' m'' : X} {n : ℕ} {y : S} (h : modAfter p x m n = .ok m') (h' : p m' (x n) = .ok (y, m'')) :
    modAfter p x m (n + 1) = .ok m'' := by
  simp only [modAfter, h, h', Except.map]

theorem modOut_of {m m' m'' : X} {n : ℕ} {y : S} (h : modAfter p x m n = .ok m') (h' : p m' (x n) = .ok (y, m'')) :
    modOut p x m n = .ok y := by
  simp only [modOut, h, h', Except.map]

/-- The state after `n + 1` samples is the state after `n` further samples of the input shifted by one. -/
theorem modAfter_succ' {m m' : X} {y : S} (h : p m (x 0) = .ok (y, m')) (n : ℕ) :
    modAfter p x m (n + 1) = modAfter p (fun i => x (i + 1)) m' n := by
  induction n with
  | zero => simp only [modAfter, h, Except.map]
  | succ n ih => rw [modAfter, ih]; rfl

theorem modOut_succ' {m m' : X} {y : S} (h : p m (x 0) = .ok (y, m')) (n : ℕ) :
    modOut p x m (n + 1) = modOut p (fun i => x (i + 1)) m' n := by
  unfold modOut
  rw [modAfter_succ' h]

/-- An invariant kept by every step. -/
theorem modAfter_inv (I : X → Prop) (hs : ∀ m v, I m → ∃ y m', p m v = .ok (y, m') ∧ I m') {m : X} (hm : I m) (n : ℕ) :
    ∃ m', modAfter p x m n = .ok m' ∧ I m' := by
  induction n with
  | zero => exact ⟨m, rfl, hm⟩
  | succ n ih =>
    obtain ⟨m', h1, h2⟩ := ih
    obtain ⟨y, m'', h3, h4⟩ := hs m' (x n) h2
    exact ⟨m'', modAfter_succ h1 h3, h4⟩
end

/-- The signal `x` at integer time `n - k`, zero before time 0. -/
def delayed {S : Type} (z : S) (x : ℕ → S) (k n : ℕ) : S := if n < k then z else x (n - k)

/-- Linear and time invariant (over ℝ): superposition, and `k` leading zeros delay the output by `k`. -/
structure LTI {X E : Type} (p : X → ℝ → Except E (ℝ × X)) (m : X) : Prop where
  superposition : ∀ (u v : ℕ → ℝ) (a b : ℝ) (n : ℕ), ∃ s t, modOut p u m n = .ok s ∧ modOut p v m n = .ok t ∧
    modOut p (fun i => a * u i + b * v i) m n = .ok (a * s + b * t)
  shift : ∀ (u : ℕ → ℝ) (k n : ℕ), modOut p (delayed 0 u k) m n = if n < k then .ok 0 else modOut p u m (n - k)

/-- Superposition from a step-wise relation, time invariance from the rest state being stationary. -/
theorem LTI.of_step {X E : Type} {p : X → ℝ → Except E (ℝ × X)} {m : X} (R : ℝ → ℝ → X → X → X → Prop)
    (h0 : ∀ a b, R a b m m m)
    (hs : ∀ a b m1 m2 m3 u v, R a b m1 m2 m3 → ∃ s t m1' m2' m3', p m1 u = .ok (s, m1') ∧ p m2 v = .ok (t, m2') ∧
      p m3 (a * u + b * v) = .ok (a * s + b * t, m3') ∧ R a b m1' m2' m3')
    (hr : p m 0 = .ok (0, m)) : LTI p m := by
  refine ⟨fun u v a b n => ?_, fun u k => ?_⟩
  · have key : ∃ m1 m2 m3, modAfter p u m n = .ok m1 ∧ modAfter p v m n = .ok m2 ∧
        modAfter p (fun i => a * u i + b * v i) m n = .ok m3 ∧ R a b m1 m2 m3 := by
      induction n with
      | zero => exact ⟨m, m, m, rfl, rfl, rfl, h0 a b⟩
      | succ n ih =>
        obtain ⟨m1, m2, m3, e1, e2, e3, hR⟩ := ih
        obtain ⟨s, t, m1', m2', m3', f1, f2, f3, hR'⟩ := hs a b m1 m2 m3 (u n) (v n) hR
        exact ⟨m1', m2', m3', modAfter_succ e1 f1, modAfter_succ e2 f2, modAfter_succ e3 f3, hR'⟩
    obtain ⟨m1, m2, m3, e1, e2, e3, hR⟩ := key
    obtain ⟨s, t, m1', m2', m3', f1, f2, f3, -⟩ := hs a b m1 m2 m3 (u n) (v n) hR
    exact ⟨s, t, modOut_of e1 f1, modOut_of e2 f2, modOut_of e3 f3⟩
  · induction k with
    | zero => intro n; rfl
    | succ k ih =>
      intro n
      have hz : p m (delayed 0 u (k + 1) 0) = .ok (0, m) := by
        rw [delayed, if_pos (Nat.succ_pos k)]; exact hr
      cases n with
      | zero => rw [if_pos (Nat.succ_pos k)]; exact modOut_of rfl hz
      | succ n =>
        rw [modOut_succ' hz]
        have : (fun i => delayed 0 u (k + 1) (i + 1)) = delayed 0 u k := by
          funext i
          unfold delayed
          by_cases h : i < k
          · rw [if_pos (by omega), if_pos h]
          · rw [if_neg (by omega), if_neg h]; congr 1; omega
        rw [this, ih n]
        by_cases h : n < k
        · rw [if_pos h, if_pos (by omega)]
        · rw [if_neg h, if_neg (by omega)]; congr 1; omega

end Verif
