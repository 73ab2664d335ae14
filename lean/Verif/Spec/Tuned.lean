import Mathlib.Data.Nat.Notation

/-! # Running a modifier whose parameters are changed while it runs, independent of the model -/

namespace Verif
section
variable {X S P E : Type} (set : X → P → X) (p : X → S → Except E (S × X)) (q : ℕ → P) (x : ℕ → S)

/-- State after the first `n` samples of `x`, when the parameters are set to `q i` just before sample `i` is processed. -/
def tunedAfter (m : X) : ℕ → Except E X
  | 0 => .ok m
  | n + 1 => match tunedAfter m n with
    | .error e => .error e
    | .ok m' => (p (set m' (q n)) (x n)).map Prod.snd

/-- Output for sample `n`. -/
def tunedOut (m : X) (n : ℕ) : Except E S :=
  match tunedAfter set p q x m n with
  | .error e => .error e
  | .ok m' => (p (set m' (q n)) (x n)).map Prod.fst

end

/-- States and outputs of a modifier that never panics. -/
theorem tuned_exists {X S P E : Type} (set : X → P → X) (p : X → S → S × X) (q : ℕ → P) (x : ℕ → S) (m : X) :
    ∃ s : ℕ → X, s 0 = m ∧ (∀ n, s (n + 1) = (p (set (s n) (q n)) (x n)).2) ∧
      (∀ n, tunedAfter set (fun m v => (.ok (p m v) : Except E (S × X))) q x m n = .ok (s n)) ∧
      ∀ n, tunedOut set (fun m v => (.ok (p m v) : Except E (S × X))) q x m n = .ok (p (set (s n) (q n)) (x n)).1 := by
  let s : ℕ → X := fun n => Nat.rec m (fun n s => (p (set s (q n)) (x n)).2) n
  have h : ∀ n, tunedAfter set (fun m v => (.ok (p m v) : Except E (S × X))) q x m n = .ok (s n) := by
    intro n
    induction n with
    | zero => rfl
    | succ n ih => rw [tunedAfter, ih]; rfl
  refine ⟨s, rfl, fun n => rfl, h, fun n => ?_⟩
  unfold tunedOut
  rw [h n]
  rfl
end Verif
