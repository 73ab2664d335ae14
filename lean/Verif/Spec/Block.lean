import Mathlib.Data.Nat.Notation

/-! # Running a block: each step primes any number of inputs, then processes; independent of the model -/

namespace Verif
section
variable {B S E : Type} (prime : B → S → B) (proc : B → Except E (S × B)) (u : ℕ → List S)

/-- State after `n` steps; step `k` primes the inputs `u k` in order. -/
def blockAfter (b : B) : ℕ → Except E B
  | 0 => .ok b
  | n + 1 => match blockAfter b n with
    | .error e => .error e
    | .ok b' => (proc ((u n).foldl prime b')).map Prod.snd

/-- Output of step `n`. -/
def blockOut (b : B) (n : ℕ) : Except E S :=
  match blockAfter prime proc u b n with
  | .error e => .error e
  | .ok b' => (proc ((u n).foldl prime b')).map Prod.fst
end
end Verif
