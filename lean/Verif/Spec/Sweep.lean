import Mathlib.Data.Nat.Notation

/-! # Setting a parameter before every sample, independent of the model -/

namespace Verif

/-- State after `n` samples, `f i` being set before sample `i`. -/
def sweep {G M S : Type} (set : G → M → G) (p : G → S × G) (f : ℕ → M) (g : G) : ℕ → G
  | 0 => g
  | n + 1 => (p (set (sweep set p f g n) (f n))).2

/-- Sample number `n`, `f i` being set before sample `i`. -/
def sweepOut {G M S : Type} (set : G → M → G) (p : G → S × G) (f : ℕ → M) (g : G) (n : ℕ) : S :=
  (p (set (sweep set p f g n) (f n))).1

/-- The same for a `process` that may panic (`E` the panics). -/
def sweepR {G M S E : Type} (set : G → M → G) (p : G → Except E (S × G)) (f : ℕ → M) (g : G) : ℕ → Except E G
  | 0 => .ok g
  | n + 1 => match sweepR set p f g n with
    | .error e => .error e
    | .ok h => (p (set h (f n))).map Prod.snd

/-- The same for a `process` that may panic (`E` the panics). -/
def sweepOutR {G M S E : Type} (set : G → M → G) (p : G → Except E (S × G)) (f : ℕ → M) (g : G) (n : ℕ) : Except E S :=
  match sweepR set p f g n with
  | .error e => .error e
  | .ok h => (p (set h (f n))).map Prod.fst

end Verif
