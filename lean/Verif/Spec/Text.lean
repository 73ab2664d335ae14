import Mathlib.Data.Nat.Notation

/-! # Text: splitting, trimming and reading decimal numbers, independent of the model -/

namespace Verif

/-- The pieces of a text between occurrences of `c`. -/
def pieces (c : Char) : List Char → List (List Char)
  | [] => [[]]
  | x :: xs =>
    if x = c then [] :: pieces c xs
    else match pieces c xs with
      | [] => [[x]]
      | y :: ys => (x :: y) :: ys

/-- Space or line break. -/
def isBlank (c : Char) : Bool := c = ' ' || c = '\n'

/-- Blanks removed at both ends. -/
def trimmed (l : List Char) : List Char := ((l.dropWhile isBlank).reverse.dropWhile isBlank).reverse

/-- The number written in decimal: only digits, at least one, no leading zero. -/
def readDec (l : List Char) : Option ℕ :=
  if l = [] ∨ (l.head? = some '0' ∧ l.length ≠ 1) ∨ ¬ l.all (fun c => '0' ≤ c ∧ c ≤ '9') then none
  else some (l.foldl (fun n c => 10 * n + (c.toNat - '0'.toNat)) 0)

end Verif
