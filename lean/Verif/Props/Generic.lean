import Verif.Spec.Filter
import Verif.Model.Modifiers
import Verif.Model.ArithReal

set_option linter.unusedSectionVars false

/-! # The generic filter: C56, C57 -/

namespace Verif

section
variable {S : Type} [Flt S]

/-- Sum of taps, left to right, on a signal given by its value `k` samples ago. -/
def tapSum (past : ℕ → S) (taps : List (ℕ × S)) (acc : S) : S :=
  taps.foldl (fun acc t => acc + past t.1 * t.2) acc

/-- The last tap has the largest index. -/
def LastLargest (taps : List (ℕ × S)) : Prop := ∀ t ∈ taps, ∀ l ∈ taps.getLast?, t.1 ≤ l.1

theorem back_le {l : List (ℕ × S)} (h : LastLargest l) : ∀ t ∈ l, t.1 < Generic.back l := by
  intro t ht
  unfold Generic.back
  cases hl : l.getLast? with
  | none => rw [List.getLast?_eq_none_iff] at hl; subst hl; simp at ht
  | some z => exact Nat.lt_succ_of_le (h t ht z hl)

private theorem back_of {l : List (ℕ × S)} (h : ∀ t ∈ l, t.1 < Generic.back l) : LastLargest l := by
  intro t ht z hz
  have := h t ht
  unfold Generic.back at this
  rw [Option.mem_def] at hz
  rw [hz] at this
  exact Nat.lt_succ_iff.mp this

/-- Contents of a history buffer of length `L` before time `n`: entry `k` is the signal at `n-1-k`. -/
private def buf (u : ℕ → S) (L n : ℕ) : List S := (List.range L).map fun k => delayed (lit 0) u (k + 1) n

private theorem buf_zero (u : ℕ → S) (L : ℕ) : buf u L 0 = List.replicate L (lit 0) := by
  unfold buf
  rw [List.eq_replicate_iff]
  refine ⟨by simp, fun b hb => ?_⟩
  obtain ⟨i, hi, rfl⟩ := List.mem_map.mp hb
  simp [delayed]

private theorem buf_shift (u : ℕ → S) (L n : ℕ) : Generic.shift (buf u L n) (u n) = buf u L (n + 1) := by
  unfold Generic.shift buf
  have e : u n = delayed (lit 0) u (0 + 1) (n + 1) := by
    unfold delayed; rw [if_neg (by omega)]; congr 1
  have : u n :: (List.range L).map (fun k => delayed (lit 0) u (k + 1) n) =
      (List.range (L + 1)).map (fun k => delayed (lit 0) u (k + 1) (n + 1)) := by
    rw [List.range_succ_eq_map, List.map_cons, List.map_map, ← e]
    congr 1
    apply List.map_congr_left
    intro k _
    show delayed (lit 0) u (k + 1) n = delayed (lit 0) u (k + 1 + 1) (n + 1)
    unfold delayed
    by_cases h : n < k + 1
    · rw [if_pos h, if_pos (by omega)]
    · rw [if_neg h, if_neg (by omega)]; congr 1; omega
  rw [this, List.range_succ, List.map_append]
  exact List.dropLast_concat

private theorem accum_buf (u : ℕ → S) (L n : ℕ) (taps : List (ℕ × S)) (h : ∀ t ∈ taps, t.1 < L) (acc : S) :
    Generic.accum (buf u L n) taps acc = .ok (tapSum (fun k => delayed (lit 0) u (k + 1) n) taps acc) := by
  induction taps generalizing acc with
  | nil => rfl
  | cons t ts ih =>
    have ht := h t (List.mem_cons_self ..)
    have hg : (buf u L n)[t.1]? = some (delayed (lit 0) u (t.1 + 1) n) := by
      unfold buf
      rw [List.getElem?_map, List.getElem?_range ht]
      rfl
    unfold Generic.accum
    rw [hg]
    exact ih (fun t' h' => h t' (List.mem_cons_of_mem _ h')) _

private theorem accum_err (b : List S) (taps : List (ℕ × S)) (acc : S) :
    (∃ y, Generic.accum b taps acc = .ok y ∧ ∀ t ∈ taps, t.1 < b.length) ∨
    (Generic.accum b taps acc = .error .index ∧ ∃ t ∈ taps, b.length ≤ t.1) := by
  induction taps generalizing acc with
  | nil => exact .inl ⟨acc, rfl, by simp⟩
  | cons t ts ih =>
    unfold Generic.accum
    by_cases ht : t.1 < b.length
    · rw [List.getElem?_eq_getElem ht]
      rcases ih (acc + b[t.1] * t.2) with ⟨y, h1, h2⟩ | ⟨h1, t', h2, h3⟩
      · exact .inl ⟨y, h1, fun t' h' => by
          rcases List.mem_cons.mp h' with rfl | h'
          · exact ht
          · exact h2 t' h'⟩
      · exact .inr ⟨h1, t', List.mem_cons_of_mem _ h2, h3⟩
    · rw [List.getElem?_eq_none (not_lt.mp ht)]
      exact .inr ⟨rfl, t, List.mem_cons_self .., not_lt.mp ht⟩

/-- In any arithmetic: with the largest tap last (in both lists) the filter never panics and its outputs satisfy
`y[n] = Σ z*x[n-k] + Σ p*y[n-1-k]`, added left to right, signals being 0 before time 0. -/
theorem C56_generic (zeros poles : List (ℕ × S)) (hz : LastLargest zeros) (hp : LastLargest poles) (x : ℕ → S) :
    ∃ y : ℕ → S, ∀ n, modOut Generic.process x (Generic.new zeros poles) n = .ok (y n) ∧
      y n = tapSum (fun k => if n < k + 1 then lit 0 else y (n - (k + 1))) poles
        (tapSum (fun k => if n < k then lit 0 else x (n - k)) zeros (lit 0)) := by
  set Z := Generic.back zeros
  set P := Generic.back poles
  have np : ∀ n, ∃ y, modOut Generic.process x (Generic.new zeros poles) n = .ok y := by
    have step : ∀ (m : Generic S) v, (m.zeros = zeros ∧ m.poles = poles ∧ m.inputs.length = Z ∧ m.outputs.length = P) →
        ∃ y m', m.process v = .ok (y, m') ∧ (m'.zeros = zeros ∧ m'.poles = poles ∧ m'.inputs.length = Z ∧ m'.outputs.length = P) := by
      intro m v ⟨h1, h2, h3, h4⟩
      have l1 : (Generic.shift m.inputs v).length = Z := by simp [Generic.shift, h3]
      unfold Generic.process
      rw [h1, h2]
      rcases accum_err (Generic.shift m.inputs v) zeros (dflt : S) with ⟨y, e1, -⟩ | ⟨-, t, e2, e3⟩
      · rcases accum_err m.outputs poles y with ⟨y', f1, -⟩ | ⟨-, t, f2, f3⟩
        · simp only [e1, f1, bind, Except.bind]
          exact ⟨_, _, rfl, rfl, rfl, l1, by simp [Generic.shift, h4]⟩
        · have := back_le hp t f2; omega
      · have := back_le hz t e2; omega
    intro n
    obtain ⟨m', h1, h2⟩ := modAfter_inv (p := Generic.process) (x := x) _ step (m := Generic.new zeros poles)
      ⟨rfl, rfl, by simp [Generic.new, Z], by simp [Generic.new, P]⟩ n
    obtain ⟨y, m'', h3, -⟩ := step m' (x n) h2
    exact ⟨y, modOut_of h1 h3⟩
  choose y hy using np
  have out : ∀ n, Generic.process ⟨zeros, poles, buf x Z n, buf y P n⟩ (x n) =
      .ok (tapSum (fun k => delayed (lit 0) y (k + 1) n) poles (tapSum (fun k => delayed (lit 0) x (k + 1) (n + 1)) zeros (lit 0)),
        ⟨zeros, poles, buf x Z (n + 1), Generic.shift (buf y P n)
          (tapSum (fun k => delayed (lit 0) y (k + 1) n) poles (tapSum (fun k => delayed (lit 0) x (k + 1) (n + 1)) zeros (lit 0)))⟩) := by
    intro n
    unfold Generic.process
    simp only [buf_shift]
    rw [accum_buf x Z (n + 1) zeros (back_le hz)]
    simp only [bind, Except.bind]
    rw [accum_buf y P n poles (back_le hp)]
    rfl
  have key : ∀ n, modAfter Generic.process x (Generic.new zeros poles) n = .ok ⟨zeros, poles, buf x Z n, buf y P n⟩ := by
    intro n
    induction n with
    | zero => rw [buf_zero, buf_zero]; rfl
    | succ n ih =>
      have e := hy n
      rw [modOut_of ih (out n)] at e
      have e' := Except.ok.inj e
      have := modAfter_succ ih (out n)
      rw [e', buf_shift] at this
      exact this
  refine ⟨y, fun n => ⟨hy n, ?_⟩⟩
  have e := hy n
  rw [modOut_of (key n) (out n)] at e
  have e' := Except.ok.inj e
  rw [← e']
  have hx : (fun k => delayed (lit 0 : S) x (k + 1) (n + 1)) = fun k => if n < k then lit 0 else x (n - k) := by
    funext k
    unfold delayed
    by_cases h : n < k
    · rw [if_pos h, if_pos (by omega)]
    · rw [if_neg h, if_neg (by omega)]; congr 1; omega
  rw [hx]
  rfl

example : LastLargest [(0, (lit 1 : F32)), (2, lit 2)] ∧
    ((List.range 4).map fun n => (modOut Generic.process (fun n => if n = 0 then (lit 1 : F32) else lit 0)
      (Generic.new [(0, lit 1), (2, lit 2)] [(0, lit (1 / 2))]) n).toOption) =
      [some (lit 1), some (lit (1 / 2)), some (lit (9 / 4)), some (lit (9 / 8))] := by
  refine ⟨?_, by decide +kernel⟩
  intro t ht l hl
  simp at ht hl
  rcases ht with rfl | rfl <;> subst hl <;> decide

/-- The property fails: taps in descending order panic on the first sample. -/
theorem C57_generic_violated :
    (modOut Generic.process (fun _ => (lit 1 : F32)) (Generic.new [(1, lit 1), (0, lit 1)] []) 0).toOption = none := by
  decide +kernel

/-- What holds, in any arithmetic: no input ever panics if the last tap of each list has the largest index of that list,
and otherwise the first sample panics. Missing: other orders, where it is false. -/
theorem C57_generic_partial (zeros poles : List (ℕ × S)) (x : ℕ → S) :
    (LastLargest zeros ∧ LastLargest poles → ∀ n, ∃ y, modOut Generic.process x (Generic.new zeros poles) n = .ok y) ∧
    (¬ (LastLargest zeros ∧ LastLargest poles) → modOut Generic.process x (Generic.new zeros poles) 0 = .error .index) := by
  constructor
  · rintro ⟨hz, hp⟩ n
    obtain ⟨y, hy⟩ := C56_generic zeros poles hz hp x
    exact ⟨y n, (hy n).1⟩
  · intro h
    have hp : (Generic.new zeros poles).process (x 0) = .error .index := by
      unfold Generic.process
      rcases accum_err (Generic.shift (Generic.new zeros poles).inputs (x 0)) (Generic.new zeros poles).zeros (dflt : S) with
        ⟨y, e1, e2⟩ | ⟨e1, -⟩
      · rcases accum_err (Generic.new zeros poles).outputs (Generic.new zeros poles).poles y with ⟨y', f1, f2⟩ | ⟨f1, -⟩
        · refine absurd ⟨back_of fun t ht => ?_, back_of fun t ht => ?_⟩ h
          · simpa [Generic.new, Generic.shift] using e2 t ht
          · simpa [Generic.new, Generic.shift] using f2 t ht
        · simp only [e1, f1, bind, Except.bind]
      · simp only [e1, bind, Except.bind]
    simp only [modOut, modAfter, hp, Except.map]
end

end Verif
