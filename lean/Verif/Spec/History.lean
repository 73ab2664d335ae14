import Mathlib.Logic.Function.Iterate

/-! # Call histories and sample sequences, independent of the model -/

namespace Verif

/-- A call on a generator with one parameter (frequency or playback speed). -/
inductive GenCall (M : Type) where
  /-- produce a sample -/
  | process
  /-- set the parameter -/
  | setFrequency (f : M)

/-- State after a history, given the effect of each call. -/
def runCalls {G M : Type} (step : G → G) (set : G → M → G) : List (GenCall M) → G → G
  | [], g => g
  | .process :: cs, g => runCalls step set cs (step g)
  | .setFrequency f :: cs, g => runCalls step set cs (set g f)

/-- The frequency set last. -/
def lastFreq {M : Type} (f : M) : List (GenCall M) → M
  | [] => f
  | .process :: cs => lastFreq f cs
  | .setFrequency f' :: cs => lastFreq f' cs

/-- All frequencies set satisfy `P`. -/
def FreqsOk {M : Type} (P : M → Prop) (cs : List (GenCall M)) : Prop :=
  ∀ f, GenCall.setFrequency f ∈ cs → P f

/-- Invariants of both calls hold after every history. -/
theorem runCalls_inv {G M : Type} {step : G → G} {set : G → M → G} {P : M → Prop} (I : G → Prop)
    (hs : ∀ g, I g → I (step g)) (hf : ∀ g f, P f → I g → I (set g f)) (cs : List (GenCall M)) (hcs : FreqsOk P cs)
    (g : G) (hg : I g) : I (runCalls step set cs g) := by
  induction cs generalizing g with
  | nil => exact hg
  | cons c cs ih =>
    have hcs' : FreqsOk P cs := fun f h => hcs f (List.mem_cons_of_mem _ h)
    cases c with
    | process => exact ih hcs' _ (hs g hg)
    | setFrequency f => exact ih hcs' _ (hf g f (hcs f (List.mem_cons_self ..)) hg)

/-- State after `n` calls of `process`. -/
def after {G S : Type} (p : G → S × G) (n : ℕ) (g : G) : G := (fun g => (p g).2)^[n] g

/-- Sample number `n` (from 0). -/
def nth {G S : Type} (p : G → S × G) (g : G) (n : ℕ) : S := (p (after p n g)).1

theorem after_succ {G S : Type} (p : G → S × G) (n : ℕ) (g : G) : after p (n + 1) g = (p (after p n g)).2 :=
  Function.iterate_succ_apply' _ _ _

theorem after_succ' {G S : Type} (p : G → S × G) (n : ℕ) (g : G) : after p (n + 1) g = after p n (p g).2 :=
  Function.iterate_succ_apply _ _ _

@[simp] theorem after_zero {G S : Type} (p : G → S × G) (g : G) : after p 0 g = g := rfl

theorem after_add {G S : Type} (p : G → S × G) (m n : ℕ) (g : G) : after p (m + n) g = after p m (after p n g) :=
  Function.iterate_add_apply _ _ _ _

/-- State after `n` calls of a `process` that may panic (`E` the panics). -/
def afterR {G S E : Type} (p : G → Except E (S × G)) : ℕ → G → Except E G
  | 0, g => .ok g
  | n + 1, g => match p g with
    | .error e => .error e
    | .ok (_, g') => afterR p n g'

/-- Sample number `n` (from 0) of a `process` that may panic. -/
def nthR {G S E : Type} (p : G → Except E (S × G)) (g : G) (n : ℕ) : Except E S :=
  match afterR p n g with
  | .error e => .error e
  | .ok g' => (p g').map Prod.fst

theorem afterR_succ {G S E : Type} {p : G → Except E (S × G)} {n : ℕ} {g h k : G} {y : S}
    (h1 : afterR p n g = .ok h) (h2 : p h = .ok (y, k)) : afterR p (n + 1) g = .ok k := by
  induction n generalizing g with
  | zero => cases h1; simp only [afterR, h2]
  | succ n ih =>
    unfold afterR at h1
    rw [afterR]
    split at h1
    · cases h1
    · exact ih h1

/-- An invariant that `process` keeps without panicking holds after any number of calls. -/
theorem afterR_inv {G S E : Type} {p : G → Except E (S × G)} (I : G → Prop)
    (hs : ∀ g, I g → ∃ y g', p g = .ok (y, g') ∧ I g') (n : ℕ) (g : G) (hg : I g) :
    ∃ g', afterR p n g = .ok g' ∧ I g' := by
  induction n generalizing g with
  | zero => exact ⟨g, rfl, hg⟩
  | succ n ih =>
    obtain ⟨y, g', h1, h2⟩ := hs g hg
    obtain ⟨k, h3, h4⟩ := ih g' h2
    exact ⟨k, by simp only [afterR, h1, h3], h4⟩

/-- A history of a generator that may panic: frequency changes and samples. -/
def runCallsR {G M S E : Type} (p : G → Except E (S × G)) (set : G → M → G) : List (GenCall M) → G → Except E G
  | [], g => .ok g
  | .process :: cs, g => match p g with
    | .error e => .error e
    | .ok (_, g') => runCallsR p set cs g'
  | .setFrequency f :: cs, g => runCallsR p set cs (set g f)

theorem runCallsR_inv {G M S E : Type} {p : G → Except E (S × G)} {set : G → M → G} {P : M → Prop} (I : G → Prop)
    (hs : ∀ g, I g → ∃ y g', p g = .ok (y, g') ∧ I g') (hf : ∀ g f, P f → I g → I (set g f))
    (cs : List (GenCall M)) (hcs : FreqsOk P cs) (g : G) (hg : I g) :
    ∃ g', runCallsR p set cs g = .ok g' ∧ I g' := by
  induction cs generalizing g with
  | nil => exact ⟨g, rfl, hg⟩
  | cons c cs ih =>
    have hcs' : FreqsOk P cs := fun f h => hcs f (List.mem_cons_of_mem _ h)
    cases c with
    | process =>
      obtain ⟨y, g', h1, h2⟩ := hs g hg
      obtain ⟨k, h3, h4⟩ := ih hcs' g' h2
      exact ⟨k, by simp only [runCallsR, h1, h3], h4⟩
    | setFrequency f => exact ih hcs' _ (hf g f (hcs f (List.mem_cons_self ..)) hg)

end Verif
