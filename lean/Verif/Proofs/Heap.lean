import Verif.Model.Sounds

set_option linter.unusedSectionVars false

/-! # Heap lemmas -/

namespace Verif
namespace Heap
variable {B : Type}

theorem getMut_eq_some {h : Heap B} {a : ℕ} {b : B} : h.getMut a = some b ↔ h[a]? = some ⟨b, 1⟩ := by
  unfold getMut
  cases hc : h[a]? with
  | none => simp
  | some c =>
    obtain ⟨v, r⟩ := c
    by_cases hr : r = 1
    · subst hr; simp
    · simp [hr]

theorem getMut_eq_none {h : Heap B} {a : ℕ} : h.getMut a = none ↔ ∀ c, h[a]? = some c → c.refs ≠ 1 := by
  unfold getMut
  cases hc : h[a]? with
  | none => simp
  | some c => simp

theorem put_length (h : Heap B) (a : ℕ) (b : B) : (h.put a b).length = h.length := by
  unfold put; split <;> simp

theorem getElem?_put (h : Heap B) (a : ℕ) (b : B) (i : ℕ) :
    (h.put a b)[i]? = if i = a then (h[i]?).map (fun c => { c with val := b }) else h[i]? := by
  unfold put
  cases hc : h[a]? with
  | none =>
    split_ifs with hi
    · subst hi; simp [hc]
    · rfl
  | some c =>
    have hlt : a < h.length := by
      by_contra hn
      rw [List.getElem?_eq_none (by omega)] at hc
      cases hc
    simp only [List.getElem?_set]
    split_ifs with h1 h2 h3 <;> first | omega | skip
    · subst h1; simp [hc]
    · rfl

/-- Writing changes no reference count. -/
theorem put_refs (h : Heap B) (a : ℕ) (b : B) (i : ℕ) : ((h.put a b)[i]?).map (·.refs) = (h[i]?).map (·.refs) := by
  rw [getElem?_put]
  split_ifs
  · cases h[i]? <;> rfl
  · rfl

theorem put_getMut_none (h : Heap B) (a : ℕ) (b : B) (i : ℕ) : (h.put a b).getMut i = none ↔ h.getMut i = none := by
  have := put_refs h a b i
  unfold getMut
  cases h1 : (h.put a b)[i]? with
  | none =>
    rw [h1] at this
    cases h2 : h[i]? with
    | none => simp
    | some c => rw [h2] at this; cases this
  | some c =>
    rw [h1] at this
    cases h2 : h[i]? with
    | none => rw [h2] at this; cases this
    | some c' =>
      rw [h2] at this
      have e : c.refs = c'.refs := by simpa using this
      simp [e]

theorem getMut_put_self {h : Heap B} {a : ℕ} {b b' : B} (hb : h.getMut a = some b) : (h.put a b').getMut a = some b' := by
  rw [getMut_eq_some] at hb ⊢
  rw [getElem?_put, if_pos rfl, hb]
  rfl

theorem getMut_put_ne {h : Heap B} {a i : ℕ} {b' : B} (hi : i ≠ a) : (h.put a b').getMut i = h.getMut i := by
  unfold getMut
  rw [getElem?_put, if_neg hi]

theorem getElem?_incr (h : Heap B) (a i : ℕ) :
    (h.incr a)[i]? = if i = a then (h[i]?).map (fun c => { c with refs := c.refs + 1 }) else h[i]? := by
  unfold incr
  cases hc : h[a]? with
  | none =>
    split_ifs with hi
    · subst hi; simp [hc]
    · rfl
  | some c =>
    have hlt : a < h.length := by
      by_contra hn
      rw [List.getElem?_eq_none (by omega)] at hc
      cases hc
    simp only [List.getElem?_set]
    split_ifs with h1 h2 h3 <;> first | omega | skip
    · subst h1; simp [hc]
    · rfl

theorem getElem?_decr (h : Heap B) (a i : ℕ) :
    (h.decr a)[i]? = if i = a then (h[i]?).map (fun c => { c with refs := c.refs - 1 }) else h[i]? := by
  unfold decr
  cases hc : h[a]? with
  | none =>
    split_ifs with hi
    · subst hi; simp [hc]
    · rfl
  | some c =>
    have hlt : a < h.length := by
      by_contra hn
      rw [List.getElem?_eq_none (by omega)] at hc
      cases hc
    simp only [List.getElem?_set]
    split_ifs with h1 h2 h3 <;> first | omega | skip
    · subst h1; simp [hc]
    · rfl

/-- Cloning the `Arc`s in `l`. -/
theorem getElem?_foldl_incr (l : List ℕ) (h : Heap B) (i : ℕ) :
    (l.foldl incr h)[i]? = (h[i]?).map (fun c => { c with refs := c.refs + l.count i }) := by
  induction l generalizing h with
  | nil => rw [List.foldl_nil]; cases h[i]? <;> rfl
  | cons a l ih =>
    rw [List.foldl_cons, ih, getElem?_incr, List.count_cons]
    cases h[i]? with
    | none => split_ifs <;> rfl
    | some c =>
      by_cases hi : i = a
      · subst hi; simp [Nat.add_comm, Nat.add_left_comm]
      · simp [hi, Ne.symm hi]

theorem getElem?_foldl_decr (l : List ℕ) (h : Heap B) (i : ℕ) :
    (l.foldl decr h)[i]? = (h[i]?).map (fun c => { c with refs := c.refs - l.count i }) := by
  induction l generalizing h with
  | nil => rw [List.foldl_nil]; cases h[i]? <;> rfl
  | cons a l ih =>
    rw [List.foldl_cons, ih, getElem?_decr, List.count_cons]
    cases h[i]? with
    | none => split_ifs <;> rfl
    | some c =>
      by_cases hi : i = a
      · subst hi; simp [Nat.sub_sub, Nat.add_comm]
      · simp [hi, Ne.symm hi]

end Heap
end Verif
