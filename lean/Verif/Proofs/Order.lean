import Verif.Model.Sounds
import Mathlib.Data.List.Nodup
import Mathlib.Data.List.NodupEquivFin
import Mathlib.Data.List.Range
import Mathlib.Data.List.Duplicate

set_option linter.unusedSectionVars false

/-! # The processing order: lemmas about `process_order` (complex_sound.rs 138-178) -/

namespace Verif
namespace ComplexSound

theorem removeDupsFrom_eq (w : ℕ) (l : List ℕ) : removeDupsFrom w l = l.filter (fun x => x ≠ w) := by
  induction l with
  | nil => rfl
  | cons x xs ih =>
    rw [removeDupsFrom]
    by_cases h : x = w
    · rw [if_pos h, ih, List.filter_cons_of_neg (by simp [h])]
    · rw [if_neg h, ih, List.filter_cons_of_pos (by simp [h])]

theorem removeDups_sublist (v : List ℕ) (k : ℕ) : (removeDups v k).Sublist v := by
  unfold removeDups
  cases h : v[k]? with
  | none => exact List.Sublist.refl v
  | some w =>
    simp only [removeDupsFrom_eq]
    conv_rhs => rw [← List.take_append_drop (k + 1) v]
    exact List.Sublist.append (List.Sublist.refl _) List.filter_sublist

theorem mem_removeDups {v : List ℕ} {k x : ℕ} : x ∈ removeDups v k ↔ x ∈ v := by
  refine ⟨fun h => (removeDups_sublist v k).subset h, fun h => ?_⟩
  unfold removeDups
  cases hk : v[k]? with
  | none => exact h
  | some w =>
    simp only [removeDupsFrom_eq, List.mem_append, List.mem_filter]
    rw [← List.take_append_drop (k + 1) v, List.mem_append] at h
    rcases h with h | h
    · exact .inl h
    · by_cases hx : x = w
      · left
        subst hx
        rw [List.mem_iff_getElem?]
        refine ⟨k, ?_⟩
        rw [List.getElem?_take, if_pos (by omega), hk]
      · exact .inr ⟨h, by simp [hx]⟩

theorem mem_removeDupsBelow {v : List ℕ} {i x : ℕ} : x ∈ removeDupsBelow v i ↔ x ∈ v := by
  unfold removeDupsBelow
  induction i with
  | zero => rfl
  | succ i ih => rw [List.range_succ, List.foldl_append]; simp only [List.foldl_cons, List.foldl_nil, mem_removeDups, ih]

/-- None of the first `k` elements occurs again later. -/
def UniqueBelow (v : List ℕ) (k : ℕ) : Prop := ∀ j < k, ∀ w, v[j]? = some w → w ∉ v.drop (j + 1)

theorem removeDups_unique {v : List ℕ} {k : ℕ} (h : UniqueBelow v k) : UniqueBelow (removeDups v k) (k + 1) := by
  unfold removeDups
  cases hk : v[k]? with
  | none =>
    intro j hj w hw
    by_cases hjk : j = k
    · subst hjk; rw [hk] at hw; cases hw
    · exact h j (by omega) w hw
  | some w0 =>
    simp only [removeDupsFrom_eq]
    have hlt : k < v.length := by
      by_contra hn
      rw [List.getElem?_eq_none (by omega)] at hk
      cases hk
    have hlen : (v.take (k + 1)).length = k + 1 := by rw [List.length_take]; omega
    intro j hj w hw hmem
    rw [List.getElem?_append_left (by omega), List.getElem?_take, if_pos (by omega)] at hw
    rw [List.drop_append_of_le_length (by omega), List.mem_append, List.mem_filter] at hmem
    by_cases hjk : j = k
    · subst hjk
      rw [hk] at hw
      cases hw
      rcases hmem with hmem | ⟨-, hmem⟩
      · rw [List.drop_eq_nil_of_le (by omega)] at hmem
        cases hmem
      · simp at hmem
    · refine h j (by omega) w hw ?_
      rcases hmem with hmem | ⟨hmem, -⟩
      · have : (v.take (k + 1)).drop (j + 1) = (v.drop (j + 1)).take (k + 1 - (j + 1)) := by rw [List.drop_take]
        rw [this] at hmem
        exact List.mem_of_mem_take hmem
      · have : v.drop (k + 1) = (v.drop (j + 1)).drop (k - j) := by rw [List.drop_drop]; congr 1; omega
        rw [this] at hmem
        exact List.mem_of_mem_drop hmem

theorem removeDupsBelow_unique (v : List ℕ) (i : ℕ) : UniqueBelow (removeDupsBelow v i) i := by
  unfold removeDupsBelow
  induction i with
  | zero => intro j hj; omega
  | succ i ih =>
    rw [List.range_succ, List.foldl_append]
    exact removeDups_unique ih

theorem UniqueBelow.nodup_take {v : List ℕ} {k : ℕ} (h : UniqueBelow v k) : (v.take (k + 1)).Nodup := by
  rw [List.nodup_iff_pairwise_ne, List.pairwise_iff_getElem]
  intro i j hi hj hij he
  rw [List.length_take] at hi hj
  rw [List.getElem_take, List.getElem_take] at he
  refine h i (by omega) v[i] (List.getElem?_eq_getElem (by omega)) ?_
  rw [he, List.mem_iff_getElem?]
  refine ⟨j - (i + 1), ?_⟩
  rw [List.getElem?_drop]
  have : i + 1 + (j - (i + 1)) = j := by omega
  rw [this]
  exact List.getElem?_eq_getElem _

theorem removeDups_of_nodup {v : List ℕ} (h : v.Nodup) (k : ℕ) : removeDups v k = v := by
  unfold removeDups
  cases hk : v[k]? with
  | none => rfl
  | some w =>
    simp only [removeDupsFrom_eq]
    conv_rhs => rw [← List.take_append_drop (k + 1) v]
    congr 1
    rw [List.filter_eq_self]
    intro a ha
    have hlt : k < v.length := by
      by_contra hn
      rw [List.getElem?_eq_none (by omega)] at hk
      cases hk
    have hw : w ∈ v.take (k + 1) := by
      rw [List.mem_iff_getElem?]
      exact ⟨k, by rw [List.getElem?_take, if_pos (by omega), hk]⟩
    rw [← List.take_append_drop (k + 1) v, List.nodup_append] at h
    have := h.2.2 w hw a ha
    simpa using Ne.symm this

theorem removeDupsBelow_of_nodup {v : List ℕ} (h : v.Nodup) (i : ℕ) : removeDupsBelow v i = v := by
  unfold removeDupsBelow
  induction i with
  | zero => rfl
  | succ i ih => rw [List.range_succ, List.foldl_append, ih]; exact removeDups_of_nodup h i

theorem removeDups_prefix {e t : List ℕ} (he : e.Nodup) (k : ℕ) : ∃ t', removeDups (e ++ t) k = e ++ t' := by
  unfold removeDups
  cases hk : (e ++ t)[k]? with
  | none => exact ⟨t, rfl⟩
  | some w =>
    simp only [removeDupsFrom_eq]
    by_cases hl : k < e.length
    · rw [List.getElem?_append_left hl] at hk
      refine ⟨t.filter (fun x => x ≠ w), ?_⟩
      rw [List.take_append_of_le_length (by omega), List.drop_append_of_le_length (by omega), List.filter_append, ← List.append_assoc]
      congr 1
      have := removeDups_of_nodup he k
      unfold removeDups at this
      rw [hk] at this
      simpa only [removeDupsFrom_eq] using this
    · refine ⟨t.take (k + 1 - e.length) ++ (t.drop (k + 1 - e.length)).filter (fun x => x ≠ w), ?_⟩
      rw [List.take_append, List.drop_append, List.take_of_length_le (by omega), List.drop_eq_nil_of_le (as := e) (by omega), List.nil_append, List.append_assoc]

theorem removeDupsBelow_prefix {e : List ℕ} (he : e.Nodup) (t : List ℕ) (i : ℕ) : ∃ t', removeDupsBelow (e ++ t) i = e ++ t' := by
  unfold removeDupsBelow
  induction i with
  | zero => exact ⟨t, rfl⟩
  | succ i ih =>
    obtain ⟨t', h⟩ := ih
    rw [List.range_succ, List.foldl_append, h]
    exact removeDups_prefix he i

/-- Invariants of the loop. -/
theorem orderLoop_inv {g : Graph} (P : List ℕ → ℕ → Prop)
    (step : ∀ v i n, P v i → v[i]? = some n → P (removeDupsBelow (v ++ g.neighbors n) i) (i + 1)) :
    ∀ fuel v i r, P v i → orderLoop g fuel v i = some r → ∃ i', P r i' ∧ r.length ≤ i' := by
  intro fuel
  induction fuel with
  | zero => intro v i r _ h; cases h
  | succ fuel ih =>
    intro v i r hP h
    rw [orderLoop] at h
    cases hv : v[i]? with
    | none =>
      rw [hv] at h
      cases h
      exact ⟨i, hP, List.getElem?_eq_none_iff.mp hv⟩
    | some n =>
      rw [hv] at h
      exact ih _ _ r (step v i n hP hv) h

/-- Edges join nodes. -/
def _root_.Verif.Graph.Valid (g : Graph) : Prop := ∀ e ∈ g.edges, e.1 < g.nodes.length ∧ e.2 < g.nodes.length

theorem mem_neighbors {g : Graph} {a b : ℕ} : b ∈ g.neighbors a ↔ (a, b) ∈ g.edges := by
  unfold Graph.neighbors
  rw [List.mem_filterMap]
  constructor
  · rintro ⟨⟨x, y⟩, h1, h2⟩
    split_ifs at h2 with hx
    cases h2
    simp only at hx
    subst hx
    exact h1
  · intro h
    exact ⟨(a, b), h, by simp⟩

theorem mem_externals {g : Graph} {n : ℕ} : n ∈ g.externals ↔ n < g.nodes.length ∧ ∀ a, (a, n) ∉ g.edges := by
  unfold Graph.externals
  rw [List.mem_filter, List.mem_range, List.all_eq_true]
  constructor
  · rintro ⟨h1, h2⟩
    exact ⟨h1, fun a ha => by simpa using h2 _ ha⟩
  · rintro ⟨h1, h2⟩
    refine ⟨h1, fun e he => ?_⟩
    obtain ⟨x, y⟩ := e
    simp only [ne_eq, decide_not, Bool.not_eq_true', decide_eq_false_iff_not]
    rintro rfl
    exact h2 x he

theorem externals_nodup (g : Graph) : g.externals.Nodup := List.nodup_range.filter _

theorem neighbors_nodup {g : Graph} (h : g.edges.Nodup) (a : ℕ) : (g.neighbors a).Nodup := by
  unfold Graph.neighbors
  apply List.Nodup.filterMap _ h
  rintro ⟨x, y⟩ ⟨x', y'⟩ b h1 h2
  simp only [Option.mem_def] at h1 h2
  split_ifs at h1 with hx
  split_ifs at h2 with hx'
  cases h1
  have h3 : y' = y := Option.some.inj h2
  have hx : x = a := hx
  have hx' : x' = a := hx'
  rw [hx, hx', h3]

/-- The loop ends within `nodes + 2` rounds. -/
theorem orderLoop_isSome_aux {g : Graph} (hg : g.Valid) : ∀ fuel v i, (∀ x ∈ v, x < g.nodes.length) → UniqueBelow v (i - 1) →
    g.nodes.length + 2 ≤ fuel + i → i ≤ g.nodes.length + 1 → (orderLoop g fuel v i).isSome = true := by
  intro fuel
  induction fuel with
  | zero => intro v i _ _ h1 h2; omega
  | succ fuel ih =>
    intro v i hv hu h1 h2
    rw [orderLoop]
    cases hvi : v[i]? with
    | none => rfl
    | some n =>
      simp only []
      have hi : i < v.length := by
        by_contra hn
        rw [List.getElem?_eq_none (by omega)] at hvi
        cases hvi
      have hin : i ≤ g.nodes.length := by
        rcases Nat.eq_zero_or_pos i with h0 | h0
        · omega
        · have hn := hu.nodup_take
          rw [Nat.sub_add_cancel h0] at hn
          have hs : v.take i ⊆ List.range g.nodes.length := fun x hx => List.mem_range.mpr (hv x (List.mem_of_mem_take hx))
          have := (List.subperm_of_subset hn hs).length_le
          rw [List.length_take, List.length_range] at this
          omega
      apply ih
      · intro x hx
        rw [mem_removeDupsBelow, List.mem_append] at hx
        rcases hx with hx | hx
        · exact hv x hx
        · exact (hg _ (mem_neighbors.mp hx)).2
      · exact removeDupsBelow_unique _ _
      · omega
      · omega

theorem orderLoop_isSome {g : Graph} (hg : g.Valid) (k : ℕ) : (orderLoop g (g.nodes.length + 2 + k) g.externals 0).isSome = true := by
  apply orderLoop_isSome_aux hg
  · intro x hx; exact (mem_externals.mp hx).1
  · intro j hj; omega
  · omega
  · omega

theorem orderLoop_fuel {g : Graph} : ∀ fuel v i r, orderLoop g fuel v i = some r → ∀ k, orderLoop g (fuel + k) v i = some r := by
  intro fuel
  induction fuel with
  | zero => intro v i r h; cases h
  | succ fuel ih =>
    intro v i r h k
    rw [Nat.add_right_comm, orderLoop]
    rw [orderLoop] at h
    cases hv : v[i]? with
    | none => rw [hv] at h; exact h
    | some n => rw [hv] at h; exact ih _ _ _ h k

theorem orderLoop_nodup {g : Graph} {fuel : ℕ} {v r : List ℕ} (h : orderLoop g fuel v 0 = some r) : r.Nodup := by
  obtain ⟨i, h1, h2⟩ := orderLoop_inv (g := g) (fun v i => UniqueBelow v (i - 1)) (fun v i n _ _ => removeDupsBelow_unique _ _)
    fuel v 0 r (fun j hj => by omega) h
  rcases Nat.eq_zero_or_pos i with h0 | h0
  · rw [List.length_eq_zero_iff.mp (by omega : r.length = 0)]; exact List.nodup_nil
  · have := h1.nodup_take
    rw [Nat.sub_add_cancel h0, List.take_of_length_le h2] at this
    exact this

theorem orderLoop_mem {g : Graph} (hg : g.Valid) {fuel : ℕ} {r : List ℕ} (h : orderLoop g fuel g.externals 0 = some r) :
    ∀ x ∈ r, x < g.nodes.length := by
  obtain ⟨i, h1, -⟩ := orderLoop_inv (g := g) (fun v _ => ∀ x ∈ v, x < g.nodes.length) (fun v i n hv _ x hx => by
    rw [mem_removeDupsBelow, List.mem_append] at hx
    rcases hx with hx | hx
    · exact hv x hx
    · exact (hg _ (mem_neighbors.mp hx)).2) fuel g.externals 0 r (fun x hx => (mem_externals.mp hx).1) h
  exact h1

/-- Sources and their targets are always found. -/
theorem orderLoop_sources {g : Graph} {fuel : ℕ} {r : List ℕ} (h : orderLoop g fuel g.externals 0 = some r) :
    (∀ s ∈ g.externals, s ∈ r) ∧ ∀ s ∈ g.externals, ∀ b, (s, b) ∈ g.edges → b ∈ r := by
  obtain ⟨i, ⟨⟨t, ht⟩, h1⟩, h2⟩ := orderLoop_inv (g := g)
    (fun v i => (∃ t, v = g.externals ++ t) ∧ ∀ j < i, ∀ s, g.externals[j]? = some s → ∀ b ∈ g.neighbors s, b ∈ v)
    (fun v i n hv hn => by
      obtain ⟨⟨t, ht⟩, hv⟩ := hv
      refine ⟨?_, fun j hj s hs b hb => ?_⟩
      · rw [ht, List.append_assoc]
        exact removeDupsBelow_prefix (externals_nodup g) _ i
      · rw [mem_removeDupsBelow, List.mem_append]
        by_cases hji : j = i
        · subst hji
          have hlt : j < g.externals.length := by
            by_contra hc
            rw [List.getElem?_eq_none (by omega)] at hs
            cases hs
          rw [ht, List.getElem?_append_left hlt, hs] at hn
          cases hn
          exact .inr hb
        · exact .inl (hv j (by omega) s hs b hb)) fuel g.externals 0 r ⟨⟨[], by simp⟩, fun j hj => by omega⟩ h
  refine ⟨fun s hs => by rw [ht]; exact List.mem_append_left _ hs, fun s hs b hb => ?_⟩
  obtain ⟨j, hj⟩ := List.mem_iff_getElem?.mp hs
  have hlt : j < g.externals.length := by
    by_contra hc
    rw [List.getElem?_eq_none (by omega)] at hj
    cases hj
  have : r.length = g.externals.length + t.length := by rw [ht, List.length_append]
  exact h1 j (by omega) s hj b (mem_neighbors.mpr hb)

/-- With at most one edge into each node nothing is removed: the order is closed under edges, and every edge goes forward. -/
theorem orderLoop_forest {g : Graph} (hn : g.edges.Nodup) (hd : ∀ a b c, (a, c) ∈ g.edges → (b, c) ∈ g.edges → a = b)
    {fuel : ℕ} {r : List ℕ} (h : orderLoop g fuel g.externals 0 = some r) :
    ∀ a ∈ r, ∀ b, (a, b) ∈ g.edges → [a, b].Sublist r := by
  obtain ⟨i, ⟨h1, h2, h3⟩, h4⟩ := orderLoop_inv (g := g)
    (fun v i => v.Nodup ∧ (∀ j < i, ∀ a, v[j]? = some a → ∀ b, (a, b) ∈ g.edges → [a, b].Sublist v) ∧
      ∀ b ∈ v, b ∈ g.externals ∨ ∃ j < i, ∃ a, v[j]? = some a ∧ (a, b) ∈ g.edges)
    (fun v i n hv hi => by
      obtain ⟨h1, h2, h3⟩ := hv
      have hlt : i < v.length := by
        by_contra hc
        rw [List.getElem?_eq_none (by omega)] at hi
        cases hi
      have hnew : ∀ b ∈ g.neighbors n, b ∉ v := by
        intro b hb hbv
        rw [mem_neighbors] at hb
        rcases h3 b hbv with he | ⟨j, hj, a, ha, hab⟩
        · exact (mem_externals.mp he).2 n hb
        · have := hd _ _ _ hab hb
          subst this
          have e1 : v[j]'(by omega) = a := by rw [List.getElem?_eq_getElem (by omega)] at ha; exact Option.some.inj ha
          have e2 : v[i]'hlt = a := by rw [List.getElem?_eq_getElem hlt] at hi; exact Option.some.inj hi
          have := (List.Nodup.getElem_inj_iff h1 (hi := by omega) (hj := hlt)).mp (e1.trans e2.symm)
          omega
      have hnd : (v ++ g.neighbors n).Nodup := by
        rw [List.nodup_append]
        refine ⟨h1, neighbors_nodup hn n, ?_⟩
        rintro a ha b hb rfl
        exact hnew a hb ha
      rw [removeDupsBelow_of_nodup hnd]
      refine ⟨hnd, fun j hj a ha b hab => ?_, fun b hb => ?_⟩
      · rw [List.getElem?_append_left (by omega)] at ha
        by_cases hji : j = i
        · subst hji
          rw [hi] at ha
          cases ha
          have hm : n ∈ v := List.mem_iff_getElem?.mpr ⟨j, hi⟩
          exact List.Sublist.append (List.singleton_sublist.mpr hm) (List.singleton_sublist.mpr (mem_neighbors.mpr hab))
        · exact (h2 j (by omega) a ha b hab).trans (List.sublist_append_left _ _)
      · rw [List.mem_append] at hb
        rcases hb with hb | hb
        · rcases h3 b hb with he | ⟨j, hj, a, ha, hab⟩
          · exact .inl he
          · exact .inr ⟨j, by omega, a, by rw [List.getElem?_append_left (by omega)]; exact ha, hab⟩
        · exact .inr ⟨i, by omega, n, by rw [List.getElem?_append_left hlt]; exact hi, mem_neighbors.mp hb⟩)
    fuel g.externals 0 r ⟨externals_nodup g, fun j hj => by omega, fun b hb => .inl hb⟩ h
  intro a ha b hab
  obtain ⟨j, hj⟩ := List.mem_iff_getElem?.mp ha
  have hlt : j < r.length := by
    by_contra hc
    rw [List.getElem?_eq_none (by omega)] at hj
    cases hj
  exact h2 j (by omega) a hj b hab

/-- Positions only move to the left when elements are removed. -/
theorem sublist_index {v' v : List ℕ} (h : v'.Sublist v) {k x : ℕ} (hk : v'[k]? = some x) : ∃ k', k ≤ k' ∧ v[k']? = some x := by
  obtain ⟨f, hf⟩ := List.sublist_iff_exists_orderEmbedding_getElem?_eq.mp h
  exact ⟨f k, f.strictMono.le_apply, by rw [← hf k]; exact hk⟩

theorem removeDupsBelow_sublist (v : List ℕ) (i : ℕ) : (removeDupsBelow v i).Sublist v := by
  unfold removeDupsBelow
  induction i with
  | zero => exact List.Sublist.refl v
  | succ i ih =>
    rw [List.range_succ, List.foldl_append]
    exact (removeDups_sublist _ i).trans ih

private theorem pairwise_getElem? {R : ℕ → ℕ → Prop} {v : List ℕ} (h : v.Pairwise R) {j k a b : ℕ} (hjk : j < k) (ha : v[j]? = some a)
    (hb : v[k]? = some b) : R a b := by
  have h1 : j < v.length := by by_contra hc; rw [List.getElem?_eq_none (by omega)] at ha; cases ha
  have h2 : k < v.length := by by_contra hc; rw [List.getElem?_eq_none (by omega)] at hb; cases hb
  rw [List.getElem?_eq_getElem h1] at ha
  rw [List.getElem?_eq_getElem h2] at hb
  have := List.pairwise_iff_getElem.mp h j k h1 h2 hjk
  rwa [Option.some.inj ha, Option.some.inj hb] at this

private structure LayerInv (g : Graph) (r : ℕ → ℕ) (D : ℕ) (v : List ℕ) (i : ℕ) : Prop where
  sorted : v.Pairwise (fun x y => r x ≤ r y)
  once : ∀ j k a : ℕ, v[j]? = some a → v[k]? = some a → r a < D → j = k
  closed : ∀ j < i, ∀ a, v[j]? = some a → r a < D → ∀ b ∈ g.neighbors a, b ∈ v
  top : ∀ n : ℕ, v[i]? = some n → ∀ y ∈ v, r y ≤ r n + 1
  le : ∀ y ∈ v, r y ≤ D
  cause : ∀ b ∈ v, r b < D → b ∈ g.externals ∨ ∃ j < i, ∃ a, v[j]? = some a ∧ (a, b) ∈ g.edges

/-- If edges lead from each layer to the next, and several edges into a node exist in the last layer only, then the nodes
before the last layer are expanded, and the order goes layer by layer. -/
theorem orderLoop_layers {g : Graph} (hn : g.edges.Nodup) {r : ℕ → ℕ} {D : ℕ} (hs : ∀ s ∈ g.externals, r s = 0)
    (he : ∀ a b, (a, b) ∈ g.edges → r b = min (r a + 1) D)
    (hd : ∀ a b c, (a, c) ∈ g.edges → (b, c) ∈ g.edges → r c < D → a = b)
    {fuel : ℕ} {v : List ℕ} (h : orderLoop g fuel g.externals 0 = some v) :
    v.Pairwise (fun x y => r x ≤ r y) ∧ ∀ a ∈ v, r a < D → ∀ b, (a, b) ∈ g.edges → b ∈ v := by
  have hbase : LayerInv g r D g.externals 0 := by
    refine ⟨?_, ?_, fun j hj => by omega, ?_, ?_, fun b hb _ => .inl hb⟩
    · apply List.Pairwise.imp_of_mem (R := fun _ _ => True) (fun {a b} ha hb _ => ?_) (List.pairwise_of_forall (fun _ _ => trivial))
      rw [hs a ha, hs b hb]
    · intro j k a hj hk _
      have h1 : j < g.externals.length := by by_contra hc; rw [List.getElem?_eq_none (by omega)] at hj; cases hj
      have h2 : k < g.externals.length := by by_contra hc; rw [List.getElem?_eq_none (by omega)] at hk; cases hk
      rw [List.getElem?_eq_getElem h1] at hj
      rw [List.getElem?_eq_getElem h2] at hk
      exact (List.Nodup.getElem_inj_iff (externals_nodup g)).mp ((Option.some.inj hj).trans (Option.some.inj hk).symm)
    · intro n _ y hy
      rw [hs y hy]
      omega
    · intro y hy
      rw [hs y hy]
      omega
  obtain ⟨i, hi, hlen⟩ := orderLoop_inv (g := g) (LayerInv g r D) (fun v i n hv hvi => by
      have hilt : i < v.length := by
        by_contra hc
        rw [List.getElem?_eq_none (by omega)] at hvi
        cases hvi
      have hnv : n ∈ v := List.mem_of_getElem? hvi
      have hnb : ∀ b ∈ g.neighbors n, r b = min (r n + 1) D := fun b hb => he _ _ (mem_neighbors.mp hb)
      have hnew : ∀ b ∈ g.neighbors n, r b < D → b ∉ v := by
        intro b hb hbD hbv
        have hb' := mem_neighbors.mp hb
        rcases hv.cause b hbv hbD with hx | ⟨j, hj, a, ha, hab⟩
        · exact (mem_externals.mp hx).2 n hb'
        · have := hd _ _ _ hab hb' hbD
          subst this
          have h1 := hnb b hb
          have := hv.once j i a ha hvi (by omega)
          omega
      have hrn : r n ≤ D := hv.le n hnv
      -- the extended list
      have hsort : (v ++ g.neighbors n).Pairwise (fun x y => r x ≤ r y) := by
        rw [List.pairwise_append]
        refine ⟨hv.sorted, ?_, ?_⟩
        · apply List.Pairwise.imp_of_mem (R := fun _ _ => True) (fun {a b} ha hb _ => ?_) (List.pairwise_of_forall (fun _ _ => trivial))
          rw [hnb a ha, hnb b hb]
        · intro x hx y hy
          rw [hnb y hy]
          exact le_min (hv.top n hvi x hx) (hv.le x hx)
      have honce : ∀ j k a : ℕ, (v ++ g.neighbors n)[j]? = some a → (v ++ g.neighbors n)[k]? = some a → r a < D → j = k := by
        intro j k a hj hk ha
        by_cases hjl : j < v.length <;> by_cases hkl : k < v.length
        · rw [List.getElem?_append_left hjl] at hj
          rw [List.getElem?_append_left hkl] at hk
          exact hv.once j k a hj hk ha
        · rw [List.getElem?_append_left hjl] at hj
          rw [List.getElem?_append_right (by omega)] at hk
          exact (hnew a (List.mem_of_getElem? hk) ha (List.mem_of_getElem? hj)).elim
        · rw [List.getElem?_append_right (by omega)] at hj
          rw [List.getElem?_append_left hkl] at hk
          exact (hnew a (List.mem_of_getElem? hj) ha (List.mem_of_getElem? hk)).elim
        · rw [List.getElem?_append_right (by omega)] at hj hk
          have hN := neighbors_nodup hn n
          have h1 : j - v.length < (g.neighbors n).length := by
            by_contra hc; rw [List.getElem?_eq_none (by omega)] at hj; cases hj
          have h2 : k - v.length < (g.neighbors n).length := by
            by_contra hc; rw [List.getElem?_eq_none (by omega)] at hk; cases hk
          rw [List.getElem?_eq_getElem h1] at hj
          rw [List.getElem?_eq_getElem h2] at hk
          have := (List.Nodup.getElem_inj_iff hN).mp ((Option.some.inj hj).trans (Option.some.inj hk).symm)
          omega
      have hle : ∀ y ∈ v ++ g.neighbors n, r y ≤ D := by
        intro y hy
        rcases List.mem_append.mp hy with hy | hy
        · exact hv.le y hy
        · rw [hnb y hy]; exact min_le_right _ _
      have htop : ∀ y ∈ v ++ g.neighbors n, r y ≤ r n + 1 := by
        intro y hy
        rcases List.mem_append.mp hy with hy | hy
        · exact hv.top n hvi y hy
        · rw [hnb y hy]; exact min_le_left _ _
      have hsub := removeDupsBelow_sublist (v ++ g.neighbors n) i
      have hwi : (v ++ g.neighbors n)[i]? = some n := by rw [List.getElem?_append_left hilt]; exact hvi
      have hmem : ∀ x, x ∈ removeDupsBelow (v ++ g.neighbors n) i ↔ x ∈ v ++ g.neighbors n := fun x => mem_removeDupsBelow
      have hpre : r n < D → ∃ t, removeDupsBelow (v ++ g.neighbors n) i = v.take (i + 1) ++ t := by
        intro hnD
        have hnd : (v.take (i + 1)).Nodup := by
          rw [List.nodup_iff_pairwise_ne, List.pairwise_iff_getElem]
          intro j k hj hk hjk heq
          rw [List.length_take] at hj hk
          rw [List.getElem_take, List.getElem_take] at heq
          have e1 : v[j]? = some (v[k]'(by omega)) := by rw [List.getElem?_eq_getElem (by omega), heq]
          have e2 : v[k]? = some (v[k]'(by omega)) := List.getElem?_eq_getElem (by omega)
          have hr : r (v[k]'(by omega)) ≤ r n := by
            by_cases hki : k = i
            · subst hki
              rw [e2] at hvi
              rw [Option.some.inj hvi]
            · exact pairwise_getElem? hv.sorted (by omega : k < i) e2 hvi
          have := hv.once j k _ e1 e2 (by omega)
          omega
        have := removeDupsBelow_prefix hnd (v.drop (i + 1) ++ g.neighbors n) i
        rwa [← List.append_assoc, List.take_append_drop] at this
      generalize hv' : removeDupsBelow (v ++ g.neighbors n) i = v' at hsub hmem hpre
      have hback : ∀ j a : ℕ, v'[j]? = some a → r a < D → ∀ j', (v ++ g.neighbors n)[j']? = some a → j ≤ j' := by
        intro j a hj ha j' hj'
        obtain ⟨k, hk, hka⟩ := sublist_index hsub hj
        have := honce k j' a hka hj' ha
        omega
      refine ⟨hsort.sublist hsub, ?_, ?_, ?_, fun y hy => hle y ((hmem y).mp hy), ?_⟩
      · intro j k a hj hk ha
        have hc : v'.count a ≤ (v ++ g.neighbors n).count a := hsub.count_le a
        have h1 : (v ++ g.neighbors n).count a ≤ 1 := by
          by_contra hcc
          have : [a, a].Sublist (v ++ g.neighbors n) := List.replicate_sublist_iff.mpr (by omega : 2 ≤ _)
          obtain ⟨f, hf⟩ := List.sublist_iff_exists_orderEmbedding_getElem?_eq.mp this
          have e0 := hf 0
          have e1 := hf 1
          have := honce (f 0) (f 1) a e0.symm e1.symm ha
          have := f.injective this
          omega
        by_contra hjk
        have hj1 : j < v'.length := by by_contra hc; rw [List.getElem?_eq_none (by omega)] at hj; cases hj
        have hk1 : k < v'.length := by by_contra hc; rw [List.getElem?_eq_none (by omega)] at hk; cases hk
        rw [List.getElem?_eq_getElem hj1] at hj
        rw [List.getElem?_eq_getElem hk1] at hk
        have hdup : v'.Duplicate a := by
          rcases Nat.lt_or_ge j k with hlt | hge
          · exact List.duplicate_iff_exists_distinct_get.mpr ⟨⟨j, hj1⟩, ⟨k, hk1⟩, hlt, (Option.some.inj hj).symm, (Option.some.inj hk).symm⟩
          · exact List.duplicate_iff_exists_distinct_get.mpr
              ⟨⟨k, hk1⟩, ⟨j, hj1⟩, by show k < j; omega, (Option.some.inj hk).symm, (Option.some.inj hj).symm⟩
        have := List.duplicate_iff_two_le_count.mp hdup
        omega
      · intro j hj a hja ha b hb
        rw [hmem, List.mem_append]
        have hav : a ∈ v ++ g.neighbors n := (hmem a).mp (List.mem_of_getElem? hja)
        by_cases hnD : r n < D
        · obtain ⟨t, ht⟩ := hpre hnD
          rw [ht, List.getElem?_append_left (by rw [List.length_take]; omega), List.getElem?_take, if_pos (by omega)] at hja
          by_cases hji : j = i
          · subst hji
            rw [hvi] at hja
            cases hja
            exact .inr hb
          · exact .inl (hv.closed j (by omega) a hja ha b hb)
        · have han : a ∉ g.neighbors n := by
            intro hc
            have := hnb a hc
            omega
          have hav : a ∈ v := by simpa [han] using hav
          obtain ⟨k, hk⟩ := List.mem_iff_getElem?.mp hav
          have hki : k < i := by
            by_contra hc
            by_cases hki : k = i
            · subst hki; rw [hvi] at hk; cases hk; omega
            · have := pairwise_getElem? hv.sorted (by omega : i < k) hvi hk
              omega
          exact .inl (hv.closed k hki a hk ha b hb)
      · intro n' hn' y hy
        have h1 := htop y ((hmem y).mp hy)
        obtain ⟨k, hk, hka⟩ := sublist_index hsub hn'
        have := pairwise_getElem? hsort (by omega : i < k) hwi hka
        omega
      · intro b hb hbD
        have hb := (hmem b).mp hb
        have lift : ∀ j a : ℕ, j < i + 1 → v[j]? = some a → r a < D → ∃ j' < i + 1, v'[j']? = some a := by
          intro j a hj hja ha
          have haw : (v ++ g.neighbors n)[j]? = some a := by
            rw [List.getElem?_append_left (by by_contra hc; rw [List.getElem?_eq_none (by omega)] at hja; cases hja)]
            exact hja
          obtain ⟨j', hj'⟩ := List.mem_iff_getElem?.mp ((hmem a).mpr (List.mem_of_getElem? haw))
          have := hback j' a hj' ha j haw
          exact ⟨j', by omega, hj'⟩
        rcases List.mem_append.mp hb with hb | hb
        · rcases hv.cause b hb hbD with hx | ⟨j, hj, a, ha, hab⟩
          · exact .inl hx
          · have := he a b hab
            obtain ⟨j', h1, h2⟩ := lift j a (by omega) ha (by omega)
            exact .inr ⟨j', h1, a, h2, hab⟩
        · have := hnb b hb
          obtain ⟨j', h1, h2⟩ := lift i n (by omega) hvi (by omega)
          exact .inr ⟨j', h1, n, h2, mem_neighbors.mp hb⟩)
    fuel g.externals 0 v hbase h
  refine ⟨hi.sorted, fun a ha haD b hb => ?_⟩
  obtain ⟨j, hj⟩ := List.mem_iff_getElem?.mp ha
  have hlt : j < v.length := by
    by_contra hc
    rw [List.getElem?_eq_none (by omega)] at hj
    cases hj
  exact hi.closed j (by omega) a hj haD b (mem_neighbors.mpr hb)

end ComplexSound
end Verif
