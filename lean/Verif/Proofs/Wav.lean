import Verif.Model.Utils

/-! # Lemmas for WAV reading and writing -/

namespace Verif
set_option linter.unusedSectionVars false
variable {S : Type} [Flt S]

theorem checkClip_isSome (clip : Bool) (len : ℕ) (ts : List (List S)) :
    checkClip clip len ts = if ∀ t ∈ ts, t.length = len then
      some (ts.map fun t => if clip then t.map clip1 else t) else none := by
  induction ts with
  | nil => simp [checkClip]
  | cons t ts ih =>
    unfold checkClip
    by_cases h : t.length = len
    · rw [ih]
      by_cases h2 : ∀ t ∈ ts, t.length = len
      · have h3 : ∀ t' ∈ t :: ts, t'.length = len := by
          intro t' ht'
          rcases List.mem_cons.mp ht' with rfl | ht'
          · exact h
          · exact h2 _ ht'
        rw [if_pos h3, if_pos h2, if_neg (not_not.mpr h)]
        rfl
      · simp only [ne_eq, h, not_true_eq_false, if_false, if_neg h2]
        rw [if_neg]
        exact fun h3 => h2 fun t ht => h3 t (List.mem_cons_of_mem _ ht)
    · simp [h]

/-- One frame. -/
theorem frame_fold {D : Type} (conv : S → D) (i : ℕ) (d : S) (ts : List (List S)) (v : List D)
    (h : ∀ t ∈ ts, i < t.length) :
    ts.foldlM (m := Except Panic) (fun v t =>
      match t[i]? with
      | none => .error .index
      | some s => .ok (v ++ [conv s])) v = .ok (v ++ ts.map fun t => conv (t.getD i d)) := by
  induction ts generalizing v with
  | nil => simp [pure, Except.pure]
  | cons t ts ih =>
    have ht := h t (List.mem_cons_self ..)
    rw [List.foldlM_cons]
    simp only [List.getElem?_eq_getElem ht, bind, Except.bind]
    rw [ih _ fun t ht => h t (List.mem_cons_of_mem _ ht)]
    simp [List.getD_eq_getElem?_getD, List.getElem?_eq_getElem ht]

theorem interleave_eq {D : Type} (conv : S → D) (d : S) (ts : List (List S)) (len : ℕ)
    (h : ∀ t ∈ ts, t.length = len) :
    interleave conv ts len = .ok ((List.range len).flatMap fun i => ts.map fun t => conv (t.getD i d)) := by
  unfold interleave
  have key : ∀ (is : List ℕ) (v : List D), (∀ i ∈ is, i < len) →
      is.foldlM (m := Except Panic) (fun v i =>
        ts.foldlM (m := Except Panic) (fun v t =>
          match t[i]? with
          | none => .error .index
          | some s => .ok (v ++ [conv s])) v) v =
      .ok (v ++ is.flatMap fun i => ts.map fun t => conv (t.getD i d)) := by
    intro is
    induction is with
    | nil => intro v _; simp [pure, Except.pure]
    | cons i is ih =>
      intro v hi
      rw [List.foldlM_cons, frame_fold conv i d ts v fun t ht => by
        rw [h t ht]; exact hi i (List.mem_cons_self ..)]
      simp only [bind, Except.bind]
      rw [ih _ fun j hj => hi j (List.mem_cons_of_mem _ hj)]
      simp
  have := key (List.range len) [] (by simp)
  rw [List.nil_append] at this
  exact this

/-- Indexing a concatenation of equally long blocks. -/
theorem flatMap_range_getElem? {D : Type} (C n f c : ℕ) (g : ℕ → List D) (hg : ∀ i, (g i).length = C)
    (hc : c < C) (hf : f < n) : ((List.range n).flatMap g)[f * C + c]? = (g f)[c]? := by
  induction n with
  | zero => omega
  | succ n ih =>
    have hlen : ((List.range n).flatMap g).length = n * C := by
      simp [List.length_flatMap, hg, List.map_const']
    rw [List.range_succ, List.flatMap_append]
    rcases Nat.lt_or_ge f n with hlt | hge
    · rw [List.getElem?_append_left, ih hlt]
      rw [hlen]
      calc f * C + c < f * C + C := by omega
        _ = (f + 1) * C := by ring
        _ ≤ n * C := Nat.mul_le_mul_right _ hlt
    · obtain rfl : f = n := by omega
      rw [List.getElem?_append_right (by rw [hlen]; omega), hlen]
      simp

theorem flatMap_range_length {D : Type} (C n : ℕ) (g : ℕ → List D) (hg : ∀ i, (g i).length = C) :
    ((List.range n).flatMap g).length = n * C := by
  simp [List.length_flatMap, hg, List.map_const']

/-! ## Deinterleaving -/

/-- Tracks `tr` hold the frames of `pre`: sample `f` of track `c` is entry `f*C+c`. -/
def Deint {D : Type} (conv : D → S) (C : ℕ) (pre : List D) (tr : List (List S)) : Prop :=
  tr.length = C ∧ ∀ c < C, ∀ f, (tr[c]?.bind fun t => t[f]?) = (pre[f * C + c]?).map conv

theorem deint_length {D : Type} {conv : D → S} {C : ℕ} {pre : List D} {tr : List (List S)}
    (h : Deint conv C pre tr) {c : ℕ} (hc : c < C) {t : List S} (ht : tr[c]? = some t) (f : ℕ) :
    f < t.length ↔ f * C + c < pre.length := by
  have := h.2 c hc f
  rw [ht] at this
  simp only [Option.bind_some] at this
  constructor
  · intro hf
    rw [List.getElem?_eq_getElem hf] at this
    by_contra hn
    rw [List.getElem?_eq_none (by omega)] at this
    simp at this
  · intro hf
    rw [List.getElem?_eq_getElem hf] at this
    by_contra hn
    rw [List.getElem?_eq_none (by omega)] at this
    simp at this

theorem deint_step {D : Type} {conv : D → S} {C : ℕ} {pre : List D} {tr : List (List S)} (d : D) (hC : 0 < C)
    (h : Deint conv C pre tr) :
    ∃ tr', pushTrack tr (pre.length % C) (conv d) = .ok tr' ∧ Deint conv C (pre ++ [d]) tr' := by
  have hk : pre.length % C < C := Nat.mod_lt _ hC
  have hk' : pre.length % C < tr.length := by rw [h.1]; exact hk
  have hget : tr[pre.length % C]? = some tr[pre.length % C] := List.getElem?_eq_getElem hk'
  have hlen : tr[pre.length % C].length = pre.length / C := by
    have hiff := fun f => deint_length h hk hget f
    have hdm := Nat.div_add_mod pre.length C
    apply Nat.le_antisymm
    · by_contra hn
      have := (hiff (pre.length / C)).mp (by omega)
      rw [Nat.mul_comm] at this
      omega
    · by_contra hn
      have h1 := (hiff (tr[pre.length % C].length)).mpr (by
        have h2 : (tr[pre.length % C].length + 1) * C ≤ (pre.length / C) * C :=
          Nat.mul_le_mul_right _ (by omega)
        rw [Nat.mul_comm (pre.length / C) C, Nat.add_mul] at h2
        omega)
      omega
  refine ⟨_, by unfold pushTrack; rw [hget], by simp [h.1], ?_⟩
  intro c hc f
  rw [List.getElem?_set]
  have hdm := Nat.div_add_mod pre.length C
  by_cases hcc : pre.length % C = c
  · subst hcc
    rw [if_pos rfl, if_pos hk']
    simp only [Option.bind_some]
    rcases Nat.lt_trichotomy f (pre.length / C) with hf | hf | hf
    · rw [List.getElem?_append_left (by omega), List.getElem?_append_left]
      · have := h.2 _ hk f
        rw [hget] at this
        simpa using this
      · exact (deint_length h hk hget f).mp (by omega)
    · rw [hf, ← hlen, List.getElem?_concat_length, hlen, Nat.mul_comm, hdm, List.getElem?_concat_length]
      rfl
    · rw [List.getElem?_eq_none (by simp; omega), List.getElem?_eq_none]
      · rfl
      · have : (pre.length / C + 1) * C ≤ f * C := Nat.mul_le_mul_right _ hf
        rw [Nat.add_mul, Nat.mul_comm (pre.length / C)] at this
        simp only [List.length_append, List.length_cons, List.length_nil]
        omega
  · rw [if_neg hcc, h.2 c hc f]
    rcases Nat.lt_trichotomy (f * C + c) pre.length with hf | hf | hf
    · rw [List.getElem?_append_left hf]
    · exfalso
      apply hcc
      rw [← hf, Nat.add_comm, Nat.add_mul_mod_self_right, Nat.mod_eq_of_lt hc]
    · rw [List.getElem?_eq_none hf.le, List.getElem?_eq_none (by simp; omega)]

theorem deinterleave_spec {D : Type} (conv : D → S) (C : ℕ) (hC : 0 < C) (ds pre : List D) (tr : List (List S))
    (h : Deint conv C pre tr) :
    ∃ tr', deinterleave conv C pre.length ds tr = .ok tr' ∧ Deint conv C (pre ++ ds) tr' := by
  induction ds generalizing pre tr with
  | nil => exact ⟨tr, rfl, by simpa using h⟩
  | cons d ds ih =>
    obtain ⟨tr', h1, h2⟩ := deint_step d hC h
    obtain ⟨tr'', h3, h4⟩ := ih (pre ++ [d]) tr' h2
    refine ⟨tr'', ?_, by simpa using h4⟩
    unfold deinterleave
    rw [if_neg hC.ne', h1]
    simpa using h3

theorem deint_init {D : Type} (conv : D → S) (C : ℕ) : Deint conv C [] (List.replicate C ([] : List S)) := by
  refine ⟨by simp, fun c hc f => ?_⟩
  simp [hc]

theorem deinterleave_zero {D : Type} (conv : D → S) (C : ℕ) (hC : 0 < C) (ds : List D) :
    ∃ tr', deinterleave conv C 0 ds (List.replicate C ([] : List S)) = .ok tr' ∧ Deint conv C ds tr' := by
  simpa using deinterleave_spec conv C hC ds [] _ (deint_init conv C)

theorem sum_set_length (tr : List (List S)) (c : ℕ) (t : List S) (x : S) (h : tr[c]? = some t) :
    ((tr.set c (t ++ [x])).map List.length).sum = (tr.map List.length).sum + 1 := by
  induction tr generalizing c with
  | nil => simp at h
  | cons a tr ih =>
    cases c with
    | zero => simp at h; subst h; simp; omega
    | succ c =>
      have := ih c (by simpa using h)
      rw [List.set_cons_succ, List.map_cons, List.sum_cons, this, List.map_cons, List.sum_cons]
      omega

theorem deinterleave_sum {D : Type} (conv : D → S) (C i : ℕ) (ds : List D) (tr tr' : List (List S))
    (h : deinterleave conv C i ds tr = .ok tr') :
    (tr'.map List.length).sum = (tr.map List.length).sum + ds.length := by
  induction ds generalizing i tr with
  | nil => simp [deinterleave] at h; subst h; simp
  | cons d ds ih =>
    unfold deinterleave at h
    split at h
    · cases h
    · unfold pushTrack at h
      cases hg : tr[i % C]? with
      | none => rw [hg] at h; cases h
      | some t =>
        rw [hg] at h
        rw [ih _ _ h, sum_set_length tr _ t _ hg]
        simp; omega

/-- Two interleaved blocks are equal when all frames are. -/
theorem ext_frames {D : Type} (C n : ℕ) (v w : List D) (hv : v.length = n * C) (hw : w.length = n * C)
    (h : ∀ f < n, ∀ c < C, v[f * C + c]? = w[f * C + c]?) : v = w := by
  apply List.ext_getElem? 
  intro k
  by_cases hk : k < n * C
  · have hC : 0 < C := by
      rcases Nat.eq_zero_or_pos C with rfl | h
      · simp at hk
      · exact h
    have := h (k / C) ((Nat.div_lt_iff_lt_mul hC).mpr hk) (k % C) (Nat.mod_lt _ hC)
    rwa [Nat.div_add_mod' k C] at this
  · rw [List.getElem?_eq_none (by omega), List.getElem?_eq_none (by omega)]

/-- The data block for tracks of length `n`. -/
theorem interleave_spec {D : Type} (conv : S → D) (ts : List (List S)) (n : ℕ) (h : ∀ t ∈ ts, t.length = n) :
    ∃ v, interleave conv ts n = .ok v ∧ v.length = n * ts.length ∧
      ∀ f < n, ∀ c < ts.length, v[f * ts.length + c]? = (ts[c]?.bind fun t => t[f]?).map conv := by
  refine ⟨_, interleave_eq conv (lit 0) ts n h, flatMap_range_length _ _ _ (by simp), ?_⟩
  intro f hf c hc
  rw [flatMap_range_getElem? _ _ _ _ _ (by simp) hc hf]
  have ht := h _ (List.getElem_mem hc)
  simp [List.getElem?_eq_getElem hc, List.getElem?_eq_getElem (show f < ts[c].length by omega)]

theorem deint_unique {D : Type} {conv : D → S} {C : ℕ} {pre : List D} {tr tr' : List (List S)}
    (h : Deint conv C pre tr) (h' : Deint conv C pre tr') : tr = tr' := by
  apply List.ext_getElem?
  intro c
  by_cases hc : c < C
  · have l1 : c < tr.length := by rw [h.1]; exact hc
    have l2 : c < tr'.length := by rw [h'.1]; exact hc
    have e1 : tr[c]? = some tr[c] := List.getElem?_eq_getElem l1
    have e2 : tr'[c]? = some tr'[c] := List.getElem?_eq_getElem l2
    rw [e1, e2]
    congr 1
    apply List.ext_getElem?
    intro f
    have := (h.2 c hc f).trans (h'.2 c hc f).symm
    rw [e1, e2] at this
    simpa using this
  · rw [List.getElem?_eq_none (by rw [h.1]; omega), List.getElem?_eq_none (by rw [h'.1]; omega)]

/-- Reading back what was interleaved. -/
theorem roundtrip_tracks {D : Type} (enc : S → D) (dec : D → S) (ts : List (List S)) (n : ℕ)
    (h : ∀ t ∈ ts, t.length = n) (v : List D) (hv : interleave enc ts n = .ok v) :
    Deint dec ts.length v (ts.map fun t => t.map fun s => dec (enc s)) := by
  obtain ⟨w, h1, h2, h3⟩ := interleave_spec enc ts n h
  rw [hv] at h1
  cases h1
  refine ⟨by simp, fun c hc f => ?_⟩
  have ht := h _ (List.getElem_mem hc)
  by_cases hf : f < n
  · rw [h3 f hf c hc]
    simp [List.getElem?_eq_getElem hc, List.getElem?_eq_getElem (show f < ts[c].length by omega)]
  · rw [List.getElem?_eq_none (l := v)]
    · simp [List.getElem?_eq_getElem hc]
      omega
    · rw [h2]
      have : n * ts.length ≤ f * ts.length := Nat.mul_le_mul_right _ (by omega)
      omega

/-- Writing what was deinterleaved. -/
theorem roundtrip_data {D : Type} (enc : S → D) (dec : D → S) (C n : ℕ) (d : List D) (hd : d.length = n * C)
    (tr : List (List S)) (h : Deint dec C d tr) (hinv : ∀ x ∈ d, enc (dec x) = x) :
    (∀ t ∈ tr, t.length = n) ∧ interleave enc tr n = .ok d := by
  have hlen : ∀ t ∈ tr, t.length = n := by
    intro t ht
    obtain ⟨c, hc, rfl⟩ := List.getElem_of_mem ht
    have hc' : c < C := by rw [← h.1]; exact hc
    have hiff := fun f => deint_length h hc' (List.getElem?_eq_getElem hc) f
    simp only [hd] at hiff
    apply Nat.le_antisymm
    · by_contra hn
      have := (hiff n).mp (by omega)
      omega
    · by_contra hn
      have := (hiff tr[c].length).mpr (by
        have : (tr[c].length + 1) * C ≤ n * C := Nat.mul_le_mul_right _ (by omega)
        rw [Nat.add_mul] at this
        omega)
      omega
  refine ⟨hlen, ?_⟩
  obtain ⟨v, h1, h2, h3⟩ := interleave_spec enc tr n hlen
  rw [h.1] at h2 h3
  rw [h1]
  congr 1
  apply ext_frames C n v d h2 hd
  intro f hf c hc
  rw [h3 f hf c hc, h.2 c hc f]
  have hlt : f * C + c < d.length := by
    rw [hd]
    have : (f + 1) * C ≤ n * C := Nat.mul_le_mul_right _ hf
    rw [Nat.add_mul] at this
    omega
  rw [List.getElem?_eq_getElem hlt]
  simp only [Option.map_some]
  rw [hinv _ (List.getElem_mem hlt)]

end Verif
