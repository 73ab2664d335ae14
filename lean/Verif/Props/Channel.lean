import Verif.Model.Channel
import Verif.Proofs.Heap
import Verif.Proofs.Time
import Verif.Float.Lemmas

set_option linter.unusedSectionVars false

/-! # Channels: C89-C92 -/

namespace Verif
open Fl

/-! ## Specification -/

/-- Calls on a channel, and anything the rest of the program may do to memory between them. -/
inductive ChCall (M T : Type) where
  | setTime (d : Duration) | process (order : List (ℕ × ℕ) → List (ℕ × ℕ)) | setGain (g : M) | add (a : ℕ) | remove (k : ℕ) | world (h : Heap T)

section
variable {SF S M T : Type} [Flt S] [Flt M] [SM S M] [SampleFmt SF S] [Sound T S]

/-- The id that the sound at address `a` reports. -/
def reportedId (S : Type) [Sound T S] (h : Heap T) (a : ℕ) : Option ℕ := (h[a]?).bind (fun e => Sound.getId S e.val)

/-- Memory, channel, and the ids reported by the sounds right after they were added. -/
def chCall (h : Heap T) (c : StandardChannel SF S) : ChCall M T → Res (Heap T × StandardChannel SF S × List (Option ℕ))
  | .setTime d => (c.setProcessTime M d).map (fun c' => (h, c', []))
  | .process order => (c.process order h).map (fun r => (r.2, r.1, []))
  | .setGain g => .ok (h, c.setGain g, [])
  | .add a => (StandardChannel.addSound S h c a).map (fun r => (r.2, r.1, [reportedId S r.2 a]))
  | .remove k => .ok ((c.removeSound h k).2, (c.removeSound h k).1, [])
  | .world h' => .ok (h', c, [])

/-- A sequence of calls. -/
def chCalls (h : Heap T) (c : StandardChannel SF S) : List (ChCall M T) → Res (Heap T × StandardChannel SF S × List (Option ℕ))
  | [] => .ok (h, c, [])
  | o :: os => match chCall h c o with
    | .error e => .error e
    | .ok (h', c', ids) => (chCalls h' c' os).map (fun r => (r.1, r.2.1, ids ++ r.2.2))

/-! ## Lemmas -/

private theorem process_empty (order : List (ℕ × ℕ) → List (ℕ × ℕ)) (h : Heap T) (c : StandardChannel SF S) (hc : c.output = []) :
    c.process order h = .ok (c, h) := by
  unfold StandardChannel.process
  rw [hc]
  simp only [StandardChannel.resizeWith, List.take_nil, List.length_nil, List.nil_append, Nat.sub_self, List.replicate_zero,
    StandardChannel.mixAll, bind, Except.bind]
  rw [← hc]

private theorem setTime_ok {c c' : StandardChannel SF S} {d : Duration} (h : c.setProcessTime M d = .ok c') :
    c'.output = [] ∧ c'.idCounter = c.idCounter ∧ c'.sounds = c.sounds ∧ c'.gain = c.gain := by
  unfold StandardChannel.setProcessTime StandardChannel.withCapacity at h
  split_ifs at h
  · cases h
  · cases h
    exact ⟨rfl, rfl, rfl, rfl⟩

private theorem addSound_ok {h h' : Heap T} {c c' : StandardChannel SF S} {a : ℕ} (he : StandardChannel.addSound S h c a = .ok (c', h')) :
    ∃ t, h[a]? = some ⟨t, 1⟩ ∧ h' = (h.put a (Sound.register S t c.idCounter)).incr a ∧
      c' = { c with idCounter := c.idCounter + 1, sounds := StandardChannel.insert c.sounds c.idCounter a } := by
  unfold StandardChannel.addSound StandardChannel.freshId at he
  simp only at he
  cases hg : h.getMut a with
  | none => rw [hg] at he; cases he
  | some t =>
    rw [hg] at he
    cases he
    exact ⟨t, Heap.getMut_eq_some.mp hg, rfl, rfl⟩

private theorem new_ok {g : M} {c : StandardChannel SF S} (h : StandardChannel.new g = .ok c) :
    c.output = [] ∧ c.sounds = [] ∧ c.idCounter = 0 ∧ c.gain = SM.down g := by
  unfold StandardChannel.new StandardChannel.withCapacity at h
  split_ifs at h
  · cases h
  · cases h
    exact ⟨rfl, rfl, rfl, rfl⟩

/-- Induction over calls. -/
private theorem chCalls_inv (P : Heap T → StandardChannel SF S → Prop)
    (step : ∀ h c o h' c' ids, P h c → chCall (M := M) h c o = .ok (h', c', ids) → P h' c') (os : List (ChCall M T)) :
    ∀ h c h' c' ids, P h c → chCalls h c os = .ok (h', c', ids) → P h' c' := by
  induction os with
  | nil => intro h c h' c' ids hp he; cases he; exact hp
  | cons o os ih =>
    intro h c h' c' ids hp he
    rw [chCalls] at he
    cases h1 : chCall h c o with
    | error e => rw [h1] at he; cases he
    | ok r =>
      obtain ⟨ha, ca, ia⟩ := r
      rw [h1] at he
      simp only at he
      cases h2 : chCalls ha ca os with
      | error e => rw [h2] at he; cases he
      | ok r2 =>
        obtain ⟨hb, cb, ib⟩ := r2
        rw [h2] at he
        cases he
        exact ih ha ca _ _ ib (step _ _ _ _ _ _ hp h1) h2

private theorem output_empty {h h' : Heap T} {c c' : StandardChannel SF S} {o : ChCall M T} {ids : List (Option ℕ)} (hc : c.output = [])
    (he : chCall h c o = .ok (h', c', ids)) : c'.output = [] := by
  cases o with
  | setTime d =>
    simp only [chCall] at he
    cases h1 : c.setProcessTime M d with
    | error e => rw [h1] at he; cases he
    | ok c1 => rw [h1] at he; cases he; exact (setTime_ok h1).1
  | process order =>
    simp only [chCall] at he
    rw [process_empty order h c hc] at he
    cases he
    exact hc
  | setGain g => cases he; exact hc
  | add a =>
    simp only [chCall] at he
    cases h1 : StandardChannel.addSound S h c a with
    | error e => rw [h1] at he; cases he
    | ok r =>
      rw [h1] at he
      cases he
      obtain ⟨t, -, -, e⟩ := addSound_ok (c' := r.1) (h' := r.2) h1
      rw [e]
      exact hc
  | remove k => cases he; exact hc
  | world h => cases he; exact hc

/-! ## C89 -/

/-- The code violates C89: whatever calls are made, the output of a channel is always empty. -/
theorem C89_violated (g : M) (c0 : StandardChannel SF S) (hc : StandardChannel.new g = .ok c0) (h0 : Heap T) (os : List (ChCall M T))
    (h : Heap T) (c : StandardChannel SF S) (ids : List (Option ℕ)) (he : chCalls h0 c0 os = .ok (h, c, ids)) : c.getOutput = [] :=
  chCalls_inv (M := M) (fun _ c => c.output = []) (fun _ _ _ _ _ _ hp he => output_empty hp he) os h0 c0 h c ids (new_ok hc).1 he

/-- So the sounds of a channel never advance: `process` changes nothing at all, even if sounds are shared. -/
theorem C89_violated_noop (g : M) (c0 : StandardChannel SF S) (hc : StandardChannel.new g = .ok c0) (h0 : Heap T) (os : List (ChCall M T))
    (h : Heap T) (c : StandardChannel SF S) (ids : List (Option ℕ)) (he : chCalls h0 c0 os = .ok (h, c, ids))
    (order : List (ℕ × ℕ) → List (ℕ × ℕ)) : c.process order h = .ok (c, h) :=
  process_empty order h c (C89_violated g c0 hc h0 os h c ids he)

/-- Exactly the durations below one sample (20833 ns) give the specified length. Missing: all others. -/
theorem C89_partial (g : M) (c0 : StandardChannel SF S) (hc : StandardChannel.new g = .ok c0) (h0 : Heap T) (os : List (ChCall M T)) (d : Duration)
    (order : List (ℕ × ℕ) → List (ℕ × ℕ)) (h : Heap T) (c : StandardChannel SF S) (ids : List (Option ℕ))
    (he : chCalls h0 c0 (os ++ [.setTime d, .process order]) = .ok (h, c, ids)) :
    c.getOutput.length = 48000 * (d.secs * 10 ^ 9 + d.nanos) / 10 ^ 9 ↔ d.secs = 0 ∧ d.nanos ≤ 20833 := by
  rw [C89_violated g c0 hc h0 _ h c ids he, List.length_nil]
  omega

/-! ## C90 -/

private theorem chCalls_ids (law : ∀ (t : T) (k : ℕ), Sound.getId S (Sound.register S t k) = some k) (os : List (ChCall M T)) :
    ∀ (h : Heap T) (c : StandardChannel SF S) h' c' ids, c.output = [] → chCalls h c os = .ok (h', c', ids) →
      ids = (List.range' c.idCounter ids.length).map some ∧ c'.idCounter = c.idCounter + ids.length := by
  induction os with
  | nil => intro h c h' c' ids _ he; cases he; exact ⟨rfl, rfl⟩
  | cons o os ih =>
    intro h c h' c' ids hc he
    rw [chCalls] at he
    cases h1 : chCall h c o with
    | error e => rw [h1] at he; cases he
    | ok r =>
      obtain ⟨ha, ca, ia⟩ := r
      rw [h1] at he
      simp only at he
      cases h2 : chCalls ha ca os with
      | error e => rw [h2] at he; cases he
      | ok r2 =>
        obtain ⟨hb, cb, ib⟩ := r2
        rw [h2] at he
        cases he
        have hoe := output_empty hc h1
        obtain ⟨i1, i2⟩ := ih ha ca _ _ ib hoe h2
        have key : (ia = [] ∧ ca.idCounter = c.idCounter) ∨ (ia = [some c.idCounter] ∧ ca.idCounter = c.idCounter + 1) := by
          cases o with
          | setTime d =>
            simp only [chCall] at h1
            cases h3 : c.setProcessTime M d with
            | error e => rw [h3] at h1; cases h1
            | ok c1 => rw [h3] at h1; cases h1; exact .inl ⟨rfl, (setTime_ok h3).2.1⟩
          | process order =>
            simp only [chCall] at h1
            rw [process_empty order h c hc] at h1
            cases h1
            exact .inl ⟨rfl, rfl⟩
          | setGain g => cases h1; exact .inl ⟨rfl, rfl⟩
          | add a =>
            simp only [chCall] at h1
            cases h3 : StandardChannel.addSound S h c a with
            | error e => rw [h3] at h1; cases h1
            | ok r =>
              rw [h3] at h1
              cases h1
              obtain ⟨t, e1, e2, e3⟩ := addSound_ok (c' := r.1) (h' := r.2) h3
              refine .inr ⟨?_, by rw [e3]⟩
              unfold reportedId
              rw [e2, Heap.getElem?_incr, if_pos rfl, Heap.getElem?_put, if_pos rfl, e1]
              simp [law]
          | remove k => cases h1; exact .inl ⟨rfl, rfl⟩
          | world h => cases h1; exact .inl ⟨rfl, rfl⟩
        rcases key with ⟨rfl, e⟩ | ⟨rfl, e⟩
        · rw [e] at i1 i2
          exact ⟨i1, i2⟩
        · rw [e] at i1 i2
          refine ⟨?_, by rw [i2]; simp; omega⟩
          simp only [List.singleton_append, List.length_cons]
          rw [List.range'_succ, List.map_cons, ← i1]

/-- The sounds added report the ids 0, 1, 2, … in the order of the calls, whatever is removed or done to memory between. -/
theorem C90_ids (law : ∀ (t : T) (k : ℕ), Sound.getId S (Sound.register S t k) = some k) (g : M) (c0 : StandardChannel SF S)
    (hc : StandardChannel.new g = .ok c0) (h0 : Heap T) (os : List (ChCall M T)) (h : Heap T) (c : StandardChannel SF S) (ids : List (Option ℕ))
    (he : chCalls h0 c0 os = .ok (h, c, ids)) : ids = (List.range ids.length).map some ∧ ids.Nodup := by
  obtain ⟨h1, h2, h3, -⟩ := new_ok hc
  obtain ⟨i1, -⟩ := chCalls_ids law os h0 c0 h c ids h1 he
  rw [h3, ← List.range_eq_range'] at i1
  refine ⟨i1, ?_⟩
  rw [i1]
  exact (List.nodup_range).map (Option.some_injective _)

private theorem keys_lt {h h' : Heap T} {c c' : StandardChannel SF S} {o : ChCall M T} {ids : List (Option ℕ)}
    (hp : c.output = [] ∧ (∀ e ∈ c.sounds, e.1 < c.idCounter) ∧ (c.sounds.map Prod.fst).Nodup)
    (he : chCall h c o = .ok (h', c', ids)) : c'.output = [] ∧ (∀ e ∈ c'.sounds, e.1 < c'.idCounter) ∧ (c'.sounds.map Prod.fst).Nodup := by
  refine ⟨output_empty hp.1 he, ?_⟩
  cases o with
  | setTime d =>
    simp only [chCall] at he
    cases h1 : c.setProcessTime M d with
    | error e => rw [h1] at he; cases he
    | ok c1 =>
      rw [h1] at he
      cases he
      obtain ⟨-, e1, e2, -⟩ := setTime_ok h1
      rw [e1, e2]
      exact hp.2
  | process order =>
    simp only [chCall] at he
    rw [process_empty order h c hp.1] at he
    cases he
    exact hp.2
  | setGain g => cases he; exact hp.2
  | add a =>
    simp only [chCall] at he
    cases h1 : StandardChannel.addSound S h c a with
    | error e => rw [h1] at he; cases he
    | ok r =>
      rw [h1] at he
      cases he
      obtain ⟨t, -, -, e⟩ := addSound_ok (c' := r.1) (h' := r.2) h1
      rw [e]
      have hf : c.sounds.filter (fun e => e.1 ≠ c.idCounter) = c.sounds := by
        rw [List.filter_eq_self]
        intro x hx
        have := hp.2.1 x hx
        simp only [ne_eq, decide_not, Bool.not_eq_true', decide_eq_false_iff_not]
        omega
      unfold StandardChannel.insert
      rw [hf]
      refine ⟨fun x hx => ?_, ?_⟩
      · rcases List.mem_cons.mp hx with rfl | hx
        · show c.idCounter < c.idCounter + 1; omega
        · have := hp.2.1 x hx
          show x.1 < c.idCounter + 1
          omega
      · rw [List.map_cons, List.nodup_cons]
        refine ⟨fun hm => ?_, hp.2.2⟩
        obtain ⟨x, hx, hx'⟩ := List.mem_map.mp hm
        have := hp.2.1 x hx
        simp only at hx'
        omega
  | remove k =>
    cases he
    refine ⟨fun x hx => hp.2.1 x (List.mem_filter.mp hx).1, ?_⟩
    exact hp.2.2.sublist (List.filter_sublist.map _)
  | world h => cases he; exact hp.2

/-- After any calls: a successful `add_sound(a)` registers the next id with the sound, and the channel then holds the sound
under that id, besides what it held before. -/
theorem C90_lookup (law : ∀ (t : T) (k : ℕ), Sound.getId S (Sound.register S t k) = some k) (g : M) (c0 : StandardChannel SF S)
    (hc : StandardChannel.new g = .ok c0) (h0 : Heap T) (os : List (ChCall M T)) (h : Heap T) (c : StandardChannel SF S) (ids : List (Option ℕ))
    (he : chCalls h0 c0 os = .ok (h, c, ids)) (a : ℕ) (h' : Heap T) (c' : StandardChannel SF S) (ha : StandardChannel.addSound S h c a = .ok (c', h')) :
    ∃ k, reportedId S h' a = some k ∧ (∀ b, (k, b) ∉ c.sounds) ∧ (∀ j b, (j, b) ∈ c'.sounds ↔ (j, b) ∈ c.sounds ∨ (j = k ∧ b = a)) ∧
      (c'.sounds.map Prod.fst).Nodup := by
  obtain ⟨h1, h2, h3, -⟩ := new_ok hc
  have hinv := chCalls_inv (M := M) (fun _ c => c.output = [] ∧ (∀ e ∈ c.sounds, e.1 < c.idCounter) ∧ (c.sounds.map Prod.fst).Nodup)
    (fun _ _ _ _ _ _ hp he => keys_lt hp he) os h0 c0 h c ids ⟨h1, by simp [h2], by simp [h2]⟩ he
  have hinv' := keys_lt (M := M) (o := .add a) (h := h) (c := c) (h' := h') (c' := c') (ids := [reportedId S h' a]) hinv (by simp only [chCall]; rw [ha]; rfl)
  obtain ⟨t, e1, e2, e3⟩ := addSound_ok ha
  refine ⟨c.idCounter, ?_, fun b hb => ?_, fun j b => ?_, hinv'.2.2⟩
  · unfold reportedId
    rw [e2, Heap.getElem?_incr, if_pos rfl, Heap.getElem?_put, if_pos rfl, e1]
    simp [law]
  · exact lt_irrefl _ (hinv.2.1 _ hb)
  · rw [e3]
    unfold StandardChannel.insert
    simp only [List.mem_cons, List.mem_filter, Prod.mk.injEq, ne_eq, decide_not, Bool.not_eq_true', decide_eq_false_iff_not]
    constructor
    · rintro (h | h)
      · exact .inr h
      · exact .inl h.1
    · rintro (h | h)
      · refine .inr ⟨h, ?_⟩
        have := hinv.2.1 _ h
        simp only at this
        omega
      · exact .inl h

/-! ## C91 -/

/-- Exactly the entry with that id is removed; no sound changes; the removed sound loses the channel's pointer and every
other sound keeps its pointers. Missing: the removed sound is not unregistered. -/
theorem C91_partial (g : M) (c0 : StandardChannel SF S) (hc : StandardChannel.new g = .ok c0) (h0 : Heap T) (os : List (ChCall M T))
    (h : Heap T) (c : StandardChannel SF S) (ids : List (Option ℕ)) (he : chCalls h0 c0 os = .ok (h, c, ids)) (k : ℕ) :
    (∀ j b, (j, b) ∈ (c.removeSound h k).1.sounds ↔ (j, b) ∈ c.sounds ∧ j ≠ k) ∧
    ((∀ b, (k, b) ∉ c.sounds) → c.removeSound h k = (c, h)) ∧
    (∀ a, (k, a) ∈ c.sounds → (c.removeSound h k).2 = h.decr a) := by
  obtain ⟨h1, h2, h3, -⟩ := new_ok hc
  have hinv := chCalls_inv (M := M) (fun _ c => c.output = [] ∧ (∀ e ∈ c.sounds, e.1 < c.idCounter) ∧ (c.sounds.map Prod.fst).Nodup)
    (fun _ _ _ _ _ _ hp he => keys_lt hp he) os h0 c0 h c ids ⟨h1, by simp [h2], by simp [h2]⟩ he
  refine ⟨fun j b => ?_, fun hk => ?_, fun a ha => ?_⟩
  · unfold StandardChannel.removeSound
    simp only [List.mem_filter, ne_eq, decide_not, Bool.not_eq_true', decide_eq_false_iff_not]
  · unfold StandardChannel.removeSound
    have e1 : c.sounds.filter (fun e => e.1 ≠ k) = c.sounds := by
      rw [List.filter_eq_self]
      rintro ⟨x, y⟩ hx
      simp only [ne_eq, decide_not, Bool.not_eq_true', decide_eq_false_iff_not]
      rintro rfl
      exact hk y hx
    have e2 : c.sounds.filter (fun e => e.1 = k) = [] := by
      rw [List.filter_eq_nil_iff]
      rintro ⟨x, y⟩ hx
      simp only [decide_eq_true_eq]
      rintro rfl
      exact hk y hx
    rw [e1, e2]
    rfl
  · unfold StandardChannel.removeSound
    have e2 : c.sounds.filter (fun e => e.1 = k) = [(k, a)] := by
      have hn := hinv.2.2
      clear hinv he hc h2
      generalize c.sounds = l at hn ha
      induction l with
      | nil => cases ha
      | cons x l ih =>
        rw [List.map_cons, List.nodup_cons] at hn
        rcases List.mem_cons.mp ha with rfl | ha'
        · rw [List.filter_cons_of_pos (by simp)]
          congr 1
          rw [List.filter_eq_nil_iff]
          intro y hy
          simp only [decide_eq_true_eq]
          intro hyk
          exact hn.1 (List.mem_map.mpr ⟨y, hy, hyk⟩)
        · rw [List.filter_cons_of_neg, ih hn.2 ha']
          simp only [decide_eq_true_eq]
          intro hxk
          exact hn.1 (List.mem_map.mpr ⟨_, ha', hxk.symm⟩)
    rw [e2]
    rfl

/-- The code violates C91: a sound added and then removed still reports the id. -/
theorem C91_violated (law : ∀ (t : T) (k : ℕ), Sound.getId S (Sound.register S t k) = some k) (h h1 : Heap T) (c c1 : StandardChannel SF S) (a : ℕ)
    (ha : StandardChannel.addSound S h c a = .ok (c1, h1)) :
    ∃ k, reportedId S h1 a = some k ∧ reportedId S (c1.removeSound h1 k).2 a = some k := by
  obtain ⟨t, e1, e2, e3⟩ := addSound_ok ha
  have hr : reportedId S h1 a = some c.idCounter := by
    unfold reportedId
    rw [e2, Heap.getElem?_incr, if_pos rfl, Heap.getElem?_put, if_pos rfl, e1]
    simp [law]
  refine ⟨c.idCounter, hr, ?_⟩
  unfold StandardChannel.removeSound
  have hval : ∀ (l : List (ℕ × ℕ)) (h : Heap T) (i : ℕ), ((l.foldl (fun h e => h.decr e.2) h)[i]?).map (·.val) = (h[i]?).map (·.val) := by
    intro l
    induction l with
    | nil => intro h i; rfl
    | cons x l ih =>
      intro h i
      rw [List.foldl_cons, ih, Heap.getElem?_decr]
      split_ifs
      · cases h[i]? <;> rfl
      · rfl
  have := hval (c1.sounds.filter (fun e => e.1 = c.idCounter)) h1 a
  unfold reportedId at hr ⊢
  cases h5 : h1[a]? with
  | none => rw [h5] at hr; cases hr
  | some e =>
    rw [h5] at hr this
    cases h6 : ((c1.sounds.filter (fun e => e.1 = c.idCounter)).foldl (fun h e => h.decr e.2) h1)[a]? with
    | none => rw [h6] at this; cases this
    | some e' =>
      rw [h6] at this
      have hv : e'.val = e.val := by simpa using this
      simp only [Option.bind_some] at hr ⊢
      rw [hv]
      exact hr

/-! ## C92 -/

/-- The code violates C92: adding a sound a second time panics, and so does adding any sound with another pointer to it. -/
theorem C92_violated_twice (h h1 : Heap T) (c c1 : StandardChannel SF S) (a : ℕ) (ha : StandardChannel.addSound S h c a = .ok (c1, h1)) :
    StandardChannel.addSound S h1 c1 a = .error .unwrapNone := by
  obtain ⟨t, e1, e2, e3⟩ := addSound_ok ha
  unfold StandardChannel.addSound StandardChannel.freshId
  have : h1.getMut a = none := by
    rw [Heap.getMut_eq_none]
    intro e he
    rw [e2, Heap.getElem?_incr, if_pos rfl, Heap.getElem?_put, if_pos rfl, e1] at he
    simp at he
    rw [← he]
    simp
  simp only [this]

theorem C92_violated_shared (h : Heap T) (c : StandardChannel SF S) (a : ℕ) (e : Cell T) (ha : h[a]? = some e) (hs : 2 ≤ e.refs) :
    StandardChannel.addSound S h c a = .error .unwrapNone := by
  unfold StandardChannel.addSound StandardChannel.freshId
  have : h.getMut a = none := by
    rw [Heap.getMut_eq_none]
    intro e' he
    rw [ha] at he
    cases he
    omega
  simp only [this]

/-- What holds: after any calls, `process`, `set_gain` and `remove_sound` do not panic, nor does adding an unshared sound. -/
theorem C92_partial (g : M) (c0 : StandardChannel SF S) (hc : StandardChannel.new g = .ok c0) (h0 : Heap T) (os : List (ChCall M T))
    (h : Heap T) (c : StandardChannel SF S) (ids : List (Option ℕ)) (he : chCalls h0 c0 os = .ok (h, c, ids)) :
    (∀ order, ∃ r, chCall (M := M) h c (.process order) = .ok r) ∧ (∀ g, ∃ r, chCall (M := M) h c (.setGain g) = .ok r) ∧
    (∀ k, ∃ r, chCall (M := M) h c (.remove k) = .ok r) ∧
    (∀ a t, h[a]? = some ⟨t, 1⟩ → ∃ r, chCall (M := M) h c (.add a) = .ok r) := by
  refine ⟨fun order => ?_, fun g => ⟨_, rfl⟩, fun k => ⟨_, rfl⟩, fun a t ha => ?_⟩
  · simp only [chCall]
    rw [C89_violated_noop g c0 hc h0 os h c ids he order]
    exact ⟨_, rfl⟩
  · simp only [chCall]
    unfold StandardChannel.addSound StandardChannel.freshId
    have : h.getMut a = some t := Heap.getMut_eq_some.mpr ha
    simp only [this]
    exact ⟨_, rfl⟩
end

/-- IEEE. Creating a mono or stereo channel never panics, nor does setting a process time below 2^42 s. (Running out of
memory is not modelled.) -/
theorem C92_time_partial {SF : Type} [SampleFmt SF F32] (hs : SampleFmt.size SF F32 ≤ 8) (d : Duration) (hd : d.secs < 2 ^ 42)
    (c : StandardChannel SF F32) (g : F64) : (∃ c', c.setProcessTime F64 d = .ok c') ∧ ∃ c', (StandardChannel.new g : Res (StandardChannel SF F32)) = .ok c' := by
  constructor
  · have h1 := d.frac_bounds
    have h2 := d.rnd_secs_bounds
    have r1 : b64.rnd d.secs ≤ 2 ^ 42 := by
      have := rnd64_pow2_le (q := d.secs) 42 (by rw [abs_of_nonneg (by positivity)]; exact_mod_cast hd.le)
      exact (le_abs_self _).trans this
    have r2 : d.secs64 ≤ 2 ^ 43 := by
      have := rnd64_pow2_le (q := b64.rnd d.secs + d.frac64) 43 (by
        rw [abs_of_nonneg (by linarith [h1.1, h2.1])]
        linarith [h1.2, (by norm_num : (2 : ℚ) ^ 42 + 1 ≤ 2 ^ 43)])
      exact (le_abs_self _).trans this
    have r3 : d.samp64 ≤ 2 ^ 59 := by
      have h0 := d.secs_bounds.1
      have := rnd64_pow2_le (q := d.secs64 * 48000) 59 (by
        rw [abs_of_nonneg (by linarith)]
        linarith [(by norm_num : (2 : ℚ) ^ 43 * 48000 ≤ 2 ^ 59)])
      exact (le_abs_self _).trans this
    have hn : toUsize ((d.asSecs : F64) * srM) ≤ 2 ^ 59 := by
      unfold toUsize
      rw [d.samp_is.toInt]
      have h0 := d.samp_bounds.1
      have : truncQ d.samp64 ≤ 2 ^ 59 := by
        unfold truncQ
        split_ifs
        · linarith
        · have := Int.floor_mono r3
          have e : ⌊(2 ^ 59 : ℚ)⌋ = 2 ^ 59 := by
            rw [show (2 ^ 59 : ℚ) = ((2 ^ 59 : ℤ) : ℚ) by norm_num, Int.floor_intCast]
          rwa [e] at this
      omega
    unfold StandardChannel.setProcessTime StandardChannel.withCapacity
    have : ¬ (toUsize ((d.asSecs : F64) * srM) * SampleFmt.size SF F32 > 2 ^ 63 - 1) := by
      have := Nat.mul_le_mul hn hs
      omega
    rw [if_neg this]
    exact ⟨_, rfl⟩
  · unfold StandardChannel.new StandardChannel.withCapacity
    have e : toUsize (lit (1 / 100) * srM : F64) = 480 := by decide +kernel
    rw [e, if_neg (by omega)]
    exact ⟨_, rfl⟩

example (c : StandardChannel (Stereo F32) F32) : ∃ c', c.setProcessTime F64 ⟨10, 0, by norm_num, by norm_num⟩ = .ok c' :=
  (C92_time_partial (by decide) _ (by norm_num) c (lit 1)).1

/-- The code violates C92: setting a process time of 2^48 s or more (the type allows 2^64) panics, for every sample format. -/
theorem C92_violated_time {SF : Type} [SampleFmt SF F32] (hs : 4 ≤ SampleFmt.size SF F32) (d : Duration) (hd : 2 ^ 48 ≤ d.secs)
    (c : StandardChannel SF F32) : c.setProcessTime F64 d = .error .capacity := by
  have h1 := d.frac_bounds
  have p48 : b64.Repr (2 ^ 48) := by rw [b64.repr_iff]; decide +kernel
  have p63 : b64.Repr (2 ^ 63) := by rw [b64.repr_iff]; decide +kernel
  have r1 : 2 ^ 48 ≤ b64.rnd d.secs := b64.repr_le_rnd p48 (by exact_mod_cast hd)
  have r2 : 2 ^ 48 ≤ d.secs64 := b64.repr_le_rnd p48 (by linarith [h1.1])
  have r3 : 2 ^ 63 ≤ d.samp64 := b64.repr_le_rnd p63 (by
    have : (2 : ℚ) ^ 63 ≤ 2 ^ 48 * 48000 := by norm_num
    linarith)
  have hn : 2 ^ 63 ≤ toUsize ((d.asSecs : F64) * srM) := by
    unfold toUsize
    rw [d.samp_is.toInt]
    have h0 := d.samp_bounds.1
    have : 2 ^ 63 ≤ truncQ d.samp64 := by
      unfold truncQ
      rw [if_neg (by linarith)]
      have := Int.floor_mono r3
      have e : ⌊(2 ^ 63 : ℚ)⌋ = 2 ^ 63 := by
        rw [show (2 ^ 63 : ℚ) = ((2 ^ 63 : ℤ) : ℚ) by norm_num, Int.floor_intCast]
      rwa [e] at this
    omega
  unfold StandardChannel.setProcessTime StandardChannel.withCapacity
  have := Nat.mul_le_mul hn hs
  rw [if_pos (by omega)]
  rfl

private theorem process_time {SF : Type} [SampleFmt SF F32] (size k : ℕ) (hs : SampleFmt.size SF F32 = size) (hk : k * size = 2 ^ 63) (e e' : Duration)
    (he : e.total = e'.total + 1) (h1 : (k : ℤ) ≤ ⌊e.samp64⌋) (h2 : ⌊e'.samp64⌋ < (k : ℤ)) (d : Duration) (c : StandardChannel SF F32) :
    (e.total ≤ d.total → c.setProcessTime F64 d = .error .capacity) ∧ (d.total < e.total → ∃ c', c.setProcessTime F64 d = .ok c') := by
  have mono : ∀ {a b : Duration}, a.total ≤ b.total → ⌊a.samp64⌋ ≤ ⌊b.samp64⌋ := by
    intro a b h
    refine Int.floor_mono (b64.rnd_mono ?_)
    have := Duration.secs64_mono h
    linarith
  have hk0 : k ≤ 2 ^ 63 := by
    rcases Nat.eq_zero_or_pos size with h0 | h0
    · rw [h0] at hk; omega
    · calc k ≤ k * size := Nat.le_mul_of_pos_right k h0
        _ = _ := hk
  have ht : truncQ d.samp64 = ⌊d.samp64⌋ := by
    unfold truncQ
    rw [if_neg (not_lt.mpr d.samp_bounds.1)]
    rfl
  have hn : toUsize ((d.asSecs : F64) * srM) = min (⌊d.samp64⌋.toNat) (2 ^ 64 - 1) := by
    unfold toUsize
    rw [d.samp_is.toInt, ht]
    have : 0 ≤ ⌊d.samp64⌋ := Int.floor_nonneg.mpr d.samp_bounds.1
    omega
  unfold StandardChannel.setProcessTime StandardChannel.withCapacity
  rw [hs, hn]
  constructor
  · intro h
    have : k ≤ min (⌊d.samp64⌋.toNat) (2 ^ 64 - 1) := by have := mono h; omega
    have := Nat.mul_le_mul_right size this
    rw [if_pos (by omega)]
    rfl
  · intro h
    have : min (⌊d.samp64⌋.toNat) (2 ^ 64 - 1) + 1 ≤ k := by
      have := mono (a := d) (b := e') (by omega)
      have : ⌊d.samp64⌋.toNat + 1 ≤ k := by have : 0 ≤ ⌊d.samp64⌋ := Int.floor_nonneg.mpr d.samp_bounds.1; omega
      omega
    have := Nat.mul_le_mul_right size this
    have hs0 : 0 < size := by rcases Nat.eq_zero_or_pos size with h0 | h0; · rw [h0] at hk; omega
                              · exact h0
    rw [Nat.add_mul] at this
    rw [if_neg (by omega)]
    exact ⟨_, rfl⟩

/-- Exactly which process times panic, mono: those from 48038396025285.285156251 s on (1.5 million years). -/
theorem C92_mono_violated (d : Duration) (c : StandardChannel (Mono F32) F32) :
    (48038396025285285156251 ≤ d.total → c.setProcessTime F64 d = .error .capacity) ∧
    (d.total < 48038396025285285156251 → ∃ c', c.setProcessTime F64 d = .ok c') := by
  have et : (⟨48038396025285, 285156251, by norm_num, by norm_num⟩ : Duration).total = 48038396025285285156251 := by decide +kernel
  have := process_time 4 (2 ^ 61) rfl (by norm_num) ⟨48038396025285, 285156251, by norm_num, by norm_num⟩ ⟨48038396025285, 285156250, by norm_num, by norm_num⟩
    (by decide +kernel) (by decide +kernel) (by decide +kernel) d c
  rwa [et] at this

/-- Exactly which process times panic, stereo: those from 24019198012642.642578126 s on. -/
theorem C92_stereo_violated (d : Duration) (c : StandardChannel (Stereo F32) F32) :
    (24019198012642642578126 ≤ d.total → c.setProcessTime F64 d = .error .capacity) ∧
    (d.total < 24019198012642642578126 → ∃ c', c.setProcessTime F64 d = .ok c') := by
  have et : (⟨24019198012642, 642578126, by norm_num, by norm_num⟩ : Duration).total = 24019198012642642578126 := by decide +kernel
  have := process_time 8 (2 ^ 60) rfl (by norm_num) ⟨24019198012642, 642578126, by norm_num, by norm_num⟩ ⟨24019198012642, 642578125, by norm_num, by norm_num⟩
    (by decide +kernel) (by decide +kernel) (by decide +kernel) d c
  rwa [et] at this

/-- Twenty-five billion seconds times a thousand: too long in stereo, not in mono. -/
example (c : StandardChannel (Mono F32) F32) (c' : StandardChannel (Stereo F32) F32) : (∃ r, c.setProcessTime F64 ⟨25000000000000, 0, by norm_num, by norm_num⟩ = .ok r) ∧
    c'.setProcessTime F64 ⟨25000000000000, 0, by norm_num, by norm_num⟩ = .error .capacity :=
  ⟨(C92_mono_violated _ c).2 (by decide +kernel), (C92_stereo_violated _ c').1 (by decide +kernel)⟩

/-! ## Examples -/

private theorem simpleLaw {B : Type} [Block B F32] (t : SimpleSound F32 × Heap B) (k : ℕ) : Sound.getId F32 (Sound.register F32 t k) = some k := rfl
private theorem complexLaw {B : Type} [Block B F32] (t : ComplexSound × Heap B) (k : ℕ) : Sound.getId F32 (Sound.register F32 t k) = some k := rfl

/-- A block type for the examples. -/
abbrev ExBlock := StandardBlock Zero (Gain F32) StdInter F32
/-- A stereo channel and memory with two sounds. -/
def exChannel : Res (StandardChannel (Stereo F32) F32) := StandardChannel.new (lit 1 : F64)
/-- See `exChannel`. -/
def exSounds : Heap (SimpleSound F32 × Heap ExBlock) :=
  [⟨(SimpleSound.new (lit 1 : F64) (lit 1 : F64) 0, [⟨StandardBlock.fromModifier (Gain.new (lit 1)), 1⟩]), 1⟩,
   ⟨(SimpleSound.new (lit 1 : F64) (lit 1 : F64) 0, [⟨StandardBlock.fromModifier (Gain.new (lit 2)), 1⟩]), 1⟩]

/-- Adding, removing and adding: the ids are 0 and 1. -/
example : (match exChannel with
    | .ok c => (chCalls (M := F64) exSounds c [.add 0, .setTime ⟨1, 0, by norm_num, by norm_num⟩, .remove 0, .process _root_.id, .add 1]).map (Prod.snd ∘ Prod.snd)
    | .error e => .error e) = .ok [some 0, some 1] := by decide +kernel
example : 4 ≤ SampleFmt.size (Stereo F32) F32 ∧ SampleFmt.size (Stereo F32) F32 ≤ 8 ∧ 4 ≤ SampleFmt.size (Mono F32) F32 := by decide
example : (⟨10, 0, by norm_num, by norm_num⟩ : Duration).secs < 2 ^ 42 ∧ 2 ^ 48 ≤ (⟨2 ^ 64 - 1, 0, by norm_num, by norm_num⟩ : Duration).secs := by decide

end Verif
