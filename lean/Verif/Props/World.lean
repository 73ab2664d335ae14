import Verif.Model.Channel
import Verif.Proofs.Heap
import Verif.Proofs.Time
import Verif.Float.Lemmas

set_option linter.unusedSectionVars false

/-! # Programs with several channels: who may control a sound (C130) -/

namespace Verif
open Fl

/-! ## Specification -/

/-- A program that uses channels: memory, its channels, and the addresses of the `Arc`s it holds itself (one entry for
each pointer). -/
structure Prog (SF S T : Type) where
  heap : Heap T
  chans : List (StandardChannel SF S)
  own : List ℕ

/-- What a program can do. -/
inductive ProgOp (M T : Type) where
  /-- `Arc::new` -/
  | make (t : T)
  /-- `clone` of an own pointer -/
  | share (a : ℕ)
  /-- drop of an own pointer -/
  | release (a : ℕ)
  /-- change a sound through `Arc::get_mut` of an own pointer, if it allows that: pause, mute, unregister, ... -/
  | control (a : ℕ) (f : T → T)
  | newChan (g : M)
  | cloneChan (i : ℕ)
  | dropChan (i : ℕ)
  | setTime (i : ℕ) (d : Duration)
  | setGain (i : ℕ) (g : M)
  | process (i : ℕ) (order : List (ℕ × ℕ) → List (ℕ × ℕ))
  | add (i a : ℕ)
  | remove (i k : ℕ)

section
variable {SF S M T : Type} [Flt S] [Flt M] [SM S M] [SampleFmt SF S] [Sound T S]

/-- Addresses of the sounds in a channel. -/
def inChan (c : StandardChannel SF S) : List ℕ := c.sounds.map (·.2)

/-- Run `f` on channel `i`; nothing happens if there is no such channel. -/
def onChan (w : Prog SF S T) (i : ℕ) (f : StandardChannel SF S → Res (StandardChannel SF S × Heap T)) : Res (Prog SF S T) :=
  match w.chans[i]? with
  | none => .ok w
  | some c => (f c).map (fun r => { w with heap := r.2, chans := w.chans.set i r.1 })

/-- One operation. Pointers that the program does not hold cannot be used. -/
def progOp (w : Prog SF S T) : ProgOp M T → Res (Prog SF S T)
  | .make t => .ok { w with heap := w.heap.alloc t, own := w.heap.length :: w.own }
  | .share a => .ok (if a ∈ w.own then { w with heap := w.heap.incr a, own := a :: w.own } else w)
  | .release a => .ok (if a ∈ w.own then { w with heap := w.heap.decr a, own := w.own.erase a } else w)
  | .control a f => .ok (if a ∈ w.own then
      (match w.heap.getMut a with
        | none => w
        | some t => { w with heap := w.heap.put a (f t) }) else w)
  | .newChan g => (StandardChannel.new g).map (fun c => { w with chans := c :: w.chans })
  | .cloneChan i => .ok (match w.chans[i]? with
      | none => w
      | some c => { w with heap := (c.clone w.heap).2, chans := (c.clone w.heap).1 :: w.chans })
  | .dropChan i => .ok (match w.chans[i]? with
      | none => w
      | some c => { w with heap := c.drop w.heap, chans := w.chans.eraseIdx i })
  | .setTime i d => onChan w i (fun c => (c.setProcessTime M d).map (fun c' => (c', w.heap)))
  | .setGain i g => onChan w i (fun c => .ok (c.setGain g, w.heap))
  | .process i order => onChan w i (fun c => c.process order w.heap)
  | .add i a => if a ∈ w.own then onChan w i (fun c => StandardChannel.addSound S w.heap c a) else .ok w
  | .remove i k => onChan w i (fun c => .ok (c.removeSound w.heap k))

/-- A run of the program. -/
def progRun (w : Prog SF S T) : List (ProgOp M T) → Res (Prog SF S T)
  | [] => .ok w
  | o :: os => match progOp w o with
    | .error e => .error e
    | .ok w' => progRun w' os

/-- How many pointers to address `a` there should be: the program's own and one for each entry of a channel. -/
def owners (w : Prog SF S T) (a : ℕ) : ℕ := w.own.count a + (w.chans.map (fun c => (inChan c).count a)).sum

/-! ## Lemmas -/

/-- Every count is right, every pointer is valid, no channel has output. -/
private structure Acc (w : Prog SF S T) : Prop where
  refs : ∀ a, (w.heap[a]?).map (·.refs) = if a < w.heap.length then some (owners w a) else none
  own : ∀ a ∈ w.own, a < w.heap.length
  chan : ∀ c ∈ w.chans, ∀ a ∈ inChan c, a < w.heap.length
  out : ∀ c ∈ w.chans, c.output = []
  key : ∀ c ∈ w.chans, ∀ e ∈ c.sounds, e.1 < c.idCounter

private theorem sum_set (l : List (StandardChannel SF S)) (i : ℕ) (c c' : StandardChannel SF S) (h : l[i]? = some c)
    (f : StandardChannel SF S → ℕ) : ((l.set i c').map f).sum + f c = (l.map f).sum + f c' := by
  induction l generalizing i with
  | nil => simp at h
  | cons x l ih =>
    cases i with
    | zero =>
      simp only [List.getElem?_cons_zero, Option.some.injEq] at h
      subst h
      simp only [List.set_cons_zero, List.map_cons, List.sum_cons]
      omega
    | succ i =>
      have := ih i (by simpa using h)
      simp only [List.set_cons_succ, List.map_cons, List.sum_cons]
      omega

private theorem sum_erase (l : List (StandardChannel SF S)) (i : ℕ) (c : StandardChannel SF S) (h : l[i]? = some c)
    (f : StandardChannel SF S → ℕ) : ((l.eraseIdx i).map f).sum + f c = (l.map f).sum := by
  induction l generalizing i with
  | nil => simp at h
  | cons x l ih =>
    cases i with
    | zero =>
      simp only [List.getElem?_cons_zero, Option.some.injEq] at h
      subst h
      simp only [List.eraseIdx_cons_zero, List.map_cons, List.sum_cons]
      omega
    | succ i =>
      have := ih i (by simpa using h)
      simp only [List.eraseIdx_cons_succ, List.map_cons, List.sum_cons]
      omega

private theorem process_none (order : List (ℕ × ℕ) → List (ℕ × ℕ)) (h : Heap T) (c : StandardChannel SF S) (hc : c.output = []) :
    c.process order h = .ok (c, h) := by
  unfold StandardChannel.process
  rw [hc]
  simp only [StandardChannel.resizeWith, List.take_nil, List.length_nil, List.nil_append, Nat.sub_self, List.replicate_zero,
    StandardChannel.mixAll, bind, Except.bind]
  rw [← hc]

private theorem incr_len (h : Heap T) (a : ℕ) : (h.incr a).length = h.length := by
  unfold Heap.incr; split <;> simp

private theorem decr_len (h : Heap T) (a : ℕ) : (h.decr a).length = h.length := by
  unfold Heap.decr; split <;> simp

private theorem foldl_incr_len (l : List ℕ) (h : Heap T) : (l.foldl Heap.incr h).length = h.length := by
  induction l generalizing h with
  | nil => rfl
  | cons a l ih => rw [List.foldl_cons, ih, incr_len]

private theorem foldl_decr_len (l : List ℕ) (h : Heap T) : (l.foldl Heap.decr h).length = h.length := by
  induction l generalizing h with
  | nil => rfl
  | cons a l ih => rw [List.foldl_cons, ih, decr_len]

private theorem incr_refs (l : List ℕ) (h : Heap T) (a : ℕ) :
    ((l.foldl Heap.incr h)[a]?).map (·.refs) = ((h[a]?).map (·.refs)).map (· + l.count a) := by
  rw [Heap.getElem?_foldl_incr]
  cases h[a]? <;> rfl

private theorem decr_refs (l : List ℕ) (h : Heap T) (a : ℕ) :
    ((l.foldl Heap.decr h)[a]?).map (·.refs) = ((h[a]?).map (·.refs)).map (· - l.count a) := by
  rw [Heap.getElem?_foldl_decr]
  cases h[a]? <;> rfl

private theorem mem_set {l : List (StandardChannel SF S)} {i : ℕ} {c' x : StandardChannel SF S} (h : x ∈ l.set i c') : x ∈ l ∨ x = c' :=
  List.mem_or_eq_of_mem_set h

private theorem count_split (l : List (ℕ × ℕ)) (k a : ℕ) :
    ((l.filter (fun e => e.1 ≠ k)).map (·.2)).count a + ((l.filter (fun e => e.1 = k)).map (·.2)).count a = (l.map (·.2)).count a := by
  induction l with
  | nil => rfl
  | cons e l ih =>
    by_cases he : e.1 = k
    · simp only [List.filter_cons, he, ne_eq, not_true_eq_false, decide_false, decide_true, if_true, List.map_cons, List.count_cons] at ih ⊢
      simp only [Bool.false_eq_true, if_false]
      omega
    · simp only [List.filter_cons, he, ne_eq, not_false_eq_true, decide_false, decide_true, if_true, List.map_cons, List.count_cons] at ih ⊢
      simp only [Bool.false_eq_true, if_false]
      omega

private theorem fresh (l : List (ℕ × ℕ)) (k : ℕ) (h : ∀ e ∈ l, e.1 < k) : l.filter (fun e => e.1 ≠ k) = l := by
  rw [List.filter_eq_self]
  intro e he
  have := h e he
  simp only [ne_eq, decide_not, Bool.not_eq_eq_eq_not, Bool.not_true, decide_eq_false_iff_not]
  omega

/-- Replace one channel, when the counts change by what the channel's entries and the own pointers change. -/
private theorem acc_set {w : Prog SF S T} (hw : Acc w) {i : ℕ} {c c' : StandardChannel SF S} {h' : Heap T} (hc : w.chans[i]? = some c)
    (hl : h'.length = w.heap.length)
    (hr : ∀ a, (h'[a]?).map (·.refs) = ((w.heap[a]?).map (·.refs)).map (fun n => n + (inChan c').count a - (inChan c).count a))
    (hi : ∀ a ∈ inChan c', a < w.heap.length) (ho : c'.output = []) (hk : ∀ e ∈ c'.sounds, e.1 < c'.idCounter) :
    Acc { w with heap := h', chans := w.chans.set i c' } := by
  refine ⟨fun a => ?_, fun a ha => by simpa [hl] using hw.own a ha, fun x hx a ha => ?_, fun x hx => ?_, fun x hx => ?_⟩
  · rw [hr, hw.refs]
    simp only [hl]
    have := sum_set w.chans i c c' hc (fun c => (inChan c).count a)
    split_ifs
    · simp only [Option.map_some, Option.some.injEq, owners]
      omega
    · rfl
  · simp only [hl]
    rcases mem_set hx with h | h
    · exact hw.chan x h a ha
    · subst h; exact hi a ha
  · rcases mem_set hx with h | h
    · exact hw.out x h
    · subst h; exact ho
  · rcases mem_set hx with h | h
    · exact hw.key x h
    · subst h; exact hk

private theorem count_lt {w : Prog SF S T} {c : StandardChannel SF S} (hc : c ∈ w.chans) (a : ℕ) :
    (inChan c).count a ≤ (w.chans.map (fun c => (inChan c).count a)).sum :=
  List.single_le_sum (by intros; exact Nat.zero_le _) _ (List.mem_map_of_mem hc)

private theorem acc_op {w w' : Prog SF S T} (hw : Acc w) {o : ProgOp M T} (h : progOp w o = .ok w') : Acc w' := by
  cases o with
  | make t =>
    cases h
    have hl : (w.heap.alloc t).length = w.heap.length + 1 := by simp [Heap.alloc]
    have hnew : owners w w.heap.length = 0 := by
      unfold owners
      have h1 : w.own.count w.heap.length = 0 := List.count_eq_zero.mpr (fun hm => lt_irrefl _ (hw.own _ hm))
      have h2 : (w.chans.map (fun c => (inChan c).count w.heap.length)).sum = 0 := by
        apply List.sum_eq_zero
        intro n hn
        obtain ⟨c, hc, rfl⟩ := List.mem_map.mp hn
        exact List.count_eq_zero.mpr (fun hm => lt_irrefl _ (hw.chan c hc _ hm))
      omega
    refine ⟨fun a => ?_, fun a ha => ?_, fun x hx a ha => ?_, hw.out, hw.key⟩
    · simp only [hl]
      have hr := hw.refs a
      unfold Heap.alloc
      rcases lt_trichotomy a w.heap.length with h1 | h1 | h1
      · rw [List.getElem?_append_left h1, hr, if_pos h1, if_pos (by omega)]
        simp only [owners, List.count_cons]
        rw [if_neg (by simp; omega)]
        rfl
      · subst h1
        rw [if_pos (by omega)]
        simp only [List.getElem?_concat_length, Option.map_some, owners, List.count_cons, BEq.rfl, if_true]
        unfold owners at hnew
        congr 1
        omega
      · rw [if_neg (by omega), List.getElem?_eq_none (by simp; omega)]
        rfl
    · simp only [hl]
      rcases List.mem_cons.mp ha with h1 | h1
      · omega
      · have := hw.own a h1; omega
    · simp only [hl]
      have := hw.chan x hx a ha; omega
  | share a =>
    simp only [progOp, Except.ok.injEq] at h
    subst h
    split_ifs with ha
    · refine ⟨fun b => ?_, fun b hb => ?_, fun x hx b hb => ?_, hw.out, hw.key⟩
      · simp only [incr_len]
        have := incr_refs [a] w.heap b
        simp only [List.foldl_cons, List.foldl_nil] at this
        rw [this, hw.refs]
        split_ifs
        · simp only [Option.map_some, owners, List.count_cons, List.count_nil, Option.some.injEq]; omega
        · rfl
      · simp only [incr_len]
        rcases List.mem_cons.mp hb with h1 | h1
        · subst h1; exact hw.own _ ha
        · exact hw.own b h1
      · simp only [incr_len]; exact hw.chan x hx b hb
    · exact hw
  | release a =>
    simp only [progOp, Except.ok.injEq] at h
    subst h
    split_ifs with ha
    · refine ⟨fun b => ?_, fun b hb => ?_, fun x hx b hb => ?_, hw.out, hw.key⟩
      · simp only [decr_len]
        have := decr_refs [a] w.heap b
        simp only [List.foldl_cons, List.foldl_nil] at this
        rw [this, hw.refs]
        have hpos := List.count_pos_iff.mpr ha
        split_ifs
        · simp only [Option.map_some, owners, List.count_cons, List.count_nil, List.count_erase, Option.some.injEq]
          by_cases hab : a = b
          · subst hab; simp only [BEq.rfl, if_true]; omega
          · simp only [beq_iff_eq, hab, if_false]; omega
        · rfl
      · simp only [decr_len]
        exact hw.own b (List.mem_of_mem_erase hb)
      · simp only [decr_len]; exact hw.chan x hx b hb
    · exact hw
  | control a f =>
    simp only [progOp, Except.ok.injEq] at h
    subst h
    split_ifs with ha
    · cases hg : w.heap.getMut a with
      | none => exact hw
      | some t =>
        refine ⟨fun b => ?_, fun b hb => ?_, fun x hx b hb => ?_, hw.out, hw.key⟩
        · simp only [Heap.put_length]
          rw [Heap.put_refs, hw.refs]
          rfl
        · simp only [Heap.put_length]; exact hw.own b hb
        · simp only [Heap.put_length]; exact hw.chan x hx b hb
    · exact hw
  | newChan g =>
    simp only [progOp] at h
    unfold StandardChannel.new StandardChannel.withCapacity at h
    split_ifs at h
    · cases h
    · cases h
      refine ⟨fun a => ?_, hw.own, fun x hx a ha => ?_, fun x hx => ?_, fun x hx => ?_⟩
      · rw [hw.refs]
        simp only [owners, List.map_cons, List.sum_cons, inChan, List.map_nil, List.count_nil, Nat.zero_add]
      all_goals rcases List.mem_cons.mp hx with h1 | h1
      · subst h1; simp [inChan] at ha
      · exact hw.chan x h1 a ha
      · subst h1; rfl
      · exact hw.out x h1
      · subst h1; simp
      · exact hw.key x h1
  | cloneChan i =>
    simp only [progOp, Except.ok.injEq] at h
    subst h
    cases hc : w.chans[i]? with
    | none => exact hw
    | some c =>
      have hm := List.mem_of_getElem? hc
      refine ⟨fun a => ?_, fun a ha => ?_, fun x hx a ha => ?_, fun x hx => ?_, fun x hx => ?_⟩
      · simp only [StandardChannel.clone]
        rw [incr_refs, hw.refs]
        have hl := foldl_incr_len (c.sounds.map (·.2)) w.heap
        simp only [hl]
        split_ifs
        · simp only [Option.map_some, owners, List.map_cons, List.sum_cons, inChan, Option.some.injEq]; omega
        · rfl
      · simp only [StandardChannel.clone, foldl_incr_len]; exact hw.own a ha
      · simp only [StandardChannel.clone, foldl_incr_len]
        rcases List.mem_cons.mp hx with h1 | h1
        · subst h1; exact hw.chan c hm a ha
        · exact hw.chan x h1 a ha
      all_goals rcases List.mem_cons.mp hx with h1 | h1
      · subst h1; exact hw.out c hm
      · exact hw.out x h1
      · subst h1; exact hw.key c hm
      · exact hw.key x h1
  | dropChan i =>
    simp only [progOp, Except.ok.injEq] at h
    subst h
    cases hc : w.chans[i]? with
    | none => exact hw
    | some c =>
      refine ⟨fun a => ?_, fun a ha => ?_, fun x hx a ha => ?_, fun x hx => hw.out x (List.mem_of_mem_eraseIdx hx),
        fun x hx => hw.key x (List.mem_of_mem_eraseIdx hx)⟩
      · simp only [StandardChannel.drop]
        rw [decr_refs, hw.refs]
        have hl := foldl_decr_len (c.sounds.map (·.2)) w.heap
        simp only [hl]
        have := sum_erase w.chans i c hc (fun c => (inChan c).count a)
        split_ifs
        · simp only [Option.map_some, owners, Option.some.injEq]
          simp only [inChan] at this ⊢
          omega
        · rfl
      · simp only [StandardChannel.drop, foldl_decr_len]; exact hw.own a ha
      · simp only [StandardChannel.drop, foldl_decr_len]; exact hw.chan x (List.mem_of_mem_eraseIdx hx) a ha
  | setTime i d =>
    simp only [progOp, onChan] at h
    cases hc : w.chans[i]? with
    | none => rw [hc] at h; cases h; exact hw
    | some c =>
      have hm := List.mem_of_getElem? hc
      rw [hc] at h
      simp only [StandardChannel.setProcessTime, StandardChannel.withCapacity] at h
      split_ifs at h
      · cases h
      · cases h
        refine acc_set hw hc rfl (fun a => ?_) (hw.chan c hm) rfl (hw.key c hm)
        show _ = Option.map (fun n => n + (inChan c).count a - (inChan c).count a) _
        cases w.heap[a]? <;> simp
  | setGain i g =>
    simp only [progOp, onChan] at h
    cases hc : w.chans[i]? with
    | none => rw [hc] at h; cases h; exact hw
    | some c =>
      have hm := List.mem_of_getElem? hc
      rw [hc] at h
      cases h
      refine acc_set hw hc rfl (fun a => ?_) (hw.chan c hm) (hw.out c hm) (hw.key c hm)
      show _ = Option.map (fun n => n + (inChan c).count a - (inChan c).count a) _
      cases w.heap[a]? <;> simp
  | process i order =>
    simp only [progOp, onChan] at h
    cases hc : w.chans[i]? with
    | none => rw [hc] at h; cases h; exact hw
    | some c =>
      have hm := List.mem_of_getElem? hc
      rw [hc] at h
      simp only [process_none order w.heap c (hw.out c hm)] at h
      cases h
      refine acc_set hw hc rfl (fun a => ?_) (hw.chan c hm) (hw.out c hm) (hw.key c hm)
      cases w.heap[a]? <;> simp
  | add i a =>
    simp only [progOp] at h
    split_ifs at h with ha
    swap
    · cases h; exact hw
    unfold onChan at h
    cases hc : w.chans[i]? with
    | none => rw [hc] at h; cases h; exact hw
    | some c =>
      have hm := List.mem_of_getElem? hc
      rw [hc] at h
      simp only [StandardChannel.addSound, StandardChannel.freshId] at h
      cases hg : w.heap.getMut a with
      | none => rw [hg] at h; cases h
      | some t =>
        rw [hg] at h
        cases h
        simp only [StandardChannel.insert, fresh _ _ (hw.key c hm)]
        refine acc_set hw hc ?_ (fun b => ?_) (fun b hb => ?_) (hw.out c hm) (fun e he => ?_)
        · rw [incr_len, Heap.put_length]
        · have := incr_refs [a] (w.heap.put a (Sound.register S t c.idCounter)) b
          simp only [List.foldl_cons, List.foldl_nil] at this
          rw [this, Heap.put_refs]
          simp only [inChan, List.map_cons, List.count_cons, List.count_nil]
          cases w.heap[b]? with
          | none => rfl
          | some x => simp only [Option.map_some, Option.some.injEq]; omega
        · rcases List.mem_cons.mp hb with h1 | h1
          · subst h1; exact hw.own _ ha
          · exact hw.chan c hm b h1
        · rcases List.mem_cons.mp he with h1 | h1
          · subst h1; exact Nat.lt_succ_self _
          · exact Nat.lt_succ_of_lt (hw.key c hm e h1)
  | remove i k =>
    simp only [progOp, onChan] at h
    cases hc : w.chans[i]? with
    | none => rw [hc] at h; cases h; exact hw
    | some c =>
      have hm := List.mem_of_getElem? hc
      rw [hc] at h
      cases h
      have hf : (c.sounds.filter (fun e => e.1 = k)).foldl (fun h e => h.decr e.2) w.heap =
          ((c.sounds.filter (fun e => e.1 = k)).map (·.2)).foldl Heap.decr w.heap := by rw [List.foldl_map]
      simp only [StandardChannel.removeSound, hf]
      refine acc_set hw hc (foldl_decr_len _ _) (fun a => ?_) (fun b hb => ?_) (hw.out c hm) (fun e he => ?_)
      · rw [decr_refs]
        have h1 := count_split c.sounds k a
        have h2 := hw.refs a
        have h3 := count_lt hm a
        cases hh : w.heap[a]? with
        | none => rfl
        | some x =>
          rw [hh] at h2
          split_ifs at h2
          · simp only [Option.map_some, Option.some.injEq, owners] at h2 ⊢
            simp only [inChan] at h2 h3 ⊢
            omega
          · cases h2
      · obtain ⟨e, he, rfl⟩ := List.mem_map.mp hb
        exact hw.chan c hm e.2 (List.mem_map_of_mem (f := (·.2)) (List.mem_of_mem_filter he))
      · exact hw.key c hm e (List.mem_of_mem_filter he)

private theorem acc_run (os : List (ProgOp M T)) : ∀ w w' : Prog SF S T, Acc w → progRun w os = .ok w' → Acc w' := by
  induction os with
  | nil => intro w w' hw h; cases h; exact hw
  | cons o os ih =>
    intro w w' hw h
    rw [progRun] at h
    cases h1 : progOp w o with
    | error e => rw [h1] at h; cases h
    | ok w1 => rw [h1] at h; exact ih w1 w' (acc_op hw h1) h

private theorem acc_start : Acc (⟨[], [], []⟩ : Prog SF S T) :=
  ⟨fun a => by simp, fun a ha => by simp at ha, fun x hx => by simp at hx, fun x hx => by simp at hx, fun x hx => by simp at hx⟩

/-! ## C130 -/

/-- In every run, the number of pointers to a sound is the number that the program holds plus one for each entry of a
channel: nothing leaks and nothing is freed too early. -/
theorem C130_owners (os : List (ProgOp M T)) (w : Prog SF S T) (h : progRun ⟨[], [], []⟩ os = .ok w) (a : ℕ) (e : Cell T)
    (ha : w.heap[a]? = some e) : e.refs = w.own.count a + (w.chans.map (fun c => (inChan c).count a)).sum := by
  have hr := (acc_run os _ _ acc_start h).refs a
  rw [ha] at hr
  split_ifs at hr
  · simpa [owners] using hr
  · cases hr

private theorem getMut_iff {w : Prog SF S T} (hw : Acc w) (a : ℕ) (ha : a < w.heap.length) :
    (∃ t, w.heap.getMut a = some t) ↔ owners w a = 1 := by
  have hr := hw.refs a
  rw [if_pos ha] at hr
  rw [List.getElem?_eq_getElem ha] at hr
  simp only [Option.map_some, Option.some.injEq] at hr
  constructor
  · rintro ⟨t, ht⟩
    rw [Heap.getMut_eq_some, List.getElem?_eq_getElem ha] at ht
    rw [← hr, Option.some.inj ht]
  · intro h1
    refine ⟨(w.heap[a]).val, ?_⟩
    rw [Heap.getMut_eq_some, List.getElem?_eq_getElem ha]
    congr 1
    rw [h1] at hr
    rw [← hr]

private theorem sum_zero_iff (w : Prog SF S T) (a : ℕ) :
    (w.chans.map (fun c => (inChan c).count a)).sum = 0 ↔ ∀ c ∈ w.chans, a ∉ inChan c := by
  rw [List.sum_eq_zero_iff]
  simp only [List.mem_map, forall_exists_index, and_imp, forall_apply_eq_imp_iff₂, List.count_eq_zero]

/-- In every run, the program can change a sound that it holds exactly when it holds one pointer to it and the sound is
in no channel. -/
theorem C130_control_partial (os : List (ProgOp M T)) (w : Prog SF S T) (h : progRun ⟨[], [], []⟩ os = .ok w) (a : ℕ) (ha : a ∈ w.own) :
    (∃ t, w.heap.getMut a = some t) ↔ w.own.count a = 1 ∧ ∀ c ∈ w.chans, a ∉ inChan c := by
  have hw := acc_run os _ _ acc_start h
  rw [getMut_iff hw a (hw.own a ha), ← sum_zero_iff]
  have := List.count_pos_iff.mpr ha
  unfold owners
  omega

/-- And then the change takes effect on that sound and on nothing else. -/
theorem C130_regained_partial (os : List (ProgOp M T)) (w : Prog SF S T) (h : progRun ⟨[], [], []⟩ os = .ok w) (a : ℕ) (ha : a ∈ w.own)
    (h1 : w.own.count a = 1) (h2 : ∀ c ∈ w.chans, a ∉ inChan c) (f : T → T) :
    ∃ t w', w.heap[a]? = some ⟨t, 1⟩ ∧ progOp w (.control a f : ProgOp M T) = .ok w' ∧ w'.heap[a]? = some ⟨f t, 1⟩ ∧
      (∀ b ≠ a, w'.heap[b]? = w.heap[b]?) ∧ w'.chans = w.chans ∧ w'.own = w.own := by
  obtain ⟨t, ht⟩ := (C130_control_partial os w h a ha).mpr ⟨h1, h2⟩
  refine ⟨t, { w with heap := w.heap.put a (f t) }, Heap.getMut_eq_some.mp ht, ?_, ?_, ?_, rfl, rfl⟩
  · simp only [progOp, if_pos ha, ht]
  · rw [Heap.getElem?_put, if_pos rfl, Heap.getMut_eq_some.mp ht]
    rfl
  · intro b hb
    rw [Heap.getElem?_put, if_neg hb]

/-- The code violates C130: as long as a sound is in some channel, whatever the program tries on its own pointer (pause,
mute, unregister) changes nothing. -/
theorem C130_violated (os : List (ProgOp M T)) (w : Prog SF S T) (h : progRun ⟨[], [], []⟩ os = .ok w) (a : ℕ)
    (c : StandardChannel SF S) (hc : c ∈ w.chans) (hac : a ∈ inChan c) (f : T → T) :
    progOp w (.control a f : ProgOp M T) = .ok w := by
  by_cases ha : a ∈ w.own
  · have hn : w.heap.getMut a = none := by
      by_contra hne
      obtain ⟨t, ht⟩ := Option.ne_none_iff_exists'.mp hne
      exact ((C130_control_partial os w h a ha).mp ⟨t, ht⟩).2 c hc hac
    simp only [progOp, if_pos ha, hn]
  · simp only [progOp, if_neg ha]

/-- What `process` needs for a sound in a channel: no pointer outside, and no second entry anywhere. So a sound that can
be played cannot be controlled. -/
theorem C130_playable (os : List (ProgOp M T)) (w : Prog SF S T) (h : progRun ⟨[], [], []⟩ os = .ok w) (a : ℕ)
    (c : StandardChannel SF S) (hc : c ∈ w.chans) (hac : a ∈ inChan c) :
    (∃ t, w.heap.getMut a = some t) ↔ a ∉ w.own ∧ (w.chans.map (fun c => (inChan c).count a)).sum = 1 := by
  have hw := acc_run os _ _ acc_start h
  rw [getMut_iff hw a (hw.chan c hc a hac)]
  have h1 := List.count_pos_iff.mpr hac
  have h2 := count_lt hc a
  rw [← List.count_eq_zero]
  unfold owners
  omega

/-- Adding an own sound to an existing channel panics exactly when the program holds another pointer to it or some
channel already has it; otherwise the sound is registered under the channel's next id. -/
theorem C130_add (os : List (ProgOp M T)) (w : Prog SF S T) (h : progRun ⟨[], [], []⟩ os = .ok w) (a i : ℕ) (ha : a ∈ w.own)
    (c : StandardChannel SF S) (hc : w.chans[i]? = some c) :
    (progOp w (.add i a : ProgOp M T) = .error .unwrapNone ↔ ¬ (w.own.count a = 1 ∧ ∀ c ∈ w.chans, a ∉ inChan c)) ∧
    (w.own.count a = 1 → (∀ c ∈ w.chans, a ∉ inChan c) → ∃ t w' c', w.heap[a]? = some ⟨t, 1⟩ ∧
      progOp w (.add i a : ProgOp M T) = .ok w' ∧ w'.heap[a]? = some ⟨Sound.register S t c.idCounter, 2⟩ ∧
      (∀ b ≠ a, w'.heap[b]? = w.heap[b]?) ∧ w'.own = w.own ∧
      w'.chans = w.chans.set i c' ∧ c'.sounds = (c.idCounter, a) :: c.sounds ∧ c'.idCounter = c.idCounter + 1) := by
  have hw := acc_run os _ _ acc_start h
  have hm := List.mem_of_getElem? hc
  have key := C130_control_partial os w h a ha
  constructor
  · rw [← key]
    simp only [progOp, if_pos ha, onChan, hc, StandardChannel.addSound, StandardChannel.freshId]
    cases hg : w.heap.getMut a with
    | none => simp [Except.map]
    | some t => simp [Except.map]
  · intro h1 h2
    obtain ⟨t, ht⟩ := key.mpr ⟨h1, h2⟩
    have e1 := Heap.getMut_eq_some.mp ht
    let c' : StandardChannel SF S := { c with idCounter := c.idCounter + 1, sounds := (c.idCounter, a) :: c.sounds }
    refine ⟨t, { w with heap := (w.heap.put a (Sound.register S t c.idCounter)).incr a, chans := w.chans.set i c' }, c', e1, ?_, ?_, ?_,
      rfl, rfl, rfl, rfl⟩
    · have hf : StandardChannel.insert c.sounds c.idCounter a = (c.idCounter, a) :: c.sounds := by
        unfold StandardChannel.insert
        congr 1
        exact fresh _ _ (hw.key c hm)
      simp only [progOp, if_pos ha, onChan, hc, StandardChannel.addSound, StandardChannel.freshId, ht, Except.map,
        c', hf]
    · rw [Heap.getElem?_incr, if_pos rfl, Heap.getElem?_put, if_pos rfl, e1]
      rfl
    · intro b hb
      rw [Heap.getElem?_incr, if_neg hb, Heap.getElem?_put, if_neg hb]

private theorem run_append (os os' : List (ProgOp M T)) : ∀ w w' : Prog SF S T, progRun w os = .ok w' →
    progRun w (os ++ os') = progRun w' os' := by
  induction os with
  | nil => intro w w' h; cases h; rfl
  | cons o os ih =>
    intro w w' h
    rw [List.cons_append, progRun]
    rw [progRun] at h
    cases h1 : progOp w o with
    | error e => rw [h1] at h; cases h
    | ok w1 => rw [h1] at h; exact ih w1 w' h

/-- Cloning a channel and dropping the copy (or the original) leaves memory as it was. -/
theorem C130_clone_drop (w w' : Prog SF S T) (i j : ℕ) (c : StandardChannel SF S) (hc : w.chans[i]? = some c)
    (hj : j = 0 ∨ j = i + 1) (h' : progRun w [.cloneChan i, (.dropChan j : ProgOp M T)] = .ok w') :
    w'.heap = w.heap ∧ w'.own = w.own ∧ (j = 0 → w' = w) := by
  have key : StandardChannel.drop (StandardChannel.clone w.heap c).2 c = w.heap := by
    apply List.ext_getElem?
    intro a
    simp only [StandardChannel.drop, StandardChannel.clone]
    rw [Heap.getElem?_foldl_decr, Heap.getElem?_foldl_incr]
    cases w.heap[a]? with
    | none => rfl
    | some e => simp
  rcases hj with hj | hj <;> subst hj
  · simp only [progRun, progOp, hc, List.getElem?_cons_zero, List.eraseIdx_cons_zero, Except.ok.injEq] at h'
    have e : StandardChannel.drop (StandardChannel.clone w.heap c).2 (StandardChannel.clone w.heap c).1 = w.heap := key
    rw [e] at h'
    subst h'
    exact ⟨rfl, rfl, fun _ => rfl⟩
  · simp only [progRun, progOp, hc, List.getElem?_cons_succ, List.eraseIdx_cons_succ, Except.ok.injEq, key] at h'
    subst h'
    exact ⟨rfl, rfl, fun h => by omega⟩

/-- After a clone both channels hand out the same id: two different sounds, each the only one ever added to its channel
since, carry the same id. -/
theorem C130_clone_ids (os : List (ProgOp M T)) (w : Prog SF S T) (h : progRun ⟨[], [], []⟩ os = .ok w) (i : ℕ)
    (c : StandardChannel SF S) (hc : w.chans[i]? = some c) (s t : T) :
    ∃ w', progRun w [.cloneChan i, .make s, .make t, .add 0 w.heap.length, (.add (i + 1) (w.heap.length + 1) : ProgOp M T)] = .ok w' ∧
      w'.heap[w.heap.length]? = some ⟨Sound.register S s c.idCounter, 2⟩ ∧
      w'.heap[w.heap.length + 1]? = some ⟨Sound.register S t c.idCounter, 2⟩ := by
  have hw := acc_run os _ _ acc_start h
  obtain ⟨n, hn⟩ : ∃ n, n = w.heap.length := ⟨_, rfl⟩
  have hlen : (StandardChannel.clone w.heap c).2.length = n := by rw [hn]; exact foldl_incr_len _ _
  have hlen' : ((StandardChannel.clone w.heap c).2.alloc s).length = n + 1 := by simp [Heap.alloc, hlen]
  have hown : ∀ a, n ≤ a → w.own.count a = 0 := fun a ha => List.count_eq_zero.mpr (fun hm => by have := hw.own a hm; omega)
  have hch : ∀ a, n ≤ a → ∀ d ∈ w.chans, a ∉ inChan d := fun a ha d hd hm => by have := hw.chan d hd a hm; omega
  let c1 : StandardChannel SF S := (StandardChannel.clone w.heap c).1
  let w3 : Prog SF S T := ⟨((StandardChannel.clone w.heap c).2.alloc s).alloc t, c1 :: w.chans, (n + 1) :: n :: w.own⟩
  have r3 : progRun w [.cloneChan i, .make s, (.make t : ProgOp M T)] = .ok w3 := by
    simp only [progRun, progOp, hc, hlen, hlen', w3, c1]
  have r3' : progRun (⟨[], [], []⟩ : Prog SF S T) (os ++ [.cloneChan i, .make s, .make t]) = .ok w3 := by rw [run_append os _ _ _ h, r3]
  have hch3 : ∀ a, n ≤ a → ∀ d ∈ w3.chans, a ∉ inChan d := by
    intro a ha d hd
    rcases List.mem_cons.mp hd with h1 | h1
    · subst h1; exact hch a ha c (List.mem_of_getElem? hc)
    · exact hch a ha d h1
  have cnt : w3.own.count n = 1 ∧ w3.own.count (n + 1) = 1 := by
    constructor <;> simp only [w3, List.count_cons, hown n le_rfl, hown (n + 1) (by omega), beq_iff_eq] <;> simp
  obtain ⟨s', w4, c4, a1, a2, a3, a0, a4, a5, a6, a7⟩ := (C130_add _ w3 r3' n 0 (by simp [w3]) c1 rfl).2 cnt.1 (hch3 n le_rfl)
  have hs' : s' = s := by
    have : w3.heap[n]? = some ⟨s, 1⟩ := by simp [w3, Heap.alloc, hlen]
    rw [this] at a1
    cases a1; rfl
  have r4 : progRun (⟨[], [], []⟩ : Prog SF S T) ((os ++ [.cloneChan i, .make s, .make t]) ++ [.add 0 n]) = .ok w4 := by
    rw [run_append _ _ _ _ r3', progRun, a2]
    rfl
  have hw4 : w4.chans = c4 :: w.chans := by rw [a5]; rfl
  have hch4 : ∀ d ∈ w4.chans, n + 1 ∉ inChan d := by
    intro d hd
    rw [hw4] at hd
    rcases List.mem_cons.mp hd with h1 | h1
    · subst h1
      unfold inChan
      rw [a6]
      intro hm
      rcases List.mem_cons.mp hm with h2 | h2
      · simp at h2
      · exact hch3 (n + 1) (by omega) c1 (List.mem_cons_self) h2
    · exact hch (n + 1) (by omega) d h1
  have hm4 : n + 1 ∈ w4.own := by rw [a4]; simp [w3]
  obtain ⟨t', w5, c5, b1, b2, b3, b0, -⟩ := (C130_add _ w4 r4 (n + 1) (i + 1) hm4 c (by rw [hw4]; simpa using hc)).2
    (by rw [a4]; exact cnt.2) hch4
  have ht' : t' = t := by
    have : w4.heap[n + 1]? = some ⟨t, 1⟩ := by
      rw [a0 (n + 1) (by omega)]
      have hl : (((StandardChannel.clone w.heap c).2.alloc s)).length = n + 1 := hlen'
      simp only [w3]
      generalize (StandardChannel.clone w.heap c).2.alloc s = H at hl
      simp [Heap.alloc, ← hl]
    rw [this] at b1
    cases b1; rfl
  refine ⟨w5, ?_, ?_, ?_⟩
  · rw [← hn, show [ProgOp.cloneChan i, .make s, .make t, .add 0 n, (.add (i + 1) (n + 1) : ProgOp M T)] =
      [.cloneChan i, .make s, .make t] ++ [.add 0 n, .add (i + 1) (n + 1)] from rfl, run_append _ _ _ _ r3, progRun, a2]
    show progRun w4 [_] = _
    rw [progRun, b2]
    rfl
  · rw [← hn, b0 n (by omega), a3, hs']
    rfl
  · rw [← hn, b3, ht']

/-! ## Instances -/

/-- A sound with a pause flag and an id, for examples. -/
private structure Tone where
  paused : Bool
  id : Option ℕ
  deriving DecidableEq

private instance : Sound Tone F32 where
  togglePause t := { t with paused := !t.paused }
  isPaused t := t.paused
  toggleMute t := t
  isMuted _ := false
  process t x := .ok (x, t)
  register t k := { t with id := some k }
  unregister t := { t with id := none }
  getId t := t.id

/-- A program that adds a sound, tries to pause it in vain, removes it, and then pauses it. -/
private def demo : List (ProgOp F64 Tone) :=
  [.newChan (lit 1), .make ⟨false, none⟩, .add 0 0, .control 0 (fun t => Sound.togglePause F32 t), .remove 0 0,
    .control 0 (fun t => Sound.togglePause F32 t)]

private def seen (n : ℕ) : Option (List (Tone × ℕ) × List (List ℕ) × List ℕ) :=
  match progRun (⟨[], [], []⟩ : Prog (Mono F32) F32 Tone) (demo.take n) with
  | .ok w => some (w.heap.map (fun e => (e.val, e.refs)), w.chans.map inChan, w.own)
  | .error _ => none

example : seen 3 = some ([(⟨false, some 0⟩, 2)], [[0]], [0]) := by decide +kernel
example : seen 4 = some ([(⟨false, some 0⟩, 2)], [[0]], [0]) := by decide +kernel
example : seen 5 = some ([(⟨false, some 0⟩, 1)], [[]], [0]) := by decide +kernel
example : seen 6 = some ([(⟨true, some 0⟩, 1)], [[]], [0]) := by decide +kernel

end
end Verif
