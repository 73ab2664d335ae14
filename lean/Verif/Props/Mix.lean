import Verif.Props.Channel
import Verif.Proofs.DecEq
import Verif.Model.ArithReal
import Mathlib.Tactic.Choose
import Mathlib.Algebra.BigOperators.Group.List.Basic

set_option linter.unusedSectionVars false

/-! # What a channel computes: C120

By C89 the output of a channel that is only used through its methods is empty; the theorems here are about any output. -/

namespace Verif
open Flt

section
variable {SF S M T : Type} [Flt S] [Flt M] [SM S M] [SampleFmt SF S] [Sound T S]

/-! ## Specification -/

/-- A sound on its own, given silence: its next samples and its state after them. -/
inductive Plays : T → List S → T → Prop
  | nil (t : T) : Plays t [] t
  | cons {t t1 t' : T} {y : S} {ys : List S} (h : Sound.process t (lit 0 : S) = .ok (y, t1)) (r : Plays t1 ys t') : Plays t (y :: ys) t'

/-- `s` and the samples `ys`, mixed. -/
def mixed (s : SF) (ys : List S) : SF := ys.foldl (fun s y => SampleFmt.addAssign S s (SampleFmt.fromSample y)) s

/-! ## Lemmas -/

private theorem plays_nil {t t' : T} (h : Plays t ([] : List S) t') : t = t' := by
  generalize hl : ([] : List S) = l at h
  cases h with
  | nil => rfl
  | cons => cases hl

private theorem plays_cons {t t' : T} {y : S} {ys : List S} (h : Plays t (y :: ys) t') :
    ∃ t1, Sound.process t (lit 0 : S) = .ok (y, t1) ∧ Plays t1 ys t' := by
  generalize hl : y :: ys = l at h
  cases h with
  | nil => cases hl
  | cons h r => cases hl; exact ⟨_, h, r⟩

private theorem mixOne_eq (l : List (ℕ × ℕ)) : ∀ (h : Heap T) (s : SF) (st st1 : ℕ → T) (y : ℕ → S), (l.map Prod.snd).Nodup →
    (∀ e ∈ l, h[e.2]? = some ⟨st e.2, 1⟩) → (∀ e ∈ l, Sound.process (st e.2) (lit 0 : S) = .ok (y e.2, st1 e.2)) →
    ∃ h', StandardChannel.mixOne (S := S) h s l = .ok (mixed s (l.map (fun e => y e.2)), h') ∧ (∀ e ∈ l, h'[e.2]? = some ⟨st1 e.2, 1⟩) ∧
      ∀ a, a ∉ l.map Prod.snd → h'[a]? = h[a]? := by
  induction l with
  | nil => exact fun h s st st1 y _ _ _ => ⟨h, by rw [StandardChannel.mixOne]; rfl, by simp, fun _ _ => rfl⟩
  | cons e l ih =>
    intro h s st st1 y hnd hh hp
    rw [List.map_cons, List.nodup_cons] at hnd
    have he := hh e (by simp)
    have hput : h.put e.2 (st1 e.2) = h.set e.2 ⟨st1 e.2, 1⟩ := by unfold Heap.put; rw [he]
    have hlt : e.2 < h.length := (List.getElem?_eq_some_iff.mp he).1
    have hne : ∀ e' ∈ l, e.2 ≠ e'.2 := fun e' h' heq => hnd.1 (heq ▸ List.mem_map_of_mem h')
    obtain ⟨h', i1, i2, i3⟩ := ih (h.put e.2 (st1 e.2)) (SampleFmt.addAssign S s (SampleFmt.fromSample (y e.2))) st st1 y hnd.2
      (fun e' h' => by rw [hput, List.getElem?_set_ne (hne e' h')]; exact hh e' (by simp [h'])) (fun e' h' => hp e' (by simp [h']))
    refine ⟨h', ?_, ?_, ?_⟩
    · rw [StandardChannel.mixOne, Heap.getMut_eq_some.mpr he]
      simp only [dflt, hp e (by simp), bind, Except.bind]
      exact i1
    · intro e' h'm
      rcases List.mem_cons.mp h'm with rfl | hm
      · rw [i3 _ hnd.1, hput, List.getElem?_set_self hlt]
      · exact i2 e' hm
    · intro a ha
      rw [List.map_cons, List.mem_cons, not_or] at ha
      rw [i3 a ha.2, hput, List.getElem?_set_ne (Ne.symm ha.1)]

private theorem mixAll_eq (l : List (ℕ × ℕ)) (gain : S) (hnd : (l.map Prod.snd).Nodup) (out : List SF) :
    ∀ (h : Heap T) (st st' : ℕ → T) (ys : ℕ → List S), (∀ e ∈ l, h[e.2]? = some ⟨st e.2, 1⟩) →
    (∀ e ∈ l, Plays (st e.2) (ys e.2) (st' e.2) ∧ (ys e.2).length = out.length) →
    ∃ out' h', StandardChannel.mixAll l gain h out = .ok (out', h') ∧ out'.length = out.length ∧
      (∀ (i : ℕ) (s : SF), out[i]? = some s → out'[i]? = some (SampleFmt.mulAssignS (mixed s (l.map (fun e => (ys e.2).getD i (lit 0)))) gain)) ∧
      (∀ e ∈ l, h'[e.2]? = some ⟨st' e.2, 1⟩) ∧ ∀ a, a ∉ l.map Prod.snd → h'[a]? = h[a]? := by
  induction out with
  | nil =>
    intro h st st' ys hh hp
    refine ⟨[], h, rfl, rfl, by simp, fun e he => ?_, fun _ _ => rfl⟩
    obtain ⟨h1, h2⟩ := hp e he
    rw [hh e he]
    have h2 : ys e.2 = [] := List.length_eq_zero_iff.mp h2
    rw [h2] at h1
    rw [plays_nil h1]
  | cons s out ih =>
    intro h st st' ys hh hp
    have : Nonempty T := ⟨st 0⟩
    have hstep : ∀ a ∈ l.map Prod.snd, ∃ (y : S) (t : T) (r : List S), ys a = y :: r ∧ Sound.process (st a) (lit 0 : S) = .ok (y, t) ∧ Plays t r (st' a) := by
      intro a ha
      obtain ⟨e, he, rfl⟩ := List.mem_map.mp ha
      obtain ⟨h1, h2⟩ := hp e he
      cases hy : ys e.2 with
      | nil => rw [hy] at h2; simp at h2
      | cons y r =>
        rw [hy] at h1
        obtain ⟨t, h3, h4⟩ := plays_cons h1
        exact ⟨y, t, r, rfl, h3, h4⟩
    have : Nonempty S := ⟨lit 0⟩
    choose! y t r h1 h2 h3 using hstep
    obtain ⟨h', i1, i2, i3⟩ := mixOne_eq l h s st t y hnd hh (fun e he => h2 _ (List.mem_map_of_mem he))
    obtain ⟨out', h'', j1, j2, j3, j4, j5⟩ := ih h' t st' r i2 (fun e he => ⟨h3 _ (List.mem_map_of_mem he), by
      have := (hp e he).2
      rw [h1 _ (List.mem_map_of_mem he)] at this
      simpa using this⟩)
    refine ⟨SampleFmt.mulAssignS (mixed s (l.map (fun e => y e.2))) gain :: out', h'', ?_, ?_, ?_, j4, fun a ha => by rw [j5 a ha, i3 a ha]⟩
    · rw [StandardChannel.mixAll, i1]
      simp only [bind, Except.bind, j1]
    · simp [j2]
    · intro i s' hi
      cases i with
      | zero =>
        cases hi
        rw [List.getElem?_cons_zero]
        have : l.map (fun e => (ys e.2).getD 0 (lit 0)) = l.map (fun e => y e.2) :=
          List.map_congr_left fun e he => by rw [h1 _ (List.mem_map_of_mem he)]; rfl
        rw [this]
      | succ i =>
        rw [List.getElem?_cons_succ] at hi ⊢
        have : l.map (fun e => (ys e.2).getD (i + 1) (lit 0)) = l.map (fun e => (r e.2).getD i (lit 0)) :=
          List.map_congr_left fun e he => by rw [h1 _ (List.mem_map_of_mem he)]; rfl
        rw [this]
        exact j3 i s' hi

/-! ## C120 -/

/-- Any arithmetic, any sounds and any iteration order of the map. If the channel is the only owner of its sounds and they
do not panic, `process` does not panic. To each sample of the output it adds the next sample of each sound, and multiplies
the sum by the gain. Each sound advances by as many samples as the output has. Nothing else in memory changes. -/
theorem C120_process (order : List (ℕ × ℕ) → List (ℕ × ℕ)) (h : Heap T) (c : StandardChannel SF S) (ho : (order c.sounds).Perm c.sounds)
    (hnd : (c.sounds.map Prod.snd).Nodup) (st st' : ℕ → T) (ys : ℕ → List S) (hh : ∀ e ∈ c.sounds, h[e.2]? = some ⟨st e.2, 1⟩)
    (hp : ∀ e ∈ c.sounds, Plays (st e.2) (ys e.2) (st' e.2) ∧ (ys e.2).length = c.getOutput.length) :
    ∃ (c' : StandardChannel SF S) (h' : Heap T), c.process order h = .ok (c', h') ∧ c'.getOutput.length = c.getOutput.length ∧
      (∀ (i : ℕ) (s : SF), c.getOutput[i]? = some s →
        c'.getOutput[i]? = some (SampleFmt.mulAssignS (mixed s ((order c.sounds).map (fun e => (ys e.2).getD i (lit 0)))) c.gain)) ∧
      c'.gain = c.gain ∧ c'.sounds = c.sounds ∧ c'.idCounter = c.idCounter ∧
      (∀ e ∈ c.sounds, h'[e.2]? = some ⟨st' e.2, 1⟩) ∧ ∀ a, a ∉ c.sounds.map Prod.snd → h'[a]? = h[a]? := by
  have hm := ho.map Prod.snd
  obtain ⟨out', h', i1, i2, i3, i4, i5⟩ := mixAll_eq (order c.sounds) c.gain (hm.nodup_iff.mpr hnd) c.output h st st' ys
    (fun e he => hh e (ho.subset he)) (fun e he => hp e (ho.subset he))
  refine ⟨{ c with output := out' }, h', ?_, i2, i3, rfl, rfl, rfl, fun e he => i4 e (ho.symm.subset he),
    fun a ha => i5 a (fun h => ha (hm.subset h))⟩
  unfold StandardChannel.process
  have : StandardChannel.resizeWith c.output c.output.length (SampleFmt.default S) = c.output := by
    simp [StandardChannel.resizeWith]
  rw [this]
  simp only [bind, Except.bind, i1]

/-- `set_gain` sets the gain of later calls and changes nothing else. -/
theorem C120_set_gain (c : StandardChannel SF S) (g : M) : (c.setGain g).gain = SM.down g ∧ (c.setGain g).getOutput = c.getOutput ∧
    (c.setGain g).sounds = c.sounds ∧ (c.setGain g).idCounter = c.idCounter :=
  ⟨rfl, rfl, rfl, rfl⟩

/-- `new` sets the gain it is given, and has no sounds. -/
theorem C120_new (g : M) (c : StandardChannel SF S) (h : StandardChannel.new g = .ok c) : c.gain = SM.down g ∧ c.sounds = [] := by
  unfold StandardChannel.new StandardChannel.withCapacity at h
  split_ifs at h
  · cases h
  · cases h
    exact ⟨rfl, rfl⟩
end

/-! ## Exact arithmetic -/

private theorem mixed_mono (ys : List ℝ) (s : Mono ℝ) : (mixed s ys).mono = s.mono + ys.sum := by
  unfold mixed
  induction ys generalizing s with
  | nil => simp
  | cons y ys ih =>
    rw [List.foldl_cons, ih]
    show s.mono + y + ys.sum = _
    rw [List.sum_cons]; ring

private theorem mixed_stereo (ys : List ℝ) (s : Stereo ℝ) : (mixed s ys).left = s.left + ys.sum * √(1 / 2) ∧ (mixed s ys).right = s.right + ys.sum * √(1 / 2) := by
  unfold mixed
  induction ys generalizing s with
  | nil => simp
  | cons y ys ih =>
    rw [List.foldl_cons]
    obtain ⟨h1, h2⟩ := ih (SampleFmt.addAssign ℝ s (SampleFmt.fromSample y))
    rw [h1, h2]
    have e : (SampleFmt.fromSample y : Stereo ℝ) = ⟨y * √(1 / 2), y * √(1 / 2)⟩ := by
      show Stereo.fromSample y = _
      unfold Stereo.fromSample
      real_simp
      norm_num
    rw [e]
    constructor
    · show s.left + y * √(1 / 2) + _ = _
      rw [List.sum_cons]; ring
    · show s.right + y * √(1 / 2) + _ = _
      rw [List.sum_cons]; ring

/-- In exact arithmetic the order does not matter: a mono channel gives (output + sum of the sounds) · gain, a stereo channel
the same on both sides with the sounds at √(1/2). -/
theorem C120_exact {T : Type} [Sound T ℝ] (order : List (ℕ × ℕ) → List (ℕ × ℕ)) (sounds : List (ℕ × ℕ)) (ho : (order sounds).Perm sounds) (y : ℕ × ℕ → ℝ)
    (gain : ℝ) (m : Mono ℝ) (s : Stereo ℝ) :
    SampleFmt.mulAssignS (mixed m ((order sounds).map y)) gain = (⟨(m.mono + (sounds.map y).sum) * gain⟩ : Mono ℝ) ∧
    SampleFmt.mulAssignS (mixed s ((order sounds).map y)) gain =
      (⟨(s.left + (sounds.map y).sum * √(1 / 2)) * gain, (s.right + (sounds.map y).sum * √(1 / 2)) * gain⟩ : Stereo ℝ) := by
  have hs : ((order sounds).map y).sum = (sounds.map y).sum := (ho.map y).sum_eq
  constructor
  · show (⟨(mixed m _).mono * gain⟩ : Mono ℝ) = _
    rw [mixed_mono, hs]
  · obtain ⟨h1, h2⟩ := mixed_stereo ((order sounds).map y) s
    show (⟨(mixed s _).left * gain, (mixed s _).right * gain⟩ : Stereo ℝ) = _
    rw [h1, h2, hs]

/-! ## Examples -/

/-- A block with a generator. -/
abbrev SqBlock := StandardBlock (Square F64) Passthrough StdInter F32
/-- A sound: a 12 kHz square wave with output gain `g`, counter at `k`. -/
def sqSound (g : F64) (k : F64) : SimpleSound F32 × Heap SqBlock :=
  (SimpleSound.new (lit 1 : F64) g 0, [⟨StandardBlock.fromGenerator ⟨k, lit 2⟩, 1⟩])
/-- A channel with gain 3, two sounds and four output samples. -/
def sqChannel : StandardChannel (Mono F32) F32 := ⟨[⟨lit 0⟩, ⟨lit 0⟩, ⟨lit 0⟩, ⟨lit 10⟩], 480, [(0, 0), (1, 1)], lit 3, 2⟩

/-- The sounds play 1/2, 1/2, -1/2, -1/2 and 1/4, -1/4, -1/4, 1/4; the channel gives 9/4, 3/4, -9/4, 117/4. The hypotheses of
C120_process hold. -/
example : (sqChannel.process List.reverse [⟨sqSound (lit (1 / 2)) (lit 0), 1⟩, ⟨sqSound (lit (1 / 4)) (lit 1), 1⟩]).map (fun r => r.1.getOutput) =
      .ok [⟨lit (9 / 4)⟩, ⟨lit (3 / 4)⟩, ⟨-lit (9 / 4)⟩, ⟨lit (117 / 4)⟩] ∧
    (List.reverse sqChannel.sounds).Perm sqChannel.sounds ∧ (sqChannel.sounds.map Prod.snd).Nodup ∧
    Plays (sqSound (lit (1 / 2)) (lit 0)) [(lit (1 / 2) : F32), lit (1 / 2), -lit (1 / 2), -lit (1 / 2)] (sqSound (lit (1 / 2)) (lit 4)) ∧
    Plays (sqSound (lit (1 / 4)) (lit 1)) [(lit (1 / 4) : F32), -lit (1 / 4), -lit (1 / 4), lit (1 / 4)] (sqSound (lit (1 / 4)) (lit 1)) := by
  refine ⟨by decide +kernel, List.reverse_perm _, by decide, ?_, ?_⟩
  · exact .cons (t1 := sqSound (lit (1 / 2)) (lit 1)) (by decide +kernel) (.cons (t1 := sqSound (lit (1 / 2)) (lit 2)) (by decide +kernel)
      (.cons (t1 := sqSound (lit (1 / 2)) (lit 3)) (by decide +kernel) (.cons (t1 := sqSound (lit (1 / 2)) (lit 4)) (by decide +kernel) (.nil _))))
  · exact .cons (t1 := sqSound (lit (1 / 4)) (lit 2)) (by decide +kernel) (.cons (t1 := sqSound (lit (1 / 4)) (lit 3)) (by decide +kernel)
      (.cons (t1 := sqSound (lit (1 / 4)) (lit 4)) (by decide +kernel) (.cons (t1 := sqSound (lit (1 / 4)) (lit 1)) (by decide +kernel) (.nil _))))

end Verif
