import Verif.Props.SimpleSound
import Verif.Proofs.Heap

set_option linter.unusedSectionVars false

/-! # Sounds do not disturb each other: C175

Sounds live in one memory. Whatever is done with one of them, in whatever order the program serves them, the others must sound
as if it were not there. -/

namespace Verif

section
variable {B S : Type} [Flt S] [Block B S]

/-! ## Specification -/

/-- A sound of either kind. -/
abbrev AnySound (S : Type) := SimpleSound S ⊕ ComplexSound

/-- The blocks a sound has pointers to. -/
def AnySound.blocks : AnySound S → List ℕ
  | .inl s => s.generator :: s.modifierList
  | .inr c => c.graph.nodes

/-- One sample. -/
def AnySound.play (s : AnySound S) (h : Heap B) (x : S) : Res (S × Heap B) :=
  match s with
  | .inl s => SimpleSound.process h s x
  | .inr c => ComplexSound.process h c x

/-- A setter. -/
def AnySound.set : AnySound S → SoundSet → AnySound S
  | .inl s, f => .inl (s.applySet f)
  | .inr c, f => .inr (c.applySet f)

/-- What a program does with a sound: play a sample, pause, mute, register, unregister. -/
inductive SoundCall (S : Type) where
  | play (x : S) | set (f : SoundSet)

/-- One sound alone: the samples it gives. -/
def alone : AnySound S → Heap B → List (SoundCall S) → Res (List S × Heap B)
  | _, h, [] => .ok ([], h)
  | s, h, .set f :: l => alone (s.set f) h l
  | s, h, .play x :: l =>
    match s.play h x with
    | .error e => .error e
    | .ok (y, h') => (alone s h' l).map fun r => (y :: r.1, r.2)

/-- Several sounds served in any order: the samples they give, with the sound they come from. -/
def together {ι : Type} [DecidableEq ι] : (ι → AnySound S) → Heap B → List (ι × SoundCall S) → Res (List (ι × S) × Heap B)
  | _, h, [] => .ok ([], h)
  | s, h, (i, .set f) :: l => together (Function.update s i ((s i).set f)) h l
  | s, h, (i, .play x) :: l =>
    match (s i).play h x with
    | .error e => .error e
    | .ok (y, h') => (together s h' l).map fun r => ((i, y) :: r.1, r.2)

/-- What concerns `i`. -/
def ofSound {ι α : Type} [DecidableEq ι] (i : ι) (l : List (ι × α)) : List α := l.filterMap fun e => if e.1 = i then some e.2 else none

/-- Two memories with the same contents at the addresses `F`. -/
def AgreeOn (F : ℕ → Prop) (h k : Heap B) : Prop := ∀ a, F a → h[a]? = k[a]?

/-! ## Lemmas -/

private theorem AgreeOn.trans {F : ℕ → Prop} {h k l : Heap B} (h1 : AgreeOn F h k) (h2 : AgreeOn F k l) : AgreeOn F h l :=
  fun a ha => (h1 a ha).trans (h2 a ha)

private theorem AgreeOn.symm {F : ℕ → Prop} {h k : Heap B} (h1 : AgreeOn F h k) : AgreeOn F k h := fun a ha => (h1 a ha).symm

/-- Two computations that give the same and change the same, within `F`. -/
private def Alike {α : Type} (F : ℕ → Prop) (h k : Heap B) (r t : Res (α × Heap B)) : Prop :=
  (∃ e, r = .error e ∧ t = .error e) ∨ ∃ y h' k', r = .ok (y, h') ∧ t = .ok (y, k') ∧ AgreeOn F h' k' ∧ AgreeOn (fun a => ¬ F a) h h' ∧ AgreeOn (fun a => ¬ F a) k k'

private theorem getMut_agree {F : ℕ → Prop} {h k : Heap B} (hk : AgreeOn F h k) {a : ℕ} (ha : F a) : h.getMut a = k.getMut a := by
  unfold Heap.getMut
  rw [hk a ha]

private theorem put_agree {F : ℕ → Prop} {h k : Heap B} (hk : AgreeOn F h k) (a : ℕ) (b : B) : AgreeOn F (h.put a b) (k.put a b) := by
  intro i hi
  rw [Heap.getElem?_put, Heap.getElem?_put, hk i hi]

private theorem put_frame {F : ℕ → Prop} (h : Heap B) {a : ℕ} (ha : F a) (b : B) : AgreeOn (fun a => ¬ F a) h (h.put a b) := by
  intro i hi
  rw [Heap.getElem?_put, if_neg]
  rintro rfl
  exact hi ha

private theorem frame_refl {F : ℕ → Prop} (h : Heap B) : AgreeOn F h h := fun _ _ => rfl

private theorem Alike.ok {α : Type} {F : ℕ → Prop} {h k : Heap B} (hk : AgreeOn F h k) (y : α) : Alike F h k (.ok (y, h)) (.ok (y, k)) :=
  .inr ⟨y, h, k, rfl, rfl, hk, frame_refl _, frame_refl _⟩

private theorem Alike.bind {α β : Type} {F : ℕ → Prop} {h k : Heap B} {r t : Res (α × Heap B)} (h1 : Alike F h k r t)
    {f : α × Heap B → Res (β × Heap B)} (hf : ∀ y h' k', AgreeOn F h' k' → Alike F h' k' (f (y, h')) (f (y, k'))) : Alike F h k (r.bind f) (t.bind f) := by
  rcases h1 with ⟨e, rfl, rfl⟩ | ⟨y, h', k', rfl, rfl, a1, a2, a3⟩
  · exact .inl ⟨e, rfl, rfl⟩
  · rcases hf y h' k' a1 with ⟨e, e1, e2⟩ | ⟨z, h'', k'', e1, e2, b1, b2, b3⟩
    · exact .inl ⟨e, e1, e2⟩
    · exact .inr ⟨z, h'', k'', e1, e2, b1, a2.trans b2, a3.trans b3⟩

private theorem step_alike {F : ℕ → Prop} {h k : Heap B} (hk : AgreeOn F h k) {a : ℕ} (ha : F a) (b : B) :
    Alike (α := S) F h k ((Block.process b).bind fun p => .ok (p.1, h.put a p.2)) ((Block.process b).bind fun p => .ok (p.1, k.put a p.2)) := by
  cases (Block.process b : Res (S × B)) with
  | error e => exact .inl ⟨e, rfl, rfl⟩
  | ok p => exact .inr ⟨p.1, _, _, rfl, rfl, put_agree hk a p.2, put_frame h ha p.2, put_frame k ha p.2⟩

private theorem gen_alike {F : ℕ → Prop} {h k : Heap B} (hk : AgreeOn F h k) {a : ℕ} (ha : F a) (x : S) :
    Alike F h k (SimpleSound.runGen h a x) (SimpleSound.runGen k a x) := by
  unfold SimpleSound.runGen
  rw [getMut_agree hk ha]
  cases k.getMut a with
  | none => exact Alike.ok hk _
  | some b => exact step_alike hk ha _

private theorem mods_alike {F : ℕ → Prop} (as : List ℕ) : ∀ {h k : Heap B} (_ : AgreeOn F h k) (_ : ∀ a ∈ as, F a) (x : S),
    Alike F h k (SimpleSound.runMods h as x) (SimpleSound.runMods k as x) := by
  induction as with
  | nil => intro h k hk _ x; unfold SimpleSound.runMods; exact Alike.ok hk _
  | cons a as ih =>
    intro h k hk ha x
    unfold SimpleSound.runMods
    rw [getMut_agree hk (ha a (by simp))]
    cases k.getMut a with
    | none => exact ih hk (fun b hb => ha b (by simp [hb])) x
    | some b =>
      have := (step_alike (S := S) hk (ha a (by simp)) (Block.prime b x)).bind (f := fun p => SimpleSound.runMods p.2 as p.1)
        fun y h' k' hk' => ih hk' (fun b hb => ha b (by simp [hb])) y
      simp only
      show Alike F h k ((Block.process (Block.prime b x)).bind _) ((Block.process (Block.prime b x)).bind _)
      cases hp : (Block.process (Block.prime b x) : Res (S × B)) with
      | error e => rw [hp] at this; exact this
      | ok p => rw [hp] at this; exact this

private theorem simple_alike {h k : Heap B} (s : SimpleSound S) (hk : AgreeOn (· ∈ s.generator :: s.modifierList) h k) (x : S) :
    Alike (· ∈ s.generator :: s.modifierList) h k (SimpleSound.process h s x) (SimpleSound.process k s x) := by
  unfold SimpleSound.process
  by_cases hp : s.paused = true
  · rw [if_pos hp, if_pos hp]
    exact Alike.ok hk _
  · rw [if_neg hp, if_neg hp]
    exact (gen_alike hk (by simp) _).bind fun y h' k' hk' => (mods_alike s.modifierList hk' (fun a ha => by simp [ha]) y).bind fun z h'' k'' hk'' => Alike.ok hk'' _

private def unit (r : Res (Heap B)) : Res (Unit × Heap B) := r.map fun h => ((), h)

private theorem unit_bind {β : Type} (r : Res (Heap B)) (f : Heap B → Res (β × Heap B)) : r.bind f = (unit r).bind fun p => f p.2 := by
  cases r <;> rfl

private theorem at_agree {g : Graph} {h k : Heap B} (hk : AgreeOn (· ∈ g.nodes) h k) (n : ℕ) :
    ComplexSound.blockAt h g n = ComplexSound.blockAt k g n ∧ ∀ a b, ComplexSound.blockAt k g n = .ok (a, b) → a ∈ g.nodes := by
  unfold ComplexSound.blockAt
  cases hn : g.nodes[n]? with
  | none => exact ⟨rfl, fun a b h => by cases h⟩
  | some a =>
    have ha : a ∈ g.nodes := List.mem_of_getElem? hn
    simp only
    rw [getMut_agree hk ha]
    cases k.getMut a with
    | none => exact ⟨rfl, fun a b h => by cases h⟩
    | some b => exact ⟨rfl, fun a' b' h => by cases h; exact ha⟩

private theorem prime_alike {g : Graph} {h k : Heap B} (hk : AgreeOn (· ∈ g.nodes) h k) (n : ℕ) (x : S) :
    Alike (· ∈ g.nodes) h k (unit (ComplexSound.primeNode h g n x)) (unit (ComplexSound.primeNode k g n x)) := by
  obtain ⟨e, hm⟩ := at_agree hk n
  unfold ComplexSound.primeNode
  rw [e]
  cases hb : ComplexSound.blockAt k g n with
  | error e => exact .inl ⟨e, rfl, rfl⟩
  | ok p => exact .inr ⟨(), _, _, rfl, rfl, put_agree hk _ _, put_frame h (hm p.1 p.2 hb) _, put_frame k (hm p.1 p.2 hb) _⟩

private theorem primeAll_alike {g : Graph} (x : S) (ns : List ℕ) : ∀ {h k : Heap B} (_ : AgreeOn (· ∈ g.nodes) h k),
    Alike (· ∈ g.nodes) h k (unit (ComplexSound.primeAll g x ns h)) (unit (ComplexSound.primeAll g x ns k)) := by
  induction ns with
  | nil => intro h k hk; exact Alike.ok hk ()
  | cons n ns ih =>
    intro h k hk
    have e : ∀ h : Heap B, unit (ComplexSound.primeAll g x (n :: ns) h) =
        (unit (ComplexSound.primeNode h g n x)).bind fun p => unit (ComplexSound.primeAll g x ns p.2) := by
      intro h
      show unit ((ComplexSound.primeNode h g n x).bind fun h' => ComplexSound.primeAll g x ns h') = _
      cases ComplexSound.primeNode h g n x <;> rfl
    rw [e, e]
    exact (prime_alike hk n x).bind fun _ h' k' hk' => ih hk'

private theorem order_alike {g : Graph} (ns : List ℕ) : ∀ {h k : Heap B} (_ : AgreeOn (· ∈ g.nodes) h k) (x : S),
    Alike (· ∈ g.nodes) h k (ComplexSound.runOrder g ns x h) (ComplexSound.runOrder g ns x k) := by
  induction ns with
  | nil => intro h k hk x; exact Alike.ok hk x
  | cons n ns ih =>
    intro h k hk x
    obtain ⟨e, hm⟩ := at_agree hk n
    unfold ComplexSound.runOrder
    rw [e]
    cases hb : ComplexSound.blockAt k g n with
    | error e => exact .inl ⟨e, rfl, rfl⟩
    | ok p =>
      obtain ⟨a, b⟩ := p
      have ha := hm a b hb
      show Alike _ h k ((Block.process b).bind _) ((Block.process b).bind _)
      cases hp : (Block.process b : Res (S × B)) with
      | error e => exact .inl ⟨e, rfl, rfl⟩
      | ok p =>
        obtain ⟨y, b'⟩ := p
        show Alike _ h k ((ComplexSound.primeAll g y (g.neighbors n) (h.put a b')).bind fun h' => ComplexSound.runOrder g ns y h')
          ((ComplexSound.primeAll g y (g.neighbors n) (k.put a b')).bind fun h' => ComplexSound.runOrder g ns y h')
        rw [unit_bind, unit_bind]
        have h1 := (primeAll_alike y (g.neighbors n) (put_agree hk a b')).bind (f := fun p => ComplexSound.runOrder g ns y p.2)
          fun _ h' k' hk' => ih hk' y
        rcases h1 with ⟨e, e1, e2⟩ | ⟨z, h', k', e1, e2, b1, b2, b3⟩
        · exact .inl ⟨e, e1, e2⟩
        · exact .inr ⟨z, h', k', e1, e2, b1, (put_frame h ha b').trans b2, (put_frame k ha b').trans b3⟩

private theorem complex_alike {h k : Heap B} (c : ComplexSound) (hk : AgreeOn (· ∈ c.graph.nodes) h k) (x : S) :
    Alike (· ∈ c.graph.nodes) h k (ComplexSound.process h c x) (ComplexSound.process k c x) := by
  unfold ComplexSound.process
  by_cases hp : c.paused = true
  · rw [if_pos hp, if_pos hp]
    exact Alike.ok hk _
  · rw [if_neg hp, if_neg hp]
    show Alike _ h k ((ComplexSound.primeNode h c.graph c.inputGain x).bind _) ((ComplexSound.primeNode k c.graph c.inputGain x).bind _)
    rw [unit_bind, unit_bind]
    exact (prime_alike hk _ x).bind fun _ h' k' hk' => (order_alike c.processOrder hk' _).bind fun z h'' k'' hk'' => Alike.ok hk'' _

private theorem play_alike {h k : Heap B} (s : AnySound S) (hk : AgreeOn (· ∈ s.blocks) h k) (x : S) :
    Alike (· ∈ s.blocks) h k (s.play h x) (s.play k x) := by
  cases s with
  | inl s => exact simple_alike s hk x
  | inr c => exact complex_alike c hk x

private theorem set_blocks (s : AnySound S) (f : SoundSet) : (s.set f).blocks = s.blocks := by
  cases s <;> cases f <;> rfl

/-! ## Theorems -/

/-- Playing a sample depends on nothing but the sound's own blocks, whether they are shared or not and whether it succeeds or
not, and changes nothing else. -/
theorem C175_local (s : AnySound S) (h k : Heap B) (hk : AgreeOn (· ∈ s.blocks) h k) (x : S) :
    (∀ e, s.play h x = .error e ↔ s.play k x = .error e) ∧
    ∀ y h', s.play h x = .ok (y, h') → AgreeOn (· ∉ s.blocks) h h' ∧ ∃ k', s.play k x = .ok (y, k') ∧ AgreeOn (· ∈ s.blocks) h' k' := by
  rcases play_alike s hk x with ⟨e, e1, e2⟩ | ⟨y, h', k', e1, e2, b1, b2, b3⟩
  · rw [e1, e2]
    exact ⟨fun _ => Iff.rfl, fun y h' h => by cases h⟩
  · rw [e1, e2]
    refine ⟨fun e => ⟨fun h => (by cases h), fun h => (by cases h)⟩, fun z h'' h => ?_⟩
    simp only [Except.ok.injEq, Prod.mk.injEq] at h
    obtain ⟨rfl, rfl⟩ := h
    exact ⟨b2, k', rfl, b1⟩

variable {ι : Type} [DecidableEq ι]

/-- Sounds that have no block in common, served in any order: each gives the samples it gives alone, its blocks end up as they
do alone, and memory that belongs to none of them is not touched. -/
theorem C175_together (l : List (ι × SoundCall S)) : ∀ (s : ι → AnySound S) (h h' : Heap B) (ys : List (ι × S)),
    (∀ i j, i ≠ j → ∀ a ∈ (s i).blocks, a ∉ (s j).blocks) → together s h l = .ok (ys, h') →
    (∀ i (k : Heap B), AgreeOn (· ∈ (s i).blocks) h k → ∃ k', alone (s i) k (ofSound i l) = .ok (ofSound i ys, k') ∧ AgreeOn (· ∈ (s i).blocks) h' k') ∧
    AgreeOn (fun a => ∀ i, a ∉ (s i).blocks) h h' := by
  induction l with
  | nil =>
    intro s h h' ys _ he
    cases he
    exact ⟨fun i k hk => ⟨k, rfl, hk⟩, frame_refl _⟩
  | cons c l ih =>
    intro s h h' ys hd he
    obtain ⟨j, c⟩ := c
    cases c with
    | set f =>
      have hb : ∀ i, (Function.update s j ((s j).set f) i).blocks = (s i).blocks := by
        intro i
        by_cases hi : i = j
        · subst hi; rw [Function.update_self, set_blocks]
        · rw [Function.update_of_ne hi]
      obtain ⟨h1, h2⟩ := ih (Function.update s j ((s j).set f)) h h' ys (fun i i' hii => by rw [hb, hb]; exact hd i i' hii) he
      refine ⟨fun i k hk => ?_, fun a ha => h2 a fun i => by rw [hb]; exact ha i⟩
      obtain ⟨k', e1, e2⟩ := h1 i k (by rw [hb]; exact hk)
      rw [hb] at e2
      refine ⟨k', ?_, e2⟩
      by_cases hi : j = i
      · subst hi
        rw [Function.update_self] at e1
        have : ofSound j ((j, SoundCall.set (S := S) f) :: l) = .set f :: ofSound j l := by simp [ofSound]
        rw [this]
        exact e1
      · rw [Function.update_of_ne (Ne.symm hi)] at e1
        have : ofSound i ((j, SoundCall.set (S := S) f) :: l) = ofSound i l := by simp [ofSound, hi]
        rw [this]
        exact e1
    | play x =>
      unfold together at he
      cases hp : (s j).play h x with
      | error e => rw [hp] at he; cases he
      | ok p =>
        obtain ⟨y, h1⟩ := p
        rw [hp] at he
        simp only at he
        cases ht : together s h1 l with
        | error e => rw [ht] at he; cases he
        | ok r =>
          obtain ⟨zs, h2⟩ := r
          rw [ht] at he
          simp only [Except.map, Except.ok.injEq, Prod.mk.injEq] at he
          obtain ⟨rfl, rfl⟩ := he
          obtain ⟨i1, i2⟩ := ih s h1 h2 zs hd ht
          have hfr := ((C175_local (s j) h h (frame_refl _) x).2 y h1 hp).1
          refine ⟨fun i k hk => ?_, fun a ha => (hfr a (ha j)).trans (i2 a ha)⟩
          by_cases hi : j = i
          · subst hi
            obtain ⟨-, k1, e1, e2⟩ := (C175_local (s j) h k hk x).2 y h1 hp
            obtain ⟨k', e3, e4⟩ := i1 j k1 e2
            refine ⟨k', ?_, e4⟩
            have c1 : ofSound j ((j, SoundCall.play x) :: l) = .play x :: ofSound j l := by simp [ofSound]
            have c2 : ofSound j ((j, y) :: zs) = y :: ofSound j zs := by simp [ofSound]
            rw [c1, c2]
            unfold alone
            rw [e1]
            simp only [e3]
            rfl
          · have hk' : AgreeOn (· ∈ (s i).blocks) h1 k := fun a ha => (hfr a (hd i j (Ne.symm hi) a ha)).symm.trans (hk a ha)
            obtain ⟨k', e3, e4⟩ := i1 i k hk'
            refine ⟨k', ?_, e4⟩
            have c1 : ofSound i ((j, SoundCall.play x) :: l) = ofSound i l := by simp [ofSound, hi]
            have c2 : ofSound i ((j, y) :: zs) = ofSound i zs := by simp [ofSound, hi]
            rw [c1, c2]
            exact e3

/-- Nor do they make each other panic: if each can play its part alone, they can together. -/
theorem C175_plays (l : List (ι × SoundCall S)) : ∀ (s : ι → AnySound S) (h : Heap B),
    (∀ i j, i ≠ j → ∀ a ∈ (s i).blocks, a ∉ (s j).blocks) →
    (∀ i, ∃ (k : Heap B) (r : List S × Heap B), AgreeOn (· ∈ (s i).blocks) h k ∧ alone (s i) k (ofSound i l) = .ok r) → ∃ r, together s h l = .ok r := by
  induction l with
  | nil => intro s h _ _; exact ⟨_, rfl⟩
  | cons c l ih =>
    intro s h hd ha
    obtain ⟨j, c⟩ := c
    cases c with
    | set f =>
      have hb : ∀ i, (Function.update s j ((s j).set f) i).blocks = (s i).blocks := by
        intro i
        by_cases hi : i = j
        · subst hi; rw [Function.update_self, set_blocks]
        · rw [Function.update_of_ne hi]
      refine ih (Function.update s j ((s j).set f)) h (fun i i' hii => by rw [hb, hb]; exact hd i i' hii) fun i => ?_
      obtain ⟨k, r, h1, h2⟩ := ha i
      refine ⟨k, r, by rw [hb]; exact h1, ?_⟩
      by_cases hi : j = i
      · subst hi
        have : ofSound j ((j, SoundCall.set (S := S) f) :: l) = .set f :: ofSound j l := by simp [ofSound]
        rw [this] at h2
        rw [Function.update_self]
        exact h2
      · have : ofSound i ((j, SoundCall.set (S := S) f) :: l) = ofSound i l := by simp [ofSound, hi]
        rw [this] at h2
        rw [Function.update_of_ne (Ne.symm hi)]
        exact h2
    | play x =>
      obtain ⟨k, r, h1, h2⟩ := ha j
      have c1 : ofSound j ((j, SoundCall.play x) :: l) = .play x :: ofSound j l := by simp [ofSound]
      rw [c1] at h2
      unfold alone at h2
      cases hp : (s j).play k x with
      | error e => rw [hp] at h2; cases h2
      | ok p =>
        obtain ⟨y, k1⟩ := p
        rw [hp] at h2
        simp only at h2
        obtain ⟨-, h', e1, e2⟩ := (C175_local (s j) k h h1.symm x).2 y k1 hp
        have hfr := ((C175_local (s j) h h (frame_refl _) x).2 y h' e1).1
        suffices hs : ∃ r, together s h' l = .ok r by
          obtain ⟨r, hr⟩ := hs
          unfold together
          rw [e1]
          simp only [hr]
          exact ⟨_, rfl⟩
        refine ih s h' hd fun i => ?_
        by_cases hi : j = i
        · subst hi
          cases hq : alone (s j) k1 (ofSound j l) with
          | error e => rw [hq] at h2; cases h2
          | ok r' => exact ⟨k1, r', e2.symm, hq⟩
        · obtain ⟨k2, r2, g1, g2⟩ := ha i
          have c2 : ofSound i ((j, SoundCall.play x) :: l) = ofSound i l := by simp [ofSound, hi]
          rw [c2] at g2
          exact ⟨k2, r2, fun a ha => (hfr a (hd i j (Ne.symm hi) a ha)).symm.trans (g1 a ha), g2⟩
end

/-! ## Examples -/

private def gb (a : ℚ) : ComplexSound.GainBlock F32 := StandardBlock.fromModifier (Gain.new (Flt.lit a))
/-- A simple sound of two gains and a complex one of two. -/
private def two : Bool → AnySound F32
  | false => .inl ((SimpleSound.new (Flt.lit 1 : F64) (Flt.lit 1 : F64) 0).addModifier 1)
  | true => .inr ⟨⟨[2, 3], [(0, 1)]⟩, [0, 1], 0, 1, none, false, false⟩
private def mem : Heap (ComplexSound.GainBlock F32) := [⟨gb 2, 1⟩, ⟨gb 3, 1⟩, ⟨gb 5, 1⟩, ⟨gb 7, 1⟩]
private def calls : List (Bool × SoundCall F32) :=
  [(false, .play (Flt.lit 1)), (true, .play (Flt.lit 1)), (true, .set .togglePause), (false, .play (Flt.lit 2)), (true, .play (Flt.lit 1)), (true, .set .togglePause),
    (true, .play (Flt.lit 2))]

example : (∀ i j, i ≠ j → ∀ a ∈ (two i).blocks, a ∉ (two j).blocks) ∧ ofSound false calls ≠ [] ∧
    (together two mem calls).toOption.map (·.1) = some [(false, Flt.lit 6), (true, Flt.lit 35), (false, Flt.lit 12), (true, Flt.lit 0), (true, Flt.lit 70)] ∧
    (alone (two true) mem (ofSound true calls)).toOption.map (·.1) = some [Flt.lit 35, Flt.lit 0, Flt.lit 70] := by
  refine ⟨?_, by simp [ofSound, calls], by decide +kernel, by decide +kernel⟩
  decide +kernel

end Verif
