import Verif.Proofs.Heap
import Verif.Float.Lemmas
import Mathlib.Data.List.Forall2

set_option linter.unusedSectionVars false

/-! # Sounds: C76-C80 -/

namespace Verif
open Flt

section
variable {B S M : Type} [Flt S] [Flt M] [SM S M] [Block B S]

/-- Specification: blocks in series, each primed with the previous output and processed once. -/
def series : List B → S → Res (S × List B)
  | [], x => .ok (x, [])
  | b :: bs, x =>
    match (Block.process (Block.prime b x) : Res (S × B)) with
    | .error e => .error e
    | .ok (y, b') =>
      match series bs y with
      | .error e => .error e
      | .ok (z, bs') => .ok (z, b' :: bs')

/-- The blocks `bs` are at the distinct addresses `as`, each with a single pointer. -/
def Owns (h : Heap B) (as : List ℕ) (bs : List B) : Prop := as.Nodup ∧ List.Forall₂ (fun a b => h[a]? = some ⟨b, 1⟩) as bs

/-- Everything else in the heap is the same. -/
def SameElse (h h' : Heap B) (as : List ℕ) : Prop := h'.length = h.length ∧ ∀ a ∉ as, h'[a]? = h[a]?

private theorem runMods_series (as : List ℕ) (h : Heap B) (bs : List B) (ho : Owns h as bs) (x : S) :
    match series bs x with
    | .error e => SimpleSound.runMods h as x = .error e
    | .ok (y, bs') => ∃ h', SimpleSound.runMods h as x = .ok (y, h') ∧ Owns h' as bs' ∧ SameElse h h' as := by
  induction as generalizing h bs x with
  | nil =>
    obtain ⟨-, hf⟩ := ho
    cases hf
    exact ⟨h, by simp [SimpleSound.runMods], ⟨List.nodup_nil, .nil⟩, rfl, fun _ _ => rfl⟩
  | cons a as ih =>
    obtain ⟨hn, hf⟩ := ho
    cases hf with
    | @cons _ b _ bs ha hf =>
      have hg : h.getMut a = some b := Heap.getMut_eq_some.mpr ha
      rw [List.nodup_cons] at hn
      unfold series
      rw [SimpleSound.runMods, hg]
      cases hp : (Block.process (Block.prime b x) : Res (S × B)) with
      | error e => simp only [hp, bind, Except.bind]
      | ok p =>
        obtain ⟨y, b'⟩ := p
        simp only [hp, bind, Except.bind]
        have ho' : Owns (h.put a b') as bs := by
          refine ⟨hn.2, ?_⟩
          rw [List.forall₂_iff_get] at hf ⊢
          refine ⟨hf.1, fun i h1 h2 => ?_⟩
          rw [Heap.getElem?_put, if_neg]
          · exact hf.2 i h1 h2
          · intro hc
            exact hn.1 (hc ▸ List.get_mem as ⟨i, h1⟩)
        have := ih (h.put a b') bs ho' y
        cases hs : series bs y with
        | error e => rw [hs] at this; simpa using this
        | ok q =>
          obtain ⟨z, bs'⟩ := q
          rw [hs] at this
          obtain ⟨h', e1, e2, e3, e4⟩ := this
          refine ⟨h', e1, ⟨List.nodup_cons.mpr hn, .cons ?_ e2.2⟩, by rw [e3, Heap.put_length], fun c hc => ?_⟩
          · rw [e4 a hn.1, Heap.getElem?_put, if_pos rfl, ha]; rfl
          · rw [List.mem_cons, not_or] at hc
            rw [e4 c hc.2, Heap.getElem?_put, if_neg hc.1]

private theorem process_series (h : Heap B) (s : SimpleSound S) (bs : List B) (ho : Owns h (s.generator :: s.modifierList) bs)
    (hp : s.paused = false) (x : S) :
    match series bs (x * s.inputGain) with
    | .error e => SimpleSound.process h s x = .error e
    | .ok (y, bs') => ∃ h', SimpleSound.process h s x = .ok (if s.muted then dflt else y * s.outputGain, h') ∧
        Owns h' (s.generator :: s.modifierList) bs' ∧ SameElse h h' (s.generator :: s.modifierList) := by
  have := runMods_series (s.generator :: s.modifierList) h bs ho (x * s.inputGain)
  obtain ⟨-, hf⟩ := ho
  cases hf with
  | @cons _ b _ bs ha hf =>
    have hg : h.getMut s.generator = some b := Heap.getMut_eq_some.mpr ha
    have e : SimpleSound.process h s x = (SimpleSound.runMods h (s.generator :: s.modifierList) (x * s.inputGain)).map
        (fun p => (if s.muted then dflt else p.1 * s.outputGain, p.2)) := by
      unfold SimpleSound.process
      rw [SimpleSound.runMods]
      simp only [hp, Bool.false_eq_true, if_false, SimpleSound.runGen, hg, bind, Except.bind]
      cases (Block.process (Block.prime b (x * s.inputGain)) : Res (S × B)) with
      | error e => rfl
      | ok p =>
        simp only []
        cases SimpleSound.runMods (h.put s.generator p.2) s.modifierList p.1 with
        | error e => rfl
        | ok q => rfl
    rw [e]
    cases hs : series (b :: bs) (x * s.inputGain) with
    | error er => rw [hs] at this; simp only at this ⊢; rw [this]; rfl
    | ok q =>
      rw [hs] at this
      obtain ⟨h', e1, e2, e3⟩ := this
      exact ⟨h', by rw [e1]; rfl, e2, e3⟩

/-- Any arithmetic, any blocks: with unshared blocks, unpaused and unmuted, `process` is input gain, the blocks in series,
output gain; the blocks advance as in the series, nothing else in memory changes, and it panics exactly when a block does. -/
theorem C76_process (h : Heap B) (s : SimpleSound S) (bs : List B) (ho : Owns h (s.generator :: s.modifierList) bs)
    (hp : s.paused = false) (hm : s.muted = false) (x : S) :
    match series bs (x * s.inputGain) with
    | .error e => SimpleSound.process h s x = .error e
    | .ok (y, bs') => ∃ h', SimpleSound.process h s x = .ok (y * s.outputGain, h') ∧
        Owns h' (s.generator :: s.modifierList) bs' ∧ SameElse h h' (s.generator :: s.modifierList) := by
  have := process_series h s bs ho hp x
  simpa only [hm, Bool.false_eq_true, if_false] using this

/-- Specification: the series run over several inputs. -/
def seriesRun (ig og : S) : List B → List S → Res (List S)
  | _, [] => .ok []
  | bs, x :: xs =>
    match series bs (x * ig) with
    | .error e => .error e
    | .ok (y, bs') => (seriesRun ig og bs' xs).map (y * og :: ·)

/-- Outputs of a sound for several inputs. -/
def SimpleSound.outputs (s : SimpleSound S) : Heap B → List S → Res (List S)
  | _, [] => .ok []
  | h, x :: xs =>
    match SimpleSound.process h s x with
    | .error e => .error e
    | .ok (y, h') => (SimpleSound.outputs s h' xs).map (y :: ·)

/-- Whole runs. -/
theorem C76_run (h : Heap B) (s : SimpleSound S) (bs : List B) (ho : Owns h (s.generator :: s.modifierList) bs)
    (hp : s.paused = false) (hm : s.muted = false) (xs : List S) : s.outputs h xs = seriesRun s.inputGain s.outputGain bs xs := by
  induction xs generalizing h bs with
  | nil => rfl
  | cons x xs ih =>
    have := C76_process h s bs ho hp hm x
    unfold SimpleSound.outputs seriesRun
    cases hs : series bs (x * s.inputGain) with
    | error e => rw [hs] at this; simp only at this ⊢; rw [this]
    | ok q =>
      obtain ⟨y, bs'⟩ := q
      rw [hs] at this
      obtain ⟨h', e1, e2, -⟩ := this
      simp only [e1]
      rw [ih h' bs' e2]

/-- Calls that add modifiers to a sound. -/
inductive ModAdd where
  | one (a : ℕ) | list (as : List ℕ)

/-- Effect of adding. -/
def SimpleSound.add (s : SimpleSound S) : ModAdd → SimpleSound S
  | .one a => s.addModifier a | .list as => s.extendModifiers as

/-- The blocks added by a sequence of calls, in the order of the calls. -/
def added : List ModAdd → List ℕ
  | [] => []
  | .one a :: l => a :: added l
  | .list as :: l => as ++ added l

/-- A sound built by `new` and any calls of `add_modifier` and `extend_modifiers` runs its generator and then the modifiers in the
order in which they were added. -/
theorem C76_built (h : Heap B) (ig og : M) (g : ℕ) (l : List ModAdd) (bs : List B) (ho : Owns h (g :: added l) bs) (xs : List S) :
    SimpleSound.outputs (l.foldl SimpleSound.add (SimpleSound.new ig og g)) h xs = seriesRun (SM.down ig) (SM.down og) bs xs := by
  have key : ∀ (l : List ModAdd) (s : SimpleSound S), l.foldl SimpleSound.add s = { s with modifierList := s.modifierList ++ added l } := by
    intro l
    induction l with
    | nil => intro s; simp [added]
    | cons c l ih =>
      intro s
      rw [List.foldl_cons, ih]
      cases c <;> simp [SimpleSound.add, SimpleSound.addModifier, SimpleSound.extendModifiers, added]
  rw [key]
  exact C76_run h _ bs ho rfl rfl xs

/-! ## C77, C78 -/

/-- Outputs and memory after several inputs. -/
def runSound {T : Type} (p : Heap B → T → S → Res (S × Heap B)) (s : T) : Heap B → List S → Res (List S × Heap B)
  | h, [] => .ok ([], h)
  | h, x :: xs =>
    match p h s x with
    | .error e => .error e
    | .ok (y, h') => (runSound p s h' xs).map (fun r => (y :: r.1, r.2))

private theorem runSound_frozen {T : Type} {p : Heap B → T → S → Res (S × Heap B)} {s : T} {y : S} {h : Heap B}
    (hp : ∀ x, p h s x = .ok (y, h)) (xs : List S) : runSound p s h xs = .ok (List.replicate xs.length y, h) := by
  induction xs with
  | nil => rfl
  | cons x xs ih => rw [runSound, hp]; simp only [ih, Except.map]; rfl

/-- A paused sound outputs 0 and changes nothing, even if blocks are shared; pausing, processing anything and unpausing
leaves the sound and memory as they were. -/
theorem C77_simple (h : Heap B) (s : SimpleSound S) (hp : s.isPaused = true) (xs : List S) :
    runSound SimpleSound.process s h xs = .ok (List.replicate xs.length (lit 0), h) :=
  runSound_frozen (fun x => by
    unfold SimpleSound.isPaused at hp
    unfold SimpleSound.process; rw [if_pos hp]; rfl) xs

theorem C77_simple_toggle (h : Heap B) (s : SimpleSound S) (hp : s.isPaused = false) (xs : List S) :
    runSound SimpleSound.process s.togglePause h xs = .ok (List.replicate xs.length (lit 0), h) ∧ s.togglePause.togglePause = s := by
  refine ⟨C77_simple h s.togglePause ?_ xs, ?_⟩
  · unfold SimpleSound.isPaused SimpleSound.togglePause at *; simp [hp]
  · unfold SimpleSound.togglePause; simp

theorem C77_complex (h : Heap B) (c : ComplexSound) (hp : c.isPaused = true) (xs : List S) :
    runSound ComplexSound.process c h xs = .ok (List.replicate xs.length (lit 0), h) :=
  runSound_frozen (fun x => by
    unfold ComplexSound.isPaused at hp
    unfold ComplexSound.process; rw [if_pos hp]; rfl) xs

theorem C77_complex_toggle (h : Heap B) (c : ComplexSound) (hp : c.isPaused = false) (xs : List S) :
    runSound ComplexSound.process c.togglePause h xs = .ok (List.replicate xs.length (lit 0), h) ∧ c.togglePause.togglePause = c := by
  refine ⟨C77_complex h c.togglePause ?_ xs, ?_⟩
  · unfold ComplexSound.isPaused ComplexSound.togglePause at *; simp [hp]
  · unfold ComplexSound.togglePause; simp

/-- Muting a sound turns every output into 0 and leaves the effect on memory (and any panic) as it is unmuted. -/
theorem C78_simple (h : Heap B) (s : SimpleSound S) (hm : s.isMuted = false) (xs : List S) :
    runSound SimpleSound.process s.toggleMute h xs =
      (runSound SimpleSound.process s h xs).map (fun r => (List.replicate xs.length (lit 0), r.2)) := by
  have one : ∀ (h : Heap B) (x : S), SimpleSound.process h s.toggleMute x = (SimpleSound.process h s x).map (fun r => (lit 0, r.2)) := by
    intro h x
    unfold SimpleSound.isMuted at hm
    unfold SimpleSound.process SimpleSound.toggleMute
    simp only [hm, Bool.not_false, if_true, bind, Except.bind]
    by_cases hp : s.paused = true
    · simp only [hp, if_true]; rfl
    · simp only [hp]
      cases SimpleSound.runGen h s.generator (x * s.inputGain) with
      | error e => rfl
      | ok p =>
        simp only []
        cases SimpleSound.runMods p.2 s.modifierList p.1 with
        | error e => rfl
        | ok q => rfl
  induction xs generalizing h with
  | nil => rfl
  | cons x xs ih =>
    rw [runSound, runSound, one]
    cases SimpleSound.process h s x with
    | error e => rfl
    | ok p =>
      simp only [Except.map]
      have := ih p.2
      simp only [Except.map] at this
      rw [this]
      cases runSound SimpleSound.process s p.2 xs <;> rfl

theorem C78_complex (h : Heap B) (c : ComplexSound) (hm : c.isMuted = false) (xs : List S) :
    runSound ComplexSound.process c.toggleMute h xs =
      (runSound ComplexSound.process c h xs).map (fun r => (List.replicate xs.length (lit 0), r.2)) := by
  have one : ∀ (h : Heap B) (x : S), ComplexSound.process h c.toggleMute x = (ComplexSound.process h c x).map (fun r => (lit 0, r.2)) := by
    intro h x
    unfold ComplexSound.isMuted at hm
    unfold ComplexSound.process ComplexSound.toggleMute
    simp only [hm, Bool.not_false, if_true, bind, Except.bind]
    by_cases hp : c.paused = true
    · simp only [hp, if_true]; rfl
    · simp only [hp]
      cases ComplexSound.primeNode h c.graph c.inputGain x with
      | error e => rfl
      | ok p =>
        simp only []
        cases ComplexSound.runOrder c.graph c.processOrder (dflt : S) p with
        | error e => rfl
        | ok q => rfl
  induction xs generalizing h with
  | nil => rfl
  | cons x xs ih =>
    rw [runSound, runSound, one]
    cases ComplexSound.process h c x with
    | error e => rfl
    | ok p =>
      simp only [Except.map]
      have := ih p.2
      simp only [Except.map] at this
      rw [this]
      cases runSound ComplexSound.process c p.2 xs <;> rfl

/-! ## C79 -/

/-- Setter calls on a sound. -/
inductive SoundSet where
  | togglePause | toggleMute | register (id : ℕ) | unregister

/-- Effect of setters on a SimpleSound. -/
def SimpleSound.applySet (s : SimpleSound S) : SoundSet → SimpleSound S
  | .togglePause => s.togglePause | .toggleMute => s.toggleMute | .register id => s.register id | .unregister => s.unregister
/-- Effect of setters on a ComplexSound. -/
def ComplexSound.applySet (c : ComplexSound) : SoundSet → ComplexSound
  | .togglePause => c.togglePause | .toggleMute => c.toggleMute | .register id => c.register id | .unregister => c.unregister

/-- The id in force after some calls: the last one registered unless unregistered since. -/
def lastId : Option ℕ → List SoundSet → Option ℕ
  | i, [] => i
  | _, .register id :: l => lastId (some id) l
  | _, .unregister :: l => lastId none l
  | i, .togglePause :: l => lastId i l
  | i, .toggleMute :: l => lastId i l

/-- After any setter calls: paused (muted) exactly when toggled an odd number of times, the id is the one in force, and
nothing else changed. -/
theorem C79_simple (s : SimpleSound S) (l : List SoundSet) :
    let s' := l.foldl SimpleSound.applySet s
    s'.isPaused = xor s.isPaused (decide ((l.countP fun c => c matches .togglePause) % 2 = 1)) ∧
    s'.isMuted = xor s.isMuted (decide ((l.countP fun c => c matches .toggleMute) % 2 = 1)) ∧
    s'.getId = lastId s.getId l ∧ s'.generator = s.generator ∧ s'.modifierList = s.modifierList ∧
    s'.inputGain = s.inputGain ∧ s'.outputGain = s.outputGain := by
  induction l generalizing s with
  | nil => simp [lastId]
  | cons c l ih =>
    obtain ⟨h1, h2, h3, h4, h5, h6, h7⟩ := ih (s.applySet c)
    refine ⟨?_, ?_, ?_, ?_, ?_, ?_, ?_⟩
    · rw [List.foldl_cons, h1]
      cases c <;> simp [SimpleSound.applySet, SimpleSound.isPaused, SimpleSound.togglePause, SimpleSound.toggleMute, SimpleSound.register, SimpleSound.unregister]
      rcases Nat.mod_two_eq_zero_or_one (l.countP fun c => c matches .togglePause) with e | e <;> simp [Nat.add_mod, e]
    · rw [List.foldl_cons, h2]
      cases c <;> simp [SimpleSound.applySet, SimpleSound.isMuted, SimpleSound.togglePause, SimpleSound.toggleMute, SimpleSound.register, SimpleSound.unregister]
      rcases Nat.mod_two_eq_zero_or_one (l.countP fun c => c matches .toggleMute) with e | e <;> simp [Nat.add_mod, e]
    · rw [List.foldl_cons, h3]; cases c <;> rfl
    · rw [List.foldl_cons, h4]; cases c <;> rfl
    · rw [List.foldl_cons, h5]; cases c <;> rfl
    · rw [List.foldl_cons, h6]; cases c <;> rfl
    · rw [List.foldl_cons, h7]; cases c <;> rfl

theorem C79_complex (s : ComplexSound) (l : List SoundSet) :
    let s' := l.foldl ComplexSound.applySet s
    s'.isPaused = xor s.isPaused (decide ((l.countP fun c => c matches .togglePause) % 2 = 1)) ∧
    s'.isMuted = xor s.isMuted (decide ((l.countP fun c => c matches .toggleMute) % 2 = 1)) ∧
    s'.getId = lastId s.getId l ∧ s'.graph = s.graph ∧ s'.processOrder = s.processOrder ∧
    s'.inputGain = s.inputGain ∧ s'.outputGain = s.outputGain := by
  induction l generalizing s with
  | nil => simp [lastId]
  | cons c l ih =>
    obtain ⟨h1, h2, h3, h4, h5, h6, h7⟩ := ih (s.applySet c)
    refine ⟨?_, ?_, ?_, ?_, ?_, ?_, ?_⟩
    · rw [List.foldl_cons, h1]
      cases c <;> simp [ComplexSound.applySet, ComplexSound.isPaused, ComplexSound.togglePause, ComplexSound.toggleMute, ComplexSound.register, ComplexSound.unregister]
      rcases Nat.mod_two_eq_zero_or_one (l.countP fun c => c matches .togglePause) with e | e <;> simp [Nat.add_mod, e]
    · rw [List.foldl_cons, h2]
      cases c <;> simp [ComplexSound.applySet, ComplexSound.isMuted, ComplexSound.togglePause, ComplexSound.toggleMute, ComplexSound.register, ComplexSound.unregister]
      rcases Nat.mod_two_eq_zero_or_one (l.countP fun c => c matches .toggleMute) with e | e <;> simp [Nat.add_mod, e]
    · rw [List.foldl_cons, h3]; cases c <;> rfl
    · rw [List.foldl_cons, h4]; cases c <;> rfl
    · rw [List.foldl_cons, h5]; cases c <;> rfl
    · rw [List.foldl_cons, h6]; cases c <;> rfl
    · rw [List.foldl_cons, h7]; cases c <;> rfl

/-- Calls through `dyn Sound` (sounds/mod.rs): a setter or processing one sample. -/
def traitCall {T : Type} [Sound T S] (t : T) : SoundSet ⊕ S → Res T
  | .inl .togglePause => .ok (Sound.togglePause S t)
  | .inl .toggleMute => .ok (Sound.toggleMute S t)
  | .inl (.register id) => .ok (Sound.register S t id)
  | .inl .unregister => .ok (Sound.unregister S t)
  | .inr x => (Sound.process t x).map (·.2)

/-- Playing goes on while the flags are set: after any calls through `dyn Sound`, samples included, paused (muted) exactly when toggled
an odd number of times, and the id is the one in force. -/
def TraitLawful (S T : Type) [Sound T S] : Prop := ∀ (t t' : T) (l : List (SoundSet ⊕ S)), l.foldlM traitCall t = (.ok t' : Res T) →
  Sound.isPaused S t' = xor (Sound.isPaused S t) (decide ((l.countP fun c => c matches .inl .togglePause) % 2 = 1)) ∧
  Sound.isMuted S t' = xor (Sound.isMuted S t) (decide ((l.countP fun c => c matches .inl .toggleMute) % 2 = 1)) ∧
  Sound.getId S t' = lastId (Sound.getId S t) (l.filterMap fun c => c.getLeft?)

private theorem trait_lawful {T : Type} [Sound T S] (hp : ∀ t : T, Sound.isPaused S (Sound.togglePause S t) = !Sound.isPaused S t)
    (hp1 : ∀ t : T, Sound.isMuted S (Sound.togglePause S t) = Sound.isMuted S t) (hp2 : ∀ t : T, Sound.getId S (Sound.togglePause S t) = Sound.getId S t)
    (hm : ∀ t : T, Sound.isMuted S (Sound.toggleMute S t) = !Sound.isMuted S t)
    (hm1 : ∀ t : T, Sound.isPaused S (Sound.toggleMute S t) = Sound.isPaused S t) (hm2 : ∀ t : T, Sound.getId S (Sound.toggleMute S t) = Sound.getId S t)
    (hr : ∀ (t : T) (i : ℕ), Sound.isPaused S (Sound.register S t i) = Sound.isPaused S t ∧ Sound.isMuted S (Sound.register S t i) = Sound.isMuted S t ∧
      Sound.getId S (Sound.register S t i) = some i)
    (hu : ∀ t : T, Sound.isPaused S (Sound.unregister S t) = Sound.isPaused S t ∧ Sound.isMuted S (Sound.unregister S t) = Sound.isMuted S t ∧
      Sound.getId S (Sound.unregister S t) = none)
    (hx : ∀ (t t' : T) (x y : S), Sound.process t x = .ok (y, t') → Sound.isPaused S t' = Sound.isPaused S t ∧ Sound.isMuted S t' = Sound.isMuted S t ∧
      Sound.getId S t' = Sound.getId S t) : TraitLawful S T := by
  intro t t' l
  induction l generalizing t with
  | nil =>
    intro h
    cases h
    simp [lastId]
  | cons c l ih =>
    intro h
    rw [List.foldlM_cons] at h
    rcases c with c | x
    · cases c <;> replace h := ih _ h <;> obtain ⟨h1, h2, h3⟩ := h <;> rw [h1, h2, h3]
      · rw [hp, hp1, hp2]
        refine ⟨?_, by simp, by simp [lastId]⟩
        rcases Nat.mod_two_eq_zero_or_one (l.countP fun c => c matches .inl .togglePause) with e | e <;> simp [Nat.add_mod, e]
      · rw [hm, hm1, hm2]
        refine ⟨by simp, ?_, by simp [lastId]⟩
        rcases Nat.mod_two_eq_zero_or_one (l.countP fun c => c matches .inl .toggleMute) with e | e <;> simp [Nat.add_mod, e]
      · rw [(hr _ _).1, (hr _ _).2.1, (hr _ _).2.2]
        simp [lastId]
      · rw [(hu _).1, (hu _).2.1, (hu _).2.2]
        simp [lastId]
    · rcases e : (Sound.process t x : Res (S × T)) with p | ⟨y, t1⟩
      · rw [show (traitCall t (.inr x) : Res T) = .error p by simp only [traitCall, e]; rfl] at h
        cases h
      · rw [show (traitCall t (.inr x) : Res T) = .ok t1 by simp only [traitCall, e]; rfl] at h
        obtain ⟨h1, h2, h3⟩ := ih _ h
        obtain ⟨e1, e2, e3⟩ := hx _ _ _ _ e
        rw [h1, h2, h3, e1, e2, e3]
        exact ⟨by simp, by simp, rfl⟩

/-- Both kinds of sound obey this when called through the trait, whatever blocks they are made of. -/
theorem C79_trait {B : Type} [Block B S] : TraitLawful S (SimpleSound S × Heap B) ∧ TraitLawful S (ComplexSound × Heap B) := by
  constructor
  · refine trait_lawful (fun _ => rfl) (fun _ => rfl) (fun _ => rfl) (fun _ => rfl) (fun _ => rfl) (fun _ => rfl) (fun _ _ => ⟨rfl, rfl, rfl⟩)
      (fun _ => ⟨rfl, rfl, rfl⟩) ?_
    rintro ⟨s, h⟩ t' x y e
    simp only [Sound.process] at e
    rcases e' : SimpleSound.process h s x with p | ⟨z, h'⟩ <;> rw [e'] at e <;> cases e
    exact ⟨rfl, rfl, rfl⟩
  · refine trait_lawful (fun _ => rfl) (fun _ => rfl) (fun _ => rfl) (fun _ => rfl) (fun _ => rfl) (fun _ => rfl) (fun _ _ => ⟨rfl, rfl, rfl⟩)
      (fun _ => ⟨rfl, rfl, rfl⟩) ?_
    rintro ⟨s, h⟩ t' x y e
    simp only [Sound.process] at e
    rcases e' : ComplexSound.process h s x with p | ⟨z, h'⟩ <;> rw [e'] at e <;> cases e
    exact ⟨rfl, rfl, rfl⟩
end

/-- IEEE: each gain getter returns the `f32` rounding of the value given to the constructor or set last; setting one gain
leaves the other. -/
theorem C79_gain (s : SimpleSound F32) (g : F64) {q : ℚ} (hg : g.Is q) (hf : b32.Fits q) (a b : ℕ) (o : F64) :
    ((s.setInputGain g).getInputGain : F64).Is (b32.rnd q) ∧ ((s.setOutputGain g).getOutputGain : F64).Is (b32.rnd q) ∧
    ((s.setInputGain g).getOutputGain : F64) = s.getOutputGain ∧ ((s.setOutputGain g).getInputGain : F64) = s.getInputGain ∧
    ((SimpleSound.new g o a : SimpleSound F32).getInputGain : F64).Is (b32.rnd q) ∧
    ((SimpleSound.new o g b : SimpleSound F32).getOutputGain : F64).Is (b32.rnd q) := by
  have h := Fl.Is.up (Fl.Is.down hg hf)
  exact ⟨h, h, rfl, rfl, h, h⟩

example : (lit (1 / 10) : F64).Is (b64.rnd (1 / 10)) ∧ b32.Fits (b64.rnd (1 / 10)) := by
  constructor
  · decide +kernel
  · unfold Fmt.Fits; decide +kernel

/-! ## C80 -/

section
variable {B S M : Type} [Flt S] [Flt M] [SM S M] [Block B S]

/-- A block with several pointers to it. -/
def Shared (h : Heap B) (a : ℕ) : Prop := h.getMut a = none

instance (h : Heap B) (a : ℕ) : Decidable (Shared h a) := by
  unfold Shared
  cases h.getMut a with
  | none => exact .isTrue rfl
  | some b => exact .isFalse (by simp)

private theorem runMods_skip (as : List ℕ) (h0 h : Heap B) (hs : ∀ a, Shared h a ↔ Shared h0 a) (x : S) :
    SimpleSound.runMods h as x = SimpleSound.runMods h (as.filter fun a => ¬ Shared h0 a) x := by
  induction as generalizing h x with
  | nil => rfl
  | cons a as ih =>
    by_cases ha : Shared h0 a
    · rw [List.filter_cons_of_neg (by simpa using ha), SimpleSound.runMods]
      have : h.getMut a = none := (hs a).mpr ha
      rw [this]
      exact ih h hs x
    · rw [List.filter_cons_of_pos (by simpa using ha), SimpleSound.runMods, SimpleSound.runMods]
      cases hg : h.getMut a with
      | none => exact absurd ((hs a).mp hg) ha
      | some b =>
        simp only [bind, Except.bind]
        cases (Block.process (Block.prime b x) : Res (S × B)) with
        | error e => rfl
        | ok p =>
          simp only []
          exact ih _ (fun c => ((Heap.put_getMut_none h a p.2 c).trans (hs c))) p.1

private theorem put_shared (h : Heap B) (a : ℕ) (b : B) (c : ℕ) : Shared (h.put a b) c ↔ Shared h c := Heap.put_getMut_none h a b c

/-- Shared modifiers are skipped: the sound behaves as without them. -/
theorem C80_modifiers (h : Heap B) (s : SimpleSound S) (x : S) :
    SimpleSound.process h s x = SimpleSound.process h { s with modifierList := s.modifierList.filter fun a => ¬ Shared h a } x := by
  unfold SimpleSound.process
  by_cases hp : s.paused = true
  · simp only [hp, if_true]
  · simp only [hp, bind, Except.bind]
    unfold SimpleSound.runGen
    cases hg : h.getMut s.generator with
    | none =>
      simp only [Bool.false_eq_true, if_false]
      rw [← runMods_skip s.modifierList h h (fun a => Iff.rfl)]
    | some b =>
      simp only [bind, Except.bind]
      cases (Block.process (Block.prime b (x * s.inputGain)) : Res (S × B)) with
      | error e => rfl
      | ok p =>
        simp only [Bool.false_eq_true, if_false]
        rw [← runMods_skip s.modifierList h (h.put s.generator p.2) (put_shared h _ _)]

/-- A shared generator counts as 0. -/
theorem C80_generator (h : Heap B) (s : SimpleSound S) (x : S) (hp : s.paused = false) (hg : Shared h s.generator) :
    SimpleSound.process h s x = (SimpleSound.runMods h s.modifierList (lit 0)).map
      (fun p => (if s.muted then lit 0 else p.1 * s.outputGain, p.2)) := by
  unfold SimpleSound.process SimpleSound.runGen
  unfold Shared at hg
  simp only [hp, hg, Bool.false_eq_true, if_false, bind, Except.bind]
  have e : (dflt : S) = lit 0 := rfl
  rw [e]
  cases SimpleSound.runMods h s.modifierList (lit 0 : S) <;> rfl

/-- With every block shared: no panic, no block is touched, and the output is `0 * output gain`. -/
theorem C80_all_shared (h : Heap B) (s : SimpleSound S) (x : S) (hp : s.paused = false) (hm : s.muted = false)
    (hs : ∀ a ∈ s.generator :: s.modifierList, Shared h a) :
    SimpleSound.process h s x = .ok (lit 0 * s.outputGain, h) := by
  have hq := C80_generator h { s with modifierList := s.modifierList.filter fun a => ¬ Shared h a } x hp (hs _ List.mem_cons_self)
  rw [C80_modifiers, hq]
  have : s.modifierList.filter (fun a => ¬ Shared h a) = [] := by
    rw [List.filter_eq_nil_iff]
    intro a ha
    simpa using hs a (List.mem_cons_of_mem _ ha)
  simp only [this, SimpleSound.runMods, Except.map, hm, Bool.false_eq_true, if_false]

/-- While a clone is alive both the original and the clone output `0 * output gain` and touch no block; dropping the clone
restores memory exactly. -/
theorem C80_clone (h : Heap B) (s : SimpleSound S) (hv : ∀ a ∈ s.generator :: s.modifierList, ∃ c, h[a]? = some c ∧ 1 ≤ c.refs)
    (hp : s.paused = false) (hm : s.muted = false) (x : S) :
    SimpleSound.process (SimpleSound.clone h s).2 s x = .ok (lit 0 * s.outputGain, (SimpleSound.clone h s).2) ∧
    SimpleSound.process (SimpleSound.clone h s).2 (SimpleSound.clone h s).1 x = .ok (lit 0 * s.outputGain, (SimpleSound.clone h s).2) ∧
    SimpleSound.drop (SimpleSound.clone h s).2 (SimpleSound.clone h s).1 = h := by
  have e1 : (SimpleSound.clone h s).2 = (s.generator :: s.modifierList).foldl Heap.incr h := rfl
  have e2 : (SimpleSound.clone h s).1 = s := rfl
  have e3 : ∀ k : Heap B, SimpleSound.drop k s = (s.generator :: s.modifierList).foldl Heap.decr k := fun k => rfl
  have hsh : ∀ a ∈ s.generator :: s.modifierList, Shared (SimpleSound.clone h s).2 a := by
    intro a ha
    unfold Shared
    rw [Heap.getMut_eq_none, e1]
    intro c hc
    rw [Heap.getElem?_foldl_incr] at hc
    obtain ⟨c0, h1, h2⟩ := hv a ha
    rw [h1] at hc
    have hcount := List.count_pos_iff.mpr ha
    have := Option.some.inj hc
    rw [← this]
    show c0.refs + _ ≠ 1
    omega
  refine ⟨C80_all_shared _ s x hp hm hsh, ?_, ?_⟩
  · rw [e2]; exact C80_all_shared _ s x hp hm hsh
  · rw [e2, e3, e1]
    apply List.ext_getElem?
    intro i
    rw [Heap.getElem?_foldl_decr, Heap.getElem?_foldl_incr]
    cases h[i]? with
    | none => rfl
    | some c => simp

end

/-- A concrete heap holding two gain blocks, and a sound running them in series. -/
def exHeap : Heap (StandardBlock Zero (Gain F32) StdInter F32) :=
  [⟨StandardBlock.fromModifier ⟨lit 2⟩, 1⟩, ⟨StandardBlock.fromModifier ⟨lit 3⟩, 1⟩]
/-- See `exHeap`. -/
def exSound : SimpleSound F32 := (SimpleSound.new (lit 1 : F64) (lit (1 / 2) : F64) 1).addModifier 0

example : Owns exHeap (exSound.generator :: exSound.modifierList)
    [StandardBlock.fromModifier ⟨lit 3⟩, StandardBlock.fromModifier ⟨lit 2⟩] ∧ exSound.paused = false ∧ exSound.muted = false :=
  ⟨⟨by decide, .cons rfl (.cons rfl .nil)⟩, rfl, rfl⟩
example : (([.inl .togglePause, .inr (lit 5), .inl (.register 3), .inr (lit 7)] : List (SoundSet ⊕ F32)).foldlM traitCall (exSound, exHeap)).map
    (fun t => (t.1.paused, t.1.muted, t.1.id)) = .ok (true, false, some 3) := by decide +kernel
example : (SimpleSound.process exHeap exSound (lit 5)).map (·.1) = .ok (lit 15) := by decide +kernel
example : ∀ a ∈ exSound.generator :: exSound.modifierList, ∃ c, exHeap[a]? = some c ∧ 1 ≤ c.refs := by
  intro a ha
  rcases List.mem_cons.mp ha with rfl | ha
  · exact ⟨_, rfl, le_rfl⟩
  · rcases List.mem_singleton.mp ha with rfl
    exact ⟨_, rfl, le_rfl⟩
/-- Three modifiers added in two calls. -/
example : added [.one 0, .list [3, 2]] = [0, 3, 2] ∧
    Owns (exHeap ++ [⟨StandardBlock.fromModifier ⟨lit 5⟩, 1⟩, ⟨StandardBlock.fromModifier ⟨lit 7⟩, 1⟩]) (1 :: added [.one 0, .list [3, 2]])
      [StandardBlock.fromModifier ⟨lit 3⟩, StandardBlock.fromModifier ⟨lit 2⟩, StandardBlock.fromModifier ⟨lit 7⟩,
        StandardBlock.fromModifier ⟨lit 5⟩] :=
  ⟨rfl, by decide, .cons rfl (.cons rfl (.cons rfl (.cons rfl .nil)))⟩
example : Shared (SimpleSound.clone exHeap exSound).2 exSound.generator := by decide +kernel

/-- The sound of the examples, run, paused and muted. -/
example (xs : List F32) : exSound.outputs exHeap xs = seriesRun exSound.inputGain exSound.outputGain
      ([StandardBlock.fromModifier ⟨lit 3⟩, StandardBlock.fromModifier ⟨lit 2⟩] : List (StandardBlock Zero (Gain F32) StdInter F32)) xs ∧
    runSound SimpleSound.process exSound.togglePause exHeap xs = .ok (List.replicate xs.length (lit 0), exHeap) ∧
    runSound SimpleSound.process exSound.toggleMute exHeap xs = (runSound SimpleSound.process exSound exHeap xs).map (fun r => (List.replicate xs.length (lit 0), r.2)) :=
  ⟨C76_run exHeap exSound [StandardBlock.fromModifier ⟨lit 3⟩, StandardBlock.fromModifier ⟨lit 2⟩] ⟨by decide, .cons rfl (.cons rfl .nil)⟩ rfl rfl xs, (C77_simple_toggle exHeap exSound rfl xs).1, C78_simple exHeap exSound rfl xs⟩

/-- Cloned, both copies are silent. -/
example (x : F32) : SimpleSound.process (SimpleSound.clone exHeap exSound).2 exSound x = .ok (lit 0 * exSound.outputGain, (SimpleSound.clone exHeap exSound).2) := by
  refine (C80_clone exHeap exSound (fun a ha => ?_) rfl rfl x).1
  rcases List.mem_cons.mp ha with rfl | ha
  · exact ⟨_, rfl, le_rfl⟩
  · rcases List.mem_singleton.mp ha with rfl
    exact ⟨_, rfl, le_rfl⟩

end Verif
