import Verif.Spec.SumBlock
import Verif.Props.Osc
import Verif.Props.Sine
import Verif.Props.Adsr
import Verif.Props.SimpleSound

set_option linter.unusedSectionVars false

/-! # A voice never clips: C122 -/

namespace Verif
open Fl

/-! ## Specification -/

/-- A generator, while `I` holds, does not panic, gives samples in `[-1,1]` and keeps `I`. -/
def GenSafe {G : Type} [Generator G F32] (I : G → Prop) : Prop :=
  ∀ g, I g → ∃ (y : F32) (g' : G), Generator.process g = .ok (y, g') ∧ y.In (-1) 1 ∧ I g'

/-- A modifier, while `J` holds, does not panic, turns samples in `[-1,1]` into samples in `[-1,1]` and keeps `J`. -/
def ModSafe {X : Type} [Modifier X F32] (J : X → Prop) : Prop :=
  ∀ m (x : F32), J m → x.In (-1) 1 → ∃ (y : F32) (m' : X), Modifier.process m x = .ok (y, m') ∧ y.In (-1) 1 ∧ J m'

/-- What a program may do with a sound and its blocks. `edit` stands for any call on the generator or modifier inside a block
(`set_frequency`, `release`, ...), `share` and `unshare` for cloning and dropping an `Arc` of a block, all made while the sound is
not being processed. -/
inductive VoiceCall (B : Type) where
  | process (x : F32) | togglePause | toggleMute | setInputGain (g : F64) | setOutputGain (g : F64) | edit (a : ℕ) (b : B)
  | share (a : ℕ) | unshare (a : ℕ)

section
variable {B : Type} [Block B F32]

/-- Run calls; the samples come out in order. -/
def voiceCalls (h : Heap B) (s : SimpleSound F32) : List (VoiceCall B) → Res (List F32)
  | [] => .ok []
  | .process x :: cs => match s.process h x with
    | .error e => .error e
    | .ok (y, h') => (voiceCalls h' s cs).map (y :: ·)
  | .togglePause :: cs => voiceCalls h s.togglePause cs
  | .toggleMute :: cs => voiceCalls h s.toggleMute cs
  | .setInputGain g :: cs => voiceCalls h (s.setInputGain g) cs
  | .setOutputGain g :: cs => voiceCalls h (s.setOutputGain g) cs
  | .edit a b :: cs => voiceCalls (h.put a b) s cs
  | .share a :: cs => voiceCalls (h.incr a) s cs
  | .unshare a :: cs => voiceCalls (h.decr a) s cs

/-- The calls keep output gains in `[-1,1]` and blocks in the states allowed for them. -/
def VoiceLegal (Pg Pm : B → Prop) (s : SimpleSound F32) : List (VoiceCall B) → Prop
  | [] => True
  | .setOutputGain g :: cs => (SM.down g : F32).In (-1) 1 ∧ VoiceLegal Pg Pm s cs
  | .edit a b :: cs => (a = s.generator → Pg b) ∧ (a ∈ s.modifierList → Pm b) ∧ VoiceLegal Pg Pm s cs
  | _ :: cs => VoiceLegal Pg Pm s cs

/-! ## Lemmas -/

private def Voice (Pg Pm : B → Prop) (h : Heap B) (gen : ℕ) (mods : List ℕ) : Prop :=
  ∀ (a : ℕ) (c : Cell B), h[a]? = some c → (a = gen → Pg c.val) ∧ (a ∈ mods → Pm c.val)

private theorem Voice.put {Pg Pm : B → Prop} {h : Heap B} {gen : ℕ} {mods : List ℕ} (hv : Voice Pg Pm h gen mods) {a : ℕ} {b : B}
    (h1 : a = gen → Pg b) (h2 : a ∈ mods → Pm b) : Voice Pg Pm (h.put a b) gen mods := by
  intro i c hc
  rw [Heap.getElem?_put] at hc
  split_ifs at hc with e
  · subst e
    cases hi : h[i]? with
    | none => rw [hi] at hc; cases hc
    | some c' => rw [hi] at hc; cases hc; exact ⟨h1, h2⟩
  · exact hv i c hc

private theorem Voice.refs {Pg Pm : B → Prop} {h h' : Heap B} {gen : ℕ} {mods : List ℕ} (hv : Voice Pg Pm h gen mods)
    (hh : ∀ (i : ℕ) (c : Cell B), h'[i]? = some c → ∃ c' : Cell B, h[i]? = some c' ∧ c.val = c'.val) : Voice Pg Pm h' gen mods := by
  intro i c hc
  obtain ⟨c', e1, e2⟩ := hh i c hc
  rw [e2]
  exact hv i c' e1

private theorem Voice.incr {Pg Pm : B → Prop} {h : Heap B} {gen : ℕ} {mods : List ℕ} (hv : Voice Pg Pm h gen mods) (a : ℕ) :
    Voice Pg Pm (h.incr a) gen mods := by
  refine Voice.refs hv fun i c hc => ?_
  rw [Heap.getElem?_incr] at hc
  split_ifs at hc with e
  · cases hi : h[i]? with
    | none => rw [hi] at hc; cases hc
    | some c' => rw [hi] at hc; cases hc; exact ⟨c', rfl, rfl⟩
  · exact ⟨c, hc, rfl⟩

private theorem Voice.decr {Pg Pm : B → Prop} {h : Heap B} {gen : ℕ} {mods : List ℕ} (hv : Voice Pg Pm h gen mods) (a : ℕ) :
    Voice Pg Pm (h.decr a) gen mods := by
  refine Voice.refs hv fun i c hc => ?_
  rw [Heap.getElem?_decr] at hc
  split_ifs at hc with e
  · cases hi : h[i]? with
    | none => rw [hi] at hc; cases hc
    | some c' => rw [hi] at hc; cases hc; exact ⟨c', rfl, rfl⟩
  · exact ⟨c, hc, rfl⟩

private theorem runMods_safe {Pg Pm : B → Prop}
    (hm : ∀ b (x : F32), Pm b → x.In (-1) 1 → ∃ (y : F32) (b' : B), Block.process (Block.prime b x) = .ok (y, b') ∧ y.In (-1) 1 ∧ Pm b')
    {gen : ℕ} {mods : List ℕ} (hne : gen ∉ mods) (l : List ℕ) :
    ∀ (h : Heap B) (x : F32), l ⊆ mods → x.In (-1) 1 → Voice Pg Pm h gen mods →
    ∃ (y : F32) (h' : Heap B), SimpleSound.runMods h l x = .ok (y, h') ∧ y.In (-1) 1 ∧ Voice Pg Pm h' gen mods := by
  induction l with
  | nil => exact fun h x _ hx hh => ⟨x, h, by rw [SimpleSound.runMods], hx, hh⟩
  | cons a l ih =>
    intro h x hl hx hh
    have ha : a ∈ mods := hl (by simp)
    have hl' : l ⊆ mods := fun i hi => hl (by simp [hi])
    cases hb : h.getMut a with
    | none =>
      obtain ⟨z, h', i1, i2, i3⟩ := ih h x hl' hx hh
      refine ⟨z, h', ?_, i2, i3⟩
      rw [SimpleSound.runMods, hb]
      exact i1
    | some b =>
      obtain ⟨y, b', e1, e2, e3⟩ := hm b x ((hh a _ (Heap.getMut_eq_some.mp hb)).2 ha) hx
      obtain ⟨z, h', i1, i2, i3⟩ := ih (h.put a b') y hl' e2 (Voice.put hh (fun e => absurd (e ▸ ha) hne) (fun _ => e3))
      refine ⟨z, h', ?_, i2, i3⟩
      rw [SimpleSound.runMods, hb]
      simp only [e1, bind, Except.bind]
      exact i1

private theorem mul_in {x g : F32} (hx : x.In (-1) 1) (hg : g.In (-1) 1) : (x * g).In (-1) 1 := by
  obtain ⟨a, ha, a0, a1⟩ := hx
  obtain ⟨b, hb, b0, b1⟩ := hg
  have h : |a * b| ≤ 1 := by
    rw [abs_mul]
    exact mul_le_one₀ (abs_le.mpr ⟨a0, a1⟩) (abs_nonneg _) (abs_le.mpr ⟨b0, b1⟩)
  have hr : |b32.rnd (a * b)| ≤ 1 := by
    rw [b32.abs_rnd]
    exact b32.rnd_le_repr (by rw [b32.repr_iff]; decide +kernel) h
  exact ⟨_, Is.mul ha hb (fits32' 0 (by norm_num) (by norm_num; rw [← abs_mul]; exact h)), (abs_le.mp hr).1, (abs_le.mp hr).2⟩

private theorem zero_in : (lit 0 : F32).In (-1) 1 := ⟨0, lit32_0', by norm_num, by norm_num⟩

private theorem process_safe {Pg Pm : B → Prop} (hg : ∀ b (x : F32), Pg b → ∃ (y : F32) (b' : B), Block.process (Block.prime b x) = .ok (y, b') ∧ y.In (-1) 1 ∧ Pg b')
    (hm : ∀ b (x : F32), Pm b → x.In (-1) 1 → ∃ (y : F32) (b' : B), Block.process (Block.prime b x) = .ok (y, b') ∧ y.In (-1) 1 ∧ Pm b')
    {h : Heap B} {s : SimpleSound F32} (hv : Voice Pg Pm h s.generator s.modifierList) (hne : s.generator ∉ s.modifierList) (ho : s.outputGain.In (-1) 1) (x : F32) :
    ∃ (y : F32) (h' : Heap B), s.process h x = .ok (y, h') ∧ y.In (-1) 1 ∧ Voice Pg Pm h' s.generator s.modifierList := by
  unfold SimpleSound.process
  by_cases hp : s.paused
  · rw [if_pos hp]
    exact ⟨_, h, rfl, zero_in, hv⟩
  · rw [if_neg hp]
    obtain ⟨y, h1, e1, e2, e3⟩ : ∃ (y : F32) (h1 : Heap B), SimpleSound.runGen h s.generator (x * s.inputGain) = .ok (y, h1) ∧ y.In (-1) 1 ∧
        Voice Pg Pm h1 s.generator s.modifierList := by
      unfold SimpleSound.runGen
      cases hb : h.getMut s.generator with
      | none => exact ⟨_, h, rfl, zero_in, hv⟩
      | some b =>
        obtain ⟨y, b', e1, e2, e3⟩ := hg b (x * s.inputGain) ((hv _ _ (Heap.getMut_eq_some.mp hb)).1 rfl)
        exact ⟨y, h.put s.generator b', by simp only [e1, bind, Except.bind], e2, Voice.put hv (fun _ => e3) (fun hc => absurd hc hne)⟩
    obtain ⟨z, h', i1, i2, i3⟩ := runMods_safe hm hne s.modifierList h1 y (fun _ hi => hi) e2 e3
    refine ⟨if s.muted then dflt else z * s.outputGain, h', ?_, ?_, i3⟩
    · simp only [e1, bind, Except.bind, i1]
    · split_ifs
      · exact zero_in
      · exact mul_in i2 ho

/-! ## C122 -/

/-- IEEE, any blocks: a sound whose generator block gives samples in `[-1,1]` and whose modifier blocks keep samples there,
with an output gain in `[-1,1]`, never panics and never leaves `[-1,1]`, whatever its inputs, whichever blocks are shared, and
whatever is done between the samples. -/
theorem C122_voice (Pg Pm : B → Prop) (hg : ∀ b (x : F32), Pg b → ∃ (y : F32) (b' : B), Block.process (Block.prime b x) = .ok (y, b') ∧ y.In (-1) 1 ∧ Pg b')
    (hm : ∀ b (x : F32), Pm b → x.In (-1) 1 → ∃ (y : F32) (b' : B), Block.process (Block.prime b x) = .ok (y, b') ∧ y.In (-1) 1 ∧ Pm b')
    (h : Heap B) (s : SimpleSound F32) (h1 : ∀ c, h[s.generator]? = some c → Pg c.val) (h2 : ∀ a ∈ s.modifierList, ∀ c, h[a]? = some c → Pm c.val)
    (hne : s.generator ∉ s.modifierList) (ho : s.outputGain.In (-1) 1) (cs : List (VoiceCall B)) (hl : VoiceLegal Pg Pm s cs) :
    ∃ ys, voiceCalls h s cs = .ok ys ∧ ∀ y ∈ ys, y.In (-1) 1 := by
  have legal : ∀ (cs : List (VoiceCall B)) (s s' : SimpleSound F32), s.generator = s'.generator → s.modifierList = s'.modifierList →
      VoiceLegal Pg Pm s cs → VoiceLegal Pg Pm s' cs := by
    intro cs
    induction cs with
    | nil => intros; trivial
    | cons c cs ih =>
      intro s s' e1 e2 hl
      cases c with
      | setOutputGain g => exact ⟨hl.1, ih s s' e1 e2 hl.2⟩
      | edit a b => exact ⟨e1 ▸ hl.1, e2 ▸ hl.2.1, ih s s' e1 e2 hl.2.2⟩
      | _ => exact ih s s' e1 e2 hl
  have hv : Voice Pg Pm h s.generator s.modifierList := fun a c hc => ⟨fun e => h1 c (e ▸ hc), fun e => h2 a e c hc⟩
  clear h1 h2
  induction cs generalizing h s with
  | nil => exact ⟨[], rfl, by simp⟩
  | cons c cs ih =>
    cases c with
    | process x =>
      obtain ⟨y, h', e1, e2, e3⟩ := process_safe hg hm hv hne ho x
      obtain ⟨ys, i1, i2⟩ := ih h' s hne ho hl e3
      refine ⟨y :: ys, ?_, fun z hz => ?_⟩
      · rw [voiceCalls, e1]
        simp only [i1]
        rfl
      · rcases List.mem_cons.mp hz with rfl | hz
        · exact e2
        · exact i2 z hz
    | togglePause => exact ih h s.togglePause hne ho (legal cs s s.togglePause rfl rfl hl) hv
    | toggleMute => exact ih h s.toggleMute hne ho (legal cs s s.toggleMute rfl rfl hl) hv
    | setInputGain g => exact ih h (s.setInputGain g) hne ho (legal cs s (s.setInputGain g) rfl rfl hl) hv
    | setOutputGain g => exact ih h (s.setOutputGain g) hne hl.1 (legal cs s (s.setOutputGain g) rfl rfl hl.2) hv
    | edit a b => exact ih (h.put a b) s hne ho hl.2.2 (Voice.put hv hl.1 hl.2.1)
    | share a => exact ih (h.incr a) s hne ho hl (Voice.incr hv a)
    | unshare a => exact ih (h.decr a) s hne ho hl (Voice.decr hv a)
end

/-! ## Blocks -/

/-- Blocks made by `from_generator` meet the condition of C122_voice if the generator does. -/
theorem C122_generator_block {G : Type} [Generator G F32] {I : G → Prop} (hI : GenSafe I) (b : StandardBlock G Passthrough StdInter F32) (x : F32)
    (hb : ∃ g, b = StandardBlock.fromGenerator g ∧ I g) :
    ∃ (y : F32) (b' : StandardBlock G Passthrough StdInter F32), Block.process (Block.prime b x) = .ok (y, b') ∧ y.In (-1) 1 ∧ ∃ g, b' = StandardBlock.fromGenerator g ∧ I g := by
  obtain ⟨g, rfl, hg⟩ := hb
  obtain ⟨y, g', e1, e2, e3⟩ := hI g hg
  refine ⟨y, StandardBlock.fromGenerator g', ?_, e2, g', rfl, e3⟩
  show StandardBlock.process (StandardBlock.primeInput (StandardBlock.fromGenerator g) x) = _
  simp only [StandardBlock.process, StandardBlock.primeInput, StandardBlock.fromGenerator, Arc.getMutUnwrap, if_true, bind, Except.bind, e1]
  rfl

/-- The same for `from_modifier`. -/
theorem C122_modifier_block {X : Type} [Modifier X F32] {J : X → Prop} (hJ : ModSafe J) (b : StandardBlock Zero X StdInter F32) (x : F32)
    (hb : ∃ m, b = StandardBlock.fromModifier m ∧ J m) (hx : x.In (-1) 1) :
    ∃ (y : F32) (b' : StandardBlock Zero X StdInter F32), Block.process (Block.prime b x) = .ok (y, b') ∧ y.In (-1) 1 ∧ ∃ m, b' = StandardBlock.fromModifier m ∧ J m := by
  obtain ⟨m, rfl, hm⟩ := hb
  have hx' : ((dflt : F32) + x).In (-1) 1 := by
    obtain ⟨q, hq, q0, q1⟩ := hx
    have := Is.add (show (dflt : F32).Is 0 from lit32_0') hq (by rw [zero_add]; exact hq.fits)
    rw [zero_add, hq.rnd] at this
    exact ⟨q, this, q0, q1⟩
  obtain ⟨y, m', e1, e2, e3⟩ := hJ m _ hm hx'
  refine ⟨y, StandardBlock.fromModifier m', ?_, e2, m', rfl, e3⟩
  show StandardBlock.process (StandardBlock.primeInput (StandardBlock.fromModifier m) x) = _
  simp only [StandardBlock.process, StandardBlock.primeInput, StandardBlock.fromModifier, Arc.getMutUnwrap, if_true, bind, Except.bind, e1]
  rfl

/-! ## Generators and modifiers -/

/-- States of an oscillator reached by a history with frequencies in `[0,24000]`. -/
def Reached {G : Type} [Generator G F32] (new : F64 → G) (set : G → F64 → G) (g : G) : Prop :=
  ∃ (f : F64) (cs : List (GenCall F64)), f.In 0 24000 ∧ FreqsOk (fun f => f.In 0 24000) cs ∧
    runCallsR (S := F32) Generator.process set cs (new f) = .ok g

private theorem runCallsR_append {G M S E : Type} {p : G → Except E (S × G)} {set : G → M → G} (cs ds : List (GenCall M)) {g g' : G}
    (h : runCallsR p set cs g = .ok g') : runCallsR p set (cs ++ ds) g = runCallsR p set ds g' := by
  induction cs generalizing g with
  | nil => cases h; rfl
  | cons c cs ih =>
    cases c with
    | process =>
      simp only [List.cons_append, runCallsR] at h ⊢
      cases hp : p g with
      | error e => rw [hp] at h; cases h
      | ok r => rw [hp] at h; exact ih h
    | setFrequency f => exact ih h

private theorem runCallsR_pure {G M S : Type} {p : G → S × G} {set : G → M → G} (cs : List (GenCall M)) (g : G) :
    runCallsR (E := Panic) (fun g => .ok (p g)) set cs g = .ok (runCalls (fun g => (p g).2) set cs g) := by
  induction cs generalizing g with
  | nil => rfl
  | cons c cs ih =>
    cases c with
    | process => exact ih _
    | setFrequency f => exact ih _

private theorem reached_safe {G : Type} [Generator G F32] {new : F64 → G} {set : G → F64 → G}
    (h : ∀ (f : F64) (cs : List (GenCall F64)) (g : G), f.In 0 24000 → FreqsOk (fun f => f.In 0 24000) cs →
      runCallsR (S := F32) Generator.process set cs (new f) = .ok g → ∃ (y : F32) (g' : G), Generator.process g = .ok (y, g') ∧ y.In (-1) 1) :
    GenSafe (Reached new set) := by
  rintro g ⟨f, cs, h1, h2, h3⟩
  obtain ⟨y, g', e1, e2⟩ := h f cs g h1 h2 h3
  refine ⟨y, g', e1, e2, f, cs ++ [.process], h1, ?_, ?_⟩
  · intro f' hf'
    rcases List.mem_append.mp hf' with h | h
    · exact h2 f' h
    · simp at h
  · rw [runCallsR_append cs [.process] h3]
    simp only [runCallsR, e1]

/-- Setting a frequency in `[0,24000]` keeps a state reachable, so it is an allowed `edit`. -/
theorem C122_set_frequency {G : Type} [Generator G F32] {new : F64 → G} {set : G → F64 → G} {g : G} (h : Reached new set g) {f : F64} (hf : f.In 0 24000) :
    Reached new set (set g f) := by
  obtain ⟨f0, cs, h1, h2, h3⟩ := h
  refine ⟨f0, cs ++ [.setFrequency f], h1, ?_, ?_⟩
  · intro f' hf'
    rcases List.mem_append.mp hf' with h | h
    · exact h2 f' h
    · simp at h
      rw [h]; exact hf
  · rw [runCallsR_append cs [.setFrequency f] h3]
    rfl

/-- IEEE: sawtooth, triangle, square and silence are safe generators. -/
theorem C122_generators :
    GenSafe (Reached (Sawtooth.new (M := F64)) Sawtooth.setFrequency) ∧ GenSafe (Reached (Triangle.new (M := F64)) Triangle.setFrequency) ∧
    GenSafe (Reached (Square.new (M := F64)) Square.setFrequency) ∧ GenSafe (fun _ : Zero => True) := by
  refine ⟨reached_safe ?_, reached_safe ?_, reached_safe ?_, ?_⟩
  · intro f cs g hf hcs h
    have e := runCallsR_pure (p := fun g : Sawtooth F64 => (g.process : F32 × _)) (set := Sawtooth.setFrequency) cs (Sawtooth.new f)
    cases e.symm.trans h
    exact ⟨_, _, rfl, C33_sawtooth_range f hf cs hcs⟩
  · intro f cs g hf hcs h
    have e := runCallsR_pure (p := fun g : Triangle F64 => (g.process : F32 × _)) (set := Triangle.setFrequency) cs (Triangle.new f)
    cases e.symm.trans h
    exact ⟨_, _, rfl, C35_triangle_range f hf cs hcs⟩
  · intro f cs g hf hcs h
    have e := runCallsR_pure (p := fun g : Square F64 => (g.process : F32 × _)) (set := Square.setFrequency) cs (Square.new f)
    cases e.symm.trans h
    refine ⟨_, _, rfl, ?_⟩
    show ((runCalls (fun g => (g.process : F32 × _).2) Square.setFrequency cs (Square.new f)).process.1 : F32).In _ _
    rcases C37_square_pm1 f cs with e | e
    · rw [e]; exact ⟨1, by decide +kernel, by norm_num, by norm_num⟩
    · rw [e]; exact ⟨-1, by decide +kernel, by norm_num, by norm_num⟩
  · intro g _
    exact ⟨_, _, rfl, zero_in, trivial⟩

/-- IEEE: so is the sine, if its table is in `[-1,1]`. -/
theorem C122_sine [Libm F64] (ht : TableOk) : GenSafe (Reached (Sine.new (M := F64)) Sine.setFrequency) := by
  refine reached_safe fun f cs g hf hcs h => ?_
  obtain ⟨g0, h1, h2⟩ := C39_sine ht f (hf.mono (by norm_num) (by norm_num)) cs (fun f' hf' => (hcs f' hf').mono (by norm_num) (by norm_num))
  cases h1.symm.trans h
  exact h2

/-- IEEE: gains in `[-1,1]`, `Passthrough`, delays holding samples in `[-1,1]` and ADSR envelopes in the states C66 describes are
safe modifiers. -/
theorem C122_modifiers :
    ModSafe (fun m : Gain F32 => m.a.In (-1) 1) ∧ ModSafe (fun _ : Passthrough => True) ∧
    ModSafe (fun m : Delay F32 => ∀ y ∈ m.delay, y.In (-1) 1) ∧ ModSafe AdsrOk := by
  refine ⟨fun m x hm hx => ⟨_, _, rfl, mul_in hx hm, hm⟩, fun m x _ hx => ⟨x, m, rfl, hx, trivial⟩, ?_, ?_⟩
  · rintro ⟨q⟩ x hm hx
    cases q with
    | nil => exact ⟨x, ⟨[]⟩, rfl, hx, by simp⟩
    | cons y q =>
      refine ⟨y, ⟨q ++ [x]⟩, rfl, hm y (by simp), fun z hz => ?_⟩
      rcases List.mem_append.mp hz with h | h
      · exact hm z (by simp [h])
      · rw [List.mem_singleton.mp h]; exact hx
  · intro m x hm hx
    refine ⟨(m.process x).1, (m.process x).2, rfl, ?_, hm.process x⟩
    have hg := (hm.process x).g.mono (by norm_num : (-1 : ℚ) ≤ 0) (le_refl _)
    have key : (m.process x).1 = lit 0 ∨ (m.process x).1 = x * (m.process x).2.g := by
      unfold ADSR.process
      cases m.state
      · exact Or.inr rfl
      · exact Or.inr rfl
      · exact Or.inr rfl
      · exact Or.inr rfl
      · exact Or.inl rfl
    rcases key with e | e
    · rw [e]; exact zero_in
    · rw [e]; exact mul_in hx hg

/-- New envelopes and delays are in safe states; `release` keeps one. -/
theorem C122_new [Libm F64] (a d r : Duration) (s : F64) {L : ℚ} (hL : (dbToLinear (Flt.fmin s (lit 0)) : F64).Is L)
    (h0 : 0 ≤ L) (h1 : L ≤ 1) (hd : d.total ≠ 0 ∨ L ≠ 1) (hr : r.total ≠ 0 ∨ L ≠ 0) :
    AdsrOk (ADSR.new a d s r) ∧ (∀ m : ADSR F32, AdsrOk m → AdsrOk m.doRelease) ∧ ∀ y ∈ (Delay.new F64 d : Delay F32).delay, y.In (-1) 1 := by
  refine ⟨adsr_new_ok a d s r hL h0 h1 hd hr, fun m hm => hm.run [.release], fun y hy => ?_⟩
  rw [List.eq_of_mem_replicate hy]
  exact zero_in

/-! ## A synthesiser voice -/

/-- The block of an oscillator or of an envelope. -/
abbrev SynthBlock (G : Type) := StandardBlock G Passthrough StdInter F32 ⊕ StandardBlock Zero (ADSR F32) StdInter F32

/-- IEEE: an oscillator in state `g` shaped by an envelope, in a sound with output gain in `[-1,1]`: for every input and every
history of samples, pauses, mutes, gain changes, frequency changes, releases and sharing, no panic and no sample outside `[-1,1]`. -/
theorem C122_synth {G : Type} [Generator G F32] {I : G → Prop} (hI : GenSafe I) (g : G) (hg : I g) (env : ADSR F32) (he : AdsrOk env) (ig og : F64)
    (ho : (SM.down og : F32).In (-1) 1) (cs : List (VoiceCall (SynthBlock G)))
    (hl : ∀ c ∈ cs, match c with
      | .setOutputGain g => (SM.down g : F32).In (-1) 1
      | .edit a b => (a = 0 ∧ ∃ g, b = .inl (StandardBlock.fromGenerator g) ∧ I g) ∨ (a = 1 ∧ ∃ m, b = .inr (StandardBlock.fromModifier m) ∧ AdsrOk m)
      | _ => True) :
    ∃ ys, voiceCalls [⟨Sum.inl (StandardBlock.fromGenerator g), 1⟩, ⟨Sum.inr (StandardBlock.fromModifier env), 1⟩]
      ((SimpleSound.new ig og 0 : SimpleSound F32).addModifier 1) cs = .ok ys ∧ ∀ y ∈ ys, y.In (-1) 1 := by
  have hne : ((SimpleSound.new ig og 0 : SimpleSound F32).addModifier 1).modifierList = [1] := rfl
  have hgen : ((SimpleSound.new ig og 0 : SimpleSound F32).addModifier 1).generator = 0 := rfl
  refine C122_voice (B := SynthBlock G) (fun b => ∃ g, b = .inl (StandardBlock.fromGenerator g) ∧ I g) (fun b => ∃ m, b = .inr (StandardBlock.fromModifier m) ∧ AdsrOk m)
    ?_ ?_ _ _ ?_ ?_ (by simp [hne, hgen]) ho cs ?_
  · rintro b x ⟨g, rfl, hg⟩
    obtain ⟨y, b', e1, e2, g', rfl, e3⟩ := C122_generator_block hI _ x ⟨g, rfl, hg⟩
    refine ⟨y, .inl (StandardBlock.fromGenerator g'), ?_, e2, g', rfl, e3⟩
    show (Block.process (Block.prime (StandardBlock.fromGenerator g) x)).map _ = _
    rw [e1]
    rfl
  · rintro b x ⟨m, rfl, hm⟩ hx
    obtain ⟨y, b', e1, e2, m', rfl, e3⟩ := C122_modifier_block C122_modifiers.2.2.2 _ x ⟨m, rfl, hm⟩ hx
    refine ⟨y, .inr (StandardBlock.fromModifier m'), ?_, e2, m', rfl, e3⟩
    show (Block.process (Block.prime (StandardBlock.fromModifier m) x)).map _ = _
    rw [e1]
    rfl
  · rintro c hc
    rw [hgen] at hc
    cases hc
    exact ⟨g, rfl, hg⟩
  · intro a ha c hc
    rw [hne, List.mem_singleton] at ha
    subst ha
    cases hc
    exact ⟨env, rfl, he⟩
  · have key : ∀ s : SimpleSound F32, s.generator = 0 → s.modifierList = [1] → VoiceLegal (B := SynthBlock G)
        (fun b => ∃ g, b = .inl (StandardBlock.fromGenerator g) ∧ I g) (fun b => ∃ m, b = .inr (StandardBlock.fromModifier m) ∧ AdsrOk m) s cs := by
      intro s e1 e2
      induction cs with
      | nil => trivial
      | cons c cs ih =>
        have hc := hl c (by simp)
        have ih := ih (fun c hc => hl c (by simp [hc]))
        cases c with
        | setOutputGain g => exact ⟨hc, ih⟩
        | edit a b =>
          refine ⟨fun ha => ?_, fun ha => ?_, ih⟩
          · rw [e1] at ha
            rcases hc with ⟨-, h⟩ | ⟨h, -⟩
            · exact h
            · omega
          · rw [e2, List.mem_singleton] at ha
            rcases hc with ⟨h, -⟩ | ⟨-, h⟩
            · omega
            · exact h
        | _ => exact ih
    exact key _ hgen hne

/-- The hypotheses of C122_synth hold for a square wave at 12 kHz and an envelope with sustain at -6 dB. -/
example (x : F32) : ∃ ys, voiceCalls (B := SynthBlock (Square F64)) [⟨Sum.inl (StandardBlock.fromGenerator (Square.new (lit 12000 : F64))), 1⟩,
      ⟨Sum.inr (StandardBlock.fromModifier (@ADSR.new F32 F64 _ _ _ libmHalf ⟨0, 83334, by decide, by decide⟩ Duration.ns (lit (-6)) Duration.ns)), 1⟩]
      ((SimpleSound.new (lit 1 : F64) (lit 1) 0 : SimpleSound F32).addModifier 1) [.process x, .process x] = .ok ys ∧ ∀ y ∈ ys, y.In (-1) 1 :=
  C122_synth C122_generators.2.2.1 _ ⟨lit 12000, [], ⟨12000, by decide +kernel, by norm_num, by norm_num⟩, by simp [FreqsOk], rfl⟩ _
    (@C122_new libmHalf _ _ _ _ (1 / 2) (by decide +kernel) (by norm_num) (by norm_num) (Or.inl (by decide)) (Or.inl (by decide))).1 _ _
    ⟨1, by decide +kernel, by norm_num, by norm_num⟩ _ (by simp)

/-- A square wave at 12 kHz with an attack of four samples, retuned and released: what it plays. -/
example :
    let env : ADSR F32 := @ADSR.new F32 F64 _ _ _ libmHalf ⟨0, 83334, by decide, by decide⟩ Duration.ns (lit (-6)) Duration.ns
    let s := ((SimpleSound.new (lit 1 : F64) (lit (1 / 2)) 0 : SimpleSound F32).addModifier 1)
    let p : VoiceCall (SynthBlock (Square F64)) := .process (lit 7)
    (match voiceCalls [⟨Sum.inl (StandardBlock.fromGenerator (Square.new (lit 12000 : F64))), 1⟩, ⟨Sum.inr (StandardBlock.fromModifier env), 1⟩] s
      [p, p, p, p, p, p, .toggleMute, p, .toggleMute, .edit 0 (.inl (StandardBlock.fromGenerator (Square.new (lit 100)))), p,
        .edit 1 (.inr (StandardBlock.fromModifier env.doRelease)), p, p] with
      | .ok ys => ys.map fun y => (lit (1 / 16) ≤? Flt.abs y, Flt.abs y ≤? lit (1 / 2))
      | .error _ => []) = List.replicate 6 (true, true) ++ [(false, true), (true, true), (false, true), (false, true)] := by decide +kernel

end Verif
