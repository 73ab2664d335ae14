import Verif.Props.NullTest

/-! # Silence in, silence out: C181 -/

namespace Verif
open Fl

/-- A source of silence: zeros, of either sign. -/
def Silent (x : ℕ → F32) : Prop := ∀ i, (x i).Is 0

/-- Fed silence, the effect never outputs anything but zero or NaN. -/
def ZeroOrNan {X E : Type} (p : X → F32 → Except E (F32 × X)) (m : X) : Prop :=
  ∀ x, Silent x → ∀ n y, modOut p x m n = .ok y → y.Is 0 ∨ y = .nan

/-- Fed silence, the effect works and outputs zero, for ever. -/
def StaysSilent {X E : Type} (p : X → F32 → Except E (F32 × X)) (m : X) : Prop :=
  ∀ x, Silent x → ∀ n, ∃ y, modOut p x m n = .ok y ∧ y.Is 0

/-- A number, not infinite and not NaN. -/
def Number {f : Fmt} (c : Fl f) : Prop := ∃ q, c.Is q

private theorem flipped_zero {x : F32} (h : x.Is 0) : Flipped x x := by
  obtain ⟨s, hs, rfl⟩ := is_iff.mp h
  show (0 : ℚ) = -0
  norm_num

private theorem flipped_self {y : F32} (h : Flipped y y) : y.Is 0 ∨ y = .nan := by
  cases y with
  | nan => exact .inr rfl
  | inf s => cases s <;> exact absurd h (by simp [Flipped])
  | fin s q hq =>
    left
    have : q = -q := h
    have e : q = 0 := by linarith
    subst e
    exact is_iff.mpr ⟨s, hq, rfl⟩

private theorem zeroOrNan {X E : Type} {p : X → F32 → Except E (F32 × X)} {m : X} (h : Inverts p m m) : ZeroOrNan p m := by
  intro x hx n y hy
  have := h x x (fun i => flipped_zero (hx i)) n
  rw [hy] at this
  exact flipped_self this

/-- IEEE, all parameters: from rest, silence is never turned into a sound: each effect outputs zero (or NaN) at every sample. There is no
hum, hiss, offset or self-oscillation. -/
theorem C181_effects [Libm F64] (a : F32) (d d' d'' : Duration) (g fc r q : F64) (zs ps : List (ℕ × F32)) :
    ZeroOrNan (Modifier.process (S := F32)) (Gain.new a) ∧
    ZeroOrNan (Modifier.process (S := F32)) Passthrough.mk ∧
    ZeroOrNan (Modifier.process (S := F32)) (Delay.new F64 d : Delay F32) ∧
    ZeroOrNan (Modifier.process (S := F32)) (Echo.new d g : Echo F32) ∧
    ZeroOrNan (Modifier.process (S := F32)) (Generic.new zs ps) ∧
    ZeroOrNan (Modifier.process (S := F32)) (LowPass.new fc r : LowPass F32 F64) ∧
    ZeroOrNan (Modifier.process (S := F32)) (HighPass.new fc r : HighPass F32 F64) ∧
    ZeroOrNan (Modifier.process (S := F32)) (BandPass.new fc q : BandPass F32 F64) ∧
    ZeroOrNan (Modifier.process (S := F32)) (BandPass.fromCorners (fc, q) : BandPass F32 F64) ∧
    ZeroOrNan (Modifier.process (S := F32)) (ADSR.new (M := F64) d d' g d'' : ADSR F32) := by
  obtain ⟨h1, h2, h3, h4, h5, h6, h7, h8, h9, h10⟩ := C169_effects a d d' d'' g fc r q zs ps
  exact ⟨zeroOrNan h1, zeroOrNan h2, zeroOrNan h3, zeroOrNan h4, zeroOrNan h5, zeroOrNan h6, zeroOrNan h7, zeroOrNan h8, zeroOrNan h9, zeroOrNan h10⟩

/-- The same for networks of any shape, with loops, shared blocks and any wiring, whose blocks have played nothing yet. -/
theorem C181_network {X : Type} [Modifier X F32] {RX : X → X → Prop} (hX : OddStep (Modifier.process (X := X) (S := F32)) RX)
    (h : Heap (StandardBlock Zero X StdInter F32)) (hh : ∀ c ∈ h, ∃ m, RX m m ∧ c.val = StandardBlock.fromModifier m) (c : ComplexSound)
    (xs : List F32) (hx : ∀ x ∈ xs, x.Is 0) (ys : List F32) (h' : Heap (StandardBlock Zero X StdInter F32))
    (hr : runSound ComplexSound.process c h xs = .ok (ys, h')) : ∀ y ∈ ys, y.Is 0 ∨ y = .nan := by
  have := C169_fresh hX h hh c (List.forall₂_same.mpr (fun x hxm => flipped_zero (hx x hxm)))
  rw [hr] at this
  exact fun y hy => flipped_self (List.forall₂_same.mp this y hy)

/-- The same for a chain of effects in a SimpleSound. -/
theorem C181_chain {X : Type} [Modifier X F32] {RX : X → X → Prop} (hX : OddStep (Modifier.process (X := X) (S := F32)) RX)
    (h : Heap (StandardBlock Zero X StdInter F32)) (hh : ∀ c ∈ h, ∃ m, RX m m ∧ c.val = StandardBlock.fromModifier m) (s : SimpleSound F32)
    (xs : List F32) (hx : ∀ x ∈ xs, x.Is 0) (ys : List F32) (h' : Heap (StandardBlock Zero X StdInter F32))
    (hr : runSound SimpleSound.process s h xs = .ok (ys, h')) : ∀ y ∈ ys, y.Is 0 ∨ y = .nan := by
  have hB : OddBlock (StandardBlock.Mirror (fun _ _ : Zero => True) RX) := C169_block (fun _ _ _ => ⟨Flipped.zero, trivial⟩) hX
  have hm : Heap.Mirror (StandardBlock.Mirror (fun _ _ : Zero => True) RX) h h := by
    unfold Heap.Mirror
    rw [List.forall₂_same]
    intro c hc
    obtain ⟨m, hm, e⟩ := hh c hc
    rw [e]
    exact ⟨rfl, rfl, rfl, rfl, Flipped.zero, hm, fun _ => trivial, fun _ => rfl⟩
  have := C169_chain hB s hm (List.forall₂_same.mpr (fun x hxm => flipped_zero (hx x hxm)))
  rw [hr] at this
  exact fun y hy => flipped_self (List.forall₂_same.mp this.1 y hy)

/-- NaN does occur: an infinite gain turns silence into NaN. -/
theorem C181_nan_violated : ∃ a : F32, ∀ n, modOut (Modifier.process (S := F32)) (fun _ => lit 0) (Gain.new a) n = .ok .nan := by
  refine ⟨.inf false, fun n => ?_⟩
  have h : ∀ n, modAfter (Modifier.process (S := F32)) (fun _ => lit 0) (Gain.new (.inf false : F32)) n = .ok (Gain.new (.inf false)) := by
    intro n
    induction n with
    | zero => rfl
    | succ n ih => simp only [modAfter, ih]; rfl
  rw [modOut, h n]
  show Except.ok ((lit 0 : F32) * .inf false) = _
  decide +kernel

/-! ## Finite coefficients -/

private theorem fits0 (f : Fmt) : f.Fits 0 := Fmt.fits_of_repr f.repr_zero (by rw [abs_zero]; exact pow2_pos _)
private theorem zmul {f : Fmt} {c z : Fl f} (hc : Number c) (hz : z.Is 0) : (c * z).Is 0 := by
  obtain ⟨q, hq⟩ := hc
  have := hq.mul hz (by rw [mul_zero]; exact fits0 f)
  rwa [mul_zero, f.rnd_zero] at this
private theorem zmul' {f : Fmt} {c z : Fl f} (hc : Number c) (hz : z.Is 0) : (z * c).Is 0 := by
  obtain ⟨q, hq⟩ := hc
  have := hz.mul hq (by rw [zero_mul]; exact fits0 f)
  rwa [zero_mul, f.rnd_zero] at this
private theorem zadd {f : Fmt} {x z : Fl f} (hx : x.Is 0) (hz : z.Is 0) : (x + z).Is 0 := by
  have := hx.add hz (by rw [add_zero]; exact fits0 f)
  rwa [add_zero, f.rnd_zero] at this
private theorem zsub {f : Fmt} {x z : Fl f} (hx : x.Is 0) (hz : z.Is 0) : (x - z).Is 0 := by
  have := hx.sub hz (by rw [sub_zero]; exact fits0 f)
  rwa [sub_zero, f.rnd_zero] at this
private theorem zup {x : F32} (hx : x.Is 0) : (SM.up x : F64).Is 0 := by
  have := Is.conv (g := b64) hx (fits0 b64)
  rwa [Fmt.rnd_zero] at this
private theorem zdown {x : F64} (hx : x.Is 0) : (SM.down x : F32).Is 0 := by
  have := Is.conv (g := b32) hx (fits0 b32)
  rwa [Fmt.rnd_zero] at this
private theorem zdflt : (dflt : F32).Is 0 := by decide +kernel
private theorem zabs {x : F32} (hx : x.Is 0) : (Flt.abs x).Is 0 := by
  have := hx.abs
  rwa [abs_zero] at this

private theorem stays {X E : Type} {p : X → F32 → Except E (F32 × X)} (I : X → Prop)
    (step : ∀ m x, I m → x.Is 0 → ∃ y m', p m x = .ok (y, m') ∧ y.Is 0 ∧ I m') {m : X} (hm : I m) : StaysSilent p m := by
  intro x hx n
  have h : ∀ n, ∃ m', modAfter p x m n = .ok m' ∧ I m' := by
    intro n
    induction n with
    | zero => exact ⟨m, rfl, hm⟩
    | succ n ih =>
      obtain ⟨m', e, hi⟩ := ih
      obtain ⟨y, m'', e', _, hi'⟩ := step m' (x n) hi (hx n)
      exact ⟨m'', modAfter_succ e e', hi'⟩
  obtain ⟨m', e, hi⟩ := h n
  obtain ⟨y, m'', e', hy, _⟩ := step m' (x n) hi (hx n)
  exact ⟨y, modOut_of e e', hy⟩

/-- IEEE: an effect at rest whose coefficients are numbers stays silent for ever, without panic. Missing: infinite and NaN coefficients, for
which it does not. -/
theorem C181_filters_partial (lp : LowPass F32 F64) (hp : HighPass F32 F64) (bp : BandPass F32 F64) (ev : Envelope F32)
    (hl : Number lp.c0 ∧ Number lp.c1 ∧ Number lp.c2 ∧ Number lp.c3)
    (hh : Number hp.a0 ∧ Number hp.a1 ∧ Number hp.a2 ∧ Number hp.a3 ∧ Number hp.b1 ∧ Number hp.b2 ∧ Number hp.b3)
    (hb : Number bp.a0 ∧ Number bp.b1 ∧ Number bp.b2)
    (he : Number ev.au ∧ Number ev.bu ∧ Number ev.ad ∧ Number ev.bd) :
    StaysSilent (Modifier.process (S := F32)) lp.clone ∧ StaysSilent (Modifier.process (S := F32)) hp.clone ∧
    StaysSilent (Modifier.process (S := F32)) bp.clone ∧ StaysSilent (Modifier.process (S := F32)) ev.clone := by
  refine ⟨?_, ?_, ?_, ?_⟩
  · refine stays (fun m : LowPass F32 F64 => (Number m.c0 ∧ Number m.c1 ∧ Number m.c2 ∧ Number m.c3) ∧ m.o0.Is 0 ∧ m.o1.Is 0 ∧ m.o2.Is 0) ?_ ⟨hl, zdflt, zdflt, zdflt⟩
    rintro m x ⟨⟨h0, h1, h2, h3⟩, z0, z1, z2⟩ hx
    have hy := zadd (zadd (zadd (zmul h0 hx) (zmul h1 z0)) (zmul h2 z1)) (zmul h3 z2)
    exact ⟨_, _, rfl, hy, ⟨h0, h1, h2, h3⟩, hy, z0, z1⟩
  · refine stays (fun m : HighPass F32 F64 => (Number m.a0 ∧ Number m.a1 ∧ Number m.a2 ∧ Number m.a3 ∧ Number m.b1 ∧ Number m.b2 ∧ Number m.b3) ∧
      m.x1.Is 0 ∧ m.x2.Is 0 ∧ m.x3.Is 0 ∧ m.y1.Is 0 ∧ m.y2.Is 0 ∧ m.y3.Is 0) ?_ ⟨hh, zdflt, zdflt, zdflt, zdflt, zdflt, zdflt⟩
    rintro m x ⟨hc, x1, x2, x3, y1, y2, y3⟩ hx
    obtain ⟨a0, a1, a2, a3, b1, b2, b3⟩ := hc
    have hy := zadd (zadd (zadd (zadd (zadd (zadd (zmul a0 hx) (zmul a1 x1)) (zmul a2 x2)) (zmul a3 x3)) (zmul b1 y1)) (zmul b2 y2)) (zmul b3 y3)
    exact ⟨_, _, rfl, hy, ⟨a0, a1, a2, a3, b1, b2, b3⟩, hx, x1, x2, hy, y1, y2⟩
  · refine stays (fun m : BandPass F32 F64 => (Number m.a0 ∧ Number m.b1 ∧ Number m.b2) ∧ m.x1.Is 0 ∧ m.x2.Is 0 ∧ m.y1.Is 0 ∧ m.y2.Is 0) ?_
      ⟨hb, zdflt, zdflt, zdflt, zdflt⟩
    rintro m x ⟨⟨a0, b1, b2⟩, x1, x2, y1, y2⟩ hx
    have hy := zdown (zsub (zadd (zmul a0 (zup (zsub hx x2))) (zmul b1 (zup y1))) (zmul b2 (zup y2)))
    exact ⟨_, _, rfl, hy, ⟨a0, b1, b2⟩, hx, x1, hy, y1⟩
  · refine stays (fun m : Envelope F32 => (Number m.au ∧ Number m.bu ∧ Number m.ad ∧ Number m.bd) ∧ m.x1.Is 0 ∧ m.y1.Is 0) ?_ ⟨he, zdflt, zdflt⟩
    rintro m x ⟨⟨au, bu, ad, bd⟩, x1, y1⟩ hx
    have hs := zadd (zabs hx) (zabs x1)
    have hy : (m.process x).1.Is 0 := by
      unfold Envelope.process
      dsimp only
      split_ifs
      · exact zadd (zmul au hs) (zmul bu y1)
      · exact zadd (zmul ad hs) (zmul bd y1)
    exact ⟨_, _, rfl, hy, ⟨au, bu, ad, bd⟩, hx, hy⟩

/-- The same for gain, delay and echo: a gain that is a number, any delay, an echo of at least one sample. -/
theorem C181_delays_partial (a : F32) (d : Duration) (m : Echo F32) (ha : Number a) (hg : Number m.gain) (hm : m.delay ≠ []) (hz : ∀ x ∈ m.delay, x.Is 0) :
    StaysSilent (Modifier.process (S := F32)) (Gain.new a) ∧ StaysSilent (Modifier.process (S := F32)) (Delay.new F64 d : Delay F32) ∧
    StaysSilent (Modifier.process (S := F32)) m := by
  refine ⟨?_, ?_, ?_⟩
  · refine stays (fun m : Gain F32 => Number m.a) ?_ ha
    intro m x h hx
    exact ⟨_, _, rfl, zmul' h hx, h⟩
  · refine stays (fun m : Delay F32 => ∀ x ∈ m.delay, x.Is 0) ?_ (fun x hx => ?_)
    · intro m x h hx
      cases hd : m.delay ++ [x] with
      | nil => simp at hd
      | cons y q =>
        have hall : ∀ z ∈ y :: q, z.Is 0 := by
          rw [← hd]
          intro z hz
          rcases List.mem_append.mp hz with hz | hz
          · exact h z hz
          · rw [List.mem_singleton.mp hz]; exact hx
        refine ⟨y, ⟨q⟩, ?_, hall y List.mem_cons_self, fun z hz => hall z (List.mem_cons_of_mem _ hz)⟩
        show Delay.process m x = _
        unfold Delay.process
        rw [hd]
    · rw [List.eq_of_mem_replicate hx]; exact zdflt
  · refine stays (fun m : Echo F32 => Number m.gain ∧ m.delay ≠ [] ∧ ∀ x ∈ m.delay, x.Is 0) ?_ ⟨hg, hm, hz⟩
    rintro m x ⟨h, hne, hz⟩ hx
    cases hd : m.delay with
    | nil => exact absurd hd hne
    | cons y q =>
      rw [hd] at hz
      have hw := zadd (zmul' h (hz y List.mem_cons_self)) hx
      refine ⟨y * m.gain + x, { m with delay := q ++ [y * m.gain + x] }, ?_, hw, h, by simp, fun z hzm => ?_⟩
      · show Echo.process m x = _
        unfold Echo.process
        rw [hd]
      · rcases List.mem_append.mp hzm with hzm | hzm
        · exact hz z (List.mem_cons_of_mem _ hzm)
        · rw [List.mem_singleton.mp hzm]; exact hw

/-! ## Examples -/

example : Silent (fun i => if i % 2 = 0 then lit 0 else -lit 0) := by
  intro i
  dsimp only
  split_ifs <;> decide +kernel
example : ((runSound ComplexSound.process halfSound halfHeap [lit 0, -lit 0]).map Prod.fst).toOption = some [lit 0, (lit 0 : F32)] := by
  decide +kernel
example (ys : List F32) (h' : Heap (ComplexSound.GainBlock F32)) (hr : runSound ComplexSound.process halfSound halfHeap [lit 0, lit 0] = .ok (ys, h')) :
    ∀ y ∈ ys, y.Is 0 ∨ y = .nan :=
  C181_network (RX := fun m m' : Gain F32 => m = m') odd_gain halfHeap (by simp [halfHeap]) halfSound [lit 0, lit 0]
    (by intro x hx; simp only [List.mem_cons, List.not_mem_nil, or_false, or_self] at hx; rw [hx]; decide +kernel) ys h' hr
/-- A low-pass filter of gain one half and feedback one half, an echo of two samples. -/
example : Number (lit (1 / 2) : F32) ∧ Number (lit 0 : F32) ∧ Number (lit (-3) : F32) :=
  ⟨⟨1 / 2, by decide +kernel⟩, ⟨0, by decide +kernel⟩, ⟨-3, by decide +kernel⟩⟩
example : StaysSilent (Modifier.process (S := F32)) (⟨[lit 0, lit 0], lit (1 / 2)⟩ : Echo F32) :=
  (C181_delays_partial (lit 1) ⟨0, 100000, by decide, by decide⟩ ⟨[lit 0, lit 0], lit (1 / 2)⟩ ⟨1, by decide +kernel⟩ ⟨1 / 2, by decide +kernel⟩ (by simp)
    (by intro x hx; simp only [List.mem_cons, List.not_mem_nil, or_false, or_self] at hx; rw [hx]; decide +kernel)).2.2

end Verif
