import Verif.Props.SimpleSound
import Verif.Spec.Filter

/-! # C169: turning a sound upside down

`Flipped` is the specification: the same datum with the sign changed, where the two zeros are not told apart. Everything
here is about IEEE arithmetic, so nothing is lost to rounding. -/

namespace Verif
open Flt

/-! ## Specification -/

/-- `y` is `x` turned upside down; `+0` and `-0` count as the same. -/
def Flipped {f : Fmt} : Fl f → Fl f → Prop
  | .nan, .nan => True
  | .inf s, .inf t => t = !s
  | .fin _ a _, .fin _ b _ => b = -a
  | _, _ => False

instance {f : Fmt} (x y : Fl f) : Decidable (Flipped x y) := by
  cases x <;> cases y <;> unfold Flipped <;> infer_instance

/-- Both fail, for the same reason, or both succeed with related results. -/
def BothOr {E α β : Type} (R : α → β → Prop) : Except E α → Except E β → Prop
  | .ok a, .ok b => R a b
  | .error e, .error e' => e = e'
  | _, _ => False

/-- An effect in states `m` and `m'`: opposite inputs give opposite outputs, for ever. -/
def Inverts {f : Fmt} {X E : Type} (p : X → Fl f → Except E (Fl f × X)) (m m' : X) : Prop :=
  ∀ x x' : ℕ → Fl f, (∀ i, Flipped (x i) (x' i)) → ∀ n, BothOr Flipped (modOut p x m n) (modOut p x' m' n)

/-- A source in states `g` and `g'` (run as an effect that takes no notice of its input): outputs are opposite, for ever. -/
def Opposed {f : Fmt} {G E : Type} (p : G → Except E (Fl f × G)) (g g' : G) : Prop :=
  ∀ (x : ℕ → Fl f) (n : ℕ), BothOr Flipped (modOut (fun g _ => p g) x g n) (modOut (fun g _ => p g) x g' n)

/-- One step of an effect keeps `R` between the states of the two copies. -/
def OddStep {f : Fmt} {X E : Type} (p : X → Fl f → Except E (Fl f × X)) (R : X → X → Prop) : Prop :=
  ∀ m m' x x', R m m' → Flipped x x' → BothOr (fun a b => Flipped a.1 b.1 ∧ R a.2 b.2) (p m x) (p m' x')

/-! ## Arithmetic -/
namespace Flipped
variable {f g : Fmt} {x x' y y' : Fl f}

theorem symm (h : Flipped x x') : Flipped x' x := by
  cases x <;> cases x' <;> simp_all [Flipped]

theorem neg (x : Fl f) : Flipped x x.neg := by cases x <;> simp [Flipped, Fl.neg]

theorem ofQ (z z' : Bool) (q : ℚ) : Flipped (Fl.ofQ z q : Fl f) (Fl.ofQ z' (-q)) := by
  unfold Fl.ofQ
  have h : |f.rnd (-q)| = |f.rnd q| := by rw [f.rnd_neg, abs_neg]
  by_cases hq : |f.rnd q| < pow2 (f.emax + 1)
  · rw [dif_pos hq, dif_pos (by rw [h]; exact hq)]
    exact f.rnd_neg q
  · rw [dif_neg hq, dif_neg (by rw [h]; exact hq)]
    have h0 : q ≠ 0 := by
      rintro rfl
      exact hq (by rw [f.rnd_zero, abs_zero]; exact pow2_pos _)
    change decide (-q < 0) = !decide (q < 0)
    rcases lt_or_gt_of_ne h0 with h1 | h1
    · simp [h1, not_lt.mpr h1.le]
    · simp [h1, not_lt.mpr h1.le]

theorem ofQ' (z z' : Bool) {q q' : ℚ} (h : q' = -q) : Flipped (Fl.ofQ z q : Fl f) (Fl.ofQ z' q') := by
  subst h; exact ofQ z z' q

theorem zero : Flipped (dflt : Fl f) dflt := ofQ' false false (by norm_num)

theorem add (h : Flipped x x') (k : Flipped y y') : Flipped (x + y) (x' + y') := by
  change Flipped (Fl.add x y) (Fl.add x' y')
  cases x <;> cases x' <;> simp only [Flipped] at h <;> cases y <;> cases y' <;> simp only [Flipped] at k <;> try trivial
  · subst h; subst k
    rename_i s t
    cases s <;> cases t <;> simp [Fl.add, Flipped]
  · exact ofQ' _ _ (by rw [h, k]; ring)

theorem flip (h : Flipped x x') : Flipped x.neg x'.neg := by
  cases x <;> cases x' <;> simp_all [Flipped, Fl.neg]

theorem sub (h : Flipped x x') (k : Flipped y y') : Flipped (x - y) (x' - y') := add h (flip k)

theorem mulL (c : Fl f) (h : Flipped x x') : Flipped (c * x) (c * x') := by
  change Flipped (Fl.mul c x) (Fl.mul c x')
  cases x <;> cases x' <;> simp only [Flipped] at h <;> cases c <;> try trivial
  · subst h
    rename_i s t
    cases s <;> cases t <;> simp [Fl.mul, Flipped]
  · subst h
    rename_i s t b _
    by_cases hb : b = 0
    · simp [Fl.mul, hb, Flipped]
    · cases s <;> cases t <;> simp [Fl.mul, hb, Flipped]
  · rename_i s a ha t b hb u
    subst h
    by_cases h0 : a = 0
    · simp [Fl.mul, h0, Flipped]
    · have hs : t = !s := by
        rcases lt_or_gt_of_ne h0 with h1 | h1
        · rw [ha.2.2.1 h1, hb.2.2.2 (by linarith)]; rfl
        · rw [ha.2.2.2 h1, hb.2.2.1 (by linarith)]; rfl
      subst hs
      cases s <;> cases u <;> simp [Fl.mul, h0, Flipped]
  · exact ofQ' _ _ (by rw [h]; ring)

theorem mul_comm (x y : Fl f) : x * y = y * x := by
  change Fl.mul x y = Fl.mul y x
  cases x <;> cases y <;> try rfl
  · simp [Fl.mul, Bool.xor_comm]
  · simp [Fl.mul, Bool.xor_comm]
  · simp [Fl.mul, Bool.xor_comm]
  · simp only [Fl.mul]; rw [Bool.xor_comm, _root_.mul_comm]

theorem mulR (c : Fl f) (h : Flipped x x') : Flipped (x * c) (x' * c) := by
  rw [mul_comm x, mul_comm x']; exact mulL c h

theorem divR (c : Fl f) (h : Flipped x x') : Flipped (x / c) (x' / c) := by
  change Flipped (Fl.div x c) (Fl.div x' c)
  cases x <;> cases x' <;> simp only [Flipped] at h <;> cases c <;> try trivial
  · subst h
    rename_i s t b _
    cases s <;> cases t <;> simp [Fl.div, Flipped]
  · exact ofQ' _ _ (by norm_num)
  · rename_i s a ha t b hb u c hc
    subst h
    by_cases hz : c = 0
    · by_cases h0 : a = 0
      · simp [Fl.div, h0, hz, Flipped]
      · have hs : t = !s := by
          rcases lt_or_gt_of_ne h0 with h1 | h1
          · rw [ha.2.2.1 h1, hb.2.2.2 (by linarith)]; rfl
          · rw [ha.2.2.2 h1, hb.2.2.1 (by linarith)]; rfl
        subst hs
        cases s <;> cases u <;> simp [Fl.div, h0, hz, Flipped]
    · simp only [Fl.div, hz, if_false]
      exact ofQ' _ _ (by ring)

theorem conv (h : Flipped x x') : Flipped (Fl.conv x : Fl g) (Fl.conv x') := by
  cases x <;> cases x' <;> simp only [Flipped] at h <;> try trivial
  exact ofQ' _ _ h

theorem abs_eq (h : Flipped x x') : Flt.abs x = Flt.abs x' := by
  change Fl.abs x = Fl.abs x'
  cases x <;> cases x' <;> simp only [Flipped] at h <;> try trivial
  subst h
  simp [Fl.abs]

/-- The null test: a finite sample and its opposite add up to zero exactly; NaN and the infinities do not cancel. -/
theorem cancel (h : Flipped x x') : (∀ s q hq, x = .fin s q hq → ∃ t ht, x + x' = .fin t 0 ht) ∧
    ((x = .nan ∨ ∃ s, x = .inf s) → x + x' = .nan) := by
  constructor
  · rintro s q hq rfl
    cases x' <;> simp only [Flipped] at h
    subst h
    change ∃ t ht, Fl.ofQ _ (q + -q) = Fl.fin t 0 ht
    rw [add_neg_cancel]
    unfold Fl.ofQ
    have h0 : |f.rnd 0| < pow2 (f.emax + 1) := by rw [f.rnd_zero, abs_zero]; exact pow2_pos _
    rw [dif_pos h0]
    simp only [f.rnd_zero]
    exact ⟨_, ⟨(f.rnd_zero ▸ f.repr_rnd 0), by rw [abs_zero]; exact pow2_pos _, fun h => absurd h (lt_irrefl 0), fun h => absurd h (lt_irrefl 0)⟩, rfl⟩
  · rintro (rfl | ⟨s, rfl⟩)
    · rfl
    · cases x' <;> simp only [Flipped] at h
      subst h
      change Fl.add _ _ = _
      cases s <;> simp [Fl.add]
end Flipped

/-! ## Running -/
private theorem bothOr_bind {E α β γ δ : Type} {P : α → β → Prop} {Q : γ → δ → Prop} {x : Except E α} {y : Except E β} {k : α → Except E γ}
    {l : β → Except E δ} (h : BothOr P x y) (hk : ∀ a b, P a b → BothOr Q (k a) (l b)) : BothOr Q (x >>= k) (y >>= l) := by
  cases x <;> cases y
  · exact h
  · exact h.elim
  · exact h.elim
  · exact hk _ _ h

section
variable {f : Fmt} {X E : Type} {p : X → Fl f → Except E (Fl f × X)} {R : X → X → Prop}

theorem OddStep.run (hp : OddStep p R) {m m' : X} (hR : R m m') : Inverts p m m' := by
  intro x x' hx
  have key : ∀ n, BothOr R (modAfter p x m n) (modAfter p x' m' n) := by
    intro n
    induction n with
    | zero => exact hR
    | succ n ih =>
      simp only [modAfter]
      revert ih
      cases modAfter p x m n <;> cases modAfter p x' m' n <;> intro ih <;> simp only [BothOr] at ih ⊢
      · exact ih
      · rename_i a b
        have := hp a b (x n) (x' n) ih (hx n)
        revert this
        cases p a (x n) <;> cases p b (x' n) <;> simp only [BothOr, Except.map]
        · exact fun h => h
        · exact fun h => h.elim
        · exact fun h => h.elim
        · exact fun h => h.2
  intro n
  have h := key n
  simp only [modOut]
  revert h
  cases modAfter p x m n <;> cases modAfter p x' m' n <;> intro h <;> simp only [BothOr] at h ⊢
  · exact h
  · rename_i a b
    have := hp a b (x n) (x' n) h (hx n)
    revert this
    cases p a (x n) <;> cases p b (x' n) <;> simp only [BothOr, Except.map]
    · exact fun h => h
    · exact fun h => h.elim
    · exact fun h => h.elim
    · exact fun h => h.1
end

section
variable {f : Fmt} {G E : Type} {p : G → Except E (Fl f × G)} {R : G → G → Prop}

theorem opposed_run (hp : ∀ g g', R g g' → BothOr (fun a b => Flipped a.1 b.1 ∧ R a.2 b.2) (p g) (p g')) {g g' : G} (hR : R g g') :
    Opposed p g g' := by
  intro x n
  have e : ∀ (y : ℕ → Fl f) g n, modAfter (fun g (_ : Fl f) => p g) y g n = modAfter (fun g (_ : Fl f) => p g) x g n := by
    intro y g n
    induction n with
    | zero => rfl
    | succ n ih => simp only [modAfter, ih]
  have h := OddStep.run (p := fun g (_ : Fl f) => p g) (R := R) (fun m m' _ _ h _ => hp m m' h) hR x (fun i => (x i).neg)
    (fun i => Flipped.neg (x i)) n
  simp only [modOut, e fun i => (x i).neg] at h ⊢
  exact h
end

/-! ## Effects -/
section
variable {f : Fmt}

private theorem opp_replicate (n : ℕ) : List.Forall₂ Flipped (List.replicate n (dflt : Fl f)) (List.replicate n dflt) := by
  induction n with
  | zero => exact .nil
  | succ n ih => exact .cons Flipped.zero ih

private theorem opp_snoc {l l' : List (Fl f)} (h : List.Forall₂ Flipped l l') {x x' : Fl f} (hx : Flipped x x') :
    List.Forall₂ Flipped (l ++ [x]) (l' ++ [x']) := by
  induction h with
  | nil => exact .cons hx .nil
  | cons a _ ih => exact .cons a ih

private theorem opp_dropLast {l l' : List (Fl f)} (h : List.Forall₂ Flipped l l') : List.Forall₂ Flipped l.dropLast l'.dropLast := by
  induction h with
  | nil => exact .nil
  | cons a t ih =>
    cases t with
    | nil => exact .nil
    | cons b t => exact .cons a ih

private theorem opp_get {l l' : List (Fl f)} (h : List.Forall₂ Flipped l l') (i : ℕ) :
    (l[i]? = none ∧ l'[i]? = none) ∨ ∃ a b, l[i]? = some a ∧ l'[i]? = some b ∧ Flipped a b := by
  induction h generalizing i with
  | nil => left; simp
  | cons a _ ih =>
    cases i with
    | zero => right; exact ⟨_, _, rfl, rfl, a⟩
    | succ i => simpa using ih i

/-- Two copies of a gain. -/
theorem odd_gain : OddStep (fun (m : Gain (Fl f)) x => (.ok (m.process x) : Res _)) (fun m m' => m = m') := by
  rintro m m' x x' rfl hx
  exact ⟨Flipped.mulR _ hx, rfl⟩

theorem odd_passthrough : OddStep (fun (m : Passthrough) (x : Fl f) => (.ok (m.process x) : Res _)) (fun _ _ => True) :=
  fun _ _ _ _ _ hx => ⟨hx, trivial⟩

theorem odd_delay : OddStep (Delay.process (S := Fl f)) (fun m m' => List.Forall₂ Flipped m.delay m'.delay) := by
  intro m m' x x' hR hx
  have h := opp_snoc hR hx
  unfold Delay.process
  revert h
  cases m.delay ++ [x] <;> cases m'.delay ++ [x'] <;> intro h
  · rfl
  · cases h
  · cases h
  · cases h with
    | cons a t => exact ⟨a, t⟩

/-- Two echoes of the same gain whose lines hold opposite samples. -/
theorem odd_echo : OddStep (Echo.process (S := Fl f)) (fun m m' => m.gain = m'.gain ∧ List.Forall₂ Flipped m.delay m'.delay) := by
  rintro ⟨d, g⟩ ⟨d', g'⟩ x x' ⟨hg, hR⟩ hx
  simp only at hg; subst hg
  cases hR with
  | nil => rfl
  | cons a t =>
    have hw := Flipped.add (Flipped.mulR g a) hx
    exact ⟨hw, rfl, opp_snoc t hw⟩

private theorem odd_accum {buf buf' : List (Fl f)} (h : List.Forall₂ Flipped buf buf') (zs : List (ℕ × Fl f)) :
    ∀ y y', Flipped y y' → BothOr Flipped (Generic.accum buf zs y) (Generic.accum buf' zs y') := by
  induction zs with
  | nil => exact fun _ _ h => h
  | cons z zs ih =>
    intro y y' hy
    unfold Generic.accum
    rcases opp_get h z.1 with ⟨e, e'⟩ | ⟨a, b, e, e', hab⟩
    · rw [e, e']; rfl
    · rw [e, e']; exact ih _ _ (Flipped.add hy (Flipped.mulR _ hab))

/-- Two filters with the same taps and opposite histories. -/
def Generic.Mirror (m m' : Generic (Fl f)) : Prop :=
  m.zeros = m'.zeros ∧ m.poles = m'.poles ∧ List.Forall₂ Flipped m.inputs m'.inputs ∧ List.Forall₂ Flipped m.outputs m'.outputs

theorem odd_generic : OddStep (Generic.process (S := Fl f)) Generic.Mirror := by
  rintro ⟨z, p, i, o⟩ ⟨z', p', i', o'⟩ x x' ⟨hz, hp, hi, ho⟩ hx
  simp only at hz hp hi ho; subst hz; subst hp
  have h1 : List.Forall₂ Flipped (Generic.shift i x) (Generic.shift i' x') := opp_dropLast (.cons hx hi)
  have h2 := odd_accum h1 z dflt dflt Flipped.zero
  unfold Generic.process
  simp only
  revert h2
  cases Generic.accum (Generic.shift i x) z dflt <;> cases Generic.accum (Generic.shift i' x') z dflt <;> intro h2
  · exact h2
  · exact h2.elim
  · exact h2.elim
  · rename_i u v
    have h3 := odd_accum ho p u v h2
    change BothOr _ (Except.bind (Generic.accum o p u) _) (Except.bind (Generic.accum o' p v) _)
    revert h3
    cases Generic.accum o p u <;> cases Generic.accum o' p v <;> intro h3
    · exact h3
    · exact h3.elim
    · exact h3.elim
    · exact ⟨h3, rfl, rfl, h1, opp_dropLast (.cons h3 ho)⟩

/-- Two low-pass filters with the same settings and opposite histories. -/
def LowPass.Mirror {M : Type} (m m' : LowPass (Fl f) M) : Prop :=
  m' = { m with o0 := m'.o0, o1 := m'.o1, o2 := m'.o2 } ∧ Flipped m.o0 m'.o0 ∧ Flipped m.o1 m'.o1 ∧ Flipped m.o2 m'.o2

theorem odd_lowpass {M : Type} : OddStep (fun (m : LowPass (Fl f) M) x => (.ok (m.process x) : Res _)) LowPass.Mirror := by
  rintro m m' x x' ⟨he, h0, h1, h2⟩ hx
  rw [he]
  have hy := Flipped.add (Flipped.add (Flipped.add (Flipped.mulL m.c0 hx) (Flipped.mulL m.c1 h0)) (Flipped.mulL m.c2 h1))
    (Flipped.mulL m.c3 h2)
  exact ⟨hy, rfl, hy, h0, h1⟩

/-- Two high-pass filters with the same settings and opposite histories. -/
def HighPass.Mirror {M : Type} (m m' : HighPass (Fl f) M) : Prop :=
  m' = { m with x1 := m'.x1, x2 := m'.x2, x3 := m'.x3, y1 := m'.y1, y2 := m'.y2, y3 := m'.y3 } ∧
  Flipped m.x1 m'.x1 ∧ Flipped m.x2 m'.x2 ∧ Flipped m.x3 m'.x3 ∧ Flipped m.y1 m'.y1 ∧ Flipped m.y2 m'.y2 ∧ Flipped m.y3 m'.y3

theorem odd_highpass {M : Type} : OddStep (fun (m : HighPass (Fl f) M) x => (.ok (m.process x) : Res _)) HighPass.Mirror := by
  rintro m m' x x' ⟨he, h1, h2, h3, k1, k2, k3⟩ hx
  rw [he]
  have hy := ((((((Flipped.mulL m.a0 hx).add (Flipped.mulL m.a1 h1)).add (Flipped.mulL m.a2 h2)).add (Flipped.mulL m.a3 h3)).add
    (Flipped.mulL m.b1 k1)).add (Flipped.mulL m.b2 k2)).add (Flipped.mulL m.b3 k3)
  exact ⟨hy, rfl, hx, h1, h2, hy, k1, k2⟩

/-- Two band-pass filters with the same settings and opposite histories. -/
def BandPass.Mirror (m m' : BandPass F32 F64) : Prop :=
  m' = { m with x1 := m'.x1, x2 := m'.x2, y1 := m'.y1, y2 := m'.y2 } ∧
  Flipped m.x1 m'.x1 ∧ Flipped m.x2 m'.x2 ∧ Flipped m.y1 m'.y1 ∧ Flipped m.y2 m'.y2

theorem odd_bandpass : OddStep (fun (m : BandPass F32 F64) x => (.ok (m.process x) : Res _)) BandPass.Mirror := by
  rintro m m' x x' ⟨he, h1, h2, k1, k2⟩ hx
  rw [he]
  have hy : Flipped (Fl.conv (m.a0 * Fl.conv (x - m.x2) + m.b1 * Fl.conv m.y1 - m.b2 * Fl.conv m.y2 : F64) : F32)
      (Fl.conv (m.a0 * Fl.conv (x' - m'.x2) + m.b1 * Fl.conv m'.y1 - m.b2 * Fl.conv m'.y2 : F64)) :=
    Flipped.conv ((Flipped.add (Flipped.mulL _ (Flipped.conv (Flipped.sub hx h2))) (Flipped.mulL _ (Flipped.conv k1))).sub
      (Flipped.mulL _ (Flipped.conv k2)))
  exact ⟨hy, rfl, hx, h1, hy, k1⟩

theorem odd_adsr : OddStep (fun (m : ADSR (Fl f)) x => (.ok (m.process x) : Res _)) (fun m m' => m = m') := by
  rintro m m' x x' rfl hx
  obtain ⟨a, d, s, r, st, g⟩ := m
  cases st <;> simp only [ADSR.process, BothOr]
  · exact ⟨Flipped.mulR _ hx, trivial⟩
  · exact ⟨Flipped.mulR _ hx, trivial⟩
  · exact ⟨Flipped.mulR _ hx, trivial⟩
  · exact ⟨Flipped.mulR _ hx, trivial⟩
  · exact ⟨Flipped.zero, trivial⟩
end

/-! ## C169: effects -/

/-- Every effect but the envelope follower: inverting the input inverts the output, exactly, at every sample. -/
theorem C169_effects [Libm F64] (a : F32) (d d' d'' : Duration) (g fc r q : F64) (zs ps : List (ℕ × F32)) :
    Inverts (Modifier.process (S := F32)) (Gain.new a) (Gain.new a) ∧
    Inverts (Modifier.process (S := F32)) Passthrough.mk Passthrough.mk ∧
    Inverts (Modifier.process (S := F32)) (Delay.new F64 d : Delay F32) (Delay.new F64 d) ∧
    Inverts (Modifier.process (S := F32)) (Echo.new d g : Echo F32) (Echo.new d g) ∧
    Inverts (Modifier.process (S := F32)) (Generic.new zs ps) (Generic.new zs ps) ∧
    Inverts (Modifier.process (S := F32)) (LowPass.new fc r : LowPass F32 F64) (LowPass.new fc r) ∧
    Inverts (Modifier.process (S := F32)) (HighPass.new fc r : HighPass F32 F64) (HighPass.new fc r) ∧
    Inverts (Modifier.process (S := F32)) (BandPass.new fc q : BandPass F32 F64) (BandPass.new fc q) ∧
    Inverts (Modifier.process (S := F32)) (BandPass.fromCorners (fc, q) : BandPass F32 F64) (BandPass.fromCorners (fc, q)) ∧
    Inverts (Modifier.process (S := F32)) (ADSR.new (M := F64) d d' g d'' : ADSR F32) (ADSR.new (M := F64) d d' g d'') :=
  ⟨odd_gain.run rfl, odd_passthrough.run trivial, odd_delay.run (opp_replicate _), odd_echo.run ⟨rfl, opp_replicate _⟩,
    odd_generic.run ⟨rfl, rfl, opp_replicate _, opp_replicate _⟩,
    odd_lowpass.run ⟨rfl, Flipped.zero, Flipped.zero, Flipped.zero⟩,
    odd_highpass.run ⟨rfl, Flipped.zero, Flipped.zero, Flipped.zero, Flipped.zero, Flipped.zero, Flipped.zero⟩,
    odd_bandpass.run ⟨rfl, Flipped.zero, Flipped.zero, Flipped.zero, Flipped.zero⟩,
    odd_bandpass.run ⟨rfl, Flipped.zero, Flipped.zero, Flipped.zero, Flipped.zero⟩, odd_adsr.run rfl⟩

/-- Changing the same setting on both copies while they play keeps them mirrored. -/
theorem C169_settings [Libm F64] (fc r q : F64) :
    (∀ m m' : LowPass F32 F64, m.Mirror m' → (m.setCentralFrequency fc).Mirror (m'.setCentralFrequency fc) ∧ (m.setResonance r).Mirror (m'.setResonance r)) ∧
    (∀ m m' : HighPass F32 F64, m.Mirror m' → (m.setCentralFrequency fc).Mirror (m'.setCentralFrequency fc) ∧ (m.setResonance r).Mirror (m'.setResonance r)) ∧
    (∀ m m' : BandPass F32 F64, m.Mirror m' → (m.setCentralFrequency fc).Mirror (m'.setCentralFrequency fc) ∧ (m.setQuality q).Mirror (m'.setQuality q) ∧
      (m.setCornerFrequencies (fc, q)).Mirror (m'.setCornerFrequencies (fc, q))) := by
  refine ⟨?_, ?_, ?_⟩
  · rintro m m' ⟨he, h⟩
    rw [he]
    exact ⟨⟨rfl, h⟩, ⟨rfl, h⟩⟩
  · rintro m m' ⟨he, h⟩
    rw [he]
    exact ⟨⟨rfl, h⟩, ⟨rfl, h⟩⟩
  · rintro m m' ⟨he, h⟩
    rw [he]
    exact ⟨⟨rfl, h⟩, ⟨rfl, h⟩, ⟨rfl, h⟩⟩

/-- The envelope follower reads the same level from a signal and from its inverse. -/
theorem C169_envelope [Libm F32] (lower upper : F32) (x x' : ℕ → F32) (hx : ∀ i, Flipped (x i) (x' i)) (n : ℕ) :
    modOut Modifier.process x (Envelope.new F64 lower upper : Envelope F32) n = modOut Modifier.process x' (Envelope.new F64 lower upper : Envelope F32) n := by
  have step : ∀ (m m' : Envelope F32) (u u' : F32), (m' = { m with x1 := m'.x1 } ∧ Flipped m.x1 m'.x1) → Flipped u u' →
      (m.process u).1 = (m'.process u').1 ∧ ((m'.process u').2 = { (m.process u).2 with x1 := (m'.process u').2.x1 } ∧
        Flipped (m.process u).2.x1 (m'.process u').2.x1) := by
    rintro m m' u u' ⟨he, h1⟩ hu
    rw [he]
    simp only [Envelope.process, Flipped.abs_eq h1, Flipped.abs_eq hu]
    exact ⟨trivial, trivial, hu⟩
  have key : ∀ n, ∃ m m' : Envelope F32, modAfter Modifier.process x (Envelope.new F64 lower upper : Envelope F32) n = .ok m ∧
      modAfter Modifier.process x' (Envelope.new F64 lower upper : Envelope F32) n = .ok m' ∧ (m' = { m with x1 := m'.x1 } ∧ Flipped m.x1 m'.x1) := by
    intro n
    induction n with
    | zero => exact ⟨_, _, rfl, rfl, rfl, Flipped.zero⟩
    | succ n ih =>
      obtain ⟨m, m', e, e', h⟩ := ih
      refine ⟨(m.process (x n)).2, (m'.process (x' n)).2, ?_, ?_, (step m m' _ _ h (hx n)).2⟩
      · rw [modAfter, e]; rfl
      · rw [modAfter, e']; rfl
  obtain ⟨m, m', e, e', h⟩ := key n
  rw [modOut, e, modOut, e']
  exact congrArg Except.ok (step m m' _ _ h (hx n)).1

/-! ## C169: recorded tracks -/

/-- Two players of opposite tracks in the same position. -/
def MonoResampler.Mirror {M : Type} (r r' : MonoResampler F32 M) : Prop :=
  r' = { r with data := r'.data } ∧ List.Forall₂ (fun a b => Flipped a.mono b.mono) r.data r'.data

private theorem at_mirror {M : Type} {r r' : MonoResampler F32 M} (h : r.Mirror r') (i : ℕ) : BothOr Flipped (r.at' i) (r'.at' i) := by
  have := h.2
  unfold MonoResampler.at'
  revert this
  generalize r.data = l
  generalize r'.data = l'
  intro h
  induction h generalizing i with
  | nil => rfl
  | cons a _ ih =>
    cases i with
    | zero => exact a
    | succ i => exact ih i

private theorem resampler_mirror (r r' : MonoResampler F32 F64) (h : r.Mirror r') :
    BothOr (fun a b => Flipped a.1 b.1 ∧ a.2.Mirror b.2) r.process r'.process := by
  have hat := at_mirror h
  obtain ⟨he, hd⟩ := h
  have hl := hd.length_eq
  have hn : BothOr Flipped r.nextSample r'.nextSample := by
    unfold MonoResampler.nextSample
    rw [he]
    rw [he] at hat
    simp only
    rw [← hl]
    split
    · rfl
    · split
      · exact hat _
      · split
        · exact hat _
        · exact hat _
  unfold MonoResampler.process
  have hi : r'.ind = r.ind := by rw [he]
  have hle : r'.loopEnd = r.loopEnd := by rw [he]
  rw [← hl, hi, hle]
  split
  · exact ⟨Flipped.zero, he, hd⟩
  · revert hn
    cases r.nextSample <;> cases r'.nextSample <;> intro hn
    · exact hn
    · exact hn.elim
    · exact hn.elim
    · rename_i u v
      have ha := hat (toUsize (trunc r.ind))
      change BothOr _ (Except.bind (r.at' (toUsize (trunc r.ind))) _) (Except.bind (r'.at' (toUsize (trunc r.ind))) _)
      revert ha
      cases r.at' (toUsize (trunc r.ind)) <;> cases r'.at' (toUsize (trunc r.ind)) <;> intro ha
      · exact ha
      · exact ha.elim
      · exact ha.elim
      · refine ⟨Flipped.add ha (Flipped.mulL _ (Flipped.sub hn ha)), ?_, ?_⟩
        · rw [he]; rfl
        · exact hd

/-- A track and its inverse, played at the same rate and speed and looped in the same place, are opposite at every sample,
also where samples are interpolated; past the end both are silent, and if one panics the other does too. -/
theorem C169_tracks (t t' : List (Mono F32)) (ht : List.Forall₂ (fun a b => Flipped a.mono b.mono) t t') (rate v : F64) (ls le : ℕ) :
    Opposed MonoResampler.process ((MonoResampler.new t rate ls le).setPlaybackSpeed v) ((MonoResampler.new t' rate ls le).setPlaybackSpeed v) ∧
    Opposed (Generator.process (S := F32)) (MonoWav.fromTrack rate t) (MonoWav.fromTrack rate t') := by
  constructor
  · apply opposed_run resampler_mirror
    unfold MonoResampler.new MonoResampler.setPlaybackSpeed
    exact ⟨rfl, ht⟩
  · apply opposed_run (R := fun g g' => g.resam.Mirror g'.resam)
    · intro g g' h
      have := resampler_mirror _ _ h
      change BothOr _ (Except.bind g.resam.process _) (Except.bind g'.resam.process _)
      revert this
      cases g.resam.process <;> cases g'.resam.process <;> exact fun h => h
    · exact ⟨rfl, ht⟩

/-- Files of 16-bit and 24-bit samples: the sample of `-v` is the opposite of the sample of `v`. -/
theorem C169_encoded :
    (∀ v : Int16, v ≠ -32768 → Flipped (sampleFromI16 v : F32) (sampleFromI16 (-v))) ∧
    (∀ v : Int32, v ≠ Int32.minValue → Flipped (sampleFromI24 v : F32) (sampleFromI24 (-v))) := by
  constructor
  · intro v hv
    apply Flipped.divR
    apply Flipped.ofQ'
    have h1 := v.le_toInt
    have h2 := v.toInt_lt
    have h3 : v.toInt ≠ -32768 := fun h => hv (Int16.toInt_inj.mp (by rw [h]; decide))
    rw [Int16.toInt_neg, Int.bmod_eq_of_le (by omega) (by omega)]
    push_cast; rfl
  · intro v hv
    apply Flipped.divR
    apply Flipped.ofQ'
    have h1 := v.le_toInt
    have h2 := v.toInt_lt
    have h3 : v.toInt ≠ -2147483648 := fun h => hv (Int32.toInt_inj.mp (by rw [h]; decide))
    rw [Int32.toInt_neg, Int.bmod_eq_of_le (by omega) (by omega)]
    push_cast; rfl

/-! ## C169: blocks -/

/-- What a relation between two copies of a block must satisfy: opposite inputs keep it, and the outputs are opposite. -/
structure OddBlock {B : Type} [Block B F32] (R : B → B → Prop) : Prop where
  prime : ∀ b b' (x x' : F32), R b b' → Flipped x x' → R (Block.prime b x) (Block.prime b' x')
  process : ∀ b b', R b b' → BothOr (fun (a a' : F32 × B) => Flipped a.1 a'.1 ∧ R a.2 a'.2) (Block.process b) (Block.process b')

/-- Two copies of a standard block. If the interactor returns the generator's output the generators are opposed (`RG`), else
they are the same; modifiers are mirrored (`RX`). -/
def StandardBlock.Mirror {G X : Type} (RG : G → G → Prop) (RX : X → X → Prop) (b b' : StandardBlock G X StdInter F32) : Prop :=
  b.g.others = b'.g.others ∧ b.m.others = b'.m.others ∧ b.i = b'.i ∧ Flipped b.input b'.input ∧ RX b.m.val b'.m.val ∧
  (b.i.val = .gen → RG b.g.val b'.g.val) ∧ (b.i.val ≠ .gen → b.g.val = b'.g.val)

section
variable {G X : Type} [Generator G F32] [Modifier X F32] {RG : G → G → Prop} {RX : X → X → Prop}

omit [Generator G F32] [Modifier X F32] in
private theorem gen_res {p p' : Res (F32 × G)} (i : StdInter)
    (h1 : i = .gen → BothOr (fun a b => Flipped a.1 b.1 ∧ RG a.2 b.2) p p') (h2 : i ≠ .gen → p = p') :
    BothOr (fun a b => (i = .gen → Flipped a.1 b.1 ∧ RG a.2 b.2) ∧ (i ≠ .gen → a = b)) p p' := by
  by_cases hi : i = .gen
  · have := h1 hi
    revert this
    cases p <;> cases p' <;> intro h
    · exact h
    · exact h
    · exact h
    · exact ⟨fun _ => h, fun h => absurd hi h⟩
  · rw [h2 hi]
    cases p'
    · rfl
    · exact ⟨fun h => absurd h hi, fun _ => rfl⟩

omit [Generator G F32] [Modifier X F32] in
private theorem arc_res {α : Type} {P : α → α → Prop} {a a' : α} {n : ℕ} (h : P a a') :
    BothOr P (Arc.getMutUnwrap ⟨a, n⟩) (Arc.getMutUnwrap ⟨a', n⟩) := by
  unfold Arc.getMutUnwrap
  by_cases hn : n = 0
  · simp only [if_pos hn]; exact h
  · simp only [if_neg hn]; rfl

/-- A block built from mirrored parts inverts: with `default_interactor` or `modifier_passthrough` whatever its generator is,
with `generator_passthrough` if the two generators are opposed. -/
theorem C169_block (hG : ∀ g g', RG g g' → BothOr (fun (a b : F32 × G) => Flipped a.1 b.1 ∧ RG a.2 b.2) (Generator.process g) (Generator.process g'))
    (hX : OddStep (Modifier.process (X := X) (S := F32)) RX) : OddBlock (StandardBlock.Mirror RG RX) where
  prime := by
    rintro b b' x x' ⟨h1, h2, h3, h4, h5, h6⟩ hx
    exact ⟨h1, h2, h3, Flipped.add h4 hx, h5, h6⟩
  process := by
    rintro ⟨⟨g, ng⟩, ⟨m, nm⟩, ⟨i, ni⟩, u⟩ ⟨⟨g', ng'⟩, ⟨m', nm'⟩, i', u'⟩ ⟨h1, h2, h3, h4, h5, h6, h7⟩
    simp only at h1 h2 h3 h4 h5 h6 h7
    subst h1; subst h2; subst h3
    change BothOr _ (StandardBlock.process _) (StandardBlock.process _)
    unfold StandardBlock.process
    refine bothOr_bind (P := fun a b => a = i ∧ b = i) (arc_res ⟨rfl, rfl⟩) ?_
    rintro _ _ ⟨e, e'⟩
    rw [e, e']
    clear e e'
    refine bothOr_bind (P := fun a b => a = g ∧ b = g') (arc_res ⟨rfl, rfl⟩) ?_
    rintro _ _ ⟨e, e'⟩
    rw [e, e']
    clear e e'
    refine bothOr_bind (gen_res i (fun hi => hG g g' (h6 hi)) (fun hi => by rw [h7 hi])) ?_
    intro a a' hg
    refine bothOr_bind (P := fun a b => a = m ∧ b = m') (arc_res ⟨rfl, rfl⟩) ?_
    rintro _ _ ⟨e, e'⟩
    rw [e, e']
    clear e e'
    refine bothOr_bind (hX m m' u u' h5 h4) ?_
    intro c c' hm
    refine ⟨?_, rfl, rfl, rfl, Flipped.zero, hm.2, fun hi => (hg.1 hi).2, fun hi => by rw [hg.2 hi]⟩
    cases i with
    | mul =>
      have := hg.2 (by intro h; cases h)
      subst this
      exact Flipped.mulL _ hm.1
    | gen => exact (hg.1 rfl).1
    | mod => exact hm.1

end

/-! ## C169: sounds -/
section
variable {B : Type} [Block B F32] {R : B → B → Prop}

/-- Two memories with the same owners and mirrored blocks. -/
def Heap.Mirror (R : B → B → Prop) (h h' : Heap B) : Prop := List.Forall₂ (fun c c' => c.refs = c'.refs ∧ R c.val c'.val) h h'

omit [Block B F32] in
private theorem heap_get {h h' : Heap B} (hh : Heap.Mirror R h h') (a : ℕ) :
    (h[a]? = none ∧ h'[a]? = none) ∨ ∃ c c', h[a]? = some c ∧ h'[a]? = some c' ∧ c.refs = c'.refs ∧ R c.val c'.val := by
  unfold Heap.Mirror at hh
  induction hh generalizing a with
  | nil => left; simp
  | cons e _ ih =>
    cases a with
    | zero => right; exact ⟨_, _, rfl, rfl, e⟩
    | succ a => simpa using ih a

omit [Block B F32] in
private theorem heap_getMut {h h' : Heap B} (hh : Heap.Mirror R h h') (a : ℕ) :
    (h.getMut a = none ∧ h'.getMut a = none) ∨ ∃ b b', h.getMut a = some b ∧ h'.getMut a = some b' ∧ R b b' := by
  unfold Heap.getMut
  rcases heap_get hh a with ⟨e, e'⟩ | ⟨c, c', e, e', hr, hR⟩
  · left; rw [e, e']; exact ⟨rfl, rfl⟩
  · rw [e, e']
    simp only [← hr]
    by_cases h1 : c.refs = 1
    · right; exact ⟨_, _, if_pos h1, if_pos h1, hR⟩
    · left; exact ⟨if_neg h1, if_neg h1⟩

omit [Block B F32] in
private theorem heap_set {h h' : Heap B} (hh : Heap.Mirror R h h') (a : ℕ) {c c' : Cell B} (hc : c.refs = c'.refs ∧ R c.val c'.val) :
    Heap.Mirror R (h.set a c) (h'.set a c') := by
  unfold Heap.Mirror at hh ⊢
  induction hh generalizing a with
  | nil => exact .nil
  | cons e t ih =>
    cases a with
    | zero => exact .cons hc t
    | succ a => exact .cons e (ih a)

omit [Block B F32] in
private theorem heap_put {h h' : Heap B} (hh : Heap.Mirror R h h') (a : ℕ) {b b' : B} (hb : R b b') : Heap.Mirror R (h.put a b) (h'.put a b') := by
  unfold Heap.put
  rcases heap_get hh a with ⟨e, e'⟩ | ⟨c, c', e, e', hr, hR⟩
  · rw [e, e']; exact hh
  · rw [e, e']; exact heap_set hh a ⟨hr, hb⟩

/-- Output and memory after a step: opposite outputs, mirrored memories. -/
def StepMirror (R : B → B → Prop) (a a' : F32 × Heap B) : Prop := Flipped a.1 a'.1 ∧ Heap.Mirror R a.2 a'.2

omit [Block B F32] in
private theorem mirror_blockAt {h h' : Heap B} (hh : Heap.Mirror R h h') (g : Graph) (n : ℕ) :
    BothOr (fun a a' => a.1 = a'.1 ∧ R a.2 a'.2) (ComplexSound.blockAt h g n) (ComplexSound.blockAt h' g n) := by
  unfold ComplexSound.blockAt
  cases g.nodes[n]? with
  | none => rfl
  | some a =>
    rcases heap_getMut hh a with ⟨e, e'⟩ | ⟨b, b', e, e', hR⟩
    · simp only [e, e']; rfl
    · simp only [e, e']; exact ⟨rfl, hR⟩

private theorem mirror_primeNode (hB : OddBlock R) {h h' : Heap B} (hh : Heap.Mirror R h h') (g : Graph) (n : ℕ) {x x' : F32} (hx : Flipped x x') :
    BothOr (Heap.Mirror R) (ComplexSound.primeNode h g n x) (ComplexSound.primeNode h' g n x') := by
  unfold ComplexSound.primeNode
  refine bothOr_bind (mirror_blockAt hh g n) ?_
  rintro ⟨a, b⟩ ⟨a', b'⟩ ⟨ha, hb⟩
  simp only at ha hb
  subst ha
  exact heap_put hh a (hB.prime _ _ _ _ hb hx)

private theorem mirror_primeAll (hB : OddBlock R) (g : Graph) {x x' : F32} (hx : Flipped x x') (ns : List ℕ) :
    ∀ h h' : Heap B, Heap.Mirror R h h' → BothOr (Heap.Mirror R) (ComplexSound.primeAll g x ns h) (ComplexSound.primeAll g x' ns h') := by
  induction ns with
  | nil => exact fun _ _ h => h
  | cons n ns ih => exact fun h h' hh => bothOr_bind (mirror_primeNode hB hh g n hx) ih

private theorem mirror_runOrder (hB : OddBlock R) (g : Graph) (ns : List ℕ) : ∀ (o o' : F32) (h h' : Heap B), Flipped o o' → Heap.Mirror R h h' →
    BothOr (StepMirror R) (ComplexSound.runOrder g ns o h) (ComplexSound.runOrder g ns o' h') := by
  induction ns with
  | nil => exact fun _ _ _ _ ho hh => ⟨ho, hh⟩
  | cons n ns ih =>
    intro o o' h h' _ hh
    unfold ComplexSound.runOrder
    refine bothOr_bind (mirror_blockAt hh g n) ?_
    rintro ⟨a, b⟩ ⟨a', b'⟩ ⟨ha, hb⟩
    simp only at ha hb
    subst ha
    refine bothOr_bind (hB.process _ _ hb) ?_
    rintro ⟨y, b1⟩ ⟨y', b1'⟩ ⟨hy, hb1⟩
    refine bothOr_bind (mirror_primeAll hB g hy _ _ _ (heap_put hh a hb1)) ?_
    exact fun k k' hk => ih y y' k k' hy hk

private theorem mirror_complex (hB : OddBlock R) (c : ComplexSound) {h h' : Heap B} (hh : Heap.Mirror R h h') {x x' : F32} (hx : Flipped x x') :
    BothOr (StepMirror R) (ComplexSound.process h c x) (ComplexSound.process h' c x') := by
  unfold ComplexSound.process
  split
  · exact ⟨Flipped.zero, hh⟩
  · refine bothOr_bind (mirror_primeNode hB hh _ _ hx) ?_
    intro k k' hk
    refine bothOr_bind (mirror_runOrder hB _ _ _ _ _ _ Flipped.zero hk) ?_
    rintro ⟨y, k1⟩ ⟨y', k1'⟩ ⟨hy, hk1⟩
    refine ⟨?_, hk1⟩
    change Flipped (if _ then _ else _) (if _ then _ else _)
    split
    · exact Flipped.zero
    · exact hy

private theorem mirror_runGen (hB : OddBlock R) {h h' : Heap B} (hh : Heap.Mirror R h h') (a : ℕ) {x x' : F32} (hx : Flipped x x') :
    BothOr (StepMirror R) (SimpleSound.runGen h a x) (SimpleSound.runGen h' a x') := by
  unfold SimpleSound.runGen
  rcases heap_getMut hh a with ⟨e, e'⟩ | ⟨b, b', e, e', hR⟩
  · rw [e, e']; exact ⟨Flipped.zero, hh⟩
  · rw [e, e']
    refine bothOr_bind (hB.process _ _ (hB.prime _ _ _ _ hR hx)) ?_
    rintro ⟨y, b1⟩ ⟨y', b1'⟩ ⟨hy, hb1⟩
    exact ⟨hy, heap_put hh a hb1⟩

private theorem mirror_runMods (hB : OddBlock R) (l : List ℕ) : ∀ (o o' : F32) (h h' : Heap B), Flipped o o' → Heap.Mirror R h h' →
    BothOr (StepMirror R) (SimpleSound.runMods h l o) (SimpleSound.runMods h' l o') := by
  induction l with
  | nil => intro o o' h h' ho hh; unfold SimpleSound.runMods; exact ⟨ho, hh⟩
  | cons a as ih =>
    intro o o' h h' ho hh
    unfold SimpleSound.runMods
    rcases heap_getMut hh a with ⟨e, e'⟩ | ⟨b, b', e, e', hR⟩
    · rw [e, e']; exact ih o o' h h' ho hh
    · rw [e, e']
      refine bothOr_bind (hB.process _ _ (hB.prime _ _ _ _ hR ho)) ?_
      rintro ⟨y, b1⟩ ⟨y', b1'⟩ ⟨hy, hb1⟩
      exact ih y y' _ _ hy (heap_put hh a hb1)

private theorem mirror_simple (hB : OddBlock R) (s : SimpleSound F32) {h h' : Heap B} (hh : Heap.Mirror R h h') {x x' : F32} (hx : Flipped x x') :
    BothOr (StepMirror R) (SimpleSound.process h s x) (SimpleSound.process h' s x') := by
  unfold SimpleSound.process
  split
  · exact ⟨Flipped.zero, hh⟩
  · refine bothOr_bind (mirror_runGen hB hh _ (Flipped.mulR _ hx)) ?_
    rintro ⟨y, k⟩ ⟨y', k'⟩ ⟨hy, hk⟩
    refine bothOr_bind (mirror_runMods hB _ y y' k k' hy hk) ?_
    rintro ⟨z, k1⟩ ⟨z', k1'⟩ ⟨hz, hk1⟩
    refine ⟨?_, hk1⟩
    change Flipped (if _ then _ else _) (if _ then _ else _)
    split
    · exact Flipped.zero
    · exact Flipped.mulR _ hz

omit [Block B F32] in
private theorem mirror_run {T : Type} {p : Heap B → T → F32 → Res (F32 × Heap B)} {s : T}
    (hp : ∀ h h' x x', Heap.Mirror R h h' → Flipped x x' → BothOr (StepMirror R) (p h s x) (p h' s x')) (xs xs' : List F32)
    (hx : List.Forall₂ Flipped xs xs') : ∀ h h', Heap.Mirror R h h' →
    BothOr (fun a a' => List.Forall₂ Flipped a.1 a'.1 ∧ Heap.Mirror R a.2 a'.2) (runSound p s h xs) (runSound p s h' xs') := by
  induction hx with
  | nil => exact fun _ _ hh => ⟨.nil, hh⟩
  | @cons x x' xs xs' hx _ ih =>
    intro h h' hh
    have h1 := hp h h' x x' hh hx
    unfold runSound
    revert h1
    cases p h s x <;> cases p h' s x' <;> intro h1
    · exact h1
    · exact h1.elim
    · exact h1.elim
    · rename_i a a'
      have h2 := ih a.2 a'.2 h1.2
      simp only
      revert h2
      cases runSound p s a.2 xs <;> cases runSound p s a'.2 xs' <;> intro h2
      · exact h2
      · exact h2.elim
      · exact h2.elim
      · exact ⟨.cons h1.1 h2.1, h2.2⟩

/-- A network of any shape, in any state, with blocks shared or not: a copy of it with mirrored blocks, fed the inverted input,
plays the inverted output, or panics where the first one does. -/
theorem C169_network (hB : OddBlock R) (c : ComplexSound) {h h' : Heap B} (hh : Heap.Mirror R h h') {xs xs' : List F32} (hx : List.Forall₂ Flipped xs xs') :
    BothOr (fun a a' => List.Forall₂ Flipped a.1 a'.1 ∧ Heap.Mirror R a.2 a'.2) (runSound ComplexSound.process c h xs) (runSound ComplexSound.process c h' xs') :=
  mirror_run (fun _ _ _ _ hh hx => mirror_complex hB c hh hx) xs xs' hx h h' hh

/-- The same for a chain of blocks. -/
theorem C169_chain (hB : OddBlock R) (s : SimpleSound F32) {h h' : Heap B} (hh : Heap.Mirror R h h') {xs xs' : List F32} (hx : List.Forall₂ Flipped xs xs') :
    BothOr (fun a a' => List.Forall₂ Flipped a.1 a'.1 ∧ Heap.Mirror R a.2 a'.2) (runSound SimpleSound.process s h xs) (runSound SimpleSound.process s h' xs') :=
  mirror_run (fun _ _ _ _ hh hx => mirror_simple hB s hh hx) xs xs' hx h h' hh

end

/-- The null test: what a sound plays and what its mirrored copy plays on the inverted input add up to zero exactly at every
sample that is finite, and to NaN at any other. -/
theorem C169_null {ys ys' : List F32} (h : List.Forall₂ Flipped ys ys') :
    List.Forall₂ (fun y s => (∀ t q hq, y = .fin t q hq → ∃ u hu, s = .fin u 0 hu) ∧ ((y = .nan ∨ ∃ t, y = .inf t) → s = .nan)) ys (List.zipWith (· + ·) ys ys') := by
  induction h with
  | nil => exact .nil
  | cons h _ ih => exact .cons h.cancel ih

/-- Networks of effects made of standard blocks without generators: the two copies can start from the same memory as long as
nothing has been played yet. -/
theorem C169_fresh {X : Type} [Modifier X F32] {RX : X → X → Prop} (hX : OddStep (Modifier.process (X := X) (S := F32)) RX)
    (h : Heap (StandardBlock Zero X StdInter F32)) (hh : ∀ c ∈ h, ∃ m, RX m m ∧ c.val = StandardBlock.fromModifier m) (c : ComplexSound)
    {xs xs' : List F32} (hx : List.Forall₂ Flipped xs xs') :
    BothOr (fun a a' => List.Forall₂ Flipped a.1 a'.1) (runSound ComplexSound.process c h xs) (runSound ComplexSound.process c h xs') := by
  have hB : OddBlock (StandardBlock.Mirror (fun _ _ : Zero => True) RX) := C169_block (fun _ _ _ => ⟨Flipped.zero, trivial⟩) hX
  have hm : Heap.Mirror (StandardBlock.Mirror (fun _ _ : Zero => True) RX) h h := by
    unfold Heap.Mirror
    rw [List.forall₂_same]
    intro c hc
    obtain ⟨m, hm, e⟩ := hh c hc
    rw [e]
    exact ⟨rfl, rfl, rfl, rfl, Flipped.zero, hm, fun _ => trivial, fun _ => rfl⟩
  have := C169_network hB c hm hx
  revert this
  cases runSound ComplexSound.process c h xs <;> cases runSound ComplexSound.process c h xs' <;> intro t
  · exact t
  · exact t
  · exact t
  · exact t.1

/-! ## Examples -/

/-- A chain of a gain of 1/2 and of 3. -/
def halfHeap : Heap (ComplexSound.GainBlock F32) := [⟨StandardBlock.fromModifier (Gain.new (lit (1 / 2))), 1⟩, ⟨StandardBlock.fromModifier (Gain.new (lit 3)), 1⟩]
def halfSound : ComplexSound := ⟨⟨[0, 1], [(0, 1)]⟩, [0, 1], 0, 1, none, false, false⟩

example : ∀ c ∈ halfHeap, ∃ m, (fun m m' : Gain F32 => m = m') m m ∧ c.val = StandardBlock.fromModifier m := by
  simp [halfHeap]
example : ((runSound ComplexSound.process halfSound halfHeap [lit 1, lit (-2)]).map Prod.fst).toOption = some [lit (3 / 2), (lit (-3) : F32)] := by
  decide +kernel
example : ((runSound ComplexSound.process halfSound halfHeap [lit (-1), lit 2]).map Prod.fst).toOption = some [lit (-3 / 2), (lit 3 : F32)] := by
  decide +kernel
example : Flipped (lit 1 : F32) (lit (-1)) ∧ ¬ Flipped (lit 1 : F32) (lit 1) ∧ ¬ Flipped (lit 1 : F32) Fl.nan := by
  decide +kernel
end Verif
