import Verif.Props.Samples
import Verif.Model.Generators

/-! # Constructors, conversions and accessors: C12, C14, C132

Which of two channels is which, and that the several ways to make, convert and look at a value agree. -/

namespace Verif

section
variable {S : Type} [Flt S]

/-- A stereo sample made from a left and a right one has them there, every stereo sample is made so, and the operators act on
the parts without mixing up the sides. -/
theorem C12_from (l r l' r' k : S) (a : Stereo S) :
    (Stereo.from' l r).left = l ∧ (Stereo.from' l r).right = r ∧ Stereo.from' a.left a.right = a ∧
    (Stereo.from' l r = Stereo.from' l' r' ↔ l = l' ∧ r = r') ∧
    (Stereo.from' l r).add (Stereo.from' l' r') = Stereo.from' (l + l') (r + r') ∧
    (Stereo.from' l r).sub (Stereo.from' l' r') = Stereo.from' (l - l') (r - r') ∧
    (Stereo.from' l r).mul (Stereo.from' l' r') = Stereo.from' (l * l') (r * r') ∧
    (Stereo.from' l r).mulS k = Stereo.from' (l * k) (r * k) ∧ (Stereo.from' l r).neg = Stereo.from' (-l) (-r) ∧
    (Stereo.new : Stereo S) = Stereo.from' (lit 0) (lit 0) := by
  refine ⟨rfl, rfl, rfl, ⟨fun h => ?_, fun h => by rw [h.1, h.2]⟩, rfl, rfl, rfl, rfl, rfl, rfl⟩
  injection h with h1 h2
  exact ⟨h1, h2⟩

/-- The three ways to make a mono sample from a number agree and the number is got back by each of the two ways to read it; for
stereo samples the two ways to make and to read them agree (with C13 and C14 for what they give). -/
theorem C14_conversions (x : S) (m : Mono S) (a : Stereo S) :
    (Mono.from' x).mono = x ∧ Mono.from' x = Mono.fromS x ∧ Mono.fromS x = Mono.fromSample x ∧
    (Mono.fromS x).intoS = x ∧ (Mono.from' x).intoSample = x ∧ m.intoS = m.mono ∧ Mono.fromS m.intoS = m ∧
    (Mono.new : Mono S) = Mono.from' (lit 0) ∧
    Stereo.fromS x = Stereo.fromSample x ∧ a.intoS = a.intoSample := ⟨rfl, rfl, rfl, rfl, rfl, rfl, rfl, rfl, rfl, rfl⟩

/-- Equal power of the conversion by `into`. -/
theorem C14_into (x : ℝ) : (Stereo.fromS x).left ^ 2 + (Stereo.fromS x).right ^ 2 = x ^ 2 ∧ (Stereo.fromS x).left = (Stereo.fromS x).right :=
  ⟨C14_equal_power x, rfl⟩
end

section
variable {S M : Type} [Flt S] [Flt M] [SM S M]

omit [Flt M] in
/-- What is done to the resampler through `get_mut` is seen through `get` and heard: the player plays what that resampler
plays, and holds it afterwards. -/
theorem C132_access (g : MonoWav S M) (f : MonoResampler S M → MonoResampler S M) (v : M) :
    (g.getMut f).get = f g.get ∧ (g.getMut fun r => r.setPlaybackSpeed v).get.getPlaybackSpeed = v ∧
    ∀ (y : S) (g' : MonoWav S M), (g.getMut f).process = .ok (y, g') ↔ (f g.get).process = .ok (y, g'.get) := by
  refine ⟨rfl, rfl, fun y g' => ?_⟩
  show ((f g.resam).process.bind fun p => .ok (p.1, (⟨p.2⟩ : MonoWav S M))) = _ ↔ (f g.resam).process = .ok (y, g'.resam)
  cases (f g.resam).process with
  | error e => simp [Except.bind]
  | ok p =>
    obtain ⟨z, r⟩ := p
    obtain ⟨r'⟩ := g'
    simp [Except.bind]
end

/-! ## Examples -/

example : (Stereo.from' (lit 1) (lit 2) : Stereo F32).left = lit 1 ∧ Stereo.from' (lit 1) (lit 2) ≠ (Stereo.from' (lit 2) (lit 1) : Stereo F32) := by
  refine ⟨rfl, fun h => ?_⟩
  have := ((C12_from _ _ _ _ (lit 0) ⟨lit 0, lit 0⟩).2.2.2.1.mp h).1
  revert this
  decide +kernel

example : (Mono.fromS (lit (1 / 3) : F32)).intoS = lit (1 / 3) := (C14_conversions _ ⟨lit 0⟩ ⟨lit 0, lit 0⟩).2.2.2.1

/-- A player at half speed. -/
example : (((MonoWav.fromTrack (lit 48000) [⟨lit 0⟩, ⟨lit 1⟩] : MonoWav F32 F64).getMut fun r => r.setPlaybackSpeed (lit (1 / 2))).process.map
    fun p => p.2.get.getPlaybackSpeed).toOption = some (lit (1 / 2)) := by decide +kernel

end Verif
