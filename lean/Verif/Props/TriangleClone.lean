import Verif.Props.OscState

/-! # Clones of a triangle wave in floating point: C44 -/

namespace Verif
open Fl

variable {f g : Fmt}

/-- The same number with the sign flipped; zeros count as equal whatever their sign bit. -/
def Opposite (x y : Fl f) : Prop := y = -x ∨ (x.Is 0 ∧ y.Is 0)

private def Opp : Fl f → Fl f → Prop
  | .nan, .nan => True
  | .inf s, .inf t => t = !s
  | .fin _ q _, .fin _ r _ => r = -q
  | _, _ => False

private theorem opp_iff {x y : Fl f} : Opp x y ↔ Opposite x y := by
  unfold Opposite
  constructor
  · intro h
    cases x <;> cases y <;> simp only [Opp] at h
    · exact .inl rfl
    · subst h; exact .inl rfl
    · rename_i s q hq t r hr
      subst h
      by_cases h0 : q = 0
      · subst h0
        exact .inr ⟨rfl, by show some _ = _; simp⟩
      · left
        show _ = Fl.fin (!s) (-q) _
        congr 1
        rcases lt_or_gt_of_ne h0 with h | h
        · rw [hq.2.2.1 h, hr.2.2.2 (by linarith)]; rfl
        · rw [hq.2.2.2 h, hr.2.2.1 (by linarith)]; rfl
  · rintro (rfl | ⟨h1, h2⟩)
    · cases x <;> simp [Opp, Neg.neg, Fl.neg]
    · cases x <;> simp [Is, toQ?] at h1
      cases y <;> simp [Is, toQ?] at h2
      simp [Opp, h1, h2]

private theorem opp_ofQ (z z' : Bool) (q : ℚ) : Opp (ofQ z q : Fl f) (ofQ z' (-q)) := by
  unfold ofQ
  have e : |f.rnd (-q)| = |f.rnd q| := by rw [f.rnd_neg, abs_neg]
  by_cases h : |f.rnd q| < pow2 (f.emax + 1)
  · rw [dif_pos h, dif_pos (by rw [e]; exact h)]
    exact f.rnd_neg q
  · rw [dif_neg h, dif_neg (by rw [e]; exact h)]
    have h0 : q ≠ 0 := by
      rintro rfl
      apply h
      rw [f.rnd_zero, abs_zero]
      exact pow2_pos _
    show decide (-q < 0) = !decide (q < 0)
    rcases lt_or_gt_of_ne h0 with h1 | h1
    · simp [h1, not_lt.mpr h1.le]
    · simp [h1, not_lt.mpr h1.le]

private theorem Opp.add {x x' y y' : Fl f} (hx : Opp x x') (hy : Opp y y') : Opp (x + y) (x' + y') := by
  cases x <;> cases x' <;> simp only [Opp] at hx <;> cases y <;> cases y' <;> simp only [Opp] at hy <;>
    try (first | trivial | exact hx | exact hy)
  · rename_i s t u v
    subst hx hy
    show Opp (if s = u then _ else _) (if (!s) = (!u) then _ else _)
    by_cases h : s = u
    · subst h; simp [Opp]
    · rw [if_neg h, if_neg (by simpa using h)]; trivial
  · rename_i s q hq t r hr u a ha v b hb
    subst hx hy
    show Opp (ofQ _ (q + a)) (ofQ _ (-q + -a))
    rw [show -q + -a = -(q + a) by ring]
    exact opp_ofQ _ _ _

private theorem Opp.neg {x x' : Fl f} (hx : Opp x x') : Opp (-x) (-x') := by
  cases x <;> cases x' <;> simp only [Opp] at hx
  · trivial
  · subst hx; rfl
  · subst hx; rfl

private theorem Opp.symm {x x' : Fl f} (hx : Opp x x') : Opp x' x := by
  cases x <;> cases x' <;> simp only [Opp] at hx
  · trivial
  · subst hx; simp [Opp]
  · subst hx; simp [Opp]

private theorem Opp.self (x : Fl f) : Opp x (-x) := opp_iff.mpr (.inl rfl)

private theorem Opp.le {x x' y y' : Fl f} (hx : Opp x x') (hy : Opp y y') : (x ≤? y) = (y' ≤? x') := by
  cases x <;> cases x' <;> simp only [Opp] at hx <;> cases y <;> cases y' <;> simp only [Opp] at hy
  all_goals try rfl
  · rename_i s _ t _
    subst hx hy
    cases s <;> cases t <;> rfl
  · rename_i s _ _ _ _ _ _ _
    subst hx
    cases s <;> rfl
  · rename_i t _
    subst hy
    cases t <;> rfl
  · subst hx hy
    show decide _ = decide _
    simp

private theorem Opp.conv {x x' : Fl f} (hx : Opp x x') : Opp (Fl.conv x : Fl g) (Fl.conv x') := by
  cases x <;> cases x' <;> simp only [Opp] at hx
  · trivial
  · subst hx; rfl
  · subst hx; exact opp_ofQ _ _ _

/-- Two triangle generators in opposite states. -/
private def TriOpp (a b : Triangle F64) : Prop := Opp a.irate b.irate ∧ Opp a.inc b.inc

private theorem TriOpp.step {a b : Triangle F64} (h : TriOpp a b) :
    Opp (a.process : F32 × _).1 (b.process : F32 × _).1 ∧ TriOpp (a.process : F32 × _).2 (b.process : F32 × _).2 := by
  obtain ⟨hr, hi⟩ := h
  have hs := hi.add hr
  have h1 : (lit 1 ≤? (b.inc + b.irate)) = ((a.inc + a.irate) ≤? -lit 1) := (hs.le (Opp.self (lit 1)).symm).symm
  have h2 : ((b.inc + b.irate) ≤? -lit 1) = (lit 1 ≤? (a.inc + a.irate)) := ((Opp.self (lit 1)).le hs).symm
  unfold Triangle.process
  simp only [h1, h2]
  have hexcl : ¬ ((lit 1 ≤? (a.inc + a.irate)) = true ∧ ((a.inc + a.irate) ≤? -lit 1) = true) := by
    rintro ⟨h, h'⟩
    generalize a.inc + a.irate = x at h h'
    have l1 : (lit 1 : F64).Is 1 := by decide +kernel
    cases x with
    | nan => cases h'
    | inf s =>
      cases s
      · have : (Flt.le (.inf false) (-lit 1 : F64)) = false := by decide +kernel
        rw [this] at h'; cases h'
      · have : (Flt.le (lit 1 : F64) (.inf true)) = false := by decide +kernel
        rw [this] at h; cases h
    | fin s q hq =>
      rw [Is.le l1 (is_fin s q hq), decide_eq_true_iff] at h
      rw [Is.le (is_fin s q hq) l1.neg, decide_eq_true_iff] at h'
      linarith
  by_cases c1 : (lit 1 ≤? (a.inc + a.irate)) = true
  · have c2 : ((a.inc + a.irate) ≤? -lit 1) = false := by
      rw [Bool.eq_false_iff]; exact fun h => hexcl ⟨c1, h⟩
    simp only [c1, c2, Bool.or_false, Bool.or_true, if_true]
    refine ⟨hi.conv, hr.neg, ?_⟩
    show Opp (lit 2 + -(a.inc + a.irate)) (-lit 2 + -(b.inc + b.irate))
    exact (Opp.self _).add hs.neg
  · rw [Bool.not_eq_true] at c1
    by_cases c2 : ((a.inc + a.irate) ≤? -lit 1) = true
    · simp only [c1, c2, Bool.or_false, Bool.or_true, if_true]
      refine ⟨hi.conv, hr.neg, ?_⟩
      show Opp (-lit 2 + -(a.inc + a.irate)) (lit 2 + -(b.inc + b.irate))
      exact (Opp.self _).symm.add hs.neg
    · rw [Bool.not_eq_true] at c2
      simp only [c1, c2, Bool.or_false]
      exact ⟨hi.conv, hr, hs⟩

private theorem irate_run (cs : List (GenCall F64)) (f : F64) (g : Triangle F64) (h : g.irate = (Triangle.new f).irate ∨ g.irate = -(Triangle.new f).irate) :
    (g.run F32 cs).irate = (Triangle.new (lastFreq f cs)).irate ∨ (g.run F32 cs).irate = -(Triangle.new (lastFreq f cs)).irate := by
  have hn : ∀ x : F64, - -x = x := by
    intro x; cases x <;> simp [Neg.neg, Fl.neg]
    exact neg_neg _
  induction cs generalizing f g with
  | nil => exact h
  | cons c cs ih =>
    cases c with
    | process =>
      refine ih f _ ?_
      have : (g.process : F32 × _).2.irate = g.irate ∨ (g.process : F32 × _).2.irate = -g.irate := by
        unfold Triangle.process
        simp only
        split_ifs <;> simp
      rcases this with e | e <;> rcases h with h | h <;> rw [e, h]
      · exact .inl rfl
      · exact .inr rfl
      · exact .inr rfl
      · exact .inl (hn _)
    | setFrequency f' => exact ih f' _ (.inl rfl)

/-- IEEE: a clone of a Triangle after any history of `process` and `set_frequency` (any f64 values) plays the fresh wave of the
frequency set last, sample by sample bit for bit, or that wave with every sample's sign flipped. Missing: that it is always the
fresh wave. -/
theorem C44_clone_triangle_f64_partial (f : F64) (cs : List (GenCall F64)) :
    let c := ((Triangle.new f).run F32 cs).clone
    (∀ n, (nth Triangle.process c n : F32) = nth Triangle.process (Triangle.new (lastFreq f cs)) n) ∨
    (∀ n, Opposite (nth Triangle.process (Triangle.new (lastFreq f cs)) n : F32) (nth Triangle.process c n)) := by
  intro c
  rcases irate_run cs f (Triangle.new f) (.inl rfl) with h | h
  · left
    have : c = Triangle.new (lastFreq f cs) := by
      show Triangle.mk _ _ = _
      rw [h]; rfl
    intro n
    rw [this]
  · right
    have h0 : TriOpp (Triangle.new (lastFreq f cs)) c := by
      refine ⟨?_, ?_⟩
      · show Opp _ ((Triangle.new f).run F32 cs).irate
        rw [h]
        exact Opp.self _
      · show Opp (lit 0 : F64) (lit 0)
        exact opp_iff.mpr (.inr ⟨by decide +kernel, by decide +kernel⟩)
    have key : ∀ n, TriOpp (after (S := F32) Triangle.process n (Triangle.new (lastFreq f cs))) (after (S := F32) Triangle.process n c) := by
      intro n
      induction n with
      | zero => exact h0
      | succ n ih => rw [after_succ, after_succ]; exact ih.step.2
    intro n
    exact opp_iff.mp (key n).step.1

/-- Both cases occur: before the first peak at 440 Hz and after one sample at 12 kHz. -/
example : (((Triangle.new (lit 440 : F64)).run F32 [.process]).clone.irate = (Triangle.new (lit 440)).irate) ∧
    (((Triangle.new (lit 12000 : F64)).run F32 [.process]).clone.irate = -(Triangle.new (lit 12000)).irate) := by decide +kernel

end Verif
