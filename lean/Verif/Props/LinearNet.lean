import Verif.Props.Feedback
import Verif.Props.Linear

set_option linter.unusedSectionVars false

/-! # Networks of linear effects: C143 -/

namespace Verif
open ComplexSound

/-! ## Lemmas -/

private theorem modAfter_congr {X S E : Type} {p : X → S → Except E (S × X)} {x x' : ℕ → S} {m : X} {t : ℕ} (h : ∀ s < t, x s = x' s) :
    modAfter p x m t = modAfter p x' m t := by
  induction t with
  | zero => rfl
  | succ t ih => rw [modAfter, modAfter, ih (fun s hs => h s (by omega)), h t (by omega)]

theorem modOut_congr {X S E : Type} {p : X → S → Except E (S × X)} {x x' : ℕ → S} {m : X} {t : ℕ} (h : ∀ s ≤ t, x s = x' s) :
    modOut p x m t = modOut p x' m t := by
  rw [modOut, modOut, modAfter_congr (fun s hs => h s hs.le), h t le_rfl]

theorem foldl_sum (l : List ℝ) : l.foldl (· + ·) (lit 0) = l.sum := by
  have : ∀ a : ℝ, l.foldl (· + ·) a = a + l.sum := by
    induction l with
    | nil => intro a; simp
    | cons x l ih => intro a; rw [List.foldl_cons, ih, List.sum_cons, add_assoc]
  rw [this]
  have : (lit 0 : ℝ) = 0 := by real_simp
  rw [this, zero_add]

private theorem sentTo_lin {g : Graph} {n : ℕ} {l : List ℕ} {y1 y2 y3 : ℕ → ℝ} {a b : ℝ} (h : ∀ m ∈ l, y3 m = a * y1 m + b * y2 m) :
    (sentTo g y3 n l).sum = a * (sentTo g y1 n l).sum + b * (sentTo g y2 n l).sum := by
  unfold sentTo
  have : ∀ m ∈ l.filter (fun m => (m, n) ∈ g.edges), y3 m = a * y1 m + b * y2 m := fun m hm => h m (List.mem_filter.mp hm).1
  generalize l.filter (fun m => (m, n) ∈ g.edges) = l' at this
  induction l' with
  | nil => simp
  | cons m l' ih =>
    rw [List.map_cons, List.map_cons, List.map_cons, List.sum_cons, List.sum_cons, List.sum_cons, ih (fun k hk => this k (by simp [hk])), this m (by simp)]
    ring

private theorem sentTo_zero {g : Graph} {n : ℕ} {l : List ℕ} {y : ℕ → ℝ} (h : ∀ m ∈ l, y m = 0) : (sentTo g y n l).sum = 0 := by
  have := sentTo_lin (g := g) (n := n) (l := l) (y1 := y) (y2 := y) (y3 := y) (a := 0) (b := 0) (fun m hm => by rw [h m hm]; ring)
  linarith

/-- What `n` receives depends on earlier outputs and on those of the nodes before it. -/
private theorem idx_before {l : List ℕ} {n m : ℕ} (hn : n ∈ l) (hm : m ∈ before l n) : l.idxOf m < l.idxOf n := by
  unfold before at hm
  induction l with
  | nil => cases hn
  | cons x l ih =>
    by_cases hx : x = n
    · subst hx; rw [List.takeWhile_cons_of_neg (by simp)] at hm; cases hm
    · rw [List.takeWhile_cons_of_pos (by simp [hx])] at hm
      rw [List.idxOf_cons_ne _ hx]
      by_cases hxm : x = m
      · subst hxm; rw [List.idxOf_cons_self]; omega
      · rw [List.idxOf_cons_ne _ hxm]
        have h1 : m ∈ l.takeWhile (· ≠ n) := by
          rcases List.mem_cons.mp hm with h | h
          · exact absurd h.symm hxm
          · exact h
        have h2 : n ∈ l := by
          rcases List.mem_cons.mp hn with h | h
          · exact absurd h.symm hx
          · exact h
        exact Nat.succ_lt_succ (ih h2 h1)

theorem before_mem {l : List ℕ} {n m : ℕ} (h : m ∈ before l n) : m ∈ l := (List.takeWhile_sublist _).subset h
theorem fromOn_mem {l : List ℕ} {n m : ℕ} (h : m ∈ fromOn l n) : m ∈ l := (List.dropWhile_sublist _).subset h

/-- Induction over time and then over the order. -/
theorem time_order {order : List ℕ} {T : ℕ} {P : ℕ → ℕ → Prop}
    (step : ∀ t < T, ∀ n ∈ order, (∀ s < t, ∀ m ∈ order, P s m) → (∀ m ∈ before order n, P t m) → P t n) : ∀ t < T, ∀ n ∈ order, P t n := by
  intro t
  induction t using Nat.strong_induction_on with
  | _ t iht =>
    intro ht n hn
    generalize hk : order.idxOf n = k
    induction k using Nat.strong_induction_on generalizing n with
    | _ k ihk =>
      refine step t ht n hn (fun s hs m hm => iht s hs (by omega) m hm) (fun m hm => ?_)
      exact ihk (order.idxOf m) (by rw [← hk]; exact idx_before hn hm) m (before_mem hm) rfl

/-- The signals `y` of a network of effects with input `x`, up to time `T`. -/
def Signals {X S : Type} [Flt S] [Modifier X S] (g : Graph) (order : List ℕ) (m : ℕ → X) (T : ℕ) (x : ℕ → S) (y : ℕ → ℕ → S) : Prop :=
  ∀ t < T, ∀ n ∈ order, modOut Modifier.process (fun t => (received g order 0 x y t n).foldl (· + ·) (lit 0)) (m n) t = .ok (y t n)

section
variable {X : Type} [Modifier X ℝ] (g : Graph) (order : List ℕ) (m : ℕ → X)

theorem signals_lin (hm : ∀ n ∈ order, LTI Modifier.process (m n)) {T : ℕ} {x1 x2 : ℕ → ℝ} {a b : ℝ} {y1 y2 y3 : ℕ → ℕ → ℝ}
    (h1 : Signals g order m T x1 y1) (h2 : Signals g order m T x2 y2) (h3 : Signals g order m T (fun t => a * x1 t + b * x2 t) y3) :
    ∀ t < T, ∀ n ∈ order, y3 t n = a * y1 t n + b * y2 t n := by
  refine time_order fun t ht n hn ih1 ih2 => ?_
  have hu : ∀ s ≤ t, (received g order 0 (fun t => a * x1 t + b * x2 t) y3 s n).foldl (· + ·) (lit 0) =
      a * (received g order 0 x1 y1 s n).foldl (· + ·) (lit 0) + b * (received g order 0 x2 y2 s n).foldl (· + ·) (lit 0) := by
    intro s hs
    rw [foldl_sum, foldl_sum, foldl_sum]
    have hb : ∀ k ∈ before order n, y3 s k = a * y1 s k + b * y2 s k := by
      intro k hk
      rcases Nat.lt_or_ge s t with h | h
      · exact ih1 s h k (before_mem hk)
      · obtain rfl : s = t := by omega
        exact ih2 k hk
    have hx : (if n = 0 then [a * x1 s + b * x2 s] else []).sum = a * (if n = 0 then [x1 s] else []).sum + b * (if n = 0 then [x2 s] else []).sum := by
      split_ifs <;> simp
    cases s with
    | zero =>
      simp only [received, List.sum_append]
      rw [sentTo_lin hb, hx]; ring
    | succ s =>
      have hf : ∀ k ∈ fromOn order n, y3 s k = a * y1 s k + b * y2 s k := fun k hk => ih1 s (by omega) k (fromOn_mem hk)
      simp only [received, List.sum_append]
      rw [sentTo_lin hb, sentTo_lin hf, hx]; ring
  obtain ⟨s1, s2, e1, e2, e3⟩ := (hm n hn).superposition (fun t => (received g order 0 x1 y1 t n).foldl (· + ·) (lit 0))
    (fun t => (received g order 0 x2 y2 t n).foldl (· + ·) (lit 0)) a b t
  have h := h3 t ht n hn
  rw [modOut_congr hu, e3] at h
  have := e1.symm.trans (h1 t ht n hn)
  have := e2.symm.trans (h2 t ht n hn)
  cases ‹Except.ok s1 = _›
  cases ‹Except.ok s2 = _›
  injection h with h
  exact h.symm

private theorem signals_shift (hm : ∀ n ∈ order, LTI Modifier.process (m n)) {T k : ℕ} {x : ℕ → ℝ} {y y' : ℕ → ℕ → ℝ}
    (h1 : Signals g order m T x y) (h2 : Signals g order m T (delayed 0 x k) y') :
    ∀ t < T, ∀ n ∈ order, y' t n = if t < k then 0 else y (t - k) n := by
  refine time_order fun t ht n hn ih1 ih2 => ?_
  set u : ℕ → ℝ := fun t => (received g order 0 x y t n).foldl (· + ·) (lit 0) with hu
  have hu' : ∀ s ≤ t, (received g order 0 (delayed 0 x k) y' s n).foldl (· + ·) (lit 0) = delayed 0 u k s := by
    intro s hs
    rw [foldl_sum]
    have hb : ∀ j ∈ before order n, y' s j = if s < k then 0 else y (s - k) j := by
      intro j hj
      rcases Nat.lt_or_ge s t with h | h
      · exact ih1 s h j (before_mem hj)
      · obtain rfl : s = t := by omega
        exact ih2 j hj
    have hb' : (sentTo g (y' s) n (before order n)).sum = if s < k then 0 else (sentTo g (y (s - k)) n (before order n)).sum := by
      split_ifs with h
      · exact sentTo_zero fun j hj => by rw [hb j hj, if_pos h]
      · have := sentTo_lin (g := g) (n := n) (l := before order n) (y1 := y (s - k)) (y2 := y (s - k)) (y3 := y' s) (a := 1) (b := 0)
          (fun j hj => by rw [hb j hj, if_neg h]; ring)
        linarith
    have hx : (if n = 0 then [delayed 0 x k s] else []).sum = if s < k then 0 else (if n = 0 then [x (s - k)] else []).sum := by
      unfold delayed
      split_ifs <;> simp
    cases s with
    | zero =>
      simp only [received, List.sum_append]
      rw [hb', hx, delayed]
      by_cases h : 0 < k
      · rw [if_pos h, if_pos h, if_pos h, zero_add]
      · rw [if_neg h, if_neg h, if_neg h, hu]
        obtain rfl : k = 0 := by omega
        simp only [foldl_sum, Nat.sub_self, received, List.sum_append]
    | succ s =>
      have hf : (sentTo g (y' s) n (fromOn order n)).sum = if s < k then 0 else (sentTo g (y (s - k)) n (fromOn order n)).sum := by
        split_ifs with h
        · exact sentTo_zero fun j hj => by rw [ih1 s (by omega) j (fromOn_mem hj), if_pos h]
        · have := sentTo_lin (g := g) (n := n) (l := fromOn order n) (y1 := y (s - k)) (y2 := y (s - k)) (y3 := y' s) (a := 1) (b := 0)
            (fun j hj => by rw [ih1 s (by omega) j (fromOn_mem hj), if_neg h]; ring)
          linarith
      simp only [received, List.sum_append]
      rw [hb', hx, hf, delayed]
      rcases Nat.lt_trichotomy (s + 1) k with h | h | h
      · have h' : s < k := by omega
        simp only [if_pos h, if_pos h']; ring
      · have h1 : ¬ s + 1 < k := by omega
        have h' : s < k := by omega
        simp only [if_neg h1, if_pos h', hu, show s + 1 - k = 0 by omega, foldl_sum, received, List.sum_append, zero_add]
      · have h1 : ¬ s + 1 < k := by omega
        have h' : ¬ s < k := by omega
        simp only [if_neg h1, if_neg h', hu, show s + 1 - k = s - k + 1 by omega, foldl_sum, received, List.sum_append]
  have h := h2 t ht n hn
  rw [modOut_congr hu', (hm n hn).shift u k t] at h
  split_ifs at h ⊢ with hk
  · injection h with h; exact h.symm
  · have := (h1 (t - k) (by omega) n hn).symm.trans h
    injection this with this
    exact this.symm

end

/-! ## C143 -/

/-- The block that holds only the effect `m`, with nothing pending. -/
def effectBlock {X S : Type} [Flt S] (m : X) : StandardBlock Zero X StdInter S := ⟨⟨⟨⟩, 0⟩, ⟨m, 0⟩, ⟨.mod, 0⟩, lit 0⟩

section
variable {X S M : Type} [Flt S] [Flt M] [SM S M] [Modifier X S] (emb : GainBlock S → StandardBlock Zero X StdInter S)
  (h h' : Heap (StandardBlock Zero X StdInter S)) (ig og : M)
  (l : List (BuildCall (StandardBlock Zero X StdInter S))) (o : BuildCall (StandardBlock Zero X StdInter S)) (m : ℕ → X)
  (hl : ∀ n, builtBlocks emb ig og l n = effectBlock (m n)) (hco : o.isConn) (c : ComplexSound)
  (hc : cxCalls (S := S) (ComplexSound.new emb h ig og).2 (ComplexSound.new emb h ig og).1 ((l ++ [o]).map BuildCall.call) = .ok (h', c))
include hl hco hc

theorem signals (x : ℕ → S) (T : ℕ) (ys : List S) (h'' : Heap (StandardBlock Zero X StdInter S))
    (he : runSound ComplexSound.process c h' ((List.range T).map x) = .ok (ys, h'')) :
    1 ∈ c.getNodes ∧ ∃ y, Signals c.graph c.getNodes m T x y ∧ ∀ t < T, ys[t]? = some (y t 1) := by
  obtain ⟨f1, f2, f3, f4, f5, f6, f7, ⟨mid, ho⟩, -⟩ := built_network hco hc
  obtain ⟨y, hy⟩ := C142_diagram emb h h' h'' ig og l o (fun _ => ⟨⟩) m (fun _ => .mod) hl hco c hc x T ys he
  refine ⟨?_, y, fun t ht n hn => ?_, fun t ht => (hy t ht).1⟩
  · rw [ho]; unfold ComplexSound.getOutputGain; rw [f4]; simp
  · obtain ⟨yg, ym, -, h2, h3⟩ := (hy t ht).2 n hn
    rw [h2, h3]; rfl

/-- A network of effects that never panic never panics. -/
theorem effects_play (hm : ∀ n (u : ℕ → S) (t : ℕ), ∃ y, modOut Modifier.process u (m n) t = (.ok y : Res S)) (x : ℕ → S) (T : ℕ) :
    ∃ ys k, runSound ComplexSound.process c h' ((List.range T).map x) = .ok (ys, k) := by
  obtain ⟨f1, f2, f3, f4, f5, f6, f7, -, o2, o3, hr, -⟩ := built_network hco hc
  let I : StandardBlock Zero X StdInter S → Prop := fun b => b.g.others = 0 ∧ b.m.others = 0 ∧ b.i.others = 0 ∧
    ∀ (u : ℕ → S) (n : ℕ), ∃ y, modOut Modifier.process u b.m.val n = (.ok y : Res S)
  have hI : ∀ b, I b → ∃ (y : S) (b' : StandardBlock Zero X StdInter S), Block.process b = .ok (y, b') ∧ I b' := by
    rintro ⟨⟨g, go⟩, ⟨m0, mo⟩, ⟨i, io⟩, v⟩ ⟨h1, h2, h3, h4⟩
    simp only at h1 h2 h3 h4
    subst h1 h2 h3
    cases hp : (Modifier.process m0 v : Res (S × X)) with
    | error e =>
      obtain ⟨y, hy⟩ := h4 (fun _ => v) 0
      simp only [modOut, modAfter, hp, Except.map] at hy
      cases hy
    | ok q =>
      refine ⟨i.call (lit 0) q.1, ⟨⟨g, 0⟩, ⟨q.2, 0⟩, ⟨i, 0⟩, dflt⟩, ?_, rfl, rfl, rfl, fun u n => ?_⟩
      · show StandardBlock.process _ = _
        unfold StandardBlock.process
        simp only [Arc.getMutUnwrap, bind, Except.bind, if_true, hp]
        rfl
      · obtain ⟨y, hy⟩ := h4 (fun t => match t with | 0 => v | t + 1 => u t) (n + 1)
        exact ⟨y, by rw [← hy]; exact (modOut_succ' (x := fun t => match t with | 0 => v | t + 1 => u t) hp n).symm⟩
  have hIp : ∀ b (x : S), I b → I (Block.prime b x) := fun b x hb => hb
  have key : ∀ (xs : List S) (k : Heap (StandardBlock Zero X StdInter S)) (st : ℕ → StandardBlock Zero X StdInter S), Holds k c.graph st →
      (∀ n < c.graph.nodes.length, I (st n)) → ∃ ys k', runSound ComplexSound.process c k xs = .ok (ys, k') := by
    intro xs
    induction xs with
    | nil => intro k st _ _; exact ⟨[], k, rfl⟩
    | cons z xs ih =>
      intro k st hr hst
      obtain ⟨out, k1, st', e1, e2, e3, -⟩ := C86_process hI hIp k c st z hr hst f1 f2 (by rw [f3]; omega) o3
      obtain ⟨ys, k', e4⟩ := ih k1 st' e2 e3
      exact ⟨out :: ys, k', by rw [runSound, e1]; simp only [e4, Except.map]⟩
  refine key _ h' _ hr fun n _ => ?_
  rw [hl n]
  refine ⟨rfl, rfl, rfl, fun u t => ?_⟩
  exact hm n u t

end

section
variable {X : Type} [Modifier X ℝ] (emb : GainBlock ℝ → StandardBlock Zero X StdInter ℝ) (h h' : Heap (StandardBlock Zero X StdInter ℝ)) (ig og : ℝ)
  (l : List (BuildCall (StandardBlock Zero X StdInter ℝ))) (o : BuildCall (StandardBlock Zero X StdInter ℝ)) (m : ℕ → X)
  (hl : ∀ n, builtBlocks emb ig og l n = effectBlock (m n)) (hm : ∀ n, LTI Modifier.process (m n)) (hco : o.isConn) (c : ComplexSound)
  (hc : cxCalls (S := ℝ) (ComplexSound.new emb h ig og).2 (ComplexSound.new emb h ig og).1 ((l ++ [o]).map BuildCall.call) = .ok (h', c))
include hl hm hco hc

/-- Such a sound never panics. -/
theorem C143_plays (x : ℕ → ℝ) (T : ℕ) : ∃ ys k, runSound ComplexSound.process c h' ((List.range T).map x) = .ok (ys, k) :=
  effects_play emb h h' ig og l o m hl hco c hc (fun n u t => by
    obtain ⟨s, -, e, -⟩ := (hm n).superposition u u 1 1 t
    exact ⟨s, e⟩) x T

/-- Exact arithmetic, any graph (loops included): a complex sound whose blocks all hold linear time-invariant effects obeys the
superposition principle. -/
theorem C143_superposition (x1 x2 : ℕ → ℝ) (a b : ℝ) (T : ℕ) (ys1 ys2 ys3 : List ℝ) (k1 k2 k3 : Heap (StandardBlock Zero X StdInter ℝ))
    (he1 : runSound ComplexSound.process c h' ((List.range T).map x1) = .ok (ys1, k1))
    (he2 : runSound ComplexSound.process c h' ((List.range T).map x2) = .ok (ys2, k2))
    (he3 : runSound ComplexSound.process c h' ((List.range T).map fun t => a * x1 t + b * x2 t) = .ok (ys3, k3)) :
    ∀ t < T, ∃ y1 y2, ys1[t]? = some y1 ∧ ys2[t]? = some y2 ∧ ys3[t]? = some (a * y1 + b * y2) := by
  obtain ⟨hn, y1, s1, e1⟩ := signals emb h h' ig og l o m hl hco c hc x1 T ys1 k1 he1
  obtain ⟨-, y2, s2, e2⟩ := signals emb h h' ig og l o m hl hco c hc x2 T ys2 k2 he2
  obtain ⟨-, y3, s3, e3⟩ := signals emb h h' ig og l o m hl hco c hc _ T ys3 k3 he3
  intro t ht
  refine ⟨y1 t 1, y2 t 1, e1 t ht, e2 t ht, ?_⟩
  rw [e3 t ht, signals_lin _ _ _ (fun n _ => hm n) s1 s2 s3 t ht 1 hn]

/-- The same for time invariance: `k` samples of silence before the input delay the output by `k` samples. -/
theorem C143_shift (x : ℕ → ℝ) (k T : ℕ) (ys ys' : List ℝ) (k1 k2 : Heap (StandardBlock Zero X StdInter ℝ))
    (he : runSound ComplexSound.process c h' ((List.range T).map x) = .ok (ys, k1))
    (he' : runSound ComplexSound.process c h' ((List.range T).map (delayed 0 x k)) = .ok (ys', k2)) :
    ∀ t < T, ys'[t]? = if t < k then some 0 else ys[t - k]? := by
  obtain ⟨hn, y, s1, e1⟩ := signals emb h h' ig og l o m hl hco c hc x T ys k1 he
  obtain ⟨-, y', s2, e2⟩ := signals emb h h' ig og l o m hl hco c hc _ T ys' k2 he'
  intro t ht
  rw [e2 t ht, signals_shift _ _ _ (fun n _ => hm n) s1 s2 t ht 1 hn]
  split_ifs with hk
  · rfl
  · rw [e1 (t - k) (by omega)]

end

/-! ## Instance -/

/-- Effects behind a pointer, as in `Box<dyn Modifier>`. -/
inductive LinearEffect where
  | gain (m : Gain ℝ) | low (m : LowPass ℝ ℝ) | high (m : HighPass ℝ ℝ) | band (m : BandPass ℝ ℝ) | delay (m : Delay ℝ) | echo (m : Echo ℝ)

/-- Dispatch. -/
noncomputable instance : Modifier LinearEffect ℝ where
  process
    | .gain m, x => (Modifier.process m x : Res (ℝ × Gain ℝ)).map fun r => (r.1, .gain r.2)
    | .low m, x => (Modifier.process m x : Res (ℝ × LowPass ℝ ℝ)).map fun r => (r.1, .low r.2)
    | .high m, x => (Modifier.process m x : Res (ℝ × HighPass ℝ ℝ)).map fun r => (r.1, .high r.2)
    | .band m, x => (Modifier.process m x : Res (ℝ × BandPass ℝ ℝ)).map fun r => (r.1, .band r.2)
    | .delay m, x => (m.process x).map fun r => (r.1, .delay r.2)
    | .echo m, x => (m.process x).map fun r => (r.1, .echo r.2)

/-- An effect under another name. -/
theorem lti_map {X Y : Type} {p : X → ℝ → Res (ℝ × X)} {q : Y → ℝ → Res (ℝ × Y)} (f : X → Y)
    (hf : ∀ m x, q (f m) x = (p m x).map fun r => (r.1, f r.2)) {m : X} (h : LTI p m) : LTI q (f m) := by
  have ha : ∀ x n, modAfter q x (f m) n = (modAfter p x m n).map f := by
    intro x n
    induction n with
    | zero => rfl
    | succ n ih =>
      rw [modAfter, ih, modAfter]
      cases modAfter p x m n with
      | error e => rfl
      | ok s =>
        show (q (f s) (x n)).map Prod.snd = ((p s (x n)).map Prod.snd).map f
        rw [hf]
        cases p s (x n) <;> rfl
  have ho : ∀ x n, modOut q x (f m) n = modOut p x m n := by
    intro x n
    rw [modOut, ha, modOut]
    cases modAfter p x m n with
    | error e => rfl
    | ok s =>
      show (q (f s) (x n)).map Prod.fst = (p s (x n)).map Prod.fst
      rw [hf]
      cases p s (x n) <;> rfl
  refine ⟨fun u v a b n => ?_, fun u k n => ?_⟩
  · obtain ⟨s, t, e⟩ := h.superposition u v a b n
    exact ⟨s, t, by simpa only [ho] using e⟩
  · rw [ho, ho]; exact h.shift u k n

/-- A loop through a low pass: input → 2 → 3 → output and 3 → 2, block 2 a gain 1/2, block 3 a low pass at 1 kHz. -/
example : ∃ m : ℕ → LinearEffect,
    (∀ n, builtBlocks (S := ℝ) (M := ℝ) (fun b => effectBlock (S := ℝ) (.gain b.m.val)) 1 1
      [.block (effectBlock (.gain (Gain.new (1 / 2)))), .block (effectBlock (.low (LowPass.new 1000 0))), .connect 0 2, .connect 2 3, .connect 3 1] n =
        effectBlock (S := ℝ) (m n)) ∧
    ∀ n, LTI Modifier.process (m n) := by
  refine ⟨fun n => match n with | 2 => .gain (Gain.new (1 / 2)) | 3 => .low (LowPass.new 1000 0) | _ => .gain (Gain.new 1),
    fun n => match n with | 0 => rfl | 1 => rfl | 2 => rfl | 3 => rfl | _ + 4 => rfl, fun n => ?_⟩
  have hg : ∀ a : ℝ, LTI Modifier.process (LinearEffect.gain (Gain.new a)) := fun a => lti_map LinearEffect.gain (fun _ _ => rfl) (C58_gain a).1
  match n with
  | 0 => exact hg 1
  | 1 => exact hg 1
  | 2 => exact hg (1 / 2)
  | 3 => exact lti_map LinearEffect.low (fun _ _ => rfl) (C58_new 1000 0).1
  | _ + 4 => exact hg 1

end Verif
