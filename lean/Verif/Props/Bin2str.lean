import Verif.Model.Bin2str
import Verif.Spec.Text
import Mathlib.Data.List.Basic

/-! # bin2str: C93, C94 -/

namespace Verif
open Bin2str

private def digits (b : UInt8) : List Char := (toString b.toNat).toList

set_option maxRecDepth 100000 in
private theorem digits_table : ∀ n < 256, readDec (toString n).toList = some n ∧ (toString n).toList.length ≤ 3 ∧
    (toString n).toList.all (fun c => '0' ≤ c ∧ c ≤ '9') = true ∧ 1 ≤ (toString n).toList.length := by decide +kernel

private theorem digits_spec (b : UInt8) : readDec (digits b) = some b.toNat ∧ (digits b).length ≤ 3 ∧
    (∀ c ∈ digits b, '0' ≤ c ∧ c ≤ '9') ∧ 1 ≤ (digits b).length := by
  have := digits_table b.toNat b.toNat_lt
  refine ⟨this.1, this.2.1, fun c hc => ?_, this.2.2.2⟩
  have h := List.all_eq_true.mp this.2.2.1 c hc
  simpa using h

private theorem digits_not_mem (b : UInt8) {c : Char} (hc : c < '0') : c ∉ digits b := by
  intro h
  have := (digits_spec b).2.2.1 c h
  exact absurd this.1 (Char.not_le.mpr hc)

private theorem pieces_ne (c : Char) (l : List Char) : pieces c l ≠ [] := by
  cases l with
  | nil => simp [pieces]
  | cons x xs =>
    rw [pieces]
    split_ifs
    · simp
    · split <;> simp

private theorem pieces_sep (c : Char) (a b : List Char) : pieces c (a ++ c :: b) = pieces c a ++ pieces c b := by
  induction a with
  | nil => simp [pieces]
  | cons x xs ih =>
    rw [List.cons_append, pieces, pieces, ih]
    split_ifs
    · rfl
    · cases h : pieces c xs with
      | nil => exact absurd h (pieces_ne c xs)
      | cons y ys => rfl

private theorem pieces_free {c : Char} {b : List Char} (h : c ∉ b) : pieces c b = [b] := by
  induction b with
  | nil => rfl
  | cons x xs ih =>
    rw [List.mem_cons, not_or] at h
    rw [pieces, if_neg (Ne.symm h.1), ih h.2]

private theorem pieces_append {c : Char} {a b : List Char} {i : List (List Char)} {l : List Char} (ha : pieces c a = i ++ [l]) (hb : c ∉ b) :
    pieces c (a ++ b) = i ++ [l ++ b] := by
  induction a generalizing i l with
  | nil =>
    rw [pieces] at ha
    cases i with
    | nil => simp at ha; subst ha; rw [List.nil_append, pieces_free hb]; rfl
    | cons x i => cases i <;> cases ha
  | cons x xs ih =>
    rw [List.cons_append, pieces]
    rw [pieces] at ha
    split_ifs at ha ⊢ with hx
    · cases i with
      | nil =>
        have : pieces c xs = [] := by simpa using (List.cons.inj ha).2
        exact absurd this (pieces_ne c xs)
      | cons y i =>
        have h := List.cons.inj ha
        rw [ih h.2, ← h.1]
        rfl
    · obtain ⟨y, ys, hy⟩ : ∃ y ys, pieces c xs = y :: ys := by
        cases h : pieces c xs with
        | nil => exact absurd h (pieces_ne c xs)
        | cons y ys => exact ⟨y, ys, rfl⟩
      rw [hy] at ha
      simp only at ha
      cases i with
      | nil =>
        have h := List.cons.inj ha
        rw [ih (i := []) (l := y) (by rw [hy, h.2]; rfl)]
        simp only [List.nil_append]
        rw [← h.1]
        rfl
      | cons z i =>
        have h := List.cons.inj ha
        rw [ih (i := y :: i) (l := l) (by rw [hy, h.2]; rfl)]
        simp only [List.cons_append]
        rw [← h.1]

private theorem lastSpace_eq (p d : List Char) (hd : ' ' ∉ d) : lastSpace (p ++ ' ' :: d) = some p.length := by
  unfold lastSpace
  have h1 : (p ++ ' ' :: d).reverse = d.reverse ++ ' ' :: p.reverse := by simp
  have h2 : d.reverse.findIdx? (· = ' ') = none := by
    rw [List.findIdx?_eq_none_iff]
    intro x hx
    simp only [decide_eq_false_iff_not]
    rintro rfl
    exact hd (List.mem_reverse.mp hx)
  rw [h1, List.findIdx?_append, h2, List.findIdx?_cons]
  simp

/-- One step, in closed form. -/
private theorem step_eq (p : List Char) (n : ℕ) (b : UInt8) : step (p ++ [' '], n) b =
    if n + (digits b).length + 2 > 80 then some (p ++ ['\n', ' ', ' ', ' ', ' '] ++ digits b ++ [',', ' '], 4 + (digits b).length + 2)
    else some (p ++ [' '] ++ digits b ++ [',', ' '], n + (digits b).length + 2) := by
  have htok : token b = digits b ++ [',', ' '] := rfl
  have hl : (digits b ++ [',', ' ']).length = (digits b).length + 2 := by simp
  have hd : (p ++ [' '] ++ (digits b ++ [',', ' '])).dropLast = p ++ ' ' :: (digits b ++ [',']) := by
    have : p ++ [' '] ++ (digits b ++ [',', ' ']) = (p ++ ' ' :: (digits b ++ [','])) ++ [' '] := by simp
    rw [this, List.dropLast_concat]
  have hs : ' ' ∉ digits b ++ [','] := by
    rw [List.mem_append, not_or]
    exact ⟨digits_not_mem b (by decide), by decide⟩
  by_cases h : n + (digits b).length + 2 > 80
  · rw [if_pos h]
    unfold step
    rw [htok]
    simp only []
    rw [if_pos (by omega)]
    have ht : (p ++ ' ' :: (digits b ++ [','])).take p.length = p := List.take_left
    have hr : (p ++ ' ' :: (digits b ++ [','])).drop p.length = ' ' :: (digits b ++ [',']) := List.drop_left
    simp only [hd, lastSpace_eq p _ hs, ht, hr]
    congr 1
    refine Prod.ext (by simp) ?_
    simp only [List.length_append, List.length_cons, List.length_nil]
    omega
  · rw [if_neg h]
    unfold step
    rw [htok]
    simp only []
    rw [if_neg (by omega)]
    simp [Nat.add_assoc]

/-- The text so far: fields, lines and the length of the last line. -/
private structure Inv (bs : List UInt8) (st : List Char × ℕ) : Prop where
  ends : ∃ p, st.1 = p ++ [' ']
  fields : ∃ fs last, pieces ',' st.1 = fs ++ [last] ∧ fs.map (fun f => readDec (trimmed f)) = bs.map (fun b => some b.toNat) ∧ ∀ c ∈ last, isBlank c
  lines : ∃ ls cur, pieces '\n' st.1 = ls ++ [cur] ∧ (∀ l ∈ ls, l.length ≤ 79 ∧ [' ', ' ', ' ', ' '].IsPrefix l) ∧ [' ', ' ', ' ', ' '].IsPrefix cur ∧
    cur.length = st.2 ∧ st.2 ≤ 80

private theorem trimmed_eq {w d : List Char} (hw : ∀ c ∈ w, isBlank c) (hd : ∀ c ∈ d, isBlank c = false) : trimmed (w ++ d) = d := by
  unfold trimmed
  have h1 : (w ++ d).dropWhile isBlank = d := by
    induction w with
    | nil =>
      cases d with
      | nil => rfl
      | cons x d => rw [List.nil_append, List.dropWhile_cons_of_neg]; simp [hd x List.mem_cons_self]
    | cons x w ih =>
      rw [List.cons_append, List.dropWhile_cons_of_pos (hw x List.mem_cons_self)]
      exact ih (fun c hc => hw c (List.mem_cons_of_mem _ hc))
  have h2 : d.reverse.dropWhile isBlank = d.reverse := by
    cases h : d.reverse with
    | nil => rfl
    | cons x r =>
      rw [List.dropWhile_cons_of_neg]
      have : x ∈ d := List.mem_reverse.mp (h ▸ List.mem_cons_self)
      simp [hd x this]
  rw [h1, h2, List.reverse_reverse]

private theorem digits_not_blank (b : UInt8) : ∀ c ∈ digits b, isBlank c = false := by
  intro c hc
  unfold isBlank
  have h1 : c ≠ ' ' := by rintro rfl; exact digits_not_mem b (by decide) hc
  have h2 : c ≠ '\n' := by rintro rfl; exact digits_not_mem b (by decide) hc
  simp [h1, h2]

/-- Fields of a text followed by blanks and a number. -/
private theorem fields_step {s : List Char} {fs : List (List Char)} {last w : List Char} {bs : List UInt8} (h1 : pieces ',' s = fs ++ [last])
    (h2 : fs.map (fun f => readDec (trimmed f)) = bs.map (fun b => some b.toNat)) (h3 : ∀ c ∈ last, isBlank c) (hw : ∀ c ∈ w, isBlank c) (b : UInt8) :
    ∃ gs, pieces ',' (s ++ w ++ digits b) = gs ∧ gs.map (fun f => readDec (trimmed f)) = (bs ++ [b]).map (fun b => some b.toNat) := by
  have hwc : ',' ∉ w := by
    intro h
    have := hw _ h
    revert this
    decide
  refine ⟨_, rfl, ?_⟩
  rw [pieces_append (pieces_append h1 hwc) (digits_not_mem b (by decide)), List.map_append, List.map_append, h2]
  congr 1
  simp only [List.map_cons, List.map_nil]
  rw [trimmed_eq _ (digits_not_blank b), (digits_spec b).1]
  intro c hc
  rcases List.mem_append.mp hc with hc | hc
  · exact h3 c hc
  · exact hw c hc

private theorem inv_step {bs : List UInt8} {st : List Char × ℕ} (h : Inv bs st) (b : UInt8) :
    ∃ st', step st b = some st' ∧ Inv (bs ++ [b]) st' ∧
      ∃ t, st'.1 = t ++ [',', ' '] ∧ (pieces ',' t).map (fun f => readDec (trimmed f)) = (bs ++ [b]).map (fun b => some b.toNat) ∧
        ∀ l ∈ pieces '\n' t, l.length ≤ 79 ∧ [' ', ' ', ' ', ' '].IsPrefix l := by
  obtain ⟨s, n⟩ := st
  obtain ⟨⟨p, hp⟩, ⟨fs, last, f1, f2, f3⟩, ⟨ls, cur, l1, l2, l3, l4, l5⟩⟩ := h
  simp only at hp f1 l1 l4 l5
  subst hp
  have hsp : isBlank ' ' = true := by decide
  -- the last field and line of `p`
  obtain ⟨fp, lp, hfp⟩ : ∃ fp lp, pieces ',' p = fp ++ [lp] := by
    rcases List.eq_nil_or_concat (pieces ',' p) with h | ⟨x, y, h⟩
    · exact absurd h (pieces_ne _ _)
    · exact ⟨x, y, by rw [h, List.concat_eq_append]⟩
  obtain ⟨lsp, cp, hlp⟩ : ∃ fp lp, pieces '\n' p = fp ++ [lp] := by
    rcases List.eq_nil_or_concat (pieces '\n' p) with h | ⟨x, y, h⟩
    · exact absurd h (pieces_ne _ _)
    · exact ⟨x, y, by rw [h, List.concat_eq_append]⟩
  have hf := pieces_append (b := [' ']) hfp (by decide)
  rw [f1] at hf
  obtain ⟨e1, e2⟩ := List.append_inj' hf rfl
  have e2 : last = lp ++ [' '] := by simpa using e2
  have hl := pieces_append (b := [' ']) hlp (by decide)
  rw [l1] at hl
  obtain ⟨e3, e4⟩ := List.append_inj' hl rfl
  have e4 : cur = cp ++ [' '] := by simpa using e4
  have hdl := (digits_spec b).2.1
  have hd1 := (digits_spec b).2.2.2
  rw [step_eq]
  by_cases hbr : n + (digits b).length + 2 > 80
  · rw [if_pos hbr]
    have hcl : cur.length = cp.length + 1 := by rw [e4]; simp
    have hcp : cp.length ≤ 79 ∧ [' ', ' ', ' ', ' '].IsPrefix cp := by
      refine ⟨by omega, ?_⟩
      rw [e4] at l3
      exact List.prefix_of_prefix_length_le l3 (List.prefix_append cp [' ']) (by simp; omega)
    have hlp' : ∀ c ∈ lp, isBlank c := fun c hc => f3 c (by rw [e2]; exact List.mem_append_left _ hc)
    obtain ⟨gs, g1, g2⟩ := fields_step (w := ['\n', ' ', ' ', ' ', ' ']) (hfp.trans (by rw [e1])) f2 hlp' (by decide) b
    have hnl : '\n' ∉ [' ', ' ', ' ', ' '] ++ digits b := by
      rw [List.mem_append, not_or]
      exact ⟨by decide, digits_not_mem b (by decide)⟩
    have hlt : pieces '\n' (p ++ ['\n', ' ', ' ', ' ', ' '] ++ digits b) = (ls ++ [cp]) ++ [[' ', ' ', ' ', ' '] ++ digits b] := by
      have : p ++ ['\n', ' ', ' ', ' ', ' '] ++ digits b = p ++ '\n' :: ([' ', ' ', ' ', ' '] ++ digits b) := by simp
      rw [this, pieces_sep, hlp, ← e3, pieces_free hnl]
    have hls : ∀ l ∈ ls ++ [cp], l.length ≤ 79 ∧ [' ', ' ', ' ', ' '].IsPrefix l := by
      intro l hl
      rcases List.mem_append.mp hl with hl | hl
      · exact l2 l hl
      · rw [List.mem_singleton] at hl; subst hl; exact hcp
    refine ⟨_, rfl, ⟨⟨p ++ ['\n', ' ', ' ', ' ', ' '] ++ digits b ++ [','], by simp⟩, ⟨gs, [' '], ?_, g2, by decide⟩,
      ⟨ls ++ [cp], [' ', ' ', ' ', ' '] ++ digits b ++ [',', ' '], ?_, hls, ⟨digits b ++ [',', ' '], by simp⟩, by simp; omega, by show 4 + _ + 2 ≤ 80; omega⟩⟩,
      p ++ ['\n', ' ', ' ', ' ', ' '] ++ digits b, rfl, by rw [g1]; exact g2, ?_⟩
    · show pieces ',' ((p ++ ['\n', ' ', ' ', ' ', ' '] ++ digits b) ++ ',' :: [' ']) = _
      rw [pieces_sep, g1]
      rfl
    · exact pieces_append hlt (by decide)
    · rw [hlt]
      intro l hl
      rcases List.mem_append.mp hl with hl | hl
      · exact hls l hl
      · rw [List.mem_singleton] at hl
        subst hl
        exact ⟨by simp; omega, ⟨digits b, rfl⟩⟩
  · rw [if_neg hbr]
    obtain ⟨gs, g1, g2⟩ := fields_step (w := []) f1 f2 f3 (by simp) b
    rw [List.append_nil] at g1
    have hlt : pieces '\n' (p ++ [' '] ++ digits b) = ls ++ [cur ++ digits b] := pieces_append l1 (digits_not_mem b (by decide))
    have hpre : [' ', ' ', ' ', ' '].IsPrefix (cur ++ digits b) := l3.trans (List.prefix_append _ _)
    refine ⟨_, rfl, ⟨⟨p ++ [' '] ++ digits b ++ [','], by simp⟩, ⟨gs, [' '], ?_, g2, by decide⟩,
      ⟨ls, cur ++ digits b ++ [',', ' '], pieces_append hlt (by decide), l2, hpre.trans (List.prefix_append _ _), by simp; omega, by show n + _ + 2 ≤ 80; omega⟩⟩,
      p ++ [' '] ++ digits b, rfl, by rw [g1]; exact g2, ?_⟩
    · show pieces ',' ((p ++ [' '] ++ digits b) ++ ',' :: [' ']) = _
      rw [pieces_sep, g1]
      rfl
    · rw [hlt]
      intro l hl
      rcases List.mem_append.mp hl with hl | hl
      · exact l2 l hl
      · rw [List.mem_singleton] at hl
        subst hl
        exact ⟨by simp; omega, hpre⟩

private theorem inv_init : Inv [] ([' ', ' ', ' ', ' '], 4) :=
  ⟨⟨[' ', ' ', ' '], rfl⟩, ⟨[], [' ', ' ', ' ', ' '], by decide, rfl, by decide⟩,
    ⟨[], [' ', ' ', ' ', ' '], by decide, by simp, List.prefix_refl _, rfl, by decide⟩⟩

private theorem inv_run (xs : List UInt8) : ∀ (bs : List UInt8) st, Inv bs st → ∃ st', xs.foldlM step st = some st' ∧ Inv (bs ++ xs) st' := by
  induction xs with
  | nil => intro bs st h; exact ⟨st, rfl, by rwa [List.append_nil]⟩
  | cons x xs ih =>
    intro bs st h
    obtain ⟨st1, e1, i1, -⟩ := inv_step h x
    obtain ⟨st2, e2, i2⟩ := ih (bs ++ [x]) st1 i1
    refine ⟨st2, ?_, by rw [List.append_assoc] at i2; exact i2⟩
    rw [List.foldlM_cons, e1]
    exact e2

private theorem convert (bytes : List UInt8) (hne : bytes ≠ []) : ∃ t, convertFile bytes = some t ∧
    (pieces ',' t).map (fun f => readDec (trimmed f)) = bytes.map (fun b => some b.toNat) ∧
    ∀ l ∈ pieces '\n' t, l.length ≤ 79 ∧ [' ', ' ', ' ', ' '].IsPrefix l := by
  rcases List.eq_nil_or_concat bytes with h | ⟨xs, b, h⟩
  · exact absurd h hne
  · rw [List.concat_eq_append] at h
    subst h
    obtain ⟨st1, e1, i1⟩ := inv_run xs [] _ inv_init
    rw [List.nil_append] at i1
    obtain ⟨st2, e2, -, t, ht, h1, h2⟩ := inv_step i1 b
    refine ⟨t, ?_, h1, h2⟩
    unfold convertFile byte2char
    rw [List.foldlM_append, e1]
    show Option.map _ (Option.map _ ([b].foldlM step st1)) = _
    have : [b].foldlM step st1 = some st2 := by rw [List.foldlM_cons, e2]; rfl
    rw [this]
    simp only [Option.map_some, ht]
    congr 1
    have : t ++ [',', ' '] = (t ++ [',']) ++ [' '] := by simp
    rw [this, List.dropLast_concat, List.dropLast_concat]

/-! ## C93 -/

/-- The conversion never panics, and the comma-separated, trimmed fields of the text are the decimal numbers of the bytes. -/
theorem C93_fields (bytes : List UInt8) (hne : bytes ≠ []) : ∃ t, convertFile bytes = some t ∧
    (pieces ',' t).map (fun f => readDec (trimmed f)) = bytes.map (fun b => some b.toNat) := by
  obtain ⟨t, h1, h2, -⟩ := convert bytes hne
  exact ⟨t, h1, h2⟩

example : ∃ t, convertFile [1, 20, 255] = some t ∧ (pieces ',' t).map (fun f => readDec (trimmed f)) = [some 1, some 20, some 255] :=
  C93_fields [1, 20, 255] (by decide)

/-- No bytes give a blank text. -/
theorem C93_empty : ∃ t, convertFile [] = some t ∧ (∀ c ∈ t, isBlank c) := ⟨[' ', ' '], by decide +kernel, by decide⟩

/-- So the bytes can be recovered: different inputs give different texts. -/
theorem C93_injective (x y : List UInt8) (h : convertFile x = convertFile y) : x = y := by
  have key : ∀ z : List UInt8, z ≠ [] → convertFile z ≠ convertFile [] := by
    intro z hz he
    obtain ⟨t, h1, h2⟩ := C93_fields z hz
    have e : convertFile [] = some [' ', ' '] := by decide +kernel
    rw [h1, e] at he
    rw [Option.some.inj he] at h2
    cases z with
    | nil => exact hz rfl
    | cons b z =>
      have hd : (pieces ',' [' ', ' ']).map (fun f => readDec (trimmed f)) = [none] := by decide +kernel
      rw [hd] at h2
      cases (List.cons.inj h2).1
  by_cases hx : x = []
  · subst hx
    by_cases hy : y = []
    · exact hy.symm
    · exact absurd h.symm (key y hy)
  · by_cases hy : y = []
    · subst hy; exact absurd h (key x hx)
    · obtain ⟨t, h1, h2⟩ := C93_fields x hx
      obtain ⟨u, h3, h4⟩ := C93_fields y hy
      rw [h1, h3] at h
      cases h
      rw [h2] at h4
      refine List.map_injective_iff.mpr (fun a b hab => ?_) h4
      exact UInt8.toNat_inj.mp (Option.some.inj hab)

example : convertFile [1, 20, 255] = some "    1, 20, 255".toList := by decide +kernel

/-- The file written is, line by line: the head of the declaration, the lines of the converted bytes, and a line closing the
declaration; the last line is ended. -/
theorem C93_program (bytes : List UInt8) : ∃ t p, convertFile bytes = some t ∧ program bytes = some p ∧
    pieces '\n' p = "pub static wav: [u8;_] = [".toList :: pieces '\n' t ++ ["];".toList, []] := by
  have ht : ∃ t, convertFile bytes = some t := by
    by_cases h : bytes = []
    · exact ⟨_, by rw [h]; exact C93_empty.choose_spec.1⟩
    · obtain ⟨t, h1, -⟩ := C93_fields bytes h
      exact ⟨t, h1⟩
  obtain ⟨t, ht⟩ := ht
  refine ⟨t, "pub static wav: [u8;_] = [\n".toList ++ t ++ "\n];\n".toList, ht, by rw [program, ht]; rfl, ?_⟩
  have e1 : "pub static wav: [u8;_] = [\n".toList = "pub static wav: [u8;_] = [".toList ++ ['\n'] := by decide +kernel
  have e2 : "\n];\n".toList = '\n' :: ("];".toList ++ ['\n']) := by decide +kernel
  rw [e1, e2, List.append_assoc, List.append_assoc, List.singleton_append, pieces_sep, pieces_sep, pieces_sep,
    pieces_free (b := "pub static wav: [u8;_] = [".toList) (by decide +kernel), pieces_free (b := "];".toList) (by decide +kernel)]
  simp [pieces]

example : program [1, 20, 255] = some "pub static wav: [u8;_] = [\n    1, 20, 255\n];\n".toList := by decide +kernel

/-! ## C94 -/

/-- Every line has at most 79 characters and starts with four spaces, for any input with at least one byte. -/
theorem C94_partial (bytes : List UInt8) (hne : bytes ≠ []) : ∃ t, convertFile bytes = some t ∧
    ∀ l ∈ pieces '\n' t, l.length ≤ 79 ∧ [' ', ' ', ' ', ' '].IsPrefix l := by
  obtain ⟨t, h1, -, h2⟩ := convert bytes hne
  exact ⟨t, h1, h2⟩

example : ∃ t, convertFile (List.replicate 1000 200) = some t ∧ ∀ l ∈ pieces '\n' t, l.length ≤ 79 ∧ [' ', ' ', ' ', ' '].IsPrefix l :=
  C94_partial _ (by decide)

/-- The code violates C94 for an empty input: the single line has two spaces. -/
theorem C94_violated : convertFile [] = some [' ', ' '] ∧ ∃ l ∈ pieces '\n' [' ', ' '], ¬ [' ', ' ', ' ', ' '].IsPrefix l :=
  ⟨by decide +kernel, [' ', ' '], by decide, by decide⟩

/-- Twenty bytes make two lines. -/
example : (convertFile (List.replicate 20 200)).map (fun t => (pieces '\n' t).map List.length) = some [78, 27] := by decide +kernel

end Verif
