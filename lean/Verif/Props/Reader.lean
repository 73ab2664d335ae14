import Verif.Model.Debug

/-! # VecReader: C31 -/

namespace Verif
namespace VecReader

/-- A client making a sequence of `read` calls with the given buffers; the list of (count, buffer
after the call). -/
def calls (r : VecReader) : List (List UInt8) → List (ℕ × List UInt8)
  | [] => []
  | b :: bs => let o := r.read b; (o.1, o.2.1) :: calls o.2.2 bs

theorem readLoop_spec (r : VecReader) (buf : List UInt8) (n : ℕ) :
    r.readLoop buf n =
      ((r.vec.drop r.pos).take buf.length ++ buf.drop ((r.vec.drop r.pos).take buf.length).length,
       n + min buf.length (r.vec.length - r.pos),
       { r with pos := r.pos + min buf.length (r.vec.length - r.pos) }) := by
  induction buf generalizing r n with
  | nil => simp [readLoop]
  | cons b rest ih =>
    unfold readLoop
    by_cases h : r.pos < r.vec.length
    · simp only [List.getElem?_eq_getElem h]
      rw [ih]
      simp only [Prod.mk.injEq, VecReader.mk.injEq, true_and]
      refine ⟨?_, ?_, ?_⟩
      · rw [List.drop_eq_getElem_cons h]
        simp only [List.length_cons, List.take_succ_cons, List.cons_append, List.drop_succ_cons]
      · simp only [List.length_cons]; omega
      · simp only [List.length_cons]; omega
    · rw [List.getElem?_eq_none (by omega)]
      have : r.vec.length - r.pos = 0 := by omega
      simp [this, List.drop_eq_nil_of_le (not_lt.mp h)]

/-- One call: the count is `min(buffer, remaining)`; the buffer starts with the next bytes of the
payload and is otherwise untouched; the payload never changes. -/
theorem _root_.Verif.C31_read (r : VecReader) (buf : List UInt8) :
    let o := r.read buf
    o.1 = min buf.length (r.vec.length - r.pos) ∧
    o.2.1.length = buf.length ∧
    o.2.1.take o.1 = (r.vec.drop r.pos).take o.1 ∧
    o.2.1.drop o.1 = buf.drop o.1 ∧
    o.2.2.vec = r.vec ∧ o.2.2.pos = r.pos + o.1 := by
  intro o
  have e : o = _ := show r.read buf = _ by unfold read; rw [readLoop_spec]
  rw [e]
  have hl : ((r.vec.drop r.pos).take buf.length).length = min buf.length (r.vec.length - r.pos) := by simp
  refine ⟨by simp, ?_, ?_, ?_, rfl, by simp⟩
  · simp only [List.length_append, List.length_drop, hl]; omega
  · simp only [hl, zero_add]
    rw [List.take_append_of_le_length (by rw [hl]), List.take_take]
    congr 1
    omega
  · simp only [hl, zero_add]
    rw [List.drop_append_of_le_length (by rw [hl])]
    simp [hl]

/-- Any sequence of calls from a fresh reader: the delivered bytes concatenate to the payload's prefix
of the total delivered length, which is the smaller of the total buffer size and the payload. -/
theorem _root_.Verif.C31_sequence (v : List UInt8) (bufs : List (List UInt8)) :
    (((VecReader.new v).calls bufs).flatMap fun o => o.2.take o.1) =
      v.take (bufs.map List.length).sum ∧
    (((VecReader.new v).calls bufs).map Prod.fst).sum = min (bufs.map List.length).sum v.length := by
  suffices H : ∀ (bufs : List (List UInt8)) (r : VecReader), r.pos ≤ r.vec.length →
      ((r.calls bufs).flatMap fun o => o.2.take o.1) = (r.vec.drop r.pos).take (bufs.map List.length).sum ∧
      ((r.calls bufs).map Prod.fst).sum = min (bufs.map List.length).sum (r.vec.length - r.pos) by
    simpa [VecReader.new] using H bufs (VecReader.new v) (by simp [VecReader.new])
  intro bufs
  induction bufs with
  | nil => intro r _; simp [calls]
  | cons b bs ih =>
    intro r hr
    obtain ⟨h1, h2, h3, h4, h5, h6⟩ := C31_read r b
    simp only [calls, List.flatMap_cons, List.map_cons, List.sum_cons]
    generalize r.read b = o at *
    have hpos : o.2.2.pos ≤ o.2.2.vec.length := by rw [h5, h6]; omega
    obtain ⟨i1, i2⟩ := ih o.2.2 hpos
    rw [i1, i2, h3, h5, h6]
    constructor
    · rw [← List.drop_drop]
      by_cases hb : b.length ≤ r.vec.length - r.pos
      · have : o.1 = b.length := by omega
        rw [this, List.take_add]
      · have hlen : (r.vec.drop r.pos).length ≤ o.1 := by simp; omega
        rw [List.take_of_length_le hlen, List.drop_eq_nil_of_le hlen, List.take_nil, List.append_nil,
          List.take_of_length_le (by simp; omega)]
    · omega

/-- Once the payload is exhausted every further read returns 0 and leaves the buffer alone. -/
theorem _root_.Verif.C31_exhausted (r : VecReader) (h : r.vec.length ≤ r.pos) (buf : List UInt8) :
    (r.read buf).1 = 0 ∧ (r.read buf).2.1 = buf := by
  obtain ⟨h1, -, -, h4, -, -⟩ := C31_read r buf
  have h0 : (r.read buf).1 = 0 := by rw [h1]; omega
  refine ⟨h0, ?_⟩
  rw [h0] at h4
  simpa using h4

example : (VecReader.new [1, 2, 3, 4, 5]).calls [[9, 9], [9, 9], [9, 9, 9], [9]] =
    [(2, [1, 2]), (2, [3, 4]), (1, [5, 9, 9]), (0, [9])] := by
  simp [calls, VecReader.read, readLoop, VecReader.new]

end VecReader
end Verif
