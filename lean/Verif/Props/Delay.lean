import Verif.Proofs.Time
import Verif.Props.Time
import Verif.Proofs.Sine
import Verif.Spec.Filter
import Verif.Model.Modifiers
import Verif.Model.Generators
import Verif.Spec.History
import Verif.Model.ArithReal

set_option linter.unusedSectionVars false

/-! # Delay and Echo: C51-C55; Gain and Passthrough: C73 -/

namespace Verif
open Fl

section
variable {S M : Type} [Flt S] [Flt M] [SM S M]

/-- `List.range D` mapped: state of a delay line at time `n`. -/
private def line (y : ℕ → S) (D n : ℕ) : List S := (List.range D).map fun i => delayed (lit 0) y D (n + i)

private theorem line_zero (y : ℕ → S) (D : ℕ) : line y D 0 = List.replicate D (lit 0) := by
  unfold line
  rw [List.eq_replicate_iff]
  refine ⟨by simp, fun b hb => ?_⟩
  obtain ⟨i, hi, rfl⟩ := List.mem_map.mp hb
  rw [List.mem_range] at hi
  simp [delayed, hi]

private theorem line_succ (y : ℕ → S) (D n : ℕ) :
    line y D n ++ [y n] = delayed (lit 0) y D n :: line y D (n + 1) := by
  unfold line
  have e : y n = delayed (lit 0) y D (n + D) := by
    unfold delayed; rw [if_neg (by omega)]; congr 1; omega
  rw [e]
  have : (List.range D).map (fun i => delayed (lit 0) y D (n + i)) ++ [delayed (lit 0) y D (n + D)] =
      (List.range (D + 1)).map (fun i => delayed (lit 0) y D (n + i)) := by
    rw [List.range_succ, List.map_append]; rfl
  rw [this, List.range_succ_eq_map, List.map_cons, List.map_map]
  congr 1
  apply List.map_congr_left
  intro i _
  show delayed (lit 0) y D (n + (i + 1)) = delayed (lit 0) y D (n + 1 + i)
  congr 1; omega

private theorem line_cons (y : ℕ → S) (D n : ℕ) (h : 0 < D) :
    ∃ q, line y D n = delayed (lit 0) y D n :: q ∧ q ++ [y n] = line y D (n + 1) := by
  have := line_succ y D n
  cases hl : line y D n with
  | nil => have := congrArg List.length hl; simp [line] at this; omega
  | cons a q => rw [hl] at this; simp at this; exact ⟨q, by rw [this.1], this.2⟩

/-! ## C51, C73 -/

/-- In any arithmetic: a Delay of `D` samples starting from silence never panics, outputs `x[n-D]` (0 before), and
keeps its length. -/
theorem C51_delay (m : Delay S) (D : ℕ) (hm : m.delay = List.replicate D (lit 0)) (x : ℕ → S) (n : ℕ) :
    modOut Delay.process x m n = .ok (if n < D then lit 0 else x (n - D)) ∧
    ∃ m', modAfter Delay.process x m n = .ok m' ∧ m'.delay.length = D := by
  have key : modAfter Delay.process x m n = .ok ⟨line x D n⟩ := by
    induction n with
    | zero => rw [line_zero, ← hm]; rfl
    | succ n ih =>
      refine modAfter_succ (y := delayed (lit 0) x D n) ih ?_
      unfold Delay.process
      simp only [line_succ]
  refine ⟨modOut_of (m'' := ⟨line x D (n + 1)⟩) key ?_, _, key, by simp [line]⟩
  unfold Delay.process
  simp only [line_succ]
  rfl

example : modOut Delay.process (fun n => (lit n : F32)) ⟨[lit 0, lit 0]⟩ 7 = .ok (lit 5) :=
  (C51_delay ⟨[lit 0, lit 0]⟩ 2 rfl _ 7).1.trans (by norm_num)

/-- `Delay::new` makes such a delay line, so `get_delay` never changes. -/
theorem C51_new (d : Duration) (fs : M → Res Duration) (x : ℕ → S) (n : ℕ) :
    ∃ D, (Delay.new M d : Delay S).delay = List.replicate D (lit 0) ∧
    modOut Delay.process x (Delay.new M d) n = .ok (if n < D then lit 0 else x (n - D)) ∧
    ∃ m', modAfter Delay.process x (Delay.new M d) n = .ok m' ∧ m'.getDelay fs = (Delay.new M d : Delay S).getDelay fs := by
  refine ⟨_, rfl, ?_⟩
  obtain ⟨h1, m', h2, h3⟩ := C51_delay (Delay.new M d : Delay S) _ rfl x n
  refine ⟨h1, m', h2, ?_⟩
  unfold Delay.getDelay
  rw [h3]
  simp [Delay.new]

/-- `D = 0` is the identity. -/
theorem C51_zero (x : ℕ → S) (n : ℕ) : modOut Delay.process x (⟨[]⟩ : Delay S) n = .ok (x n) := by
  have := (C51_delay (⟨[]⟩ : Delay S) 0 rfl x n).1
  simpa using this

example : (modOut Delay.process (fun n => (lit (n + 5) : F32)) ⟨[lit 0, lit 0]⟩ 1).toOption = some (lit 0) ∧
    (modOut Delay.process (fun n => (lit (n + 5) : F32)) ⟨[lit 0, lit 0]⟩ 3).toOption = some (lit 6) := by decide +kernel

/-- In any arithmetic, whatever was processed before: Gain multiplies, Passthrough copies, Zero yields 0. -/
theorem C73_memoryless (a : S) (x : ℕ → S) (n : ℕ) :
    modOut Modifier.process x (Gain.new a) n = .ok (x n * a) ∧ modOut Modifier.process x Passthrough.mk n = .ok (x n) ∧
    nth Zero.process Zero.mk n = (lit 0 : S) := by
  have h1 : modAfter Modifier.process x (Gain.new a) n = .ok (Gain.new a) := by
    induction n with
    | zero => rfl
    | succ n ih => exact modAfter_succ (y := x n * a) ih rfl
  have h2 : modAfter Modifier.process x Passthrough.mk n = .ok Passthrough.mk := by
    clear h1
    induction n with
    | zero => rfl
    | succ n ih => exact modAfter_succ (y := x n) ih rfl
  exact ⟨modOut_of h1 rfl, modOut_of h2 rfl, rfl⟩

/-! ## C54 -/

/-- In any arithmetic: an Echo of `D ≥ 1` samples never panics and its outputs satisfy
`y[n] = y[n-D]*g + x[n]` with `y = 0` before time 0. -/
theorem C54_echo (m : Echo S) (D : ℕ) (hD : 0 < D) (hm : m.delay = List.replicate D (lit 0)) (x : ℕ → S) :
    ∃ y : ℕ → S, ∀ n, modOut Echo.process x m n = .ok (y n) ∧
      y n = (if n < D then lit 0 else y (n - D)) * m.gain + x n := by
  have np : ∀ n, ∃ y, modOut Echo.process x m n = .ok y := by
    intro n
    obtain ⟨m', h1, h2⟩ := modAfter_inv (p := Echo.process) (x := x) (fun m' : Echo S => m'.delay.length = D)
      (fun m' v h => by
        unfold Echo.process
        cases hd : m'.delay with
        | nil => rw [hd] at h; simp at h; omega
        | cons d q => exact ⟨_, _, rfl, by rw [hd] at h; simpa using h⟩) (m := m) (by rw [hm]; simp) n
    cases hd : m'.delay with
    | nil => rw [hd] at h2; simp at h2; omega
    | cons d q => exact ⟨_, modOut_of h1 (by unfold Echo.process; rw [hd])⟩
  choose y hy using np
  have key : ∀ n, modAfter Echo.process x m n = .ok ⟨line y D n, m.gain⟩ ∧
      y n = delayed (lit 0) y D n * m.gain + x n := by
    have out : ∀ n, modAfter Echo.process x m n = .ok ⟨line y D n, m.gain⟩ →
        y n = delayed (lit 0) y D n * m.gain + x n ∧
        Echo.process ⟨line y D n, m.gain⟩ (x n) = .ok (y n, ⟨line y D (n + 1), m.gain⟩) := by
      intro n h
      obtain ⟨q, h1, h2⟩ := line_cons y D n hD
      have hp : Echo.process ⟨line y D n, m.gain⟩ (x n) = .ok (delayed (lit 0) y D n * m.gain + x n,
          ⟨q ++ [delayed (lit 0) y D n * m.gain + x n], m.gain⟩) := by
        unfold Echo.process
        simp only [h1]
      have e := hy n
      rw [modOut_of h hp] at e
      have e' : delayed (lit 0) y D n * m.gain + x n = y n := by injection e
      refine ⟨e'.symm, ?_⟩
      rw [hp, e', h2]
    intro n
    induction n with
    | zero =>
      have h : modAfter Echo.process x m 0 = .ok ⟨line y D 0, m.gain⟩ := by rw [line_zero, ← hm]; rfl
      exact ⟨h, (out 0 h).1⟩
    | succ n ih =>
      have h := modAfter_succ ih.1 (out n ih.1).2
      exact ⟨h, (out _ h).1⟩
  exact ⟨y, fun n => ⟨hy n, (key n).2⟩⟩

example : ((List.range 4).map fun n => (modOut Echo.process (fun n => if n = 0 then (lit 1 : F32) else lit 0)
    ⟨[lit 0], lit (1 / 2)⟩ n).toOption) = [some (lit 1), some (lit (1 / 2)), some (lit (1 / 4)), some (lit (1 / 8))] := by
  decide +kernel
end

/-- Exact arithmetic, `|g| < 1`: inputs bounded by `B` give outputs bounded by `B/(1-|g|)`. -/
theorem C54_bounded (m : Echo ℝ) (D : ℕ) (hD : 0 < D) (hm : m.delay = List.replicate D (lit 0)) (hg : |m.gain| < 1)
    (x : ℕ → ℝ) (B : ℝ) (hx : ∀ n, |x n| ≤ B) (n : ℕ) :
    ∃ y, modOut Echo.process x m n = .ok y ∧ |y| ≤ B / (1 - |m.gain|) := by
  obtain ⟨y, hy⟩ := C54_echo m D hD hm x
  refine ⟨y n, (hy n).1, ?_⟩
  have hB : 0 ≤ B := (abs_nonneg _).trans (hx 0)
  have hg1 : 0 < 1 - |m.gain| := by linarith
  induction n using Nat.strong_induction_on with
  | _ n ih =>
    have h : y n = (if n < D then (0 : ℝ) else y (n - D)) * m.gain + x n := by
      have h := (hy n).2
      rw [show (lit 0 : ℝ) = 0 by real_simp] at h
      exact h
    rw [h]
    have hprev : |(if n < D then (0 : ℝ) else y (n - D))| ≤ B / (1 - |m.gain|) := by
      split_ifs with h
      · rw [abs_zero]; positivity
      · exact ih (n - D) (by omega)
    calc |(if n < D then (0 : ℝ) else y (n - D)) * m.gain + x n|
        ≤ |(if n < D then (0 : ℝ) else y (n - D))| * |m.gain| + |x n| := by rw [← abs_mul]; exact abs_add_le _ _
      _ ≤ B / (1 - |m.gain|) * |m.gain| + B := add_le_add (mul_le_mul_of_nonneg_right hprev (abs_nonneg _)) (hx n)
      _ = B / (1 - |m.gain|) := by field_simp; ring

example : |(⟨[0, 0], 1 / 2⟩ : Echo ℝ).gain| < 1 := by norm_num [abs_of_pos]

/-! ## C53 -/

/-- The property fails: a clone of a one-sample Delay (Echo) is still silent when the original has already put out the
delayed sample. -/
theorem C53_clone_violated :
    let x : ℕ → F32 := fun n => if n = 0 then lit 1 else lit 0
    let d : Delay F32 := ⟨[lit 0]⟩
    let e : Echo F32 := ⟨[lit 0], lit 1⟩
    (modOut Delay.process x d 1).toOption = some (lit 1) ∧ (modOut Delay.process x d.clone 1).toOption = some (lit 0) ∧
    (modOut Echo.process x e 1).toOption = some (lit 1) ∧ (modOut Echo.process x e.clone 1).toOption = some (lit 0) := by
  decide +kernel

/-- What holds, in any arithmetic and for every state: the clone starts from silence, an Echo keeps its gain, and the
length is multiplied by 48000. Missing: the same length, which holds only for length 0. -/
theorem C53_clone_partial {S : Type} [Flt S] (d : Delay S) (e : Echo S) (x : ℕ → S) (n : ℕ) :
    modOut Delay.process x d.clone n =
      .ok (if n < d.delay.length * 48000 then lit 0 else x (n - d.delay.length * 48000)) ∧
    e.clone.delay = List.replicate (e.delay.length * 48000) (lit 0) ∧ e.clone.gain = e.gain ∧
    (d.clone.delay.length = d.delay.length ↔ d.delay.length = 0) := by
  refine ⟨(C51_delay d.clone _ rfl x n).1, rfl, rfl, ?_⟩
  have : d.clone.delay.length = d.delay.length * 48000 := by simp [Delay.clone, SAMPLE_RATE]
  omega

/-! ## C52 -/

private theorem samp64_err (d : Duration) (h : d.secs < 2 ^ 31) : |d.samp64 - 48000 * d.exact| ≤ 1 / 16 := by
  have hs : (d.secs : ℚ) + 1 ≤ 2 ^ 31 := by exact_mod_cast h
  have hf := d.frac_bounds
  have hrs : b64.rnd d.secs = d.secs := by
    have := b64.rnd_of_repr (Fmt.repr64_int (n := (d.secs : ℤ)) (by rw [abs_of_nonneg (by positivity)]; omega))
    exact_mod_cast this
  have hd0 : (0 : ℚ) ≤ d.secs := by positivity
  have hn0 : (0 : ℚ) ≤ (d.nanos : ℚ) / 10 ^ 9 := by positivity
  have hn1 : (d.nanos : ℚ) / 10 ^ 9 ≤ 1 := by
    rw [div_le_one (by norm_num)]; exact_mod_cast d.hn.le
  have e1 := err64 (q := (d.nanos : ℚ) / 10 ^ 9) 0 (by norm_num) (by
    rw [abs_of_nonneg hn0, zpow_zero]; exact hn1)
  have e2 := err64 (q := d.secs + d.frac64) 31 (by norm_num) (by
    rw [abs_of_nonneg (by linarith [hf.1])]
    exact_mod_cast (by linarith [hf.2] : (d.secs : ℚ) + d.frac64 ≤ 2 ^ 31))
  have hsec : d.secs64 = b64.rnd (d.secs + d.frac64) := by unfold Duration.secs64; rw [hrs]
  have hsec31 : |d.secs64| ≤ 2 ^ 31 := by
    rw [hsec]
    exact rnd64_pow2_le 31 (by rw [abs_of_nonneg (by linarith [hf.1])]; linarith [hf.2])
  have e3 := err64 (q := d.secs64 * 48000) 47 (by norm_num) (by
    rw [abs_mul]
    have : |(48000 : ℚ)| ≤ 2 ^ 16 := by norm_num
    calc |d.secs64| * |(48000 : ℚ)| ≤ 2 ^ 31 * 2 ^ 16 :=
          mul_le_mul hsec31 this (abs_nonneg _) (by positivity)
      _ = _ := by norm_num)
  have hex : d.exact = d.secs + (d.nanos : ℚ) / 10 ^ 9 := by
    unfold Duration.exact Duration.total
    push_cast
    ring
  rw [hex]
  rw [← hsec] at e2
  have hfr : d.frac64 = b64.rnd ((d.nanos : ℚ) / 10 ^ 9) := rfl
  rw [← hfr] at e1
  have hsm : d.samp64 = b64.rnd (d.secs64 * 48000) := rfl
  rw [← hsm] at e3
  rw [abs_le] at *
  norm_num at e1 e2 e3 ⊢
  constructor <;> linarith

private theorem samples_of_near (d : Duration) (h : d.secs < 2 ^ 31) (n : ℕ) (hn : n < 2 ^ 60)
    (hd : |48000 * d.exact - n| ≤ 1 / 4) : secondsToSamples F64 d = n := by
  have h1 := samp64_err d h
  have h2 : roundAwayQ d.samp64 = (n : ℤ) := by
    apply roundAwayQ_eq_of_abs_lt
    rw [abs_le] at *
    rw [abs_lt]
    constructor <;> push_cast <;> linarith
  have := d.samples_eq
  omega

/-- IEEE: the length is `seconds_to_samples`, hence the rounded duration; `get_delay` returns it within 2 ns (or
one part in `2^50`); and a Delay made from that duration has the same length. -/
theorem C52_delay_length (d : Duration) (h : d.secs < 2 ^ 30) (fs : F64 → Res Duration) (hfs : FromSecsSpec fs) :
    (Delay.new F64 d : Delay F32).delay.length = secondsToSamples F64 d ∧
    |((Delay.new F64 d : Delay F32).delay.length : ℚ) - 48000 * d.exact| ≤ 1 / 2 + 2 ^ (-6 : ℤ) ∧
    ∃ e, (Delay.new F64 d : Delay F32).getDelay fs = .ok e ∧
      |e.exact - ((Delay.new F64 d : Delay F32).delay.length : ℚ) / 48000| ≤
        1 / 10 ^ 9 + ((Delay.new F64 d : Delay F32).delay.length : ℚ) / 48000 / 2 ^ 51 ∧
      (Delay.new F64 e : Delay F32).delay.length = (Delay.new F64 d : Delay F32).delay.length := by
  have hl : ∀ d : Duration, (Delay.new F64 d : Delay F32).delay.length = secondsToSamples F64 d := by
    intro d; simp [Delay.new, secondsToSamples]
  have hnear := C21_nearest d h
  simp only [hl]
  refine ⟨trivial, hnear, ?_⟩
  set L := secondsToSamples F64 d with hL
  have hex : d.exact ≤ 2 ^ 30 := by
    have hs : (d.secs : ℚ) + 1 ≤ 2 ^ 30 := by exact_mod_cast h
    have hn1 : (d.nanos : ℚ) / 10 ^ 9 ≤ 1 := by
      rw [div_le_one (by norm_num)]; exact_mod_cast d.hn.le
    have : d.exact = d.secs + (d.nanos : ℚ) / 10 ^ 9 := by
      unfold Duration.exact Duration.total
      push_cast
      ring
    linarith
  have hLq : (L : ℚ) ≤ 48000 * 2 ^ 30 + 1 := by
    have h2 := (abs_le.mp hnear).2
    have : (2 : ℚ) ^ (-6 : ℤ) = 1 / 64 := by norm_num
    rw [this] at h2
    linarith
  have hLn : L ≤ 48000 * 2 ^ 30 + 1 := by exact_mod_cast hLq
  have hL0 : (0 : ℚ) ≤ L := by positivity
  set q := b64.rnd ((L : ℚ) / 48000) with hq
  have hq0 : 0 ≤ q := b64.rnd_nonneg (by positivity)
  have hdiv : (L : ℚ) / 48000 ≤ 2 ^ 30 + 1 := by
    rw [div_le_iff₀ (by norm_num)]; linarith [hLq]
  have hd0 : 0 ≤ (L : ℚ) / 48000 := by positivity
  have hrel : |q - (L : ℚ) / 48000| ≤ (L : ℚ) / 48000 / 2 ^ 53 := by
    rcases Nat.eq_zero_or_pos L with h0 | h0
    · rw [hq, h0]; norm_num
    · have h1 : (1 : ℚ) ≤ L := by exact_mod_cast h0
      have := b64.abs_rnd_sub_le_rel (q := (L : ℚ) / 48000) (by
        rw [abs_of_nonneg hd0]
        refine le_trans (b := pow2 (-16)) (pow2_le (by decide)) ?_
        rw [pow2_eq, le_div_iff₀ (by norm_num)]
        refine le_trans ?_ h1
        norm_num)
      rw [abs_of_nonneg hd0, pow2_eq] at this
      refine this.trans (le_of_eq ?_)
      rw [show (-(b64.p : ℤ)) = -53 from rfl]
      rw [zpow_neg]; norm_cast; ring
  have hx : ((lit (L : ℚ) : F64) / srM).Is q :=
    Is.div (lit64_nat (by omega)) srM64 (by norm_num) (fits64' 31 (by norm_num) (by
      rw [abs_of_nonneg (by positivity)]; linarith [hdiv]))
  have hr := abs_le.mp hrel
  have hqle : q ≤ 2 ^ 30 + 2 := by
    have : (L : ℚ) / 48000 / 2 ^ 53 ≤ 1 := by rw [div_le_one (by norm_num)]; linarith
    linarith
  obtain ⟨e, he, hb⟩ := hfs _ q hx hq0 (lt_of_le_of_lt hqle (by norm_num))
  have hb2 : |e.exact - (L : ℚ) / 48000| ≤ 1 / 10 ^ 9 + (L : ℚ) / 48000 / 2 ^ 51 := by
    have h1 := abs_le.mp hb
    have e1 : (e.total : ℚ) = e.exact * 10 ^ 9 := by unfold Duration.exact; ring
    rw [e1] at h1
    rw [abs_le]
    constructor <;> linarith [h1.1, h1.2, hr.1, hr.2]
  have hb3 := abs_le.mp hb2
  refine ⟨e, by unfold Delay.getDelay; rw [hl d]; exact he, hb2, ?_⟩
  apply samples_of_near e
  · have h1 : (e.secs : ℚ) ≤ e.exact := by
      unfold Duration.exact Duration.total
      rw [le_div_iff₀ (by norm_num)]
      push_cast
      have : (0 : ℚ) ≤ e.nanos := by positivity
      linarith
    have : (e.secs : ℚ) < 2 ^ 31 := by linarith
    exact_mod_cast this
  · omega
  · rw [abs_le]
    constructor <;> linarith

example : (⟨1, 500000000, by norm_num, by norm_num⟩ : Duration).secs < 2 ^ 30 := by norm_num

/-! ## C55 -/

/-- The property fails: an Echo with no delay panics on its first sample. -/
theorem C55_echo_violated : (modOut Echo.process (fun _ => (lit 1 : F32)) (Echo.new ⟨0, 0, by norm_num, by norm_num⟩ (lit 1 : F64)) 0).toOption
    = none := by decide +kernel

/-- What holds (IEEE): exactly the durations below one sample (20833 ns) panic; from 20834 ns on no input sequence does.
Missing: shorter durations, where it is false. -/
theorem C55_echo_partial (d : Duration) (g : F64) (x : ℕ → F32) :
    (20834 ≤ d.total → ∀ n, ∃ y, modOut Echo.process x (Echo.new d g) n = .ok y) ∧
    (d.total ≤ 20833 → modOut Echo.process x (Echo.new d g) 0 = .error .unwrapNone) := by
  have hlen : (Echo.new d g : Echo F32).delay = List.replicate (toUsize ((d.asSecs : F64) * srM)) (lit 0) := rfl
  constructor
  · intro h n
    have h1 : (⟨0, 20834, by norm_num, by norm_num⟩ : Duration).secs64 ≤ d.secs64 := Duration.secs64_mono h
    have h2 : (⟨0, 20834, by norm_num, by norm_num⟩ : Duration).samp64 ≤ d.samp64 := b64.rnd_mono (by linarith)
    have h3 : (1 : ℚ) ≤ (⟨0, 20834, by norm_num, by norm_num⟩ : Duration).samp64 := by decide +kernel
    have h4 : 0 < toUsize ((d.asSecs : F64) * srM) := by
      rw [Fl.Is.toUsize d.samp_is]
      have : (1 : ℤ) ≤ truncQ d.samp64 := by
        have := truncQ_mono (h3.trans h2)
        rwa [show (1 : ℚ) = ((1 : ℤ) : ℚ) by norm_num, truncQ_int] at this
      omega
    obtain ⟨y, hy⟩ := C54_echo (Echo.new d g : Echo F32) _ h4 hlen x
    exact ⟨y n, (hy n).1⟩
  · intro h
    have h1 : d.secs64 ≤ (⟨0, 20833, by norm_num, by norm_num⟩ : Duration).secs64 := Duration.secs64_mono h
    have h2 : d.samp64 ≤ (⟨0, 20833, by norm_num, by norm_num⟩ : Duration).samp64 := b64.rnd_mono (by linarith)
    have h3 : (⟨0, 20833, by norm_num, by norm_num⟩ : Duration).samp64 < 1 := by decide +kernel
    have h4 : toUsize ((d.asSecs : F64) * srM) = 0 := by
      rw [Fl.Is.toUsize d.samp_is]
      have := d.samp_bounds.1
      rw [truncQ_of_nonneg this, Int.floor_eq_zero_iff.mpr ⟨this, by linarith⟩]
      rfl
    rw [h4] at hlen
    unfold modOut modAfter Echo.process
    simp only [hlen]
    rfl

example : 20834 ≤ (⟨0, 250000000, by norm_num, by norm_num⟩ : Duration).total := by decide +kernel

end Verif
