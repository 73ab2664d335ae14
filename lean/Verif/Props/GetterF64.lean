import Verif.Proofs.Approx
import Verif.Proofs.Osc
import Verif.Props.OscState

/-! # Frequency getters in f64: C111 -/

namespace Verif
open Fl

/-- `x` is within relative error 2^-48 of `q`. -/
def Near (x : F64) (q : ℚ) : Prop := ∃ a : ℚ, x.Is a ∧ |a - q| ≤ (2 ^ 48)⁻¹ * |q|

private theorem near_of_app {x : F64} {q : ℚ} (h : App x ((2 ^ 48)⁻¹) q) : Near x q := by
  obtain ⟨a, h1, h2⟩ := h
  refine ⟨a, h1, ?_⟩
  have : ((|a - q| : ℚ) : ℝ) ≤ (((2 ^ 48)⁻¹ * |q| : ℚ) : ℝ) := by push_cast; exact h2
  exact_mod_cast this

private theorem appInv : App (invSR : F64) ((2 ^ 52)⁻¹) (1 / 48000) := by
  refine ⟨_, invSR64, ?_⟩
  have := b64.abs_rnd_sub_le_rel (q := 1 / 48000) (by decide +kernel)
  rw [show pow2 (-b64.p) = (2 ^ 53)⁻¹ by decide +kernel] at this
  have := (Rat.cast_le (K := ℝ)).mpr this
  push_cast at this
  refine this.trans (mul_le_mul_of_nonneg_right (by norm_num) (abs_nonneg _))

private theorem mid_mul {q : ℚ} (h0 : (2 ^ 80)⁻¹ ≤ |q|) (h1 : |q| ≤ 2 ^ 80) {k : ℝ} (k0 : (2 ^ 20)⁻¹ ≤ |k|) (k1 : |k| ≤ 2 ^ 20) :
    Mid (k * (q : ℝ)) := by
  have h0' : ((2 : ℝ) ^ 80)⁻¹ ≤ |(q : ℝ)| := by
    have := (Rat.cast_le (K := ℝ)).mpr h0; push_cast at this; exact this
  have h1' : |(q : ℝ)| ≤ 2 ^ 80 := by
    have := (Rat.cast_le (K := ℝ)).mpr h1; push_cast at this; exact this
  unfold Mid
  rw [abs_mul]
  constructor
  · calc ((2 : ℝ) ^ 100)⁻¹ = (2 ^ 20)⁻¹ * (2 ^ 80)⁻¹ := by norm_num
      _ ≤ |k| * |(q : ℝ)| := mul_le_mul k0 h0' (by positivity) (abs_nonneg _)
  · calc |k| * |(q : ℝ)| ≤ 2 ^ 20 * 2 ^ 80 := mul_le_mul k1 h1' (abs_nonneg _) (by positivity)
      _ = 2 ^ 100 := by norm_num

private theorem mid_q {q : ℚ} (h0 : (2 ^ 80)⁻¹ ≤ |q|) (h1 : |q| ≤ 2 ^ 80) : Mid (q : ℝ) := by
  have := mid_mul h0 h1 (k := 1) (by norm_num) (by norm_num)
  rwa [one_mul] at this

/-- `(k·f·(1/48000)) / (k·(1/48000))`. -/
private theorem scale_back {c f : F64} {k q : ℚ} (hc : c.Is k) (k1 : 1 ≤ k) (k4 : k ≤ 4) (hf : f.Is q) (h0 : (2 ^ 80)⁻¹ ≤ |q|) (h1 : |q| ≤ 2 ^ 80) :
    App (c * f * invSR) ((2 ^ 50)⁻¹) (k * q * (1 / 48000)) ∧ ∀ r : F64, App r ((2 ^ 50)⁻¹) (k * q * (1 / 48000)) → Near (r / (c * invSR)) q := by
  have k1' : (1 : ℝ) ≤ k := by exact_mod_cast k1
  have k4' : (k : ℝ) ≤ 4 := by exact_mod_cast k4
  have ak : |(k : ℝ)| = k := abs_of_pos (by linarith)
  have aC : App c 0 (k : ℝ) := App.of_is hc rfl
  have aF : App f 0 (q : ℝ) := App.of_is hf rfl
  have a1 : App (c * f) ((2 ^ 52)⁻¹) (k * q) := App.mul aC aF (mid_mul h0 h1 (by rw [ak]; norm_num; linarith) (by rw [ak]; norm_num; linarith)) le_rfl (by norm_num) (by norm_num)
  have ak' : |(k : ℝ) * (1 / 48000)| = k * (1 / 48000) := abs_of_pos (by linarith)
  have m2 : Mid ((k : ℝ) * q * (1 / 48000)) := by
    rw [show (k : ℝ) * q * (1 / 48000) = (k * (1 / 48000)) * q by ring]
    exact mid_mul h0 h1 (by rw [ak']; norm_num; linarith) (by rw [ak']; norm_num; linarith)
  have a2 : App (c * f * invSR) ((2 ^ 50)⁻¹) (k * q * (1 / 48000)) := App.mul a1 appInv m2 (by positivity) (by norm_num) (by norm_num)
  refine ⟨a2, fun r hr => near_of_app ?_⟩
  have a3 : App (c * invSR) ((2 ^ 51)⁻¹) ((k : ℝ) * (1 / 48000)) := App.mul aC appInv (by
    unfold Mid; rw [ak']; constructor <;> norm_num <;> linarith) le_rfl (by norm_num) (by norm_num)
  have a4 := App.div (δ := (2 ^ 48)⁻¹) hr a3 (by positivity) (by
    rw [show (k : ℝ) * q * (1 / 48000) / (k * (1 / 48000)) = q by field_simp]
    exact mid_q h0 h1) (by norm_num) (by norm_num) (by norm_num)
  rwa [show (k : ℝ) * q * (1 / 48000) / (k * (1 / 48000)) = q by field_simp] at a4

/-- **C111**: after any history of samples and frequency changes, Sawtooth and Square report the frequency set last to within a
relative error of 2^-48, for frequencies of magnitude 2^-80 to 2^80 and whatever was set before. -/
theorem C111_getters (f : F64) (cs : List (GenCall F64)) (q : ℚ) (hf : (lastFreq f cs).Is q) (h0 : (2 ^ 80)⁻¹ ≤ |q|) (h1 : |q| ≤ 2 ^ 80) :
    Near (runCalls (fun g => (g.process : F32 × _).2) Sawtooth.setFrequency cs (Sawtooth.new f)).getFrequency q ∧
    Near (runCalls (fun g => (g.process : F32 × _).2) Square.setFrequency cs (Square.new f)).getFrequency q := by
  constructor
  · have hs : ∀ (cs : List (GenCall F64)) (f : F64) (g : Sawtooth F64), g.irate = lit 2 * f * invSR →
        (runCalls (fun g => (g.process : F32 × _).2) Sawtooth.setFrequency cs g).irate = lit 2 * lastFreq f cs * invSR := by
      intro cs
      induction cs with
      | nil => intro f g h; exact h
      | cons c cs ih =>
        intro f g h
        cases c with
        | process => exact ih f _ h
        | setFrequency f' => exact ih f' _ rfl
    unfold Sawtooth.getFrequency
    rw [hs cs f (Sawtooth.new f) rfl]
    obtain ⟨a, b⟩ := scale_back lit64_2 (by norm_num) (by norm_num) hf h0 h1
    exact b _ a
  · have hs : ∀ (cs : List (GenCall F64)) (f : F64) (g : Square F64), g.inv = srM / (lit 2 * f) →
        (runCalls (fun g => (g.process : F32 × _).2) Square.setFrequency cs g).inv = srM / (lit 2 * lastFreq f cs) := by
      intro cs
      induction cs with
      | nil => intro f g h; exact h
      | cons c cs ih =>
        intro f g h
        cases c with
        | process => exact ih f _ h
        | setFrequency f' => exact ih f' _ rfl
    unfold Square.getFrequency
    rw [hs cs f (Square.new f) rfl]
    have hq0 : (q : ℝ) ≠ 0 := by
      intro h
      have : q = 0 := by exact_mod_cast h
      rw [this] at h0
      norm_num at h0
    have a2 : App (lit 2 : F64) 0 2 := App.of_is lit64_2 (by norm_num)
    have as : App (srM : F64) 0 48000 := App.of_is srM64 (by norm_num)
    have a1 : App (lit 2 * lastFreq f cs) ((2 ^ 52)⁻¹) (2 * (q : ℝ)) := App.mul a2 (App.of_is hf rfl) (mid_mul h0 h1 (by norm_num) (by norm_num)) le_rfl (by norm_num) (by norm_num)
    have mi : Mid (48000 / (2 * (q : ℝ))) := by
      have h0' : ((2 : ℝ) ^ 80)⁻¹ ≤ |(q : ℝ)| := by
        have := (Rat.cast_le (K := ℝ)).mpr h0; push_cast at this; exact this
      have h1' : |(q : ℝ)| ≤ 2 ^ 80 := by
        have := (Rat.cast_le (K := ℝ)).mpr h1; push_cast at this; exact this
      have hp : 0 < |(q : ℝ)| := abs_pos.mpr hq0
      unfold Mid
      rw [abs_div, abs_mul, abs_of_pos (show (0 : ℝ) < 48000 by norm_num), abs_of_pos (show (0 : ℝ) < 2 by norm_num)]
      constructor
      · rw [le_div_iff₀ (by positivity)]; norm_num at *; linarith
      · rw [div_le_iff₀ (by positivity)]; norm_num at *; linarith
    have a3 : App (srM / (lit 2 * lastFreq f cs)) ((2 ^ 51)⁻¹ + (2 ^ 52)⁻¹) (48000 / (2 * (q : ℝ))) :=
      App.div as a1 (mul_ne_zero two_ne_zero hq0) mi (by norm_num) (by norm_num) (by norm_num)
    have a4 : App (lit 2 * (srM / (lit 2 * lastFreq f cs))) ((2 ^ 50)⁻¹) (2 * (48000 / (2 * (q : ℝ)))) := by
      refine App.mul a2 a3 ?_ le_rfl (by norm_num) (by norm_num)
      obtain ⟨m0, m1⟩ := mi
      have h0' : ((2 : ℝ) ^ 80)⁻¹ ≤ |(q : ℝ)| := by
        have := (Rat.cast_le (K := ℝ)).mpr h0; push_cast at this; exact this
      have hp : 0 < |(q : ℝ)| := abs_pos.mpr hq0
      unfold Mid
      rw [abs_mul, abs_of_pos (show (0 : ℝ) < 2 by norm_num)]
      refine ⟨by linarith, ?_⟩
      rw [abs_div, abs_mul, abs_of_pos (show (0 : ℝ) < 48000 by norm_num), abs_of_pos (show (0 : ℝ) < 2 by norm_num), ← mul_div_assoc,
        div_le_iff₀ (by positivity)]
      norm_num at *; linarith
    have e : 48000 / (2 * (48000 / (2 * (q : ℝ)))) = q := by field_simp
    have a5 := App.div (δ := (2 ^ 48)⁻¹) as a4 (by positivity) (by rw [e]; exact mid_q h0 h1) (by norm_num) (by norm_num) (by norm_num)
    rw [e] at a5
    exact near_of_app a5

example : (lastFreq (lit 440 : F64) [.process, .setFrequency (lit (1 / 4)), .process]).Is (1 / 4) ∧ (2 ^ 80)⁻¹ ≤ |(1 / 4 : ℚ)| ∧ |(1 / 4 : ℚ)| ≤ 2 ^ 80 := by
  refine ⟨by decide +kernel, ?_, ?_⟩ <;> norm_num

/-- **C111** for Sine, any history without a panic (C39: none happens below 48 kHz). -/
theorem C111_sine [Libm F64] (f : F64) (g : Sine F64) (hg : SineHist F32 f g) (q : ℚ) (hf : f.Is q) (h0 : (2 ^ 80)⁻¹ ≤ |q|) (h1 : |q| ≤ 2 ^ 80) :
    Near g.getFrequency q := by
  have hi : g.inc = f / lit (WAVETABLE_FREQ : ℚ) := by
    induction hg with
    | new => rfl
    | process _ hp ih => rw [Sine.process_inc hp, ih hf]
    | setFrequency => rfl
  unfold Sine.getFrequency
  rw [hi]
  have a10 : App (lit (WAVETABLE_FREQ : ℚ) : F64) 0 10 := App.of_is lit64_10 (by norm_num)
  have a1 : App (f / lit (WAVETABLE_FREQ : ℚ)) ((2 ^ 52)⁻¹) ((q : ℝ) / 10) := App.div (App.of_is hf rfl) a10 (by norm_num) (by
    rw [show (q : ℝ) / 10 = (1 / 10) * q by ring]
    exact mid_mul h0 h1 (by rw [abs_of_pos (by norm_num)]; norm_num) (by rw [abs_of_pos (by norm_num)]; norm_num)) (by norm_num) (by norm_num) (by norm_num)
  have a2 := App.mul (δ := (2 ^ 48)⁻¹) a1 a10 (by rw [div_mul_cancel₀ _ (by norm_num)]; exact mid_q h0 h1) (by positivity) (by norm_num) (by norm_num)
  rw [div_mul_cancel₀ _ (by norm_num)] at a2
  exact near_of_app a2

example [Libm F64] : Near (Sine.new (lit 440 : F64)).getFrequency 440 :=
  C111_sine (lit 440) _ (.new _) 440 (by decide +kernel) (by norm_num) (by norm_num)

/-- **C111** for Triangle: the magnitude is right after any history (C36 has a history with the wrong sign, and shows the sign is
right directly after setting). -/
theorem C111_triangle (f : F64) (cs : List (GenCall F64)) (q : ℚ) (hf : (lastFreq f cs).Is q) (h0 : (2 ^ 80)⁻¹ ≤ |q|) (h1 : |q| ≤ 2 ^ 80) :
    Near (runCalls (fun g => (g.process : F32 × _).2) Triangle.setFrequency cs (Triangle.new f)).getFrequency q ∨
    Near (runCalls (fun g => (g.process : F32 × _).2) Triangle.setFrequency cs (Triangle.new f)).getFrequency (-q) := by
  obtain ⟨a, b⟩ := scale_back lit64_4 (by norm_num) (by norm_num) hf h0 h1
  obtain ⟨-, b'⟩ := scale_back lit64_4 (by norm_num) (by norm_num) hf.neg (by rwa [abs_neg]) (by rwa [abs_neg])
  have hn : ∀ x : F64, - -x = x := by
    intro x; cases x <;> simp [Neg.neg, Fl.neg]
    exact neg_neg _
  have step : ∀ g : Triangle F64, (g.process : F32 × _).2.irate = g.irate ∨ (g.process : F32 × _).2.irate = -g.irate := by
    intro g
    unfold Triangle.process
    simp only
    split_ifs <;> simp
  have hs : ∀ (cs : List (GenCall F64)) (f : F64) (g : Triangle F64), g.irate = lit 4 * f * invSR ∨ g.irate = -(lit 4 * f * invSR) →
      (runCalls (fun g => (g.process : F32 × _).2) Triangle.setFrequency cs g).irate = lit 4 * lastFreq f cs * invSR ∨
      (runCalls (fun g => (g.process : F32 × _).2) Triangle.setFrequency cs g).irate = -(lit 4 * lastFreq f cs * invSR) := by
    intro cs
    induction cs with
    | nil => intro f g h; exact h
    | cons c cs ih =>
      intro f g h
      cases c with
      | process =>
        refine ih f _ ?_
        rcases step g with e | e <;> rcases h with h | h <;> rw [e, h]
        · exact .inl rfl
        · exact .inr rfl
        · exact .inr rfl
        · exact .inl (hn _)
      | setFrequency f' => exact ih f' _ (.inl rfl)
  unfold Triangle.getFrequency
  rcases hs cs f (Triangle.new f) (.inl rfl) with e | e <;> rw [e]
  · exact .inl (b _ a)
  · refine .inr (b' _ ?_)
    have := a.neg
    rwa [show -((4 : ℚ) * (q : ℝ) * (1 / 48000)) = ((4 : ℚ) : ℝ) * ((-q : ℚ) : ℝ) * (1 / 48000) by push_cast; ring] at this

example : Near (runCalls (fun g => (g.process : F32 × _).2) Triangle.setFrequency [.process, .setFrequency (lit 100)] (Triangle.new (lit 440 : F64))).getFrequency 100 ∨
    Near (runCalls (fun g => (g.process : F32 × _).2) Triangle.setFrequency [.process, .setFrequency (lit 100)] (Triangle.new (lit 440 : F64))).getFrequency (-100) :=
  C111_triangle _ _ 100 (by decide +kernel) (by norm_num) (by norm_num)

/-- A getter that has the wrong sign. -/
example : (runCalls (fun g => (g.process : F32 × _).2) Triangle.setFrequency [.process] (Triangle.new (lit 24000 : F64))).getFrequency.Is (-24000) := by
  decide +kernel

end Verif
