import Verif.Float.Switch

/-!
# Three runs with changing coefficients

The feedback of low pass and high pass filters without resonance at 100 Hz and 20 kHz in binary32. `Verif/Props/RetuneF32.lean` derives these
numbers from the model.
-/

namespace Verif.Fast
set_option maxRecDepth 10000000

/-- The product of the second coefficient at 100 Hz and the second last result overflows. -/
def bursts (_ _ _ m2 _ _ : ℕ) : Bool :=
  Nat.ble (nat_lit 1) (over (mulM (Nat.mul (nat_lit 12364745) m2) (Nat.pred (Nat.shiftLeft (nat_lit 1) (nat_lit 22))) (nat_lit 22)))

/-- The last result is at least 3000. -/
def loud (s1 m1 _ _ _ _ : ℕ) : Bool := chk s1 (Nat.ble (nat_lit 2140871539058939821587428954174242704574119936000) m1)

/-- 100 Hz and 20 kHz in turn, from sample 0 of the impulse response of the low pass filter at 20 kHz. -/
theorem run_zigzag_lp : sw 0 12473115 22 1 12364745 22 0 16343701 24 0 12035739 24 1 7294119 25 0 7085119 28 bursts 707
    0 337973380920196435519543879033039948257165312 0 0 0 0 = true := by decide +kernel

/-- The same from samples 4, 3, 2 of the impulse response of the high pass filter with the frequencies in turn. -/
theorem run_zigzag_hp : sw 0 12473115 22 1 12364745 22 0 16343701 24 0 12035739 24 1 7294119 25 0 7085119 28 bursts 700
    0 1063837524293689453517927911761715650782822400 0 1132304293141792067762923797180980147594985472
    1 1403550939097136107870391756849857945789267968 = true := by decide +kernel

/-- 100 Hz, from samples 4, 3, 2 of the response of the low pass filter at 20 kHz to 1, 1, -1, -1, 1. -/
theorem run_jump : sw 0 12473115 22 1 12364745 22 0 16343701 24 0 12473115 22 1 12364745 22 0 16343701 24 loud 79
    0 28190767124332910960912151965880213177368576 1 451676649597330632337741790936894776534892544
    0 4950252415870369157569950486385406934777856 = true := by decide +kernel

end Verif.Fast
