import Verif.Float.Fast

/-!
# Three long runs

The feedback of a 20 Hz filter with resonance 1 in binary32, started from the response to one sample of
1.0, until the state overflows. `Verif/Props/FilterRun.lean` derives these numbers from the model.
-/

namespace Verif.Fast
set_option maxRecDepth 10000000

/-- From samples 3, 2, 1 of the impulse response of the high pass filter. -/
theorem run_highpass : iir 0 12571903 22 1 12560922 22 0 16733293 24 34000
    1 1867256953182784700947335236455899089338368 1 1867809912029031225950463220192975712681984
    1 1868150194395952164413926594800407480893440 = true := by decide +kernel

/-- From samples 3, 2, 1 of the impulse response of the low pass filter. -/
theorem run_lowpass : iir 0 12571903 22 1 12560922 22 0 16733293 24 34633
    0 127378298677189348404938365680232693760 0 76494012570053677813714165073639899136
    0 38280525502198073748691458362976501760 = true := by decide +kernel

/-- A 90 Hz low pass filter without resonance, given 1.0 all the time, from samples 2, 1, 0 of its response until three
samples in a row are 4533317 / 2^22, about 1.0808. -/
theorem run_constant : drv 0 1139672814370384920669044230789506531328 0 12484093 22 1 12386431 22 0 8193271 23
    771303919381463996186197492619380586526539776 31385
    0 11262791548163728694305591022458750631936 0 4531840267833287796875411810859526127616
    0 1139672814370384920669044230789506531328 = true := by decide +kernel

end Verif.Fast
