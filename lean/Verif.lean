import Verif.Float.Round
import Verif.Float.Fl
import Verif.Float.Lemmas
import Verif.Float.Order
import Verif.Float.Idem
import Verif.Model.Arith
import Verif.Model.ArithReal
import Verif.Model.SampleFormat
import Verif.Model.Utils
import Verif.Model.Stereo
import Verif.Model.Debug
import Verif.Model.Generators
import Verif.Model.Modifiers
import Verif.Model.Sounds
import Verif.Model.Channel
import Verif.Model.Bin2str
import Verif.Proofs.Codec
import Verif.Props.Codec
import Verif.Proofs.Samples
import Verif.Props.Samples
import Verif.Props.Interp
import Verif.Proofs.Time
import Verif.Props.Time
import Verif.Props.Normalize
import Verif.Props.Reader
import Verif.Proofs.Wav
import Verif.Props.Wav
import Verif.Spec.History
import Verif.Spec.Signal
import Verif.Proofs.Osc
import Verif.Props.Osc
import Verif.Props.OscState
import Verif.Proofs.Sine
import Verif.Props.Sine
import Verif.Proofs.Resampler
import Verif.Props.Resampler
import Verif.Spec.Filter
import Verif.Props.Delay
import Verif.Props.Generic
import Verif.Props.Linear
import Verif.Proofs.Stability
import Verif.Proofs.Filters
import Verif.Props.Filters
import Verif.Props.FilterState
import Verif.Float.Fast
import Verif.Float.Runs
import Verif.Float.Interval
import Verif.Spec.Libm
import Verif.Proofs.Approx
import Verif.Proofs.FilterCoef
import Verif.Proofs.FilterF32
import Verif.Props.FilterRun
import Verif.Props.FilterF32
import Verif.Props.Envelope
import Verif.Proofs.Adsr
import Verif.Props.Adsr
import Verif.Spec.Block
import Verif.Props.Block
import Verif.Proofs.Heap
import Verif.Props.SimpleSound
import Verif.Proofs.Order
import Verif.Props.Graph
import Verif.Props.ComplexSound
import Verif.Props.Channel
import Verif.Spec.Text
import Verif.Props.Bin2str
import Verif.Spec.LibmSin
import Verif.Props.OscTune
import Verif.Props.SineTune
import Verif.Spec.LibmTan
import Verif.Spec.LibmTan64
import Verif.Props.EchoF32
import Verif.Props.EnvelopeF32
import Verif.Props.InterpF64
import Verif.Props.SampleF32
import Verif.Proofs.Rel
import Verif.Props.ResamplerF32
import Verif.Props.AdsrF32
import Verif.Props.Ieee
import Verif.Props.BandPassF32
import Verif.Props.ResamplerLoop
import Verif.Props.GetterF64
import Verif.Proofs.ApproxSqrt
import Verif.Props.BandPassCorners
import Verif.Props.NormalizeF32
import Verif.Props.MonoWav
import Verif.Spec.LibmPow
import Verif.Props.DbF64
import Verif.Proofs.FilterGain
import Verif.Proofs.FilterAcc
import Verif.Props.FilterAcc
import Verif.Props.FilterConst
import Verif.Proofs.DecEq
import Verif.Props.Network
import Verif.Props.Mix
import Verif.Validate.RepoTests
import Verif.Props.LoopF32
import Verif.Props.Voice
import Verif.Props.Response
import Verif.Props.Transfer
import Verif.Props.Tone
import Verif.Props.Budget
import Verif.Props.World
import Verif.Props.BlockAccess
import Verif.Props.Speed
import Verif.Props.Render
import Verif.Props.BandPassAcc
import Verif.Props.Retune
import Verif.Props.RetuneF32
import Verif.Props.Modulate
import Verif.Props.ModulateF32
import Verif.Props.AdsrEnd
import Verif.Props.EnvelopeRate
import Verif.Props.TriangleClone
import Verif.Props.SpeedF32
import Verif.Props.Poison
import Verif.Props.Tail
import Verif.Props.BandPassEdge
import Verif.Props.Feedback
import Verif.Props.LinearNet
import Verif.Props.TailFilters
import Verif.Props.TailBand
import Verif.Props.Convolution
import Verif.Props.RecordedTone
import Verif.Props.Offset
import Verif.Props.NetError
import Verif.Props.FilterTable
import Verif.Props.Vibrato
import Verif.Props.FlowAlgebra
import Verif.Props.Harmonics
import Verif.Props.ToneCutoff
import Verif.Props.HarmonicsF32
import Verif.Props.Energy
import Verif.Props.SmallGain
import Verif.Props.White
import Verif.Props.Ring
import Verif.Props.Level
import Verif.Props.FreqRange
import Verif.Props.Meter
import Verif.Props.Design
import Verif.Props.EnergyF32
import Verif.Props.NormalizeClip
import Verif.Props.Depth
import Verif.Props.NormalizeTwice
import Verif.Props.FilterConstHigh
import Verif.Props.Comb
import Verif.Props.PanMove
import Verif.Props.Crossover
import Verif.Props.DeadBranch
import Verif.Props.SimpleRatio
import Verif.Props.Cost
import Verif.Props.Wiring
import Verif.Props.NullTest
import Verif.Props.Live
import Verif.Props.Chord
import Verif.Props.ChordEffect
import Verif.Props.Headroom
import Verif.Props.SimpleComplex
import Verif.Props.Constructors
import Verif.Props.Isolation
import Verif.Props.NoiseLevel
import Verif.Props.WriteBack
import Verif.Props.Setup
import Verif.Props.Fader
import Verif.Props.AdsrShape
import Verif.Props.Silence
import Verif.Props.Splice
import Verif.Props.SpeedRate
