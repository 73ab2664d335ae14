import Verif.Model.Channel

/-! # Decidable equality, for examples -/

namespace Verif

deriving instance DecidableEq for Zero, Square, Gain, Passthrough, StdInter, Arc, StandardBlock, Cell, SimpleSound, Mono, Stereo, StandardChannel

instance {B : Type} [DecidableEq B] : DecidableEq (Heap B) := inferInstanceAs (DecidableEq (List (Cell B)))

end Verif
