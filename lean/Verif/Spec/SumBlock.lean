import Verif.Model.Sounds

/-! # Blocks of one of two types -/

namespace Verif

/-- A block that is of one of two types, as behind `dyn Block` (sounds/mod.rs 22, `BlockSP`). -/
instance {A B S : Type} [Block A S] [Block B S] : Block (A ⊕ B) S where
  prime := fun b x => match b with
    | .inl b => .inl (Block.prime b x)
    | .inr b => .inr (Block.prime b x)
  process := fun b => match b with
    | .inl b => (Block.process b).map fun r => (r.1, .inl r.2)
    | .inr b => (Block.process b).map fun r => (r.1, .inr r.2)

end Verif
