import Verif.Model.Prune
import Verif.Model.Sources
/-
How many tokens a pass of pruning asks for.
-/
namespace Tokengeex

/-- `((model.vocab_size() as f64) * self.shrink_factor) as usize`, src/prune.rs:174. -/
def Pruner.shrinkBy (factor : F64) (size : Nat) : Nat := ((F64.ofNat size).mul factor).toUsize

/-- The pruner that `prune` makes of the flags, src/cli.rs:479 and src/prune.rs:14-21, with doubles. -/
def Pruner.ofFactor (vocabSize : Nat) (factor : F64) (emSubiters : Nat) (dropout : F64) : Pruner F64 :=
  { vocabSize, shrink := Pruner.shrinkBy factor, emSubiters, dropout }

end Tokengeex
