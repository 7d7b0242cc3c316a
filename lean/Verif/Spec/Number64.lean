import Verif.Spec.Float64
import Verif.Spec.Json
import Verif.Model.Number64
/-
What ryu promises about the digits it prints: they are as few as possible, and they identify the number.
-/
namespace Tokengeex
namespace Spec

/-- The number with the given decimal digits. -/
def ofDigits (ds : List Nat) : Nat := ds.foldl (fun a d => 10 * a + d) 0

/-- `num neg n` is the double nearest to `d * 10^k`, ties to even. -/
def Identifies (d : Nat) (k : Int) (n : Nat) : Prop :=
  F64.roundMag (d * 10 ^ k.toNat * 2 ^ 1074) (10 ^ (-k).toNat) = n

/-- `d * 10^k` is at least as close to `n` units as `d' * 10^k'`.  (Both differences are multiplied by the powers of ten
that make them whole.) -/
def AsClose (n d : Nat) (k : Int) (d' : Nat) (k' : Int) : Prop :=
  ((d * 10 ^ k.toNat * 2 ^ 1074 : Nat) - (n * 10 ^ (-k).toNat : Nat) : Int).natAbs * 10 ^ (-k').toNat ≤
    ((d' * 10 ^ k'.toNat * 2 ^ 1074 : Nat) - (n * 10 ^ (-k').toNat : Nat) : Int).natAbs * 10 ^ (-k).toNat

/-- `ds * 10^k` identifies `n` units, nothing with fewer digits does, and nothing with as many that does is closer. -/
structure Shortest (n : Nat) (ds : List Nat) (k : Int) : Prop where
  digits : ∀ d ∈ ds, d < 10
  head : ∃ d more, ds = d :: more ∧ d ≠ 0
  identifies : Identifies (ofDigits ds) k n
  minimal : ∀ ds' k', (∀ d ∈ ds', d < 10) → Identifies (ofDigits ds') k' n → ds.length ≤ ds'.length
  closest : ∀ ds' k', (∀ d ∈ ds', d < 10) → Identifies (ofDigits ds') k' n → ds'.length = ds.length →
    AsClose n (ofDigits ds) k (ofDigits ds') k'

/-- Doubles as serde_json writes and reads them: shortest digits, no text for what is not finite. -/
structure SerdeDoubles (N : NumText F64) : Prop where
  zero : ∀ s, N.print (.num s 0) = some ⟨s, [0], some [0], none⟩
  finite : ∀ s n, n ≠ 0 → IsDouble n → ∃ ds k, Shortest n ds k ∧ N.print (.num s n) = some (F64.layout s ds k)
  notFinite : N.print .nan = none ∧ ∀ s, N.print (.inf s) = none
  /-- There are no others. -/
  other : ∀ x, ¬ IsF64 x → N.print x = none
  reading : N.value = F64.ofText

end Spec
end Tokengeex
