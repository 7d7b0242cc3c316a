import Verif.Model.Float64
import Verif.Model.Json
/-
How serde_json 1.0, without its feature `float_roundtrip` (Cargo.toml:35 enables none), writes and reads doubles: the
scores of src/lib.rs:71-93 and 95-170.  serde_json and ryu are not part of /repo: this is the code of their functions as
published.
-/
namespace Tokengeex

/-- The decimal digits of a number. -/
def decimal (n : Nat) : List Nat := if n < 10 then [n] else decimal (n / 10) ++ [n % 10]
termination_by n

namespace F64

/-! ## Writing -/

/-- `write_exponent3` (ryu `pretty/exponent.rs`): a minus sign if there is one, and the digits. -/
def expPart (e : Int) : Bool × List Nat := (decide (0 ≤ e), decimal e.natAbs)

/-- `format64` (ryu `pretty/mod.rs`): where the point goes when the digits of a number are `ds` and its value is
`ds * 10^k`.  (The digits themselves are computed by ryu's `d2d`, which is specified in Spec/Number64.lean.) -/
def layout (neg : Bool) (ds : List Nat) (k : Int) : NumTok :=
  let kk : Int := ds.length + k
  if 0 ≤ k ∧ kk ≤ 16 then ⟨neg, ds ++ List.replicate k.toNat 0, some [0], none⟩
  else if 0 < kk ∧ kk ≤ 16 then ⟨neg, ds.take kk.toNat, some (ds.drop kk.toNat), none⟩
  else if -5 < kk ∧ kk ≤ 0 then ⟨neg, [0], some (List.replicate (-kk).toNat 0 ++ ds), none⟩
  else if ds.length = 1 then ⟨neg, ds, none, some (expPart (kk - 1))⟩
  else ⟨neg, ds.take 1, some (ds.drop 1), some (expPart (kk - 1))⟩

/-! ## Reading -/

/-- `POW10` (serde_json `de.rs`): the literals `1e0` to `1e308`. -/
def pow10 (k : Nat) : F64 := ofNat (10 ^ k)

def isZero : F64 → Bool
  | num _ n => n = 0
  | _ => false

def isInfinite : F64 → Bool
  | inf _ => true
  | _ => false

/-- `f64_from_parts` (serde_json `de.rs`) for an exponent `-e`: divisions by `1e308` until the table reaches. -/
def scaleDown (f : F64) (e : Nat) : F64 :=
  if e ≤ 308 then div f (pow10 e)
  else if isZero f then f
  else scaleDown (div f (pow10 308)) (e - 308)
termination_by e

/-- `f64_from_parts` (serde_json `de.rs`): `NumberOutOfRange` instead of an infinity. -/
def fromParts (negative : Bool) (significand : Nat) (exponent : Int) : Option F64 :=
  let f := ofNat significand
  let sign := fun f : F64 => if negative then neg f else f
  if 0 ≤ exponent then
    if exponent ≤ 308 then
      if isInfinite (mul f (pow10 exponent.toNat)) then none else some (sign (mul f (pow10 exponent.toNat)))
    else if isZero f then some (sign f)
    else none
  else some (sign (scaleDown f exponent.natAbs))

/-- The loop of `parse_integer` and `parse_long_integer` (serde_json `de.rs`): digits are collected in a `u64`; from the
first one that does not fit on, they are only counted. -/
def takeInt (significand : Nat) : List Nat → Nat × Nat
  | [] => (significand, 0)
  | d :: ds =>
    if 2 ^ 64 ≤ significand * 10 + d then (significand, ds.length + 1) else takeInt (significand * 10 + d) ds

/-- The loop of `parse_decimal` and `parse_decimal_overflow` (serde_json `de.rs`): from the first digit that does not fit
on, they are dropped.  The number of digits taken is returned. -/
def takeFrac (significand : Nat) : List Nat → Nat × Nat
  | [] => (significand, 0)
  | d :: ds =>
    if 2 ^ 64 ≤ significand * 10 + d then (significand, 0)
    else ((takeFrac (significand * 10 + d) ds).1, (takeFrac (significand * 10 + d) ds).2 + 1)

/-- The digits of an exponent in an `i32`, `none` on overflow. -/
def takeExp (acc : Nat) : List Nat → Option Nat
  | [] => some acc
  | d :: ds => if 2 ^ 31 ≤ acc * 10 + d then none else takeExp (acc * 10 + d) ds

/-- `i32` with saturation. -/
def saturate (e : Int) : Int := max (-(2 ^ 31)) (min e (2 ^ 31 - 1))

/-- `parse_exponent` and `parse_exponent_overflow` (serde_json `de.rs`). -/
def withExp (negative : Bool) (significand : Nat) (start : Int) (exp : Option (Bool × List Nat)) : Option F64 :=
  match exp with
  | none => fromParts negative significand start
  | some (positive, ds) =>
    match takeExp 0 ds with
    | none => if significand ≠ 0 ∧ positive then none else some (num negative 0)
    | some e => fromParts negative significand (saturate (if positive then start + e else start - e))

/-- `parse_integer` and what it calls (serde_json `de.rs`), followed by the conversion of integers to `f64`.
Simplification: the number of digits is assumed to fit an `i32`. -/
def ofText (t : NumTok) : Option F64 :=
  let i := takeInt 0 t.int
  match t.frac with
  | none =>
    if t.exp = none ∧ i.2 = 0 then some (if t.negative then neg (ofNat i.1) else ofNat i.1)
    else withExp t.negative i.1 i.2 t.exp
  | some ds =>
    let f := takeFrac i.1 ds
    withExp t.negative f.1 ((i.2 : Int) - f.2) t.exp

end F64
end Tokengeex
