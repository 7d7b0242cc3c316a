/-
What base64 is (RFC 4648, section 4, without padding), independently of any codec.
-/
namespace Tokengeex
namespace Spec

/-- The alphabet of RFC 4648, table 1. -/
def base64Alphabet : List Char := "ABCDEFGHIJKLMNOPQRSTUVWXYZabcdefghijklmnopqrstuvwxyz0123456789+/".toList

/-- The `n` lowest bits of `v`, most significant first. -/
def bitsOf (n v : Nat) : List Bool := (List.range n).map fun i => v.testBit (n - 1 - i)

/-- `text` is the base64 form of `bytes`: the positions of its characters in the alphabet, written as groups of six
bits, are the bits of the bytes followed by fewer than six zeros. -/
def IsBase64 (bytes : List UInt8) (text : List Char) : Prop :=
  ∃ positions : List Nat, ∃ padding : Nat,
    positions.map (fun p => base64Alphabet[p]?) = text.map some ∧
    padding < 6 ∧
    positions.flatMap (bitsOf 6) = bytes.flatMap (fun b => bitsOf 8 b.toNat) ++ List.replicate padding false

end Spec
end Tokengeex
