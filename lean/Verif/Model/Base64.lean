/-
The base64 engine the crate uses for tokens that are not valid UTF-8: `STANDARD_NO_PAD` of base64 0.21
(src/lib.rs:8, 120 and 182-184; Cargo.toml:40).  The crate is not part of /repo: this is the documented behaviour of
its engine, `NO_PAD` configuration (no padding written, no padding accepted, trailing bits rejected).
-/
namespace Tokengeex
namespace Base64

/-- The symbol for a six-bit value, `alphabet::STANDARD`. -/
def symbol (v : Nat) : Char :=
  if v < 26 then Char.ofNat (65 + v)
  else if v < 52 then Char.ofNat (97 + (v - 26))
  else if v < 62 then Char.ofNat (48 + (v - 52))
  else if v = 62 then '+'
  else '/'

/-- The decode table of `alphabet::STANDARD`: `none` is `INVALID_VALUE`. -/
def value (c : Char) : Option Nat :=
  if 65 ≤ c.toNat ∧ c.toNat < 91 then some (c.toNat - 65)
  else if 97 ≤ c.toNat ∧ c.toNat < 123 then some (c.toNat - 97 + 26)
  else if 48 ≤ c.toNat ∧ c.toNat < 58 then some (c.toNat - 48 + 52)
  else if c = '+' then some 62
  else if c = '/' then some 63
  else none

/-- `BASE64_STANDARD.encode(bytes)`, used at src/lib.rs:120. -/
def encode : List UInt8 → List Char
  | [] => []
  | [a] => [symbol (a.toNat / 4), symbol (a.toNat % 4 * 16)]
  | [a, b] => [symbol (a.toNat / 4), symbol (a.toNat % 4 * 16 + b.toNat / 16), symbol (b.toNat % 16 * 4)]
  | a :: b :: c :: rest =>
    symbol (a.toNat / 4) :: symbol (a.toNat % 4 * 16 + b.toNat / 16) ::
      symbol (b.toNat % 16 * 4 + c.toNat / 64) :: symbol (c.toNat % 64) :: encode rest

/-- `BASE64_STANDARD.decode(token.as_bytes())`, used at src/lib.rs:182-184: `none` is any `DecodeError`.  The engine
reads bytes; every byte of a non-ASCII character is invalid, so reading characters rejects the same texts. -/
def decode : List Char → Option (List UInt8)
  | [] => some []
  | [_] => none
  | [a, b] => do
    let v ← value a
    let w ← value b
    if w % 16 = 0 then some [UInt8.ofNat (v * 4 + w / 16)] else none
  | [a, b, c] => do
    let v ← value a
    let w ← value b
    let x ← value c
    if x % 4 = 0 then some [UInt8.ofNat (v * 4 + w / 16), UInt8.ofNat (w % 16 * 16 + x / 4)] else none
  | a :: b :: c :: d :: rest => do
    let v ← value a
    let w ← value b
    let x ← value c
    let y ← value d
    let bytes ← decode rest
    some (UInt8.ofNat (v * 4 + w / 16) :: UInt8.ofNat (w % 16 * 16 + x / 4) :: UInt8.ofNat (x % 4 * 64 + y) :: bytes)

end Base64
end Tokengeex
