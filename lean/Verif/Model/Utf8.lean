/-
UTF-8 as used by Rust's `str`: `as_bytes`, `str::from_utf8` and `String::from_utf8_lossy`.
-/
namespace Tokengeex

/-- A Rust `str`: a sequence of Unicode scalar values. -/
abbrev Str := List Char

/-- `str::as_bytes` / `String::into_bytes`: the UTF-8 encoding (Lean core's `String.utf8EncodeChar` per character). -/
def enc (s : Str) : List UInt8 := s.flatMap String.utf8EncodeChar

/-- A continuation byte: `b & 192 == 128`. -/
def isCont (b : UInt8) : Bool := 0x80 ≤ b && b ≤ 0xBF

/-- `core::str::utf8_char_width` (0 for bytes that start no sequence). -/
def utf8Width (b : UInt8) : Nat :=
  if b < 0x80 then 1
  else if 0xC2 ≤ b && b ≤ 0xDF then 2
  else if 0xE0 ≤ b && b ≤ 0xEF then 3
  else if 0xF0 ≤ b && b ≤ 0xF4 then 4
  else 0

/-- Allowed second byte of a three byte sequence (no overlong forms, no surrogates); table of
`core::str::lossy::Utf8Chunks::next`. -/
def second3 (b c : UInt8) : Bool :=
  (b == 0xE0 && 0xA0 ≤ c && c ≤ 0xBF) ||
  (0xE1 ≤ b && b ≤ 0xEC && 0x80 ≤ c && c ≤ 0xBF) ||
  (b == 0xED && 0x80 ≤ c && c ≤ 0x9F) ||
  (0xEE ≤ b && b ≤ 0xEF && 0x80 ≤ c && c ≤ 0xBF)

/-- Allowed second byte of a four byte sequence; same table. -/
def second4 (b c : UInt8) : Bool :=
  (b == 0xF0 && 0x90 ≤ c && c ≤ 0xBF) ||
  (0xF1 ≤ b && b ≤ 0xF3 && 0x80 ≤ c && c ≤ 0xBF) ||
  (b == 0xF4 && 0x80 ≤ c && c ≤ 0x8F)

def char2 (b c : UInt8) : Char := Char.ofNat ((b.toNat % 32) * 64 + c.toNat % 64)
def char3 (b c d : UInt8) : Char :=
  Char.ofNat ((b.toNat % 16) * 4096 + (c.toNat % 64) * 64 + d.toNat % 64)
def char4 (b c d e : UInt8) : Char :=
  Char.ofNat ((b.toNat % 8) * 262144 + (c.toNat % 64) * 4096 + (d.toNat % 64) * 64 + e.toNat % 64)

/-- One step of the decoder loop of `core::str::lossy::Utf8Chunks::next` (Rust std): at a byte `b` followed by
`rest`, either a complete character and what follows it, or `none` (an ill-formed maximal subpart) and what
follows the bytes already inspected. -/
def utf8Step (b : UInt8) (rest : List UInt8) : Option Char × List UInt8 :=
  match utf8Width b with
  | 1 => (some (Char.ofNat b.toNat), rest)
  | 2 =>
    match rest with
    | c :: r => if isCont c then (some (char2 b c), r) else (none, rest)
    | [] => (none, rest)
  | 3 =>
    match rest with
    | c :: r =>
      if second3 b c then
        match r with
        | d :: r' => if isCont d then (some (char3 b c d), r') else (none, r)
        | [] => (none, r)
      else (none, rest)
    | [] => (none, rest)
  | 4 =>
    match rest with
    | c :: r =>
      if second4 b c then
        match r with
        | d :: r' =>
          if isCont d then
            match r' with
            | e :: r'' => if isCont e then (some (char4 b c d e), r'') else (none, r')
            | [] => (none, r')
          else (none, r)
        | [] => (none, r)
      else (none, rest)
    | [] => (none, rest)
  | _ => (none, rest)

/-- The replacement character U+FFFD. -/
def replacement : Char := Char.ofNat 0xFFFD

/-- The decoding loop; every step consumes at least one byte, so `fuel = bs.length` is never exhausted. -/
def lossyAux : Nat → List UInt8 → Str
  | _, [] => []
  | 0, _ :: _ => []
  | fuel + 1, b :: rest =>
    match utf8Step b rest with
    | (some c, r) => c :: lossyAux fuel r
    | (none, r) => replacement :: lossyAux fuel r

/-- `String::from_utf8_lossy` (Rust std), used at src/model.rs:159. -/
def lossy (bs : List UInt8) : Str := lossyAux bs.length bs

def fromUtf8Aux : Nat → List UInt8 → Option Str
  | _, [] => some []
  | 0, _ :: _ => none
  | fuel + 1, b :: rest =>
    match utf8Step b rest with
    | (some c, r) => (fromUtf8Aux fuel r).map (c :: ·)
    | (none, _) => none

/-- `str::from_utf8` / `String::from_utf8` (Rust std): `none` on ill-formed input. Used at src/lib.rs:118 and
src/tokenizer.rs:194. -/
def fromUtf8 (bs : List UInt8) : Option Str := fromUtf8Aux bs.length bs

end Tokengeex
