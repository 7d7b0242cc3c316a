import Verif.Model.Utf8
/-
JSON as written and read by serde_json 1.0 (`to_string`, `to_string_pretty`, `from_str`), the way the crate uses it at
src/tokenizer.rs:262, 281, 289 and 295.  serde_json is not part of /repo (Cargo.toml:35): this is its documented
behaviour, without its optional features.  Texts are Rust strings, so characters stand for their UTF-8 bytes.

Reading is modelled in two stages, text to tree and tree to value (Model/Serde.lean), where serde_json streams: since
every error aborts the whole call, the results are the same.  The tree keeps what the visitors can observe: the order
and repetition of members, and whether a string was written with escapes (such a string is copied, and cannot be
deserialised as a borrowed `&str`).
-/
namespace Tokengeex

/-- A JSON value with strings `S` and numbers `F`. -/
inductive Json (S F : Type) where
  | null
  | bool (b : Bool)
  | num (x : F)
  | str (s : S)
  | arr (items : List (Json S F))
  | obj (members : List (S × Json S F))

/-- A string as read: its characters, and whether its text contained an escape (`Reference::Copied` as opposed to
`Reference::Borrowed` in serde_json's `read.rs`). -/
structure RawStr where
  text : Str
  escaped : Bool
  deriving DecidableEq, Repr

/-- The text of a number, cut into its parts: sign, digits before the point, digits after it, sign and digits of the
exponent (`some false` is an exponent written with a minus sign). -/
structure NumTok where
  negative : Bool
  int : List Nat
  frac : Option (List Nat)
  exp : Option (Bool × List Nat)
  deriving DecidableEq, Repr

/-- How numbers of type `F` are written (`none`: not finite, serde_json writes `null`) and computed from the parts of
their text (`none`: `NumberOutOfRange`). -/
structure NumText (F : Type) where
  print : F → Option NumTok
  value : NumTok → Option F

namespace Json

/-! ## Numbers -/

/-- A decimal digit. -/
def digitChar (d : Nat) : Char := Char.ofNat (48 + d)

/-- The digit a character stands for. -/
def digitOf (c : Char) : Option Nat := if 48 ≤ c.toNat ∧ c.toNat < 58 then some (c.toNat - 48) else none

/-- The text of a number. -/
def numText (t : NumTok) : Str :=
  (if t.negative then ['-'] else []) ++ t.int.map digitChar ++
    (match t.frac with | some ds => '.' :: ds.map digitChar | none => []) ++
    (match t.exp with
      | some (true, ds) => 'e' :: ds.map digitChar
      | some (false, ds) => 'e' :: '-' :: ds.map digitChar
      | none => [])

/-- The longest run of digits at the head of the input. -/
def readDigits : Str → List Nat × Str
  | [] => ([], [])
  | c :: rest =>
    match digitOf c with
    | some d => (d :: (readDigits rest).1, (readDigits rest).2)
    | none => ([], c :: rest)

/-- `parse_decimal` (serde_json `de.rs`): at least one digit must follow the point. -/
def readFrac (s : Str) : Option (Option (List Nat) × Str) :=
  match s with
  | [] => some (none, [])
  | c :: rest =>
    if c = '.' then
      if (readDigits rest).1 = [] then none else some (some (readDigits rest).1, (readDigits rest).2)
    else some (none, s)

/-- The sign of an exponent; `true` is positive. -/
def expSign (s : Str) : Bool × Str :=
  match s with
  | [] => (true, [])
  | c :: rest => if c = '+' then (true, rest) else if c = '-' then (false, rest) else (true, c :: rest)

/-- The sign of a number; `true` is negative. -/
def numSign (s : Str) : Bool × Str :=
  match s with
  | [] => (false, [])
  | c :: rest => if c = '-' then (true, rest) else (false, c :: rest)

/-- `parse_exponent` (serde_json `de.rs`): an optional sign and at least one digit. -/
def readExp (s : Str) : Option (Option (Bool × List Nat) × Str) :=
  match s with
  | c :: rest =>
    if c = 'e' ∨ c = 'E' then
      if (readDigits (expSign rest).2).1 = [] then none
      else some (some ((expSign rest).1, (readDigits (expSign rest).2).1), (readDigits (expSign rest).2).2)
    else some (none, s)
  | [] => some (none, [])

/-- `parse_any_number` / `parse_integer` (serde_json `de.rs`): no leading zeros. -/
def readNum (s : Str) : Option (NumTok × Str) :=
  match readDigits (numSign s).2 with
  | ([], _) => none
  | (d :: more, rest) =>
    if d = 0 ∧ more ≠ [] then none
    else do
      let frac ← readFrac rest
      let exp ← readExp frac.2
      some (⟨(numSign s).1, d :: more, frac.1, exp.1⟩, exp.2)

/-! ## Strings -/

/-- A lower case hexadecimal digit. -/
def hexChar (d : Nat) : Char := if d < 10 then Char.ofNat (48 + d) else Char.ofNat (87 + d)

/-- The value of a hexadecimal digit, `decode_hex_val` (serde_json `read.rs`). -/
def hexOf (c : Char) : Option Nat :=
  if 48 ≤ c.toNat ∧ c.toNat < 58 then some (c.toNat - 48)
  else if 97 ≤ c.toNat ∧ c.toNat < 103 then some (c.toNat - 87)
  else if 65 ≤ c.toNat ∧ c.toNat < 71 then some (c.toNat - 55)
  else none

/-- `format_escaped_str_contents` with the table `ESCAPE` (serde_json `ser.rs`), one character. -/
def escapeChar (c : Char) : Str :=
  if c = '"' then ['\\', '"']
  else if c = '\\' then ['\\', '\\']
  else if c = '\x08' then ['\\', 'b']
  else if c = '\x0c' then ['\\', 'f']
  else if c = '\n' then ['\\', 'n']
  else if c = '\r' then ['\\', 'r']
  else if c = '\t' then ['\\', 't']
  else if c.toNat < 32 then ['\\', 'u', '0', '0', hexChar (c.toNat / 16), hexChar (c.toNat % 16)]
  else [c]

/-- `format_escaped_str` (serde_json `ser.rs`). -/
def writeStr (s : Str) : Str := '"' :: s.flatMap escapeChar ++ ['"']

/-- `decode_hex_escape` (serde_json `read.rs`): four hexadecimal digits. -/
def readHex4 (s : Str) : Option (Nat × Str) :=
  match s with
  | a :: b :: c :: d :: rest => do
    let a ← hexOf a
    let b ← hexOf b
    let c ← hexOf c
    let d ← hexOf d
    some (((a * 16 + b) * 16 + c) * 16 + d, rest)
  | _ => none

/-- `parse_unicode_escape` (serde_json `read.rs`), after `\u`: surrogates must come in pairs. -/
def readUnicode (s : Str) : Option (Char × Str) := do
  let hi ← readHex4 s
  if 0xDC00 ≤ hi.1 ∧ hi.1 ≤ 0xDFFF then none
  else if 0xD800 ≤ hi.1 ∧ hi.1 ≤ 0xDBFF then
    match hi.2 with
    | '\\' :: 'u' :: rest => do
      let lo ← readHex4 rest
      if 0xDC00 ≤ lo.1 ∧ lo.1 ≤ 0xDFFF then
        some (Char.ofNat ((hi.1 - 0xD800) * 1024 + (lo.1 - 0xDC00) + 0x10000), lo.2)
      else none
    | _ => none
  else some (Char.ofNat hi.1, hi.2)

/-- `parse_escape` (serde_json `read.rs`), after the backslash. -/
def readEscape (s : Str) : Option (Char × Str) :=
  match s with
  | [] => none
  | c :: rest =>
    if c = '"' then some ('"', rest)
    else if c = '\\' then some ('\\', rest)
    else if c = '/' then some ('/', rest)
    else if c = 'b' then some ('\x08', rest)
    else if c = 'f' then some ('\x0c', rest)
    else if c = 'n' then some ('\n', rest)
    else if c = 'r' then some ('\r', rest)
    else if c = 't' then some ('\t', rest)
    else if c = 'u' then readUnicode rest
    else none

/-- `parse_str` (serde_json `read.rs`), after the opening quote.  Every turn consumes a character, so `fuel` is never
exhausted when it is the length of the input (`readStr_fuel`, Proofs/JsonFuel.lean). -/
def readStr : Nat → Str → Option (RawStr × Str)
  | 0, _ => none
  | _ + 1, [] => none
  | fuel + 1, c :: rest =>
    if c = '"' then some (⟨[], false⟩, rest)
    else if c = '\\' then do
      let e ← readEscape rest
      let r ← readStr fuel e.2
      some (⟨e.1 :: r.1.text, true⟩, r.2)
    else if c.toNat < 32 then none
    else do
      let r ← readStr fuel rest
      some (⟨c :: r.1.text, r.1.escaped⟩, r.2)

/-! ## Writing values -/

/-- `CompactFormatter` and `PrettyFormatter` (serde_json `ser.rs`). -/
inductive Style where
  | compact
  | pretty
  deriving DecidableEq, Repr

/-- What precedes an item, and what precedes the closing bracket, at nesting depth `depth`: nothing, or a line break and
two spaces per level. -/
def Style.gap (style : Style) (depth : Nat) : Str :=
  match style with
  | .compact => []
  | .pretty => '\n' :: List.replicate (2 * depth) ' '

/-- What separates a key from its value. -/
def Style.colon (style : Style) : Str :=
  match style with
  | .compact => [':']
  | .pretty => [':', ' ']

variable {F : Type}

mutual
/-- Writing a value at nesting depth `depth` (serde_json `ser.rs`); numbers that are not finite become `null`. -/
def write (N : NumText F) (style : Style) (depth : Nat) : Json Str F → Str
  | .null => "null".toList
  | .bool true => "true".toList
  | .bool false => "false".toList
  | .num x => match N.print x with | some t => numText t | none => "null".toList
  | .str s => writeStr s
  | .arr [] => ['[', ']']
  | .arr (x :: xs) =>
    '[' :: style.gap (depth + 1) ++ write N style (depth + 1) x ++ writeItems N style depth xs ++ style.gap depth ++ [']']
  | .obj [] => ['{', '}']
  | .obj ((k, x) :: ms) =>
    '{' :: style.gap (depth + 1) ++ writeStr k ++ style.colon ++ write N style (depth + 1) x ++
      writeMembers N style depth ms ++ style.gap depth ++ ['}']

/-- The items after the first one. -/
def writeItems (N : NumText F) (style : Style) (depth : Nat) : List (Json Str F) → Str
  | [] => []
  | x :: xs => ',' :: style.gap (depth + 1) ++ write N style (depth + 1) x ++ writeItems N style depth xs

/-- The members after the first one. -/
def writeMembers (N : NumText F) (style : Style) (depth : Nat) : List (Str × Json Str F) → Str
  | [] => []
  | (k, x) :: ms =>
    ',' :: style.gap (depth + 1) ++ writeStr k ++ style.colon ++ write N style (depth + 1) x ++
      writeMembers N style depth ms
end

/-! ## Reading values -/

/-- White space skipped by `parse_whitespace` (serde_json `de.rs`). -/
def isSpace (c : Char) : Bool := c == ' ' || c == '\n' || c == '\t' || c == '\r'

/-- `parse_whitespace` (serde_json `de.rs`). -/
def skip (s : Str) : Str := s.dropWhile isSpace

/-- Reading a number and computing its value. -/
def readNumber (N : NumText F) (s : Str) : Option (F × Str) := do
  let t ← readNum s
  let x ← N.value t.1
  some (x, t.2)

mutual
/-- `Deserializer::deserialize_any` (serde_json `de.rs`).  `levels` is `remaining_depth` (the macro `check_recursion!`).
Fuel beyond twice the length of the input makes no difference (`readValue_fuel`, Proofs/JsonFuel.lean), because every two
nested calls consume a character. -/
def readValue (N : NumText F) : Nat → Nat → Str → Option (Json RawStr F × Str)
  | 0, _, _ => none
  | fuel + 1, levels, s =>
    match skip s with
    | [] => none
    | c :: rest =>
      if c = 'n' then (if "ull".toList.isPrefixOf rest then some (.null, rest.drop 3) else none)
      else if c = 't' then (if "rue".toList.isPrefixOf rest then some (.bool true, rest.drop 3) else none)
      else if c = 'f' then (if "alse".toList.isPrefixOf rest then some (.bool false, rest.drop 4) else none)
      else if c = '"' then (readStr rest.length rest).map fun r => (.str r.1, r.2)
      else if c = '[' then
        if levels ≤ 1 then none
        else
          match skip rest with
          | ']' :: r => some (.arr [], r)
          | r => (readItems N fuel (levels - 1) r).map fun p => (.arr p.1, p.2)
      else if c = '{' then
        if levels ≤ 1 then none
        else
          match skip rest with
          | '}' :: r => some (.obj [], r)
          | r => (readMembers N fuel (levels - 1) r).map fun p => (.obj p.1, p.2)
      else (readNumber N (c :: rest)).map fun p => (.num p.1, p.2)

/-- `SeqAccess::next_element_seed` repeated up to the closing bracket. -/
def readItems (N : NumText F) : Nat → Nat → Str → Option (List (Json RawStr F) × Str)
  | 0, _, _ => none
  | fuel + 1, levels, s =>
    (readValue N fuel levels s).bind fun v =>
      match skip v.2 with
      | ']' :: r => some ([v.1], r)
      | ',' :: r => (readItems N fuel levels r).map fun p => (v.1 :: p.1, p.2)
      | _ => none

/-- `MapAccess::next_key_seed` and `next_value_seed` repeated up to the closing brace. -/
def readMembers (N : NumText F) : Nat → Nat → Str → Option (List (RawStr × Json RawStr F) × Str)
  | 0, _, _ => none
  | fuel + 1, levels, s =>
    match skip s with
    | '"' :: rest =>
      (readStr rest.length rest).bind fun k =>
        match skip k.2 with
        | ':' :: r =>
          (readValue N fuel levels r).bind fun v =>
            match skip v.2 with
            | '}' :: r => some ([(k.1, v.1)], r)
            | ',' :: r => (readMembers N fuel levels r).map fun p => ((k.1, v.1) :: p.1, p.2)
            | _ => none
        | _ => none
    | _ => none
end

/-- `serde_json::from_str` (text to tree): 128 levels, and nothing but white space may follow. -/
def read (N : NumText F) (text : Str) : Option (Json RawStr F) :=
  (readValue N (2 * text.length + 2) 128 text).bind fun v => if skip v.2 = [] then some v.1 else none

end Json
end Tokengeex
