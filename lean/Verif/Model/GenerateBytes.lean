import Verif.Model.SplitterBytes
import Verif.Model.Generate
/-
The two nested loops of `VocabularyGenerator::feed` (src/generate.rs:69-91 and 93-115) as they work on bytes: offsets count
bytes, and slicing a `str` anywhere but at a character boundary panics.
-/
namespace Tokengeex
namespace GenerateBytes
open SplitterBytes

/-- `char_indices` (Rust std) with `c.len_utf8()` for the character: the offset of each byte that is not a continuation byte
and the number of bytes up to the next such byte. -/
def charIndices (i : Nat) : List UInt8 → List (Nat × Nat)
  | [] => []
  | b :: bs =>
    if isCont b then charIndices (i + 1) bs
    else (i, 1 + (bs.takeWhile isCont).length) :: charIndices (i + 1) bs

/-- The inner loop, src/generate.rs:73-91 and 97-115: the candidates it looks at. -/
def innerB (max : Nat) (suffix : List UInt8) : Nat → List (Nat × Nat) → Res (List (List UInt8))
  | _, [] => .ok []
  | len, (ii, w) :: rest =>
    let len := len + w
    if len > max then .ok []
    else do
      let candidate ← sliceTo suffix (ii + w)
      let more ← innerB max suffix len rest
      pure (candidate :: more)

/-- The outer loop, src/generate.rs:69-92 and 93-116: all candidates of a part of a sample, in the order in which the code
looks at them. -/
def outerB (max : Nat) (part : List UInt8) : List (Nat × Nat) → Res (List (List UInt8))
  | [] => .ok []
  | (i, _) :: rest => do
    let suffix ← sliceFrom part i
    let here ← innerB max suffix 0 (charIndices 0 suffix)
    let more ← outerB max part rest
    pure (here ++ more)

/-- All candidates of a part of a sample. -/
def candidatesB (max : Nat) (part : List UInt8) : Res (List (List UInt8)) := outerB max part (charIndices 0 part)

end GenerateBytes
end Tokengeex
