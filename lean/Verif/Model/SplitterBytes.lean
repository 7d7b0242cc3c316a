import Verif.Model.Tokenizer
/-
`SpecialTokenSplitter` of src/tokenizer.rs:297-349 as it works on bytes: offsets count bytes, and slicing a `str` anywhere
but at a character boundary panics.
-/
namespace Tokengeex
namespace SplitterBytes

/-- `str::is_char_boundary` (Rust std). -/
def isCharBoundary (s : List UInt8) (i : Nat) : Bool :=
  if i = 0 then true
  else match s[i]? with
    | none => i == s.length
    | some b => !isCont b

/-- `&s[i..]`. -/
def sliceFrom (s : List UInt8) (i : Nat) : Res (List UInt8) :=
  if isCharBoundary s i then .ok (s.drop i) else .error .panic

/-- `&s[..i]`. -/
def sliceTo (s : List UInt8) (i : Nat) : Res (List UInt8) :=
  if isCharBoundary s i then .ok (s.take i) else .error .panic

/-- `suffix.starts_with(special_token)` for the special tokens in order, src/tokenizer.rs:328-338. -/
def matchAtB (specials : List (List UInt8)) (suffix : List UInt8) : Option (List UInt8) :=
  specials.find? fun t => t.isPrefixOf suffix

/-- The loop of `next`, src/tokenizer.rs:325-345.  `i` is the byte offset in `input`, the last argument the bytes from `i` on;
`char_indices` stops at every byte that is not a continuation byte.  Returns the item and the new cursor; `len` is
`self.input.len()`. -/
def scanB (specials : List (List UInt8)) (input : List UInt8) (cursor len i : Nat) :
    List UInt8 → Res ((List UInt8 × Bool) × Nat)
  | [] => .ok ((input, false), if cursor < len then len else cursor)
  | b :: bs =>
    if isCont b then scanB specials input cursor len (i + 1) bs
    else do
      let suffix ← sliceFrom input i
      match matchAtB specials suffix with
      | some t =>
        if i > 0 then do
          let part ← sliceTo input i
          pure ((part, false), cursor + i)
        else do
          let part ← sliceTo input t.length
          pure ((part, true), cursor + t.length)
      | none => scanB specials input cursor len (i + 1) bs

/-- `SpecialTokenSplitter::next`, src/tokenizer.rs:318-346: the item and the new cursor. -/
def nextB (specials : List (List UInt8)) (whole : List UInt8) (cursor : Nat) : Res (Option ((List UInt8 × Bool) × Nat)) :=
  if cursor ≥ whole.length then .ok none
  else do
    let input ← sliceFrom whole cursor
    (scanB specials input cursor whole.length 0 input).map some

/-- The items of the splitter, collected; the iterator is stopped after `fuel` steps. -/
def runB (specials : List (List UInt8)) (whole : List UInt8) : Nat → Nat → Res (List (List UInt8 × Bool))
  | 0, _ => .error .diverge
  | fuel + 1, cursor => do
    match ← nextB specials whole cursor with
    | none => pure []
    | some (item, cursor) => do
      let items ← runB specials whole fuel cursor
      pure (item :: items)

/-- Loop of `encode`, src/tokenizer.rs:66-88, with the splitter on bytes.  A piece that is not UTF-8 could not be a `&str`; the
model panics on one. -/
def encodeLoopB {F : Type} [ScoreOps F] (norm : UnicodeForm → Str → Str) (t : Tokenizer F) (dropout : F) (rnd : Nat → F)
    (whole : List UInt8) : Nat → Nat → Nat → List TokenID → Res (List TokenID)
  | 0, _, _, _ => .error .diverge
  | fuel + 1, cursor, k, ids => do
    match ← nextB (t.specialTokens.map enc) whole cursor with
    | none => pure ids
    | some (item, cursor) =>
      match fromUtf8 item.1 with
      | none => .error .panic
      | some piece => do
        let r ← t.encodePiece norm (piece, item.2) dropout (fun j => rnd (k + j))
        encodeLoopB norm t dropout rnd whole fuel cursor (k + r.2) (ids ++ r.1)

end SplitterBytes
end Tokengeex
