import Verif.Model.Model
import Verif.Model.Processor
/-
src/tokenizer.rs (serialisation is in Model/Serde.lean, batches in Model/Batch.lean)
-/
namespace Tokengeex

/-- `Tokenizer`, src/tokenizer.rs:7-12.  `special_tokens_map` is only looked up, so it is a partial function. -/
structure Tokenizer (F : Type) where
  model : Model F
  processors : List Processor
  specialTokens : List Str
  specialMap : Str → Option TokenID

/-- `a - b` on `u32`: panics on underflow. -/
def subU (a b : Nat) : Res Nat := if b ≤ a then .ok (a - b) else .error .panic

/-! ## The special token splitter -/

/-- Inner loop of `SpecialTokenSplitter::next`, src/tokenizer.rs:328-338: the first registered special token the
suffix starts with. -/
def matchAt (specials : List Str) (suffix : Str) : Option Str := specials.find? (fun t => t.isPrefixOf suffix)

/-- Outer loop of `SpecialTokenSplitter::next`, src/tokenizer.rs:325-345.  `input` is the unread text, `i` the
position of the loop (in characters) and the last argument the unread text from `i` on.  Returns the item and what
is left unread. (The code keeps byte offsets; Model/SplitterBytes.lean models those.) -/
def splitScan (specials : List Str) (input : Str) (i : Nat) : Str → (Str × Bool) × Str
  | [] => ((input, false), [])
  | c :: cs =>
    match matchAt specials (c :: cs) with
    | some t =>
      if i > 0 then ((input.take i, false), input.drop i)
      else ((input.take t.length, true), input.drop t.length)
    | none => splitScan specials input (i + 1) cs

/-- `SpecialTokenSplitter::next`, src/tokenizer.rs:318-346, on the unread text. -/
def splitNext (specials : List Str) (input : Str) : Option ((Str × Bool) × Str) :=
  if input = [] then none else some (splitScan specials input 0 input)

/-- The items of the splitter, collected; `none` if `fuel` steps are not enough. -/
def splitAll (specials : List Str) : Nat → Str → Option (List (Str × Bool))
  | 0, _ => none
  | fuel + 1, input =>
    match splitNext specials input with
    | none => some []
    | some (item, rest) => (splitAll specials fuel rest).map (item :: ·)

namespace Tokenizer
variable {F : Type}

/-- Body of the loop of `add_special_tokens`, src/tokenizer.rs:44-52. -/
def addSpecialToken (t : Tokenizer F) (token : Str) : Tokenizer F :=
  if (t.specialMap token).isSome then t
  else { t with
    specialMap := fun s => if s = token then some t.specialTokens.length else t.specialMap s
    specialTokens := t.specialTokens ++ [token] }

/-- `add_special_tokens`, src/tokenizer.rs:39-53. -/
def addSpecialTokens (t : Tokenizer F) (tokens : List Str) : Tokenizer F := tokens.foldl addSpecialToken t

/-- `Tokenizer::new`, src/tokenizer.rs:16-33. -/
def new (model : Model F) (processors : List Processor) (specials : List Str) : Tokenizer F :=
  addSpecialTokens { model := model, processors := processors, specialTokens := [], specialMap := fun _ => none }
    specials

/-- `add_base_tokens`, src/tokenizer.rs:56-61. -/
def addBaseTokens (t : Tokenizer F) (tokens : List (ScoredToken F)) : Tokenizer F :=
  { t with model := t.model.addTokens tokens }

/-- The fold over the processors, src/tokenizer.rs:79-82 and 93-96. -/
def preprocess (norm : UnicodeForm → Str → Str) (t : Tokenizer F) (s : Str) : Str :=
  t.processors.foldl (fun s p => p.preprocess norm s) s

/-- The fold over the reversed processors, src/tokenizer.rs:141-145 and 163-167. -/
def postprocess (t : Tokenizer F) (s : Str) : Str := t.processors.reverse.foldl (fun s p => p.postprocess s) s

/-- `encode_ordinary`, src/tokenizer.rs:92-99 (with the number of random draws). -/
def encodeOrdinaryR [ScoreOps F] (norm : UnicodeForm → Str → Str) (t : Tokenizer F) (input : Str) (dropout : F)
    (rnd : Nat → F) : Res (List TokenID × Nat) := t.model.encodeR (t.preprocess norm input) dropout rnd

/-- `encode_ordinary`, src/tokenizer.rs:92-99. -/
def encodeOrdinary [ScoreOps F] (norm : UnicodeForm → Str → Str) (t : Tokenizer F) (input : Str) (dropout : F)
    (rnd : Nat → F) : Res (List TokenID) := t.model.encode (t.preprocess norm input) dropout rnd

/-- Body of the loop of `encode`, src/tokenizer.rs:70-85: the ids of one item and the number of draws. -/
def encodePiece [ScoreOps F] (norm : UnicodeForm → Str → Str) (t : Tokenizer F) (item : Str × Bool) (dropout : F)
    (rnd : Nat → F) : Res (List TokenID × Nat) :=
  if item.2 then
    match t.specialMap item.1 with
    | some id => .ok ([t.model.vocabSize + id], 0)
    | none => .error .panic
  else t.model.encodeR (t.preprocess norm item.1) dropout rnd

/-- Loop of `encode`, src/tokenizer.rs:66-88: the splitter is consumed lazily; `k` counts the random draws made. -/
def encodeLoop [ScoreOps F] (norm : UnicodeForm → Str → Str) (t : Tokenizer F) (dropout : F) (rnd : Nat → F) :
    Nat → Str → Nat → List TokenID → Res (List TokenID)
  | 0, _, _, _ => .error .diverge
  | fuel + 1, input, k, ids =>
    match splitNext t.specialTokens input with
    | none => .ok ids
    | some (item, rest) => do
      let r ← t.encodePiece norm item dropout (fun j => rnd (k + j))
      encodeLoop norm t dropout rnd fuel rest (k + r.2) (ids ++ r.1)

/-- `encode`, src/tokenizer.rs:65-89, run for at most `fuel` splitter steps. -/
def encodeFuel [ScoreOps F] (norm : UnicodeForm → Str → Str) (t : Tokenizer F) (fuel : Nat) (input : Str)
    (dropout : F) (rnd : Nat → F) : Res (List TokenID) := encodeLoop norm t dropout rnd fuel input 0 []

/-- `encode`, src/tokenizer.rs:65-89.  The fuel suffices whenever the loop terminates (C17). -/
def encode [ScoreOps F] (norm : UnicodeForm → Str → Str) (t : Tokenizer F) (input : Str) (dropout : F)
    (rnd : Nat → F) : Res (List TokenID) := t.encodeFuel norm (input.length + 1) input dropout rnd

/-- Loop of `decode`, src/tokenizer.rs:131-173. -/
def decodeLoop (t : Tokenizer F) (includeSpecial : Bool) : Nat → List TokenID → Str → Res Str
  | 0, _, _ => .error .diverge
  | fuel + 1, input, output =>
    match input.findIdx? (fun id => decide (id ≥ t.model.vocabSize)) with
    | some i => do
      let decoded ← t.model.decode (input.take i)
      let id ← idx input i
      let off ← subU id t.model.vocabSize
      match t.specialTokens[off]? with
      | none => .error (.outOfBounds id)
      | some special =>
        decodeLoop t includeSpecial fuel (input.drop (i + 1))
          (output ++ t.postprocess decoded ++ (if includeSpecial then special else []))
    | none => do
      let decoded ← t.model.decode input
      pure (output ++ t.postprocess decoded)

/-- `decode`, src/tokenizer.rs:126-176. -/
def decode (t : Tokenizer F) (input : List TokenID) (includeSpecial : Bool) : Res Str :=
  decodeLoop t includeSpecial (input.length + 1) input []

/-- `special_token_to_id`, src/tokenizer.rs:203-207. -/
def specialTokenToId (t : Tokenizer F) (token : Str) : Option TokenID :=
  (t.specialMap token).map (fun id => id + t.model.vocabSize)

/-- `base_token_to_id`, src/tokenizer.rs:209-211. -/
def baseTokenToId (t : Tokenizer F) (token : Token) : Option TokenID := t.model.tokenToId token

/-- `token_to_id`, src/tokenizer.rs:189-201. -/
def tokenToId (t : Tokenizer F) (token : Token) : Option TokenID :=
  match t.baseTokenToId token with
  | some id => some id
  | none =>
    match fromUtf8 token with
    | some v =>
      match t.specialTokenToId v with
      | some id => some id
      | none => none
    | none => none

/-- `id_to_special_token`, src/tokenizer.rs:219-226. -/
def idToSpecialToken (t : Tokenizer F) (id : TokenID) : Option Str :=
  if id < t.model.vocabSize then none else t.specialTokens[id - t.model.vocabSize]?

/-- `id_to_base_token`, src/tokenizer.rs:228-230. -/
def idToBaseToken (t : Tokenizer F) (id : TokenID) : Option (ScoredToken F) := t.model.idToToken id

/-- `id_to_token`, src/tokenizer.rs:213-217. -/
def idToToken (t : Tokenizer F) (id : TokenID) : Option Token :=
  match (t.idToSpecialToken id).map enc with
  | some v => some v
  | none => (t.idToBaseToken id).map (·.value)

/-- `is_special`, src/tokenizer.rs:232-239. -/
def isSpecial (t : Tokenizer F) (id : TokenID) : Bool :=
  if id < t.model.vocabSize then false else (t.specialTokens[id - t.model.vocabSize]?).isSome

/-- `is_base`, src/tokenizer.rs:241-243. -/
def isBase (t : Tokenizer F) (id : TokenID) : Bool := decide (id < t.model.vocabSize)

/-- `vocab_size`, src/tokenizer.rs:249-251. -/
def vocabSize (t : Tokenizer F) : Nat := t.model.vocabSize + t.specialTokens.length

/-- `base_vocab_size`, src/tokenizer.rs:253-255. -/
def baseVocabSize (t : Tokenizer F) : Nat := t.model.vocabSize

/-- `special_vocab_size`, src/tokenizer.rs:257-259. -/
def specialVocabSize (t : Tokenizer F) : Nat := t.specialTokens.length

/-- The mutating calls of the public API, src/tokenizer.rs:39-61. -/
inductive Op (F : Type) where
  | addSpecial (tokens : List Str)
  | addBase (tokens : List (ScoredToken F))

/-- Executing one mutating call. -/
def apply (t : Tokenizer F) : Op F → Tokenizer F
  | .addSpecial ts => t.addSpecialTokens ts
  | .addBase ts => t.addBaseTokens ts

/-- A tokenizer built with `Tokenizer::new(Model::from(vocab), processors, specials)` and then mutated by `ops`. -/
def build (vocab : List (ScoredToken F)) (processors : List Processor) (specials : List Str) (ops : List (Op F)) :
    Tokenizer F := ops.foldl apply (new (Model.from_ vocab) processors specials)

end Tokenizer
end Tokengeex
