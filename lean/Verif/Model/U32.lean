import Verif.Model.Tokenizer
/-
The same functions as in Model/Model.lean and Model/Tokenizer.lean with the conversions between `usize` and `u32` that the
code makes.  Functions that only pass ids on (`encode` of the model, `populate_nodes`, lookups by `as usize`, which never
loses anything on 64-bit machines) are the same.
-/
namespace Tokengeex

/-- `n as u32`. -/
def u32 (n : Nat) : Nat := n % 2 ^ 32

/-- `a + b` on `u32`: a build with overflow checks panics, one without wraps. -/
def addU32 (checked : Bool) (a b : Nat) : Res Nat :=
  if a + b < 2 ^ 32 then .ok (a + b) else if checked then .error .panic else .ok (u32 (a + b))

namespace Model
variable {F : Type}

/-- One iteration of the loop of `Model::from`, src/model.rs:20-23. -/
def fromStep32 (acc : (Token → Option TokenID) × TNode (TokenID × Nat)) (p : ScoredToken F × Nat) :
    (Token → Option TokenID) × TNode (TokenID × Nat) :=
  (fun t => if t = p.1.value then some (u32 p.2) else acc.1 t, acc.2.push p.1.value (u32 p.2, u32 p.1.len))

/-- `Model::from`, src/model.rs:16-30. -/
def from32 (vocab : List (ScoredToken F)) : Model F :=
  let r := vocab.zipIdx.foldl fromStep32 (fun _ => none, TNode.empty)
  { vocab := vocab, tokenToIds := r.1, trie := r.2 }

/-- Body of the loop of `Model::add_tokens`, src/model.rs:188-193. -/
def addToken32 (m : Model F) (token : ScoredToken F) : Model F :=
  let id := u32 m.vocab.length
  { trie := m.trie.push token.value (id, u32 token.len)
    tokenToIds := fun t => if t = token.value then some id else m.tokenToIds t
    vocab := m.vocab ++ [token] }

/-- `Model::add_tokens`, src/model.rs:184-194. -/
def addTokens32 (m : Model F) (tokens : List (ScoredToken F)) : Model F := tokens.foldl addToken32 m

/-- `Model::id_to_token`, src/model.rs:170-176. -/
def idToToken32 (m : Model F) (id : TokenID) : Option (ScoredToken F) :=
  if id ≥ u32 m.vocab.length then none else m.vocab[id]?

/-- Loop of `Model::decode`, src/model.rs:149-157. -/
def decodeLoop32 (m : Model F) : List TokenID → List UInt8 → Res (List UInt8)
  | [], res => .ok res
  | id :: ids, res =>
    if id ≥ u32 m.vocabSize then .error (.outOfBounds id)
    else do
      let token ← idx m.vocab id
      decodeLoop32 m ids (res ++ token.value)

/-- `Model::decode`, src/model.rs:146-160. -/
def decode32 (m : Model F) (ids : List TokenID) : Res Str := do
  let res ← decodeLoop32 m ids []
  pure (lossy res)

end Model

namespace Tokenizer
variable {F : Type}

/-- Body of the loop of `add_special_tokens`, src/tokenizer.rs:44-52. -/
def addSpecialToken32 (t : Tokenizer F) (token : Str) : Tokenizer F :=
  if (t.specialMap token).isSome then t
  else { t with
    specialMap := fun s => if s = token then some (u32 t.specialTokens.length) else t.specialMap s
    specialTokens := t.specialTokens ++ [token] }

/-- `add_special_tokens`, src/tokenizer.rs:39-53. -/
def addSpecialTokens32 (t : Tokenizer F) (tokens : List Str) : Tokenizer F := tokens.foldl addSpecialToken32 t

/-- `Tokenizer::new`, src/tokenizer.rs:16-33. -/
def new32 (model : Model F) (processors : List Processor) (specials : List Str) : Tokenizer F :=
  addSpecialTokens32 { model := model, processors := processors, specialTokens := [], specialMap := fun _ => none }
    specials

/-- `add_base_tokens`, src/tokenizer.rs:56-61. -/
def addBaseTokens32 (t : Tokenizer F) (tokens : List (ScoredToken F)) : Tokenizer F :=
  { t with model := t.model.addTokens32 tokens }

/-- Executing one mutating call. -/
def apply32 (t : Tokenizer F) : Op F → Tokenizer F
  | .addSpecial ts => t.addSpecialTokens32 ts
  | .addBase ts => t.addBaseTokens32 ts

/-- A tokenizer built with `Tokenizer::new(Model::from(vocab), processors, specials)` and then mutated by `ops`. -/
def build32 (vocab : List (ScoredToken F)) (processors : List Processor) (specials : List Str) (ops : List (Op F)) :
    Tokenizer F := ops.foldl apply32 (new32 (Model.from32 vocab) processors specials)

/-- Body of the loop of `encode`, src/tokenizer.rs:70-85. -/
def encodePiece32 [ScoreOps F] (checked : Bool) (norm : UnicodeForm → Str → Str) (t : Tokenizer F) (item : Str × Bool)
    (dropout : F) (rnd : Nat → F) : Res (List TokenID × Nat) :=
  if item.2 then
    match t.specialMap item.1 with
    | some id => do
      let id ← addU32 checked (u32 t.model.vocabSize) id
      pure ([id], 0)
    | none => .error .panic
  else t.model.encodeR (t.preprocess norm item.1) dropout rnd

/-- Loop of `encode`, src/tokenizer.rs:66-88. -/
def encodeLoop32 [ScoreOps F] (checked : Bool) (norm : UnicodeForm → Str → Str) (t : Tokenizer F) (dropout : F)
    (rnd : Nat → F) : Nat → Str → Nat → List TokenID → Res (List TokenID)
  | 0, _, _, _ => .error .diverge
  | fuel + 1, input, k, ids =>
    match splitNext t.specialTokens input with
    | none => .ok ids
    | some (item, rest) => do
      let r ← t.encodePiece32 checked norm item dropout (fun j => rnd (k + j))
      encodeLoop32 checked norm t dropout rnd fuel rest (k + r.2) (ids ++ r.1)

/-- `encode`, src/tokenizer.rs:65-89, run for at most `fuel` splitter steps. -/
def encodeFuel32 [ScoreOps F] (checked : Bool) (norm : UnicodeForm → Str → Str) (t : Tokenizer F) (fuel : Nat) (input : Str)
    (dropout : F) (rnd : Nat → F) : Res (List TokenID) := encodeLoop32 checked norm t dropout rnd fuel input 0 []

/-- Loop of `decode`, src/tokenizer.rs:131-173. -/
def decodeLoop32 (t : Tokenizer F) (includeSpecial : Bool) : Nat → List TokenID → Str → Res Str
  | 0, _, _ => .error .diverge
  | fuel + 1, input, output =>
    match input.findIdx? (fun id => decide (id ≥ u32 t.model.vocabSize)) with
    | some i => do
      let decoded ← t.model.decode32 (input.take i)
      let id ← idx input i
      let off ← subU id (u32 t.model.vocabSize)
      match t.specialTokens[off]? with
      | none => .error (.outOfBounds id)
      | some special =>
        decodeLoop32 t includeSpecial fuel (input.drop (i + 1))
          (output ++ t.postprocess decoded ++ (if includeSpecial then special else []))
    | none => do
      let decoded ← t.model.decode32 input
      pure (output ++ t.postprocess decoded)

/-- `decode`, src/tokenizer.rs:126-176. -/
def decode32 (t : Tokenizer F) (input : List TokenID) (includeSpecial : Bool) : Res Str :=
  decodeLoop32 t includeSpecial (input.length + 1) input []

/-- `special_token_to_id`, src/tokenizer.rs:203-207. -/
def specialTokenToId32 (checked : Bool) (t : Tokenizer F) (token : Str) : Res (Option TokenID) :=
  match t.specialMap token with
  | none => .ok none
  | some id => (addU32 checked id (u32 t.model.vocabSize)).map some

/-- `token_to_id`, src/tokenizer.rs:189-201. -/
def tokenToId32 (checked : Bool) (t : Tokenizer F) (token : Token) : Res (Option TokenID) :=
  match t.baseTokenToId token with
  | some id => .ok (some id)
  | none =>
    match fromUtf8 token with
    | some v => t.specialTokenToId32 checked v
    | none => .ok none

/-- `id_to_special_token`, src/tokenizer.rs:219-226. -/
def idToSpecialToken32 (t : Tokenizer F) (id : TokenID) : Option Str :=
  if id < u32 t.model.vocabSize then none else t.specialTokens[id - u32 t.model.vocabSize]?

/-- `id_to_token`, src/tokenizer.rs:213-217. -/
def idToToken32 (t : Tokenizer F) (id : TokenID) : Option Token :=
  match (t.idToSpecialToken32 id).map enc with
  | some v => some v
  | none => (t.model.idToToken32 id).map (·.value)

/-- `is_special`, src/tokenizer.rs:232-239. -/
def isSpecial32 (t : Tokenizer F) (id : TokenID) : Bool :=
  if id < u32 t.model.vocabSize then false else (t.specialTokens[id - u32 t.model.vocabSize]?).isSome

/-- `is_base`, src/tokenizer.rs:241-243. -/
def isBase32 (t : Tokenizer F) (id : TokenID) : Bool := decide (id < u32 t.model.vocabSize)

end Tokenizer
end Tokengeex
