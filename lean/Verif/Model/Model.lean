import Verif.Model.Basic
import Verif.Model.Utf8
import Verif.Model.Trie
/-
src/model.rs
-/
namespace Tokengeex

/-- `Model`, src/model.rs:8-12.  `token_to_ids` is only looked up, so it is a partial function. -/
structure Model (F : Type) where
  vocab : List (ScoredToken F)
  tokenToIds : Token → Option TokenID
  trie : TNode (TokenID × Nat)

namespace Model
variable {F : Type}

/-- One iteration of the loop of `Model::from`, src/model.rs:20-23. -/
def fromStep (acc : (Token → Option TokenID) × TNode (TokenID × Nat)) (p : ScoredToken F × Nat) :
    (Token → Option TokenID) × TNode (TokenID × Nat) :=
  (fun t => if t = p.1.value then some p.2 else acc.1 t, acc.2.push p.1.value (p.2, p.1.len))

/-- `Model::from`, src/model.rs:16-30. -/
def from_ (vocab : List (ScoredToken F)) : Model F :=
  let r := vocab.zipIdx.foldl fromStep (fun _ => none, TNode.empty)
  { vocab := vocab, tokenToIds := r.1, trie := r.2 }

/-- Body of the loop of `Model::add_tokens`, src/model.rs:188-193. -/
def addToken (m : Model F) (token : ScoredToken F) : Model F :=
  let id := m.vocab.length
  { trie := m.trie.push token.value (id, token.len)
    tokenToIds := fun t => if t = token.value then some id else m.tokenToIds t
    vocab := m.vocab ++ [token] }

/-- `Model::add_tokens`, src/model.rs:184-194. -/
def addTokens (m : Model F) (tokens : List (ScoredToken F)) : Model F := tokens.foldl addToken m

/-- `Model::vocab_size`, src/model.rs:179-181. -/
def vocabSize (m : Model F) : Nat := m.vocab.length

/-- `Model::token_to_id`, src/model.rs:164-166. -/
def tokenToId (m : Model F) (t : Token) : Option TokenID := m.tokenToIds t

/-- `Model::id_to_token`, src/model.rs:170-176. The indexing after the bounds test cannot fail, so the result is
`Option`, with `l[i]?` for `Some(self.vocab[id].clone())`. -/
def idToToken (m : Model F) (id : TokenID) : Option (ScoredToken F) :=
  if id ≥ m.vocab.length then none else m.vocab[id]?

/-- `Model::common_prefix_search`, src/model.rs:132-138, collected. -/
def commonPrefixSearch (m : Model F) (s : List UInt8) : List (TokenID × Nat) := prefixSearch m.trie s

/-- The local `struct Node` of `Model::encode`, src/model.rs:64-68. -/
structure DpNode (F : Type) where
  id : TokenID
  score : F
  start : Option Nat
  deriving DecidableEq, Repr

/-- The guard `dropout <= 0.0 || len <= 1 || dropout < rand::random::<f64>()` of src/model.rs:100 with its
short-circuit evaluation: `rnd k` is the `k`-th number drawn, and `k` advances only if a number is drawn. -/
def dropGuard [ScoreOps F] (dropout : F) (rnd : Nat → F) (len k : Nat) : Bool × Nat :=
  if ScoreOps.le dropout ScoreOps.zero || decide (len ≤ 1) then (true, k)
  else (ScoreOps.lt dropout (rnd k), k + 1)

/-- Body of the inner `for (id, len)` loop of `encode`, src/model.rs:96-108. The state is the table and the
number of random draws so far. -/
def relax [ScoreOps F] (m : Model F) (dropout : F) (rnd : Nat → F) (pos : Nat)
    (st : List (DpNode F) × Nat) (c : TokenID × Nat) : Res (List (DpNode F) × Nat) := do
  let node ← idx st.1 (pos + c.2)
  let cur ← idx st.1 pos
  let tok ← idx m.vocab c.1
  let score := ScoreOps.add cur.score tok.score
  let g := dropGuard dropout rnd c.2 st.2
  if g.1 && (node.start.isNone || ScoreOps.lt node.score score) then do
    let dp ← setIdx st.1 (pos + c.2) { id := c.1, score := score, start := some pos }
    pure (dp, g.2)
  else
    pure (st.1, g.2)

/-- Body of the outer `for pos` loop of `encode`, src/model.rs:83-110. -/
def encodePos [ScoreOps F] (m : Model F) (dropout : F) (rnd : Nat → F) (input : List UInt8)
    (st : List (DpNode F) × Nat) (pos : Nat) : Res (List (DpNode F) × Nat) := do
  let cur ← idx st.1 pos
  if cur.start.isNone then
    pure st
  else
    (m.commonPrefixSearch (input.drop pos)).foldlM (relax m dropout rnd pos) st

/-- The backtracking loop of `encode`, src/model.rs:113-123; the returned list is already in the final order
(the code pushes and then reverses). The `while` gets fuel. -/
def backtrack (dp : List (DpNode F)) (n : Nat) : Nat → Nat → List TokenID → Res (List TokenID)
  | 0, _, _ => .error .diverge
  | fuel + 1, pos, ids =>
    if pos > 0 then do
      let node ← idx dp pos
      match node.start with
      | none => .error (.noPath pos n)
      | some start => backtrack dp n fuel start (node.id :: ids)
    else .ok ids

/-- The initial table of `encode`, src/model.rs:72-81. -/
def initDp [ScoreOps F] (n : Nat) : List (DpNode F) :=
  (List.replicate (n + 1) { id := 0, score := ScoreOps.zero, start := none : DpNode F }).set 0
    { id := 0, score := ScoreOps.zero, start := some 0 }

/-- `Model::encode` on the bytes of the input, src/model.rs:59-129. -/
def encodeBytes [ScoreOps F] (m : Model F) (input : List UInt8) (dropout : F) (rnd : Nat → F) :
    Res (List TokenID × Nat) := do
  let st ← (List.range input.length).foldlM (encodePos m dropout rnd input) (initDp input.length, 0)
  let ids ← backtrack st.1 input.length (input.length + 1) input.length []
  pure (ids, st.2)

/-- `Model::encode`, src/model.rs:59-129. Also returns the number of random draws made, for callers that encode
several pieces. -/
def encodeR [ScoreOps F] (m : Model F) (input : Str) (dropout : F) (rnd : Nat → F) :
    Res (List TokenID × Nat) := m.encodeBytes (enc input) dropout rnd

/-- `Model::encode`, src/model.rs:59-129: the ids only. -/
def encode [ScoreOps F] (m : Model F) (input : Str) (dropout : F) (rnd : Nat → F) : Res (List TokenID) :=
  (m.encodeR input dropout rnd).map Prod.fst

/-- Loop of `Model::decode`, src/model.rs:149-157. -/
def decodeLoop (m : Model F) : List TokenID → List UInt8 → Res (List UInt8)
  | [], res => .ok res
  | id :: ids, res =>
    if id ≥ m.vocabSize then .error (.outOfBounds id)
    else do
      let token ← idx m.vocab id
      decodeLoop m ids (res ++ token.value)

/-- `Model::decode`, src/model.rs:146-160. -/
def decode (m : Model F) (ids : List TokenID) : Res Str := do
  let res ← decodeLoop m ids []
  pure (lossy res)

end Model

/-- `new_default_vocab`, src/lib.rs:206-210. The score `1.0/256.0` is a parameter. -/
def newDefaultVocab {F : Type} (score : F) : List (ScoredToken F) :=
  (List.range 256).map fun id => { value := [UInt8.ofNat id], score := score, keep := false }

/-- `make_vocab`, src/lib.rs:212-217. -/
def makeVocab {F : Type} (tokens : List (Token × F)) : List (ScoredToken F) :=
  tokens.map fun p => { value := p.1, score := p.2, keep := false }

end Tokengeex
