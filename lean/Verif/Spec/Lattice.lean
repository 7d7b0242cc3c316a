import Verif.Model.Lattice
import Verif.Spec.Segmentation
/-
The lattice of a sentence, described by the list of its tokens.
-/
namespace Tokengeex.Spec
variable {F : Type}

/-- A token placed at a position of the sentence. -/
structure Entry (F : Type) where
  pos : Nat
  id : Nat
  len : Nat
  score : F
  deriving DecidableEq, Repr

/-- The node numbers (numbering from 2) of the entries satisfying `c`, in increasing order. -/
def nodesWhere (c : Entry F → Bool) (es : List (Entry F)) : List Nat :=
  (es.zipIdx 2).filterMap (fun x => if c x.1 then some x.2 else none)

/-- The lattice of a sentence holding exactly the tokens `es`, in this order: node 0 marks the beginning of the
sentence and ends at 0, node 1 marks the end and begins at the end, and the tokens follow; for every position the
tokens that begin there and the tokens that end there are listed in increasing order. -/
def latticeOf [ScoreOps F] (sentence : List UInt8) (es : List (Entry F)) : Lattice F where
  sentence := sentence
  beginNodes := (List.range (sentence.length + 1)).map (fun p =>
    (if p = sentence.length then [1] else []) ++ nodesWhere (fun e => e.pos == p) es)
  endNodes := (List.range (sentence.length + 1)).map (fun p =>
    (if p = 0 then [0] else []) ++ nodesWhere (fun e => e.pos + e.len == p) es)
  nodes := LNode.new 0 4294967294 0 ScoreOps.zero :: LNode.new sentence.length 4294967295 0 ScoreOps.zero ::
    es.map (fun e => LNode.new e.pos e.id e.len e.score)
  bosIdx := 0
  eosIdx := 1

/-- Every token lies inside a sentence of `n` bytes and is not empty. -/
def Inside (n : Nat) (es : List (Entry F)) : Prop := ∀ e ∈ es, 0 < e.len ∧ e.pos + e.len ≤ n

/-- The vocabulary token with the bytes of the sentence from `pos` on for `len` bytes, if there is one (the last one, if
there are several). -/
def TokenAt (vocab : List (ScoredToken F)) (sentence : List UInt8) (e : Entry F) : Prop :=
  0 < e.len ∧ e.pos + e.len ≤ sentence.length ∧
  LastIndex vocab ((sentence.drop e.pos).take e.len) e.id ∧ ∃ t, vocab[e.id]? = some t ∧ t.score = e.score

/-- The entries follow each other without gap from position `a` to position `b`. -/
def Contiguous : Nat → List (Entry F) → Nat → Prop
  | a, [], b => a = b
  | a, e :: es, b => e.pos = a ∧ Contiguous (a + e.len) es b

/-- `path` is a segmentation of a sentence of `n` bytes by tokens of the lattice. -/
def PathOf (n : Nat) (es path : List (Entry F)) : Prop := (∀ e ∈ path, e ∈ es) ∧ Contiguous 0 path n

/-- Left-to-right sum of the scores of a path. -/
def entriesScore [ScoreOps F] (path : List (Entry F)) : F := (path.map (·.score)).foldl ScoreOps.add ScoreOps.zero

/-- Wherever a token starts (or the sentence stops), another token stops (or the sentence starts). -/
def NoGaps (n : Nat) (es : List (Entry F)) : Prop :=
  ∀ p, (p = n ∨ ∃ e ∈ es, e.pos = p) → p = 0 ∨ ∃ e ∈ es, e.pos + e.len = p

/-- What can have happened to a pool and to a lattice using it: the pool was created, vectors were put into it or taken
out of it by anyone, lattices were re-initialised with it, and (`other`) the client turned to any other lattice or
changed its public fields in any way, which includes `insert`, `populate_nodes` and `viterbi`. -/
inductive History [ScoreOps F] : VecPool → Lattice F → Prop
  | start (a : Nat) : History (VecPool.withCapacity a) Lattice.new
  | put {p : VecPool} {l : Lattice F} (v : List Nat) : History p l → History (p.put v) l
  | get {p : VecPool} {l : Lattice F} : History p l → History p.get.2 l
  | reinit {p p' : VecPool} {l l' : Lattice F} (sentence : List UInt8) :
      History p l → l.from_ sentence p = .ok (l', p') → History p' l'
  | other {p : VecPool} {l : Lattice F} (l' : Lattice F) : History p l → History p l'

/-- The token a node stands for. -/
def nodeEntry (x : LNode F) : Entry F := ⟨x.pos, x.tokenId, x.tokenLen, x.score⟩

/-- The result of `viterbi` for a path: one node per entry, then the end-of-sentence node. -/
def IsResult [ScoreOps F] (n : Nat) (nodes : List (LNode F)) (path : List (Entry F)) : Prop :=
  nodes.map nodeEntry = path ++ [⟨n, 4294967295, 0, ScoreOps.zero⟩]

/-- Exact addition: adding the same value on the right preserves `<`.  Holds for exact arithmetic (`Int`), not for
floating point, where two different sums may round to the same value. -/
def ExactAdd (F : Type) [ScoreOps F] (good tok : F → Prop) : Prop :=
  ∀ a b c : F, good a → good b → tok c → ScoreOps.lt a b = true → ScoreOps.lt (ScoreOps.add a c) (ScoreOps.add b c) = true

/-- Adding `0.0` on the right does not change comparisons. -/
def ZeroNeutral (F : Type) [ScoreOps F] (good : F → Prop) : Prop :=
  ∀ a b : F, good a → good b → ScoreOps.lt (ScoreOps.add a ScoreOps.zero) (ScoreOps.add b ScoreOps.zero) = ScoreOps.lt a b

/-- The ids are those `token_to_id` gives (the last index of their bytes), and no token is empty. -/
def Canonical (vocab : List (ScoredToken F)) (ids : List Nat) : Prop := ∀ i ∈ ids, ∃ v, v ≠ [] ∧ LastIndex vocab v i

/-- Number of bytes of a token. -/
def lenOf (vocab : List (ScoredToken F)) (i : Nat) : Nat :=
  match vocab[i]? with
  | some t => t.value.length
  | none => 0

/-- `ids` is a best segmentation of `bs` and, among the best ones, its last token is as long as possible: every
segmentation of `bs` that ends with a longer token has a strictly smaller score. -/
def BestLongestLast [ScoreOps F] (vocab : List (ScoredToken F)) (bs : List UInt8) (ids : List Nat) : Prop :=
  Spells vocab ids bs ∧ Canonical vocab ids ∧
  ∀ other, Spells vocab other bs → Canonical vocab other →
    ScoreOps.lt (totalScore vocab ids) (totalScore vocab other) = false ∧
    ∀ i j, ids.getLast? = some i → other.getLast? = some j → lenOf vocab i < lenOf vocab j →
      ScoreOps.lt (totalScore vocab other) (totalScore vocab ids) = true

end Tokengeex.Spec
