import Verif.Model.Tokenizer
/-
The loops of src/trie.rs, src/model.rs and src/tokenizer.rs once more, with a counter of elementary steps: bytes read from
an iterator, candidates looked at, entries of tables written, positions visited, bytes copied or compared.  `Props/Cost.lean`
proves that the results are those of the functions without the counter, and bounds the counter.
-/
namespace Tokengeex
namespace Cost

section
variable {D : Type}

/-- Bytes that `TrieIterator::next` asks for, src/trie.rs:51-63, including the question that finds no more bytes. -/
def nextTicks (node : TNode D) : List UInt8 → Nat
  | [] => 1
  | b :: bs =>
    match node.children b with
    | none => 1
    | some child =>
      match child.data with
      | some _ => 1
      | none => 1 + nextTicks child bs

/-- The same for a `for` loop over the iterator. -/
def drainTicks : Nat → TrieIter D → Nat
  | 0, _ => 0
  | fuel + 1, it =>
    nextTicks it.node it.rest +
      match it.next with
      | (some _, it') => drainTicks fuel it'
      | (none, _) => 0

end

section
variable {F : Type} [ScoreOps F]

/-- The inner `for (id, len)` loop of `encode`, src/model.rs:91-109, on the candidates found: one step for each. -/
def relaxAll (m : Model F) (dropout : F) (rnd : Nat → F) (pos : Nat) :
    List (TokenID × Nat) → List (Model.DpNode F) × Nat → Res (List (Model.DpNode F) × Nat) × Nat
  | [], st => (.ok st, 0)
  | c :: cs, st =>
    match m.relax dropout rnd pos st c with
    | .error e => (.error e, 1)
    | .ok st' =>
      let r := relaxAll m dropout rnd pos cs st'
      (r.1, 1 + r.2)

/-- The body of the outer `for pos` loop of `encode`, src/model.rs:83-110: one step for the visit, one for each byte read by
the search, one for each candidate. -/
def encodePos (m : Model F) (dropout : F) (rnd : Nat → F) (input : List UInt8) (st : List (Model.DpNode F) × Nat) (pos : Nat) :
    Res (List (Model.DpNode F) × Nat) × Nat :=
  match idx st.1 pos with
  | .error e => (.error e, 1)
  | .ok cur =>
    if cur.start.isNone then (.ok st, 1)
    else
      let suffix := input.drop pos
      let r := relaxAll m dropout rnd pos (m.commonPrefixSearch suffix) st
      (r.1, 1 + drainTicks (suffix.length + 1) ⟨m.trie, [], suffix⟩ + r.2)

/-- The outer `for pos` loop of `encode`, src/model.rs:83-110. -/
def encodeAll (m : Model F) (dropout : F) (rnd : Nat → F) (input : List UInt8) :
    List Nat → List (Model.DpNode F) × Nat → Res (List (Model.DpNode F) × Nat) × Nat
  | [], st => (.ok st, 0)
  | pos :: more, st =>
    match encodePos m dropout rnd input st pos with
    | (.error e, k) => (.error e, k)
    | (.ok st', k) =>
      let r := encodeAll m dropout rnd input more st'
      (r.1, k + r.2)

omit [ScoreOps F] in
/-- The backtracking loop of `encode`, src/model.rs:113-126: two steps for each token, one of them for the reversal at the
end. -/
def backtrack (dp : List (Model.DpNode F)) (n : Nat) : Nat → Nat → List TokenID → Res (List TokenID) × Nat
  | 0, _, _ => (.error .diverge, 0)
  | fuel + 1, pos, ids =>
    if pos > 0 then
      match idx dp pos with
      | .error e => (.error e, 2)
      | .ok node =>
        match node.start with
        | none => (.error (.noPath pos n), 2)
        | some start =>
          let r := backtrack dp n fuel start (node.id :: ids)
          (r.1, 2 + r.2)
    else (.ok ids, 0)

/-- `Model::encode`, src/model.rs:59-129, on the bytes of the input; the table costs one step for each entry. -/
def encodeBytes (m : Model F) (input : List UInt8) (dropout : F) (rnd : Nat → F) : Res (List TokenID × Nat) × Nat :=
  let n := input.length
  match encodeAll m dropout rnd input (List.range n) (Model.initDp n, 0) with
  | (.error e, k) => (.error e, n + 1 + k)
  | (.ok st, k) =>
    let b := backtrack st.1 n (n + 1) n []
    (b.1.map fun ids => (ids, st.2), n + 1 + k + b.2)

/-- `Model::encode`, src/model.rs:59-129. -/
def encode (m : Model F) (input : Str) (dropout : F) (rnd : Nat → F) : Res (List TokenID) × Nat :=
  let r := encodeBytes m (enc input) dropout rnd
  (r.1.map Prod.fst, r.2)

omit [ScoreOps F] in
/-- The loop of `Model::decode`, src/model.rs:149-157: one step for each id and one for each byte copied. -/
def decodeLoop (m : Model F) : List TokenID → List UInt8 → Res (List UInt8) × Nat
  | [], res => (.ok res, 0)
  | id :: ids, res =>
    if id ≥ m.vocabSize then (.error (.outOfBounds id), 1)
    else
      match idx m.vocab id with
      | .error e => (.error e, 1)
      | .ok token =>
        let r := decodeLoop m ids (res ++ token.value)
        (r.1, 1 + token.value.length + r.2)

end

/-- The decoding loop of `from_utf8_lossy`: one step for each character made. -/
def lossySteps : Nat → List UInt8 → Nat
  | _, [] => 0
  | 0, _ :: _ => 0
  | fuel + 1, b :: rest => 1 + lossySteps fuel (utf8Step b rest).2

/-- `Model::decode`, src/model.rs:146-160. -/
def decode {F : Type} (m : Model F) (ids : List TokenID) : Res Str × Nat :=
  match decodeLoop m ids [] with
  | (.error e, k) => (.error e, k)
  | (.ok bs, k) => (.ok (lossy bs), k + lossySteps bs.length bs)

/-- The inner loop of `SpecialTokenSplitter::next`, src/tokenizer.rs:328-338: one step for each special token tried, and one
for each of its bytes. -/
def matchTicks : List Str → Str → Nat
  | [], _ => 0
  | t :: ts, suffix => 1 + (enc t).length + if t.isPrefixOf suffix then 0 else matchTicks ts suffix

/-- The outer loop, src/tokenizer.rs:325-345: one step for each position. -/
def splitScan (specials : List Str) : Str → Nat
  | [] => 1
  | c :: cs =>
    1 + matchTicks specials (c :: cs) +
      match matchAt specials (c :: cs) with
      | some _ => 0
      | none => splitScan specials cs

/-- The loop of `Tokenizer::encode`, src/tokenizer.rs:65-89: the steps of the splitter, one for a special token, those of
`Model::encode` for anything else.  What the processors cost is not counted: they are calls into the standard library and
the Unicode crate. -/
def encodeLoop {F : Type} [ScoreOps F] (norm : UnicodeForm → Str → Str) (t : Tokenizer F) (dropout : F) (rnd : Nat → F) :
    Nat → Str → Nat → List TokenID → Res (List TokenID) × Nat
  | 0, _, _, _ => (.error .diverge, 0)
  | fuel + 1, input, k, ids =>
    match splitNext t.specialTokens input with
    | none => (.ok ids, 1)
    | some (item, rest) =>
      let scan := splitScan t.specialTokens input
      let piece : Res (List TokenID × Nat) × Nat :=
        if item.2 then
          match t.specialMap item.1 with
          | some id => (.ok ([t.model.vocabSize + id], 0), 1)
          | none => (.error .panic, 1)
        else encodeBytes t.model (enc (t.preprocess norm item.1)) dropout (fun j => rnd (k + j))
      match piece with
      | (.error e, c) => (.error e, scan + c)
      | (.ok r, c) =>
        let more := encodeLoop norm t dropout rnd fuel rest (k + r.2) (ids ++ r.1)
        (more.1, scan + c + more.2)

/-- `Tokenizer::encode`, src/tokenizer.rs:65-89. -/
def tokenizerEncode {F : Type} [ScoreOps F] (norm : UnicodeForm → Str → Str) (t : Tokenizer F) (input : Str) (dropout : F)
    (rnd : Nat → F) : Res (List TokenID) × Nat := encodeLoop norm t dropout rnd (input.length + 1) input 0 []

end Cost
end Tokengeex
