/-
src/trie.rs
-/
namespace Tokengeex

/-- `Node<Data>`, src/trie.rs:75-78.  The `HashMap<u8, Node>` of children is a partial function: only `get` and
`entry(..).or_default()` are used on it. -/
inductive TNode (D : Type) where
  | mk (data : Option D) (children : UInt8 → Option (TNode D))

namespace TNode
variable {D : Type}

def data : TNode D → Option D
  | mk d _ => d

def children : TNode D → UInt8 → Option (TNode D)
  | mk _ c => c

/-- `Node::default`, src/trie.rs:80-87. -/
def empty : TNode D := mk none (fun _ => none)

/-- `Trie::push`, src/trie.rs:12-20: walk down creating missing children, overwrite the data at the end. -/
def push : TNode D → List UInt8 → D → TNode D
  | mk _ ch, [], d => mk (some d) ch
  | mk dt ch, b :: bs, d =>
    mk dt (fun c => if c = b then some (((ch b).getD empty).push bs d) else ch c)

end TNode

/-- `TrieIterator`, src/trie.rs:38-42: current node, the prefix buffer, the bytes not yet read. -/
structure TrieIter (D : Type) where
  node : TNode D
  pre : List UInt8
  rest : List UInt8

namespace TrieIter
variable {D : Type}

/-- The `loop` of `TrieIterator::next`, src/trie.rs:51-63. -/
def nextAux (node : TNode D) (pre : List UInt8) : List UInt8 → Option D × TrieIter D
  | [] => (none, ⟨node, pre, []⟩)
  | b :: bs =>
    match node.children b with
    | none => (none, ⟨node, pre ++ [b], bs⟩)
    | some child =>
      match child.data with
      | some d => (some d, ⟨child, pre ++ [b], bs⟩)
      | none => nextAux child (pre ++ [b]) bs

/-- `TrieIterator::next`, src/trie.rs:51-63. -/
def next (it : TrieIter D) : Option D × TrieIter D := nextAux it.node it.pre it.rest

/-- A `for` loop over the iterator: items up to the first `None`. A `Some` consumes at least one byte, so
`it.rest.length` items is the most there can be. -/
def drain : Nat → TrieIter D → List D
  | 0, _ => []
  | fuel + 1, it =>
    match it.next with
    | (some d, it') => d :: drain fuel it'
    | (none, _) => []

end TrieIter

/-- `Trie::common_prefix_search` followed by a `for` loop, src/trie.rs:22-35 (the buffer starts empty: callers
call `buff.clear()` first, or pass a fresh buffer). -/
def prefixSearch {D : Type} (t : TNode D) (s : List UInt8) : List D :=
  TrieIter.drain s.length ⟨t, [], s⟩

end Tokengeex
