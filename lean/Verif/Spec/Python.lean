import Verif.Model.Python
import Verif.Spec.Segmentation
/-
What a Python program can rely on.
-/
namespace Tokengeex.Spec
open Python
variable {F : Type}

/-- The call replaces the tokenizer of object `k`. -/
def Replaces (k : Nat) : Call F → Prop
  | .setState j _ => j = k
  | _ => False

/-- The special tokens the calls add to object `k`, in order. -/
def addedTo (k : Nat) (calls : List (Call F × Reply F)) : List Str :=
  calls.flatMap fun c => match c.1 with
    | .addSpecialTokens j l => if j = k then l else []
    | _ => []

/-- Answers that stay true while special tokens are added: what an id stands for, the id of a token, the text of decoded ids,
everything about the base vocabulary.  (Sizes of the whole and the special vocabulary, and answers saying that something
is not there, are not among them.) -/
inductive Settled : Query → Value F → Prop
  | decode {ids : List TokenID} {flag : Bool} {s : Str} : Settled (.decode ids flag) (.text s)
  | tokenToId {b : Token} {i : TokenID} : Settled (.tokenToId b) (.id? (some i))
  | baseTokenToId {b : Token} {i : Option TokenID} : Settled (.baseTokenToId b) (.id? i)
  | specialTokenToId {s : Str} {i : TokenID} : Settled (.specialTokenToId s) (.id? (some i))
  | idToToken {i : TokenID} {b : Token} : Settled (.idToToken i) (.bytes? (some b))
  | idToBaseToken {i : TokenID} {p : Option (Token × F)} : Settled (.idToBaseToken i) (.scored? p)
  | idToSpecialToken {i : TokenID} {s : Str} : Settled (.idToSpecialToken i) (.text? (some s))
  | isSpecial {i : TokenID} : Settled (.isSpecial i) (.bool true)
  | isBase {i : TokenID} {b : Bool} : Settled (.isBase i) (.bool b)
  | baseVocabSize {n : Nat} : Settled .baseVocabSize (.size n)
  | commonPrefixSearch {s : Str} {ids : List TokenID} : Settled (.commonPrefixSearch s) (.ids ids)

end Tokengeex.Spec

namespace Tokengeex.Spec
open Python
variable {F : Type}

/-- What a call can raise, and why: an id that decodes to nothing is among those given; a text may have no segmentation; a text,
a file or a state may not be a tokenizer.  Nothing else raises. -/
inductive MayRaise : Call F → Raised → Prop
  | decode {k : Nat} {ids : List TokenID} {flag : Bool} {i : TokenID} : i ∈ ids →
    MayRaise (.query k (.decode ids flag)) (.coding (.outOfBounds i))
  | decodeBatch {k : Nat} {l : List (List TokenID)} {ids : List TokenID} {flag : Bool} {i : TokenID} : ids ∈ l → i ∈ ids →
    MayRaise (.decodeBatch k l flag) (.coding (.outOfBounds i))
  | encode {k : Nat} {s : Str} {d : F} {n : Nat} : MayRaise (.encode k s d) (.coding (.noPath n n))
  | encodeOrdinary {k : Nat} {s : Str} {d : F} {n : Nat} : MayRaise (.encodeOrdinary k s d) (.coding (.noPath n n))
  | encodeBatch {k : Nat} {l : List Str} {d : F} {n : Nat} : l ≠ [] → MayRaise (.encodeBatch k l d) (.coding (.noPath n n))
  | encodeOrdinaryBatch {k : Nat} {l : List Str} {d : F} {n : Nat} : l ≠ [] →
    MayRaise (.encodeOrdinaryBatch k l d) (.coding (.noPath n n))
  | setState {k : Nat} {b : List UInt8} : MayRaise (.setState k b) .unpickling
  | fromStr {text : Str} : MayRaise (.fromStr text) .loading
  | fromFile {path : Str} : MayRaise (.fromFile path) .loading

end Tokengeex.Spec

namespace Tokengeex.Spec
open Python
variable {F : Type}

/-- The answers about a tokenizer with the base tokens `vocab` and the special tokens `specials`: ids `0, 1, …` are the base
tokens, the special tokens follow; of equal base tokens the last one counts. -/
inductive Tells (vocab : List (ScoredToken F)) (specials : List Str) : Query → Value F → Prop
  | vocabSize : Tells vocab specials .vocabSize (.size (vocab.length + specials.length))
  | baseVocabSize : Tells vocab specials .baseVocabSize (.size vocab.length)
  | specialVocabSize : Tells vocab specials .specialVocabSize (.size specials.length)
  | specialTokens : Tells vocab specials .specialTokens (.texts specials)
  | isBase {i : TokenID} {b : Bool} : (b = true ↔ i < vocab.length) → Tells vocab specials (.isBase i) (.bool b)
  | isSpecial {i : TokenID} {b : Bool} : (b = true ↔ vocab.length ≤ i ∧ i < vocab.length + specials.length) →
    Tells vocab specials (.isSpecial i) (.bool b)
  | baseToken {i : TokenID} : Tells vocab specials (.idToBaseToken i) (.scored? (vocab[i]?.map fun t => (t.value, t.score)))
  | specialToken {j : Nat} : Tells vocab specials (.idToSpecialToken (vocab.length + j)) (.text? specials[j]?)
  | noSpecialToken {i : TokenID} : i < vocab.length → Tells vocab specials (.idToSpecialToken i) (.text? none)
  | tokenBase {i : TokenID} {t : ScoredToken F} : vocab[i]? = some t → Tells vocab specials (.idToToken i) (.bytes? (some t.value))
  | tokenSpecial {j : Nat} : Tells vocab specials (.idToToken (vocab.length + j)) (.bytes? (specials[j]?.map enc))
  | baseId {b : Token} {i : TokenID} : LastIndex vocab b i → Tells vocab specials (.baseTokenToId b) (.id? (some i))
  | noBaseId {b : Token} : (∀ t ∈ vocab, t.value ≠ b) → Tells vocab specials (.baseTokenToId b) (.id? none)
  | specialId {s : Str} {j : Nat} : specials[j]? = some s →
    Tells vocab specials (.specialTokenToId s) (.id? (some (vocab.length + j)))
  | noSpecialId {s : Str} : s ∉ specials → Tells vocab specials (.specialTokenToId s) (.id? none)
  | idBase {b : Token} {i : TokenID} : LastIndex vocab b i → Tells vocab specials (.tokenToId b) (.id? (some i))
  | idSpecial {s : Str} {j : Nat} : (∀ t ∈ vocab, t.value ≠ enc s) → specials[j]? = some s →
    Tells vocab specials (.tokenToId (enc s)) (.id? (some (vocab.length + j)))
  | noId {b : Token} : (∀ t ∈ vocab, t.value ≠ b) → (∀ s ∈ specials, enc s ≠ b) → Tells vocab specials (.tokenToId b) (.id? none)
  | prefixes {s : Str} {found : List (TokenID × Nat)} :
    (∀ i n, (i, n) ∈ found ↔ 0 < n ∧ n ≤ (enc s).length ∧ LastIndex vocab ((enc s).take n) i) →
    found.Pairwise (fun a b => a.2 < b.2) → Tells vocab specials (.commonPrefixSearch s) (.ids (found.map (·.1)))

/-- The questions that `Tells` is about; the others are treated by C19, C20 (decode), C28 and C75 (text). -/
def AboutTokens : Query → Prop
  | .decode _ _ | .toString | .getState => False
  | _ => True

end Tokengeex.Spec
