import Verif.Model.Basic
/-
What it means to cut a byte sequence into vocabulary tokens, independently of tries and dynamic programming.
-/
namespace Tokengeex.Spec
variable {F : Type}

/-- `ids` names existing vocabulary entries whose bytes, concatenated, are `bs`. -/
def Spells (vocab : List (ScoredToken F)) (ids : List Nat) (bs : List UInt8) : Prop :=
  ∃ toks : List (ScoredToken F),
    ids.map (fun i => vocab[i]?) = toks.map some ∧ (toks.map (·.value)).flatten = bs

/-- `bs` can be cut into non-empty byte strings that all occur in the vocabulary. -/
def Segmentable (vocab : List (ScoredToken F)) (bs : List UInt8) : Prop :=
  ∃ pieces : List (List UInt8),
    pieces.flatten = bs ∧ ∀ p ∈ pieces, p ≠ [] ∧ ∃ t ∈ vocab, t.value = p

/-- `i` is the last index at which the vocabulary holds the byte string `v`. -/
def LastIndex (vocab : List (ScoredToken F)) (v : List UInt8) (i : Nat) : Prop :=
  (∃ t, vocab[i]? = some t ∧ t.value = v) ∧
  ∀ j t, i < j → vocab[j]? = some t → t.value ≠ v

/-- No two vocabulary entries have the same bytes. -/
def NoDuplicates (vocab : List (ScoredToken F)) : Prop := (vocab.map (·.value)).Nodup

/-- Every byte of `bs` is in the vocabulary as a one-byte token. -/
def BytesCovered (vocab : List (ScoredToken F)) (bs : List UInt8) : Prop :=
  ∀ b ∈ bs, ∃ t ∈ vocab, t.value = [b]

/-- Score of the entry with index `i` (0.0 if there is none). -/
def scoreOf [ScoreOps F] (vocab : List (ScoredToken F)) (i : Nat) : F :=
  match vocab[i]? with
  | some t => t.score
  | none => ScoreOps.zero

/-- Total score of a sequence of ids: the left-to-right sum `((0.0 + s₁) + s₂) + …`. -/
def totalScore [ScoreOps F] (vocab : List (ScoredToken F)) (ids : List Nat) : F :=
  (ids.map (scoreOf vocab)).foldl ScoreOps.add ScoreOps.zero

/-- The laws about scores that optimality needs, on a set `good` of totals and a set `tok` of scores of tokens: adding a
score to a total gives a total, `<` is a strict weak order on totals, and addition of a score is weakly monotone.  IEEE binary64
addition satisfies them for finite scores, and also for non-NaN scores `≤ 0` (C57); exact arithmetic satisfies them
everywhere. -/
structure ScoreLaws (F : Type) [ScoreOps F] (good tok : F → Prop) : Prop where
  zero_good : good ScoreOps.zero
  zero_tok : tok ScoreOps.zero
  add_good : ∀ {a b : F}, good a → tok b → good (ScoreOps.add a b)
  irrefl : ∀ {a : F}, good a → ScoreOps.lt a a = false
  trans : ∀ {a b c : F}, good a → good b → good c →
    ScoreOps.lt a b = false → ScoreOps.lt b c = false → ScoreOps.lt a c = false
  asymm : ∀ {a b : F}, good a → good b → ScoreOps.lt a b = true → ScoreOps.lt b a = false
  add_mono : ∀ {a b c : F}, good a → good b → tok c →
    ScoreOps.lt a b = false → ScoreOps.lt (ScoreOps.add a c) (ScoreOps.add b c) = false

end Tokengeex.Spec
