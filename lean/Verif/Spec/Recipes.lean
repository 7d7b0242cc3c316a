import Verif.Spec.Cli
import Verif.Spec.ExactRegex
/-
What the recipes of docs/RECIPES.md are meant to deliver.
-/
namespace Tokengeex.Spec

/-- The special tokens of docs/RECIPES.md:16-22. -/
def recipeSpecial : List Str :=
  ["<|eos|>", "<|pad|>", "<|lang|>", "<|filename|>", "<|suffix|>", "<|prefix|>", "<|middle|>"].map String.toList

/-- A tokenizer as the recipes for a vocabulary of `size` tokens promise it, where `texts` are the training texts (as the
processors change them), and `added` and `suggested` the strings of the files given with `--added` and `--suggested`. -/
structure Delivered (texts added suggested : List Str) (size : Nat) (t : Tokenizer F64) : Prop where
  /-- Line ends are normalised, then Unicode. -/
  processors : t.processors = [.crlf, .unicode .nfc]
  special : t.specialTokens = recipeSpecial
  atMost : t.model.vocab.length ≤ size
  distinct : NoDuplicates t.model.vocab
  /-- Every byte of a text is a protected token. -/
  complete : Complete t.model.vocab
  scores : ∀ token ∈ t.model.vocab, Finite token.score
  /-- The protected tokens are the bytes and the added strings. -/
  kept : ∀ token ∈ t.model.vocab, token.keep = true ↔ token.value.length = 1 ∨ ∃ s ∈ added, enc s = token.value
  /-- No added string is missing (unless there are too many of them). -/
  noneMissing : 255 + added.length ≤ 500000 → ∀ s ∈ added, 1 < (enc s).length → ∃ token ∈ t.model.vocab, token.value = enc s
  /-- Where the tokens come from. -/
  origin : ∀ token ∈ t.model.vocab, token.value.length = 1 ∨
    ∃ s, enc s = token.value ∧ (s ∈ added ∨ s ∈ suggested ∨ (token.value.length ≤ 16 ∧ ExactString s ∧ ∃ x ∈ texts, s <:+: x))

end Tokengeex.Spec
