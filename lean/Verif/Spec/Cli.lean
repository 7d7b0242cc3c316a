import Verif.Model.Cli
import Verif.Spec.Serde
import Verif.Spec.History
import Verif.Spec.Regex
import Verif.Spec.Sources
import Verif.Spec.Float64
/-
What the commands promise about the files they leave.
-/
namespace Tokengeex.Spec
open Cli
variable {F : Type} [TrainOps F]

/-- What the commands rely on: numbers are written as JSON allows, and the sorting functions and the heap of the standard
library do what their documentation says. -/
structure EnvLaws (env : Env F) : Prop where
  numbers : PrintsNumbers env.numbers
  byFreq : SortLaws env.byFreq
  byScore : SortLaws env.byScore
  byPairs : SortLaws env.byPairs
  std : StdLaws env.std

/-- The processor that a value of `--processor` stands for (README.md). -/
inductive NamedProcessor : Str → Processor → Prop
  | crlf : NamedProcessor "crlf".toList .crlf
  | nfc : NamedProcessor "nfc".toList (.unicode .nfc)
  | nfd : NamedProcessor "nfd".toList (.unicode .nfd)
  | nfkc : NamedProcessor "nfkc".toList (.unicode .nfkc)
  | nfkd : NamedProcessor "nfkd".toList (.unicode .nfkd)

omit [TrainOps F] in
/-- The file holds a JSON array of these strings. -/
def StringsFile (N : NumText F) (fs : Files) (path : Str) (strings : List Str) : Prop :=
  ∃ text items, fs path = some (enc text) ∧ Json.read N text = some (.arr items) ∧
    List.Forall₂ (fun item s => ∃ raw : RawStr, item = .str raw ∧ raw.text = s) items strings

omit [TrainOps F] in
/-- The files hold JSON arrays of strings, and these are all of the strings in order. -/
def StringsFiles (N : NumText F) (fs : Files) (paths : List Str) (strings : List Str) : Prop :=
  ∃ lists, List.Forall₂ (StringsFile N fs) paths lists ∧ strings = lists.flatten

/-- The text that the tokens of a text are chosen from: the text as the processors change it, one after the other. -/
def processed (norm : UnicodeForm → Str → Str) (processors : List Processor) (text : Str) : Str :=
  processors.foldl (fun text processor => processor.preprocess norm text) text

/-- The texts that a value `name:path` or `name:path:proportion` of `--train` stands for: the non-empty parts of the file
between NUL characters, only the first ones if a proportion is given, as the processors change them, without those that
become empty.  (The number for a proportion is pinned down by C55_proportion.) -/
def SourceTexts (norm : UnicodeForm → Str → Str) (parse : Str → Option F64) (fs : Files) (processors : List Processor)
    (source : Str) (texts : List Str) : Prop :=
  ∃ name path rest proportion text parts, Parts ':' source (name :: path :: rest) ∧
    (rest = [] ∧ proportion = F64.ofNat 1 ∨ ∃ p, rest = [p] ∧ parse p = some proportion) ∧
    fs path = some (enc text) ∧ Parts '\x00' text parts ∧
    texts = nonEmpty (((nonEmpty parts).take (Source.quota (nonEmpty parts).length proportion)).map (processed norm processors))

/-- The texts of several values of `--train`. -/
def TrainingTexts (norm : UnicodeForm → Str → Str) (parse : Str → Option F64) (fs : Files) (processors : List Processor)
    (sources : List Str) (texts : List (List Str)) : Prop :=
  List.Forall₂ (SourceTexts norm parse fs processors) sources texts

omit [TrainOps F] in
/-- A file with these contents loads if and only if every score of `vocab` has a text that is read as a number, and then as
a tokenizer with the special tokens and the processors of `t` and the tokens of `vocab` in order, with the scores their
texts stand for. -/
def HoldsRevised (N : NumText F) (contents : List UInt8) (t : Tokenizer F) (vocab : List (ScoredToken F)) : Prop :=
  ∀ (fs : Files) (path : Str), fs path = some contents →
    ((∃ u, fromFile N fs path = .ok u) ↔ ∀ token ∈ vocab, ∃ y, reread N token.score = some y) ∧
    ∀ u, fromFile N fs path = .ok u → u.specialTokens = t.specialTokens ∧ u.processors = t.processors ∧
      List.Forall₂ (Reloaded N) vocab u.model.vocab

/-- A finite double that is at most `B` times the smallest positive one, `2^-1074`, or the negative of such a one. -/
def Within (B : Nat) (x : F64) : Prop := ∃ s n, x = .num s n ∧ IsDouble n ∧ n ≤ B

omit [TrainOps F] in
/-- A file with these contents loads as a tokenizer. -/
def Loads (N : NumText F) (contents : List UInt8) : Prop :=
  ∀ (fs : Files) (path : Str), fs path = some contents → ∃ t, fromFile N fs path = .ok t

omit [TrainOps F] in
/-- Every byte that can occur in a text is a protected one-byte token. -/
def Complete (vocab : List (ScoredToken F)) : Prop := ∀ b : UInt8, b ≠ 255 → ∃ t ∈ vocab, t.value = [b] ∧ t.keep = true

omit [TrainOps F] in
/-- Commands that must not throw away protected tokens: filters without `--force`, and prunings of at most 2³² - 2 tokens.
Everything else is unrestricted. -/
def Safe (env : Env F) (fs : Files) (cmd : Command F) : Prop :=
  match cmd with
  | .filter a => a.force = false
  | .prune a => ∀ t, fromFile env.numbers fs a.input = .ok t → t.model.vocabSize ≤ 4294967294
  | _ => True

/-- What may happen to the files: a command succeeds, or stops at any point; a file is copied or removed; a file appears or
is overwritten from elsewhere with anything that does not load as a tokenizer lacking protected bytes. -/
inductive Event [Mul F] (env : Env F) : Files → Files → Prop
  | runs {fs fs' : Files} (cmd : Command F) : Safe env fs cmd → Runs env cmd fs fs' → Event env fs fs'
  | stops {fs fs' : Files} (cmd : Command F) : Safe env fs cmd → Stops env cmd fs fs' → Event env fs fs'
  | copy {fs : Files} (src dst : Str) : Event env fs fun p => if p = dst then fs src else fs p
  | remove {fs : Files} (path : Str) : Event env fs fun p => if p = path then none else fs p
  | put {fs : Files} (path : Str) (contents : List UInt8) :
    (∀ t, fromFile env.numbers (fs.write path contents) path = .ok t → Complete t.model.vocab) →
    Event env fs (fs.write path contents)

/-- The value of the flag `--output` of a command (src/cli.rs:30, 69, 94, 110, 136 and 148). -/
inductive OutputFlag : Command F → Str → Prop
  | generate (a : GenerateArgs F) : OutputFlag (.generate a) a.output
  | prune (a : PruneArgs F) : OutputFlag (.prune a) a.output
  | filter (a : FilterArgs F) : OutputFlag (.filter a) a.output
  | merge (a : MergeArgs F) : OutputFlag (.merge a) a.output
  | regex (a : RegexArgs) : OutputFlag (.regex a) a.output
  | mine (a : MineArgs) : OutputFlag (.mine a) a.output

/-- What `mine` relies on: `find_iter` (crate regex) yields pieces of the text that the pattern matches where they are, and
yields at least one if there is any match. -/
structure FindLaws (findIter : Regex → Str → List Str) : Prop where
  sound : ∀ r s w, w ∈ findIter r s → ∃ before after, s = before ++ w ++ after ∧ Matches r.re before w after
  found : ∀ r s, MatchesIn r.re s → findIter r s ≠ []

end Tokengeex.Spec
