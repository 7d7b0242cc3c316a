import Verif.Model.Flags
import Mathlib.Data.Nat.Digits.Defs
/-
What a command line asks for, from the usage text of the program (README.md, src/cli.rs:21-178) and the default values.
-/
namespace Tokengeex.Spec
open Cli

/-- Flags, each with the value that follows it. -/
abbrev Items := List (Str × Str)

/-- The items as arguments. -/
def written (items : Items) : List Str := items.flatMap fun p => [p.1, p.2]

/-- The values given to a flag, in order. -/
def given (items : Items) (names : List String) : List Str :=
  items.filterMap fun p => if p.1 ∈ names.map String.toList then some p.2 else none

/-- Only these flags occur. -/
def Only (items : Items) (names : List String) : Prop := ∀ p ∈ items, p.1 ∈ names.map String.toList

/-- The text is a natural number below `2^64` in decimal, perhaps with a plus sign. -/
def Number (s : Str) (n : Nat) : Prop :=
  ∃ d : Str, (s = d ∨ s = '+' :: d) ∧ d ≠ [] ∧ (∀ c ∈ d, '0' ≤ c ∧ c ≤ '9') ∧
    n = Nat.ofDigits 10 (d.reverse.map fun c => c.toNat - 48) ∧ n < 2 ^ 64

/-- The text is a truth value. -/
def Truth (s : Str) (b : Bool) : Prop := (s = "true".toList ∧ b = true) ∨ (s = "false".toList ∧ b = false)

/-- The flag is given once, and its value reads as `x`. -/
def Once {α : Type} (reads : Str → α → Prop) (items : Items) (names : List String) (x : α) : Prop :=
  ∃ s, given items names = [s] ∧ reads s x

/-- The flag is given at most once, and `x` is its value or the default. -/
def OnceOr {α : Type} (reads : Str → α → Prop) (items : Items) (names : List String) (default x : α) : Prop :=
  (given items names = [] ∧ x = default) ∨ Once reads items names x

/-- The value of an optional flag without default. -/
def Maybe {α : Type} (reads : Str → α → Prop) (items : Items) (names : List String) (x : Option α) : Prop :=
  (given items names = [] ∧ x = none) ∨ ∃ y, x = some y ∧ Once reads items names y

variable {F : Type} [TrainOps F]

/-- The subcommand with the items asks for this.  `float` reads decimal fractions, and `fraction p q` is the number `p / q`. -/
inductive Asks (float : Str → Option F) (fraction : Nat → Nat → F) : String → Items → Line F → Prop
  | generate (items : Items) (a : GenerateArgs F) :
    Only items ["-v", "--vocab-size", "-o", "--output", "--processor", "--train", "--special", "--suggested", "--added",
      "--allow", "--split", "--insert-probability", "--max-token-length"] →
    Once Number items ["-v", "--vocab-size"] a.vocabSize →
    Once Eq items ["-o", "--output"] a.output →
    a.processors = given items ["--processor"] → a.train = given items ["--train"] → a.special = given items ["--special"] →
    a.suggested = given items ["--suggested"] → a.added = given items ["--added"] →
    Maybe Eq items ["--allow"] a.allow → Maybe Eq items ["--split"] a.split →
    OnceOr (fun s x => float s = some x) items ["--insert-probability"] (fraction 1 10) a.insertProbability →
    OnceOr Number items ["--max-token-length"] 24 a.maxTokenLength →
    Asks float fraction "generate" items (.run (.generate a))
  | prune (items : Items) (a : PruneArgs F) :
    Only items ["-i", "--input", "-o", "--output", "-v", "--vocab-size", "--train", "--dropout", "--shrink-factor",
      "--em-subiters"] →
    Once Eq items ["-i", "--input"] a.input → Once Eq items ["-o", "--output"] a.output →
    Once Number items ["-v", "--vocab-size"] a.vocabSize →
    a.train = given items ["--train"] →
    OnceOr (fun s x => float s = some x) items ["--dropout"] (fraction 1 100) a.dropout →
    OnceOr (fun s x => float s = some x) items ["--shrink-factor"] (fraction 8 10) a.shrinkFactor →
    OnceOr Number items ["--em-subiters"] 1 a.emSubiters →
    Asks float fraction "prune" items (.run (.prune a))
  | filter (items : Items) (a : FilterArgs F) :
    Only items ["-i", "--input", "-o", "--output", "-v", "--vocab-size", "--min-score", "--force"] →
    Once Eq items ["-i", "--input"] a.input → Once Eq items ["-o", "--output"] a.output →
    OnceOr Number items ["-v", "--vocab-size"] 0 a.vocabSize →
    Maybe (fun s x => float s = some x) items ["--min-score"] a.minScore →
    OnceOr Truth items ["--force"] false a.force →
    Asks float fraction "filter" items (.run (.filter a))
  | merge (items : Items) (a : MergeArgs F) :
    Only items ["-i", "--input", "-o", "--output", "--train", "--allow", "--num-merges", "--step", "--scale-factor",
      "--max-token-length"] →
    Once Eq items ["-i", "--input"] a.input → Once Eq items ["-o", "--output"] a.output →
    a.train = given items ["--train"] → Once Eq items ["--allow"] a.allow →
    OnceOr Number items ["--num-merges"] 1000 a.numMerges → OnceOr Number items ["--step"] 50 a.step →
    OnceOr (fun s x => float s = some x) items ["--scale-factor"] (fraction 9 10) a.scaleFactor →
    OnceOr Number items ["--max-token-length"] 24 a.maxTokenLength →
    Asks float fraction "merge" items (.run (.merge a))
  | regex (items : Items) (a : RegexArgs) :
    Only items ["-o", "--output", "-p", "--pattern"] →
    Once Eq items ["-o", "--output"] a.output → a.patterns = given items ["-p", "--pattern"] →
    Asks float fraction "regex" items (.run (.regex a))
  | patterns (items : Items) :
    Only items ["-p", "--pattern"] → Asks float fraction "regex" items .printPatterns
  | mine (items : Items) (a : MineArgs) :
    Only items ["-n", "--num-idioms", "-o", "--output", "--train", "-p", "--pattern"] →
    Once Number items ["-n", "--num-idioms"] a.numIdioms → Once Eq items ["-o", "--output"] a.output →
    a.train = given items ["--train"] → a.patterns = given items ["-p", "--pattern"] →
    Asks float fraction "mine" items (.run (.mine a))
  | todo (name : String) (items : Items) (vocab : Str) (input : Option Str) :
    name = "encode" ∨ name = "decode" →
    Only items ["-v", "--vocab", "-i", "--input"] →
    Once Eq items ["-v", "--vocab"] vocab → Maybe Eq items ["-i", "--input"] input →
    Asks float fraction name items .todo

/-- The arguments are a subcommand with items: the subcommand comes first; a `--` does nothing if nothing is to follow. -/
def Reads (args : List Str) (sub : String) (items : Items) : Prop :=
  args = sub.toList :: written items ∨ args = sub.toList :: written items ++ ["--".toList] ∨
    (items = [] ∧ args = ["--".toList, sub.toList])

end Tokengeex.Spec
