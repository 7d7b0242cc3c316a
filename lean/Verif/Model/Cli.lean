import Verif.Model.Serde
import Verif.Model.Patterns
import Verif.Model.Generate
import Verif.Model.Filter
import Verif.Model.Merge
import Verif.Model.Mine
/-
The commands of src/cli.rs, as far as they touch files.  Logging is left out; flag parsing and the default values of
optional flags are in Model/Flags.lean; `encode` and `decode` are `todo!()` (src/cli.rs:737-742).

A command reads files, computes, and ends with a single `std::fs::write`.  The computation is not deterministic (random
numbers, threads, hash tables), so a command is a relation.
-/
namespace Tokengeex.Cli

/-- A file system: the contents of the files that can be read. -/
abbrev Files := Str → Option (List UInt8)

/-- `std::fs::write` that succeeds. -/
def Files.write (fs : Files) (path : Str) (contents : List UInt8) : Files := fun p => if p = path then some contents else fs p

/-- `std::fs::read_to_string(path).unwrap()`. -/
def readToString (fs : Files) (path : Str) : Res Str := do
  let bytes ← unwrap (fs path)
  unwrap (fromUtf8 bytes)

variable {F : Type}

/-- `Tokenizer::from_file(path).unwrap()`, src/tokenizer.rs:279-282. -/
def fromFile (N : NumText F) (fs : Files) (path : Str) : Res (Tokenizer F) := do
  let text ← readToString fs path
  unwrap (Tokenizer.fromStr N text)

/-- The bytes that `Tokenizer::save` writes, src/tokenizer.rs:261-265. -/
def saved (N : NumText F) (t : Tokenizer F) : List UInt8 := enc (t.fileContents N)

/-- `load_regex`, src/cli.rs:316-324. -/
def regexFile (fs : Files) (path : Str) : Res Regex := do
  let bytes ← unwrap (fs path)
  loadRegex bytes

/-- `serde_json::from_str::<Vec<String>>` (serde_json). -/
def stringsOf (N : NumText F) (text : Str) : Option (List Str) := (Json.read N text).bind (asVec asString)

/-- The serialised form of a `Vec<String>`. -/
def stringsJson (l : List Str) : Json Str F := .arr (l.map .str)

/-- `load_tokens`, src/cli.rs:353-368. -/
def loadTokens (N : NumText F) (fs : Files) (paths : List Str) : Res (List Str) := do
  let lists ← paths.mapM fun path => do
    let text ← readToString fs path
    unwrap (stringsOf N text)
  pure lists.flatten

/-- What the commands use besides the crate: Unicode normalisation, parsing of doubles and their texts, the `fancy-regex` and
`regex` crates' searches, hash functions, sorting functions and the heap of the standard library, the constant
`f64::NEG_INFINITY`, and the size after shrinking (src/prune.rs:174) for a shrink factor. -/
structure Env (F : Type) where
  norm : UnicodeForm → Str → Str
  parse : Str → Option F64
  numbers : NumText F
  fancy : Str → Option (Str → List Str)
  findIter : Regex → Str → List Str
  shard : Str → Nat
  ninf : F
  shrink : F → Nat → Nat
  byFreq : Sorter (Str × Nat)
  byScore : Sorter (ScoredToken F)
  byPairs : Sorter ((TokenID × TokenID) × Nat)
  std : Pruner.Std F

/-- `load_fancy_regex`, src/cli.rs:326-334; the pattern is its `find_iter`. -/
def fancyFile (env : Env F) (fs : Files) (path : Str) : Res (Str → List Str) := do
  let text ← readToString fs path
  unwrap (env.fancy (trim (text.filter fun c => !(c == '\n' || c == '\r'))))

/-- `Option::map` of a loader that may panic. -/
def optional {α : Type} (load : Str → Res α) : Option Str → Res (Option α)
  | none => .ok none
  | some path => (load path).map some

/-- Flags of `generate`, src/cli.rs:26-61. -/
structure GenerateArgs (F : Type) where
  output : Str
  vocabSize : Nat
  train : List Str
  processors : List Str
  special : List Str
  suggested : List Str
  added : List Str
  split : Option Str
  allow : Option Str
  insertProbability : F
  maxTokenLength : Nat

/-- Flags of `prune`, src/cli.rs:65-86. -/
structure PruneArgs (F : Type) where
  input : Str
  output : Str
  vocabSize : Nat
  train : List Str
  dropout : F
  shrinkFactor : F
  emSubiters : Nat

/-- Flags of `filter`, src/cli.rs:90-103. -/
structure FilterArgs (F : Type) where
  input : Str
  output : Str
  vocabSize : Nat
  minScore : Option F
  force : Bool

/-- Flags of `merge`, src/cli.rs:106-131. -/
structure MergeArgs (F : Type) where
  input : Str
  output : Str
  train : List Str
  allow : Str
  numMerges : Nat
  step : Nat
  scaleFactor : F
  maxTokenLength : Nat

/-- Flags of `regex`, src/cli.rs:134-140, with an output file. -/
structure RegexArgs where
  output : Str
  patterns : List Str

/-- Flags of `mine`, src/cli.rs:143-159. -/
structure MineArgs where
  numIdioms : Nat
  output : Str
  train : List Str
  patterns : List Str

section
variable [TrainOps F]

/-- The loop that feeds the sources, src/cli.rs:428-437. -/
inductive FeedAll (shard : Str → Nat) : List Source → Generator F → Generator F → Prop
  | nil (g : Generator F) : FeedAll shard [] g g
  | cons {source : Source} {rest : List Source} {g g₁ g₂ : Generator F} :
    Generator.Feed g shard source.processedSamples g₁ → FeedAll shard rest g₁ g₂ → FeedAll shard (source :: rest) g g₂

/-- `generate_cmd` gets as far as writing `contents`, src/cli.rs:386-452. -/
def Generates (env : Env F) (a : GenerateArgs F) (fs : Files) (contents : List UInt8) : Prop :=
  ∃ processors train allow split added suggested g vocab,
    loadProcessors a.processors = .ok processors ∧
    Source.loadAll env.norm fs env.parse processors a.train = .ok train ∧
    optional (regexFile fs) a.allow = .ok allow ∧
    optional (fancyFile env fs) a.split = .ok split ∧
    loadTokens env.numbers fs a.added = .ok added ∧
    loadTokens env.numbers fs a.suggested = .ok suggested ∧
    FeedAll env.shard train (Generator.new a.maxTokenLength a.insertProbability split (allow.map Regex.isMatch) added suggested) g ∧
    Generator.Generate g env.byFreq env.byScore a.vocabSize vocab ∧
    contents = saved env.numbers (Tokenizer.new (Model.from_ vocab) processors a.special)

/-- `prune_cmd` gets as far as writing `contents`, src/cli.rs:455-494. -/
def Prunes (env : Env F) (a : PruneArgs F) (fs : Files) (contents : List UInt8) : Prop :=
  ∃ t train samples m,
    fromFile env.numbers fs a.input = .ok t ∧
    Source.loadAll env.norm fs env.parse t.processors a.train = .ok train ∧
    Source.Shuffled train samples ∧
    Pruner.Returns ⟨a.vocabSize, env.shrink a.shrinkFactor, a.emSubiters, a.dropout⟩ env.std samples t.model m ∧
    contents = saved env.numbers (Tokenizer.new m t.processors t.specialTokens)

/-- `filter_cmd` gets as far as writing `contents`, src/cli.rs:497-524. -/
def Filters (env : Env F) (a : FilterArgs F) (fs : Files) (contents : List UInt8) : Prop :=
  ∃ t m,
    fromFile env.numbers fs a.input = .ok t ∧
    VocabularyFilter.filter ⟨a.vocabSize, a.minScore, a.force⟩ env.ninf env.byScore t.model = .ok m ∧
    contents = saved env.numbers (Tokenizer.new m t.processors t.specialTokens)

/-- `merge_cmd` gets as far as writing `contents`, src/cli.rs:554-606.  `listing` is what the rounds of merging see of the
pairs (Model/Merge.lean). -/
def Merges [Mul F] (env : Env F) (a : MergeArgs F) (fs : Files) (contents : List UInt8) : Prop :=
  ∃ t train samples re rnd listing fuel m,
    a.train ≠ [] ∧
    fromFile env.numbers fs a.input = .ok t ∧
    Source.loadAll env.norm fs env.parse t.processors a.train = .ok train ∧
    Source.Shuffled train samples ∧
    regexFile fs a.allow = .ok re ∧
    (∀ round vocab, (∃ idss, samples.mapM (fun s => (Model.from_ vocab).encode s ScoreOps.zero rnd) = .ok idss) →
      Merger.Listing (Model.from_ vocab) rnd env.byPairs samples (listing round (Model.from_ vocab))) ∧
    Merger.merge ⟨re.isMatch, a.numMerges, a.step, a.scaleFactor, a.maxTokenLength⟩ rnd listing samples fuel t.model = .ok m ∧
    contents = saved env.numbers (Tokenizer.new m t.processors t.specialTokens)

omit [TrainOps F] in
/-- `regex_cmd` with an output file gets as far as writing `contents`, src/cli.rs:527-551. -/
def Regexes (a : RegexArgs) (contents : List UInt8) : Prop := regexCmd a.patterns = .ok contents

omit [TrainOps F] in
/-- `mine_cmd` gets as far as writing `contents`, src/cli.rs:609-652. -/
def Mines (env : Env F) (a : MineArgs) (fs : Files) (contents : List UInt8) : Prop :=
  ∃ train samples patterns re idioms,
    a.train ≠ [] ∧ a.patterns ≠ [] ∧
    Source.loadAll env.norm fs env.parse [] a.train = .ok train ∧
    Source.Shuffled train samples ∧
    loadPatterns a.patterns = .ok patterns ∧
    buildMineRegex patterns = .ok re ∧
    Miner.Mine (env.findIter re) env.shard env.byFreq a.numIdioms samples idioms ∧
    contents = enc (Json.write env.numbers .pretty 0 (stringsJson (idioms.map (·.1))))

/-- A command. -/
inductive Command (F : Type) where
  | generate (a : GenerateArgs F)
  | prune (a : PruneArgs F)
  | filter (a : FilterArgs F)
  | merge (a : MergeArgs F)
  | regex (a : RegexArgs)
  | mine (a : MineArgs)

/-- The file a command writes. -/
def Command.output : Command F → Str
  | .generate a => a.output
  | .prune a => a.output
  | .filter a => a.output
  | .merge a => a.output
  | .regex a => a.output
  | .mine a => a.output

/-- A command, run on the files `fs`, gets as far as writing `contents`. -/
def Writes [Mul F] (env : Env F) (cmd : Command F) (fs : Files) (contents : List UInt8) : Prop :=
  match cmd with
  | .generate a => Generates env a fs contents
  | .prune a => Prunes env a fs contents
  | .filter a => Filters env a fs contents
  | .merge a => Merges env a fs contents
  | .regex a => Regexes a contents
  | .mine a => Mines env a fs contents

/-- A command succeeds. -/
def Runs [Mul F] (env : Env F) (cmd : Command F) (fs fs' : Files) : Prop :=
  ∃ contents, Writes env cmd fs contents ∧ fs' = fs.write cmd.output contents

/-- A command panics, is killed, or fails to write: it has written nothing, or a part of the output file (`std::fs::write`
empties the file and then writes from the front). -/
def Stops [Mul F] (env : Env F) (cmd : Command F) (fs fs' : Files) : Prop :=
  fs' = fs ∨ ∃ contents k, Writes env cmd fs contents ∧ fs' = fs.write cmd.output (contents.take k)

end
end Tokengeex.Cli
