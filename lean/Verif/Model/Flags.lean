import Verif.Model.Cli
/-
The command line, src/cli.rs:21-178, and `main`, src/cli.rs:654-744.  The parser is the one that the macro `xflags!` (crate
xflags 0.3) generates from the declarations; it is written here from what that crate does.  Arguments that are not UTF-8 and
the texts of messages are left out.
-/
namespace Tokengeex.Cli
open RealOps

/-- The subcommands, src/cli.rs:23-176; the states 1 to 8 of the generated parser. -/
inductive Sub where
  | generate | prune | filter | merge | regex | mine | encode | decode
  deriving DecidableEq

/-- The name of a subcommand. -/
def Sub.name : Sub → Str
  | generate => "generate".toList
  | prune => "prune".toList
  | filter => "filter".toList
  | merge => "merge".toList
  | regex => "regex".toList
  | mine => "mine".toList
  | encode => "encode".toList
  | decode => "decode".toList

/-- The arms for arguments that are not flags, in state 0 (generated). -/
def Sub.ofArg (a : Str) : Option Sub :=
  [generate, prune, filter, merge, regex, mine, encode, decode].find? fun s => s.name == a

/-- The types of values. -/
inductive Ty where
  | string | usize | f64 | bool
  deriving DecidableEq

/-- The declared flags: long name, short name, type; src/cli.rs:26-175. -/
def Sub.flags : Sub → List (Str × Option Str × Ty)
  | generate =>
    [("--vocab-size".toList, some "-v".toList, .usize), ("--output".toList, some "-o".toList, .string),
     ("--processor".toList, none, .string), ("--train".toList, none, .string), ("--special".toList, none, .string),
     ("--suggested".toList, none, .string), ("--added".toList, none, .string), ("--allow".toList, none, .string),
     ("--split".toList, none, .string), ("--insert-probability".toList, none, .f64),
     ("--max-token-length".toList, none, .usize)]
  | prune =>
    [("--input".toList, some "-i".toList, .string), ("--output".toList, some "-o".toList, .string),
     ("--vocab-size".toList, some "-v".toList, .usize), ("--train".toList, none, .string), ("--dropout".toList, none, .f64),
     ("--shrink-factor".toList, none, .f64), ("--em-subiters".toList, none, .usize)]
  | filter =>
    [("--input".toList, some "-i".toList, .string), ("--output".toList, some "-o".toList, .string),
     ("--vocab-size".toList, some "-v".toList, .usize), ("--min-score".toList, none, .f64), ("--force".toList, none, .bool)]
  | merge =>
    [("--input".toList, some "-i".toList, .string), ("--output".toList, some "-o".toList, .string),
     ("--train".toList, none, .string), ("--allow".toList, none, .string), ("--num-merges".toList, none, .usize),
     ("--step".toList, none, .usize), ("--scale-factor".toList, none, .f64), ("--max-token-length".toList, none, .usize)]
  | regex => [("--output".toList, some "-o".toList, .string), ("--pattern".toList, some "-p".toList, .string)]
  | mine =>
    [("--num-idioms".toList, some "-n".toList, .usize), ("--output".toList, some "-o".toList, .string),
     ("--train".toList, none, .string), ("--pattern".toList, some "-p".toList, .string)]
  | encode => [("--vocab".toList, some "-v".toList, .string), ("--input".toList, some "-i".toList, .string)]
  | decode => [("--vocab".toList, some "-v".toList, .string), ("--input".toList, some "-i".toList, .string)]

/-- The arm for a flag (generated). -/
def Sub.flag (s : Sub) (a : Str) : Option (Str × Option Str × Ty) := s.flags.find? fun f => f.1 == a || f.2.1 == some a

/-- A leading plus sign is skipped, `from_str_radix` (std). -/
def skipPlus : Str → Str
  | [] => []
  | c :: rest => if c = '+' then rest else c :: rest

/-- `str::parse::<usize>` (std): an optional plus sign, decimal digits, no overflow of 64 bits. -/
def parseUsize (s : Str) : Option Nat :=
  if (skipPlus s).isEmpty || !(skipPlus s).all Char.isDigit then none
  else if (skipPlus s).foldl (fun n c => 10 * n + (c.toNat - 48)) 0 < 2 ^ 64 then
    some ((skipPlus s).foldl (fun n c => 10 * n + (c.toNat - 48)) 0)
  else none

/-- `str::parse::<bool>` (std). -/
def parseBool (s : Str) : Option Bool :=
  if s = "true".toList then some true else if s = "false".toList then some false else none

variable {F : Type}

/-- `next_value_from_str` accepts the value (xflags::rt).  `float` is `str::parse::<f64>`. -/
def Ty.accepts (float : Str → Option F) : Ty → Str → Bool
  | string, _ => true
  | usize, s => (parseUsize s).isSome
  | f64, s => (float s).isSome
  | bool, s => (parseBool s).isSome

/-- How parsing can end early: with the help text, or with an error message. -/
inductive Early where
  | help | usage

/-- The values given so far, by the long name of their flags. -/
abbrev Values := List (Str × Str)

/-- The loop of the generated parser over the arguments: `pop_flag` (xflags::rt) and the two tables of arms.  `state` is the
subcommand, `dashes` tells whether `--` has been seen. -/
def scan (float : Str → Option F) (state : Option Sub) (dashes : Bool) (values : Values) :
    List Str → Except Early (Option Sub × Values)
  | [] => .ok (state, values)
  | a :: rest =>
    if !dashes && a == "--".toList then
      match rest with
      | [] => .ok (state, values)
      | b :: rest =>
        match state, Sub.ofArg b with
        | none, some s => scan float (some s) true values rest
        | _, _ => .error .usage
    else if !dashes && a.head? == some '-' then
      if a == "--help".toList || a == "-h".toList then .error .help
      else
        match state.bind fun s => s.flag a, rest with
        | some (name, _, ty), v :: rest =>
          if ty.accepts float v then scan float state dashes (values ++ [(name, v)]) rest else .error .usage
        | _, _ => .error .usage
    else
      match state, Sub.ofArg a with
      | none, some s => scan float (some s) dashes values rest
      | _, _ => .error .usage

/-- The values of a flag. -/
def Values.of (values : Values) (name : String) : List Str := (values.filter fun p => p.1 == name.toList).map (·.2)

/-- `Parser::required` (xflags::rt). -/
def required {α : Type} (vals : List α) : Except Early α :=
  match vals with
  | [v] => .ok v
  | _ => .error .usage

/-- `Parser::optional` (xflags::rt). -/
def optionalFlag {α : Type} (vals : List α) : Except Early (Option α) :=
  match vals with
  | [] => .ok none
  | [v] => .ok (some v)
  | _ => .error .usage

/-- What `main` is to do. -/
inductive Line (F : Type) where
  /-- Run a command that writes a file. -/
  | run (cmd : Command F)
  /-- Print the named patterns, src/cli.rs:529-533. -/
  | printPatterns
  /-- `todo!()`, src/cli.rs:737-742. -/
  | todo

variable [TrainOps F]

/-- A literal of `main`: the double that is nearest to `p / q`, which is the rounded quotient of the doubles `p` and `q`. -/
def literal (p q : Nat) : F := div (ofNat p) (ofNat q)

/-- The records that the parser builds at its end (generated), and what `main` passes on, src/cli.rs:657-743. -/
def record (float : Str → Option F) (values : Values) : Sub → Except Early (Line F)
  | .generate => do
    let vocabSize ← required ((values.of "--vocab-size").filterMap parseUsize)
    let output ← required (values.of "--output")
    let allow ← optionalFlag (values.of "--allow")
    let split ← optionalFlag (values.of "--split")
    let insertProbability ← optionalFlag ((values.of "--insert-probability").filterMap float)
    let maxTokenLength ← optionalFlag ((values.of "--max-token-length").filterMap parseUsize)
    pure (.run (.generate
      { output := output
        vocabSize := vocabSize
        train := values.of "--train"
        processors := values.of "--processor"
        special := values.of "--special"
        suggested := values.of "--suggested"
        added := values.of "--added"
        split := split
        allow := allow
        insertProbability := insertProbability.getD (literal 1 10)
        maxTokenLength := maxTokenLength.getD 24 }))
  | .prune => do
    let input ← required (values.of "--input")
    let output ← required (values.of "--output")
    let vocabSize ← required ((values.of "--vocab-size").filterMap parseUsize)
    let dropout ← optionalFlag ((values.of "--dropout").filterMap float)
    let shrinkFactor ← optionalFlag ((values.of "--shrink-factor").filterMap float)
    let emSubiters ← optionalFlag ((values.of "--em-subiters").filterMap parseUsize)
    pure (.run (.prune
      { input := input
        output := output
        vocabSize := vocabSize
        train := values.of "--train"
        dropout := dropout.getD (literal 1 100)
        shrinkFactor := shrinkFactor.getD (literal 8 10)
        emSubiters := emSubiters.getD 1 }))
  | .filter => do
    let input ← required (values.of "--input")
    let output ← required (values.of "--output")
    let vocabSize ← optionalFlag ((values.of "--vocab-size").filterMap parseUsize)
    let minScore ← optionalFlag ((values.of "--min-score").filterMap float)
    let force ← optionalFlag ((values.of "--force").filterMap parseBool)
    pure (.run (.filter
      { input := input
        output := output
        vocabSize := vocabSize.getD 0
        minScore := minScore
        force := force.getD false }))
  | .merge => do
    let input ← required (values.of "--input")
    let output ← required (values.of "--output")
    let allow ← required (values.of "--allow")
    let numMerges ← optionalFlag ((values.of "--num-merges").filterMap parseUsize)
    let step ← optionalFlag ((values.of "--step").filterMap parseUsize)
    let scaleFactor ← optionalFlag ((values.of "--scale-factor").filterMap float)
    let maxTokenLength ← optionalFlag ((values.of "--max-token-length").filterMap parseUsize)
    pure (.run (.merge
      { input := input
        output := output
        train := values.of "--train"
        allow := allow
        numMerges := numMerges.getD 1000
        step := step.getD 50
        scaleFactor := scaleFactor.getD (literal 9 10)
        maxTokenLength := maxTokenLength.getD 24 }))
  | .regex => do
    let output ← optionalFlag (values.of "--output")
    match output with
    | none => pure .printPatterns
    | some output => pure (.run (.regex { output := output, patterns := values.of "--pattern" }))
  | .mine => do
    let numIdioms ← required ((values.of "--num-idioms").filterMap parseUsize)
    let output ← required (values.of "--output")
    pure (.run (.mine
      { numIdioms := numIdioms
        output := output
        train := values.of "--train"
        patterns := values.of "--pattern" }))
  | .encode => do
    let _ ← required (values.of "--vocab")
    let _ ← optionalFlag (values.of "--input")
    pure .todo
  | .decode => do
    let _ ← required (values.of "--vocab")
    let _ ← optionalFlag (values.of "--input")
    pure .todo

/-- `Tokengeex::from_env_or_exit` (generated), without the name of the program. -/
def parseArgs (float : Str → Option F) (args : List Str) : Except Early (Line F) := do
  let r ← scan float none false [] args
  match r.1 with
  | none => .error .usage
  | some s => record float r.2 s

/-- `main`, src/cli.rs:654-744, to its end: the exit code, and the files afterwards.  A panic is exit code 101, an error message
about the command line 2. -/
inductive Main [Mul F] (env : Env F) (float : Str → Option F) (args : List Str) (fs : Files) : Nat → Files → Prop
  | help : parseArgs float args = .error .help → Main env float args fs 0 fs
  | usage : parseArgs float args = .error .usage → Main env float args fs 2 fs
  | printPatterns : parseArgs float args = .ok .printPatterns → Main env float args fs 0 fs
  | todo : parseArgs float args = .ok .todo → Main env float args fs 101 fs
  | run {cmd : Command F} {fs' : Files} : parseArgs float args = .ok (.run cmd) → Runs env cmd fs fs' → Main env float args fs 0 fs'
  | panic {cmd : Command F} {fs' : Files} : parseArgs float args = .ok (.run cmd) → Stops env cmd fs fs' →
    Main env float args fs 101 fs'

end Tokengeex.Cli
