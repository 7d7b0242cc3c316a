import Verif.Model.Scripts
/-
The script that trains a baseline with other libraries: scripts/trainbpe.py.  What the libraries do with the samples is a
parameter.
-/
namespace Tokengeex
namespace Scripts

/-- How the script stops early. -/
inductive PyErr where
  /-- argparse prints the usage and exits. -/
  | usage
  | attributeError
  | unicodeDecodeError
  | valueError
  | overflowError
  deriving DecidableEq, Repr

/-- Python's `int(x)` of a float, scripts/trainbpe.py:25: the fraction is cut off, NaN and the infinities raise. -/
def pyInt : F64 → Except PyErr Int
  | .nan => .error .valueError
  | .inf _ => .error .overflowError
  | .num neg n => .ok (if neg then -((n / 2 ^ 1074 : Nat) : Int) else ((n / 2 ^ 1074 : Nat) : Int))

/-- Python's `xs[:k]`, scripts/trainbpe.py:25: a negative `k` counts from the end. -/
def pySlice {α : Type} (xs : List α) (k : Int) : List α :=
  if k < 0 then xs.take (xs.length - k.natAbs) else xs.take k.natAbs

/-- `samples[: int(len(samples) * proportion)]`, scripts/trainbpe.py:25. -/
def bpeTake (proportion : F64) (samples : List Str) : Except PyErr (List Str) :=
  (pyInt ((F64.ofNat samples.length).mul proportion)).map (pySlice samples)

/-- The samples of one file, scripts/trainbpe.py:22-25. -/
def bpeFile (proportion : F64) (contents : List UInt8) : Except PyErr (List Str) :=
  match fromUtf8 contents with
  | none => .error .unicodeDecodeError
  | some text => bpeTake proportion (pySamples text)

/-- `load_samples`, scripts/trainbpe.py:17-25, for the contents of the files `glob` lists, in its order.  The generator is
read to its end. -/
def bpeSamples (proportion : F64) : List (List UInt8) → Except PyErr (List Str)
  | [] => .ok []
  | contents :: rest =>
    match bpeFile proportion contents with
    | .error e => .error e
    | .ok here =>
      match bpeSamples proportion rest with
      | .error e => .error e
      | .ok later => .ok (here ++ later)

/-- The declared options and whether they are required, scripts/trainbpe.py:75-105. -/
def bpeOptions : List (Char × Bool) := [('l', true), ('i', true), ('o', true), ('v', true), ('p', false)]

/-- `parser.parse_args()`, scripts/trainbpe.py:107, on options already cut into letter and value: an undeclared letter, a
value its type or choices refuse (`valid`) or a missing required option exits.  The last value given counts; `-p` is 1.0 if
it is not given. -/
def bpeParse (valid : Char → Str → Bool) (given : List (Char × Str)) : Except PyErr (Char → Option Str) :=
  if given.all (fun g => bpeOptions.any (·.1 == g.1) && valid g.1 g.2) &&
      bpeOptions.all (fun o => !o.2 || given.any (·.1 == o.1)) then
    .ok fun c =>
      if bpeOptions.any (·.1 == c) then
        some (((given.reverse.find? (·.1 == c)).map (·.2)).getD "1.0".toList)
      else none
  else .error .usage

/-- `args.c` of the namespace. -/
def argOf (ns : Char → Option Str) (c : Char) : Except PyErr Str :=
  match ns c with
  | some v => .ok v
  | none => .error .attributeError

/-- The script, scripts/trainbpe.py:73-122.  `train lib input output vocab proportion` is everything from line 115 on,
with whatever it leaves behind. -/
def trainBpe {α : Type} (train : Str → Str → Str → Str → Str → Except PyErr α) (valid : Char → Str → Bool)
    (given : List (Char × Str)) : Except PyErr α := do
  let args ← bpeParse valid given
  let lib ← argOf args 'l'
  let input ← argOf args 'i'
  let output ← argOf args 'o'
  let vocabSize ← argOf args 'v'
  let proportion ← argOf args 's'
  train lib input output vocabSize proportion

end Scripts
end Tokengeex
