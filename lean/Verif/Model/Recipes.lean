import Verif.Model.Flags
/-
The command lines of docs/RECIPES.md, as the arguments that the shell passes to the program.
-/
namespace Tokengeex.Recipes

/-- The languages of the loops in docs/RECIPES.md:39, 51, 63 (pruning), in order. -/
def languages : List String :=
  ["assembly", "cuda", "hcl", "kotlin", "php", "shell", "xml", "c-sharp", "dart", "html", "powershell", "sql", "yaml", "c",
    "diff", "java", "lua", "python", "swift", "zig", "chinese-markdown", "dockerfile", "javascript", "makefile", "r", "tex",
    "cmake", "elixir", "json", "markdown", "ruby", "toml", "cpp", "go", "jsx", "pascal", "rust", "typescript", "css",
    "haskell", "julia", "perl", "scala", "vue"]

/-- `--train {lang}:./hub/data/train/{lang}.bin{proportion}` for every language. -/
def train (languages : List String) (proportion : String) : List String :=
  languages.flatMap fun lang => ["--train", lang ++ ":./hub/data/train/" ++ lang ++ ".bin" ++ proportion]

/-- docs/RECIPES.md:79-82: the idioms of white space. -/
def whitespace : List String :=
  ["mine", "--output", "hub/tokens/whitespace.json", "--num-idioms", "100", "--pattern", "[ ]{1,32}"] ++
    train ("infilling" :: languages) ":0.25"

/-- docs/RECIPES.md:10-27: the initial vocabulary. -/
def init : List String :=
  ["generate", "--output", "hub/vocab/v2/exact-500k-init.json", "--vocab-size", "500000", "--insert-probability", "0.01",
    "--max-token-length", "16", "--processor", "crlf", "--processor", "nfc", "--special", "<|eos|>", "--special", "<|pad|>",
    "--special", "<|lang|>", "--special", "<|filename|>", "--special", "<|suffix|>", "--special", "<|prefix|>",
    "--special", "<|middle|>", "--added", "hub/tokens/lang.json", "--added", "hub/tokens/whitespace.json",
    "--suggested", "hub/tokens/punct.json", "--allow", "data/exact.regex"] ++ train ("infilling" :: languages) ""

/-- docs/RECIPES.md:33-39, 45-51 and 57-63: pruning with a dropout. -/
def prune (output dropout : String) : List String :=
  ["prune", "--input", "hub/vocab/v2/exact-500k-init.json", "--output", output, "--vocab-size", "32000", "--dropout", dropout,
    "--shrink-factor", "0.8", "--em-subiters", "2"] ++ train languages ":0.25"

/-- The arguments as the model has them. -/
def args (command : List String) : List Str := command.map String.toList

end Tokengeex.Recipes
