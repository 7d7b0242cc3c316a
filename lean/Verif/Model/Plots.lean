import Verif.Model.Scripts
import Mathlib.Algebra.Order.Field.Rat
/-
The table that scripts/evaluate.py writes and what scripts/plot.py computes from it.  Drawing is left out; quotients are exact
rational numbers (the scripts use doubles).
-/
namespace Tokengeex.Scripts

/-- `file.split("/")[-1].split(".")[0]`, scripts/evaluate.py:151. -/
def baseName (file : Str) : Str := (splitOn (· == '.') ((splitOn (· == '/') file).getLastD [])).headD []

/-- `out["compression"][filename_base] = …`, scripts/evaluate.py:167-171: a dictionary keeps the place of a key that it has. -/
def record : List (Str × Line) → Str → Line → List (Str × Line)
  | [], name, line => [(name, line)]
  | (n, l) :: rest, name, line => if n = name then (n, line) :: rest else (n, l) :: record rest name line

/-- The table, scripts/evaluate.py:150-171, for the given files and their lines. -/
def table (files : List (Str × Line)) : List (Str × Line) := files.foldl (fun d f => record d (baseName f.1) f.2) []

/-- `num_chars / num_tokens`, scripts/plot.py:64-66 and 84-86; `none` is the `ZeroDivisionError`. -/
def ratio (lines : List Line) : Option ℚ :=
  if (lines.map (·.tokens)).sum = 0 then none
  else some ((((lines.map (·.chars)).sum : ℕ) : ℚ) / ((lines.map (·.tokens)).sum : ℕ))

/-- The average over all languages, scripts/plot.py:63-66. -/
def average (d : List (Str × Line)) : Option ℚ := ratio (d.map (·.2))

/-- The line of a language. -/
def lookup (d : List (Str × Line)) (name : Str) : Option Line := (d.find? fun e => e.1 = name).map (·.2)

/-- The average over some languages, scripts/plot.py:83-86: nothing is drawn unless all of them are in the table. -/
def subsetAverage (langs : List Str) (d : List (Str × Line)) : Option ℚ :=
  if langs.all fun lang => (lookup d lang).isSome then ratio (langs.filterMap (lookup d)) else none

/-- scripts/plot.py:72. -/
def humanEvalX : List Str := ["go", "python", "cpp", "java", "javascript"].map String.toList

/-- scripts/plot.py:73-82. -/
def codeGeeX : List Str := ["jsx", "javascript", "typescript", "java", "python", "html", "cpp", "c"].map String.toList

/-- The heights of the bars of the second plot, scripts/plot.py:121-123; `none` if all buckets are empty (numpy gives NaN). -/
def percentages (buckets : List Nat) : Option (List ℚ) :=
  if buckets.sum = 0 then none else some (buckets.map fun b : ℕ => (b : ℚ) / (buckets.sum : ℕ) * 100)

end Tokengeex.Scripts
