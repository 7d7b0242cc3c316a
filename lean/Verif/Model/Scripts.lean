import Verif.Model.Sources
/-
The Python scripts that make the data and measure tokenizers: scripts/datagen.py, evaluate.py, convert.py and find.py.
Printing, progress bars and the libraries they drive (datasets, tiktoken, numpy) are left out or are parameters.
-/
namespace Tokengeex
namespace Scripts

/-! ## scripts/datagen.py -/

/-- A sample of The Stack, scripts/datagen.py:83-95. -/
structure StackSample where
  content : Str
  size : Nat
  avgLineLength : F64
  maxLineLength : Nat
  alphanumFraction : F64

/-- `has_many_non_chinese_non_ascii`, scripts/datagen.py:20-43: the characters that count. -/
def isForeign (c : Char) : Bool :=
  !(decide (c.toNat ≤ 0x7f)) &&
    !((decide (0x4e00 ≤ c.toNat) && decide (c.toNat ≤ 0x9fff)) || (decide (0x3400 ≤ c.toNat) && decide (c.toNat ≤ 0x4dbf)) ||
      (decide (0xf900 ≤ c.toNat) && decide (c.toNat ≤ 0xfaff)))

/-- The languages with a stricter limit on lines, scripts/datagen.py:106. -/
def dataLanguages : List Str := ["json", "yaml", "toml", "sql", "r", "hcl"].map String.toList

/-- The tests that a sample has to pass, scripts/datagen.py:97-147.  `isDigit` is `str.isdigit`, `found` gives the lengths of
what `findall` finds for each of the three regular expressions, and `exceeds a b p` is `a / b > p` (or `a > p * b`) on doubles
for the constants 0.3, 0.5 and 0.2.  The division by the length of an empty text is not modelled: a text of size 16 or more
has characters. -/
def accepts (isDigit : Char → Bool) (found : Str → List (List Nat)) (exceeds : Nat → Nat → Nat → Bool) (lang : Str)
    (s : StackSample) : Bool :=
  let numLines := s.content.count '\n'
  if s.size < 16 || 262144 < s.size then false
  else if decide (lang ∈ dataLanguages) && decide (256 < numLines) then false
  -- more than 4096 lines in any other language: counted, and nothing else, scripts/datagen.py:110-111
  else if F64.lt (F64.ofNat 100) s.avgLineLength || F64.lt s.avgLineLength (F64.ofNat 10) || decide (1000 < s.maxLineLength) then
    false
  else if F64.lt s.alphanumFraction (F64.num false (2 ^ 1072)) then false
  else if exceeds (s.content.countP isDigit) s.content.length 3 then false
  else if (found s.content).any fun lengths => lengths.any (fun n => decide (256 < n)) || exceeds lengths.sum s.content.length 5 then
    false
  else if exceeds (s.content.countP isForeign) s.content.length 2 then false
  else true

/-- The two files being written and the variable `written`, scripts/datagen.py:60-64. -/
structure Splits where
  test : List UInt8
  train : List UInt8
  written : Nat
  deriving DecidableEq, Repr

/-- The end of the body of the three writing loops, scripts/datagen.py:149-159, 195-205 and 265-275: `none` is `break`. -/
def writeSample (test train : Nat) (st : Splits) (content : Str) : Option Splits :=
  let encoded := enc content
  if st.written < test then
    some { st with test := st.test ++ encoded ++ [0], written := st.written + (encoded.length + 1) }
  else if st.written < test + train then
    some { st with train := st.train ++ encoded ++ [0], written := st.written + (encoded.length + 1) }
  else none

/-- The loop of `generate_the_stack`, scripts/datagen.py:81-159. -/
def stackLoop (accept : StackSample → Bool) (test train : Nat) : List StackSample → Splits → Splits
  | [], st => st
  | s :: samples, st =>
    if accept s then
      match writeSample test train st s.content with
      | none => st
      | some st' => stackLoop accept test train samples st'
    else stackLoop accept test train samples st

/-- `generate_the_stack`, scripts/datagen.py:46-162: what the two files hold at the end. -/
def generateStack (accept : StackSample → Bool) (train test : Nat) (samples : List StackSample) : Splits :=
  stackLoop accept test train samples ⟨[], [], 0⟩

/-- The dictionary of files, scripts/datagen.py:61-64 and 185-188: the names in the list that is iterated over. -/
def openFiles (names : List Str) (name : Str) : Bool := decide (name ∈ names)

/-- The list in `generate_chinese_markdown`, scripts/datagen.py:182 and 187: two string literals with no comma between them
are one. -/
def markdownSplits : List Str := ["traintest".toList]

/-- The loop of `generate_chinese_markdown`, scripts/datagen.py:192-205; `none` is the `KeyError` of looking up a file that
was not opened. -/
def markdownLoop (names : List Str) (test train : Nat) : List Str → Splits → Option Splits
  | [], st => some st
  | s :: samples, st =>
    if st.written < test && !openFiles names "test".toList then none
    else if !decide (st.written < test) && decide (st.written < test + train) && !openFiles names "train".toList then none
    else
      match writeSample test train st s with
      | none => some st
      | some st' => markdownLoop names test train samples st'

/-- `generate_chinese_markdown`, scripts/datagen.py:171-210. -/
def generateMarkdown (train test : Nat) (samples : List Str) : Option Splits :=
  markdownLoop markdownSplits test train samples ⟨[], [], 0⟩

/-- `range(0, len(sample), chunk_size)` and the slices, scripts/datagen.py:250-252. -/
def chunks (size : Nat) (s : Str) : List Str :=
  (List.range ((s.length + size - 1) / size)).map fun i => (s.drop (i * size)).take size

/-- `random.randrange(len(l))` and `l.pop(..)`, scripts/datagen.py:245-246, 258-259 and 262-263.  `n` is the number drawn; any
number stands for its remainder.  `none` is the `ValueError` of `randrange(0)`. -/
def popRandom {α : Type} (l : List α) (n : Nat) : Option (α × List α) :=
  match l[n % l.length]? with
  | none => none
  | some a => some (a, l.eraseIdx (n % l.length))

/-- Nine chunks each followed by DEL, and a tenth, scripts/datagen.py:257-263.  `k` counts the numbers drawn. -/
def shuffleChunks (rnd : Nat → Nat) : Nat → List Str → Nat → Str → Option (Str × Nat)
  | 0, cs, k, content =>
    match popRandom cs (rnd k) with
    | none => none
    | some (c, _) => some (content ++ c, k + 1)
  | n + 1, cs, k, content =>
    match popRandom cs (rnd k) with
    | none => none
    | some (c, cs') => shuffleChunks rnd n cs' (k + 1) (content ++ c ++ ['\x7f'])

/-- The loop over four samples, scripts/datagen.py:244-263: the pool that is left, the numbers drawn, the text made. -/
def infillOne (rnd : Nat → Nat) : Nat → List Str → Nat → Str → Option (List Str × Nat × Str)
  | 0, pool, k, content => some (pool, k, content)
  | n + 1, pool, k, content =>
    match popRandom pool (rnd k) with
    | none => none
    | some (sample, pool') =>
      let cs := chunks (max 32 (min (sample.length / 10) 128)) sample
      if cs.length < 10 then infillOne rnd n pool' (k + 1) content
      else
        match shuffleChunks rnd 9 cs (k + 1) content with
        | none => none
        | some (content', k') => infillOne rnd n pool' k' content'

/-- `while True`, scripts/datagen.py:241-275.  Each turn takes four samples from the pool, so the fuel, one more than its
length, is never exhausted. -/
def infillLoop (rnd : Nat → Nat) (test train : Nat) : Nat → List Str → Nat → Splits → Option Splits
  | 0, _, _, _ => none
  | fuel + 1, pool, k, st =>
    match infillOne rnd 4 pool k [] with
    | none => none
    | some (pool', k', content) =>
      match writeSample test train st content with
      | none => some st
      | some st' => infillLoop rnd test train fuel pool' k' st'

/-- The samples that are used: the first fifth of those of each training file, scripts/datagen.py:230-239.  One of the files
is the output file itself, just opened for writing and so empty: it adds nothing. -/
def infillPool (trainFiles : List Str) : List Str :=
  trainFiles.flatMap fun text =>
    let content := splitOn (· == '\x00') text
    content.take (content.length / 5)

/-- `generate_infilling`, scripts/datagen.py:213-280. -/
def generateInfilling (rnd : Nat → Nat) (train test : Nat) (trainFiles : List Str) : Option Splits :=
  let pool := infillPool trainFiles
  infillLoop rnd test train (pool.length + 1) pool 0 ⟨[], [], 0⟩

/-! ## Reading the files back: scripts/evaluate.py:152-153, find.py:23-25, convert.py:72-73, trainbpe.py:23 -/

/-- `data.split("\0")`: unlike the Rust reader the scripts keep empty samples. -/
def pySamples (text : Str) : List Str := splitOn (· == '\x00') text

/-- Reading a file in text mode, scripts/evaluate.py:152: `\r\n` and `\r` become `\n`. -/
def universalNewlines : Str → Str
  | [] => []
  | '\r' :: '\n' :: rest => '\n' :: universalNewlines rest
  | c :: rest => (if c = '\r' then '\n' else c) :: universalNewlines rest

/-! ## scripts/evaluate.py -/

/-- `frequency_buckets[id] += 1`, scripts/evaluate.py:162-163; `none` is the `IndexError`.  (Python would take a negative index;
ids are not negative.) -/
def bump (freq : List Nat) (id : Nat) : Option (List Nat) :=
  match freq[id]? with
  | none => none
  | some n => some (freq.set id (n + 1))

/-- The loop over the samples of one file, scripts/evaluate.py:157-163: frequencies, tokens, characters. -/
def evalSamples (encode : Str → List Nat) : List Str → List Nat × Nat × Nat → Option (List Nat × Nat × Nat)
  | [], st => some st
  | s :: samples, (freq, tokens, chars) =>
    match (encode s).foldlM bump freq with
    | none => none
    | some freq' => evalSamples encode samples (freq', tokens + (encode s).length, chars + s.length)

/-- One line of the result, scripts/evaluate.py:165-171 (the ratio, which is rounded for display, is left out). -/
structure Line where
  tokens : Nat
  chars : Nat
  deriving DecidableEq, Repr

/-- The loop over the files, scripts/evaluate.py:150-171, on the texts of the files; `none` also for the division by zero
tokens in line 165. -/
def evalFiles (encode : Str → List Nat) : List Str → List Nat → Option (List Nat × List Line)
  | [], freq => some (freq, [])
  | text :: texts, freq =>
    match evalSamples encode (pySamples (universalNewlines text)) (freq, 0, 0) with
    | none => none
    | some (freq', tokens, chars) =>
      if tokens = 0 then none
      else
        match evalFiles encode texts freq' with
        | none => none
        | some (freq'', lines) => some (freq'', ⟨tokens, chars⟩ :: lines)

/-- The buckets, scripts/evaluate.py:139-140 and 177-183, of frequencies sorted downwards. -/
def buckets (sorted : List Nat) : List Nat :=
  let size := sorted.length / 50
  (List.range 50).map fun i => ((sorted.drop (i * size)).take size).sum

/-! ## scripts/convert.py -/

/-- The byte tokens, scripts/convert.py:93-94. -/
def withBytes (ranks : Token → Option Nat) : Token → Option Nat := fun t =>
  match t with
  | [b] => some b.toNat
  | _ => ranks t

/-- The most frequent tokens, scripts/convert.py:97-100: `i` is the counter of `enumerate`. -/
def addFrequent (value : Nat → Token) : List Nat → Nat → (Token → Option Nat) → (Token → Option Nat)
  | [], _, ranks => ranks
  | id :: ids, i, ranks =>
    addFrequent value ids (i + 1)
      (if (ranks (value id)).isNone then fun t => if t = value id then some (i + 256) else ranks t else ranks)

/-- The truncation, scripts/convert.py:84-102.  `sorted` is `np.argsort(frequencies)[::-1]`, `value` is
`decode_single_token_bytes`. -/
def truncate (ranks : Token → Option Nat) (value : Nat → Token) (sorted : List Nat) (size : Nat) : Token → Option Nat :=
  fun t => (addFrequent value (sorted.take size) 0 (withBytes ranks) t).filter fun rank => decide (rank < size)

/-! ## scripts/find.py -/

/-- `sample.count(string)`, scripts/find.py:31, for a string that is not empty: occurrences from left to right that do not
overlap. -/
def occurrencesGo (pat : Str) : Nat → Str → Nat
  | 0, _ => 0
  | _ + 1, [] => 0
  | fuel + 1, c :: cs =>
    if pat.isPrefixOf (c :: cs) then 1 + occurrencesGo pat fuel ((c :: cs).drop pat.length) else occurrencesGo pat fuel cs

/-- `sample.count(string)`, scripts/find.py:31. -/
def countIn (pat s : Str) : Nat := occurrencesGo pat s.length s

/-- The numbers for one file, scripts/find.py:20-35: occurrences, samples with one, samples. -/
structure Found where
  occurrences : Nat
  bySample : Nat
  samples : Nat
  deriving DecidableEq, Repr

/-- The inner loop, scripts/find.py:20-35, on the text of a file. -/
def findFile (pat text : Str) : Found :=
  let data := pySamples text
  { occurrences := (data.map (countIn pat)).sum
    bySample := (data.filter fun s => decide (0 < countIn pat s)).length
    samples := data.length }

/-- The totals, scripts/find.py:15-17, 27, 37-38. -/
def findAll (pat : Str) (texts : List Str) : Found :=
  texts.foldl (fun acc text =>
    let f := findFile pat text
    ⟨acc.occurrences + f.occurrences, acc.bySample + f.bySample, acc.samples + f.samples⟩) ⟨0, 0, 0⟩

/-- The percentage in the line of a file, scripts/find.py:40, as a fraction: numerator and denominator. -/
def filePercent (f : Found) : Nat × Nat := (f.bySample * 100, f.samples)

/-- The percentage in the last line, scripts/find.py:47. -/
def totalPercent (f : Found) : Nat × Nat := (f.occurrences * 100, f.samples)

end Scripts
end Tokengeex
