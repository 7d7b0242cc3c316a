import Verif.Model.Counting
import Verif.Model.Prune
/-
src/generate.rs
-/
namespace Tokengeex

/-- `*map.entry(k).or_insert(0) += n`. -/
def FreqTable.add {K : Type} [DecidableEq K] : FreqTable K → K → Nat → FreqTable K
  | [], k, n => [(k, n)]
  | e :: t, k, n => if e.1 = k then (e.1, e.2 + n) :: t else e :: FreqTable.add t k n

/-- `map.get(k)`. -/
def FreqTable.get? {K : Type} [DecidableEq K] : FreqTable K → K → Option Nat
  | [], _ => none
  | e :: t, k => if e.1 = k then some e.2 else FreqTable.get? t k

/-- `VocabularyGenerator`, src/generate.rs:12-20.  `split` is `find_iter` of the split pattern (the matched texts; any
function, and a backtracking error, on which the code panics, is not modelled), `allow` is `is_match` of the allow
pattern (any function). -/
structure Generator (F : Type) where
  maxTokenLength : Nat
  insertProbability : F
  split : Option (Str → List Str)
  allow : Option (Str → Bool)
  addedTokens : List Str
  suggestedTokens : List Str
  frequencies : FreqTable Str

namespace Generator
variable {F : Type} [TrainOps F]

open ScoreOps RealOps

/-- `VocabularyGenerator::new`, src/generate.rs:23-50. -/
def new (maxTokenLength : Nat) (insertProbability : F) (split : Option (Str → List Str)) (allow : Option (Str → Bool))
    (added suggested : List Str) : Generator F :=
  { maxTokenLength, insertProbability, split, allow, addedTokens := added, suggestedTokens := suggested,
    frequencies := suggested.foldl FreqTable.incr (added.foldl FreqTable.incr []) }

/-! ### feed -/

/-- The candidates the loop of src/generate.rs:75-91 (and 99-115) looks at: the prefixes of `suffix` up to the first one of
more than `max` bytes.  `len` is the length in bytes of `pre`, the part of the suffix already passed. -/
def prefixesUpTo (max : Nat) : Nat → Str → Str → List Str
  | _, _, [] => []
  | len, pre, c :: rest =>
    let len := len + (enc [c]).length
    if len > max then [] else (pre ++ [c]) :: prefixesUpTo max len (pre ++ [c]) rest

/-- The loop over `char_indices`, src/generate.rs:71 and 95: all candidates of a text, in order. -/
def candidates (max : Nat) : Str → List Str
  | [] => []
  | c :: rest => prefixesUpTo max 0 [] (c :: rest) ++ candidates max rest

/-- `HashSet::insert` (Rust std). -/
def insertSet (set : List Str) (t : Str) : List Str := if t ∈ set then set else set ++ [t]

/-- src/generate.rs:84-90: the state is the set and the number of random numbers drawn by the worker. -/
def consider (g : Generator F) (rnd : Nat → F) (st : List Str × Nat) (candidate : Str) : List Str × Nat :=
  if g.allow.elim true (fun allow => allow candidate) then
    (if lt (rnd st.2) g.insertProbability then insertSet st.1 candidate else st.1, st.2 + 1)
  else st

/-- Number of matches of `str::match_indices` (Rust std): leftmost, not overlapping; `skip` characters belong to the
previous match.  An empty pattern matches before every character and at the end. -/
def occurrences (pat : Str) : Nat → Str → Nat
  | _, [] => if pat = [] then 1 else 0
  | skip + 1, _ :: s => occurrences pat skip s
  | 0, c :: s => if pat.isPrefixOf (c :: s) then 1 + occurrences pat (pat.length - 1) s else occurrences pat 0 s

/-- The loop over `n` matches, src/generate.rs:121-126. -/
def tryInsert (g : Generator F) (rnd : Nat → F) (token : Str) : Nat → List Str × Nat → List Str × Nat
  | 0, st => st
  | n + 1, st =>
    if lt (rnd st.2) g.insertProbability then (insertSet st.1 token, st.2 + 1)
    else tryInsert g rnd token n (st.1, st.2 + 1)

/-- The set of strings taken from one sample, src/generate.rs:66-127, given the number of random numbers drawn before. -/
def sampleTokens (g : Generator F) (rnd : Nat → F) (k : Nat) (sample : Str) : List Str × Nat :=
  let parts := match g.split with
    | some split => split sample
    | none => [sample]
  let st := (parts.flatMap (candidates g.maxTokenLength)).foldl (consider g rnd) ([], k)
  (g.addedTokens ++ g.suggestedTokens).foldl (fun st token => tryInsert g rnd token (occurrences token 0 sample) st) st

/-- The sets taken from the samples of a chunk, src/generate.rs:65-133. -/
def chunkTokens (g : Generator F) (rnd : Nat → F) : Nat → List Str → List (List Str)
  | _, [] => []
  | k, s :: rest =>
    let r := sampleTokens g rnd k s
    r.1 :: chunkTokens g rnd r.2 rest

/-- What `gen_range(0.0..1.0)` may return. -/
def UnitRandom (rnd : Nat → F) : Prop := ∀ k, le zero (rnd k) = true ∧ lt (rnd k) (ofNat 1) = true

/-- A worker of `feed`, src/generate.rs:58-134: its operations on the `DashMap`.  It iterates over each set in any
order. -/
def Worker (g : Generator F) (shard : Str → Nat) (chunk : List Str) (program : List (Parallel.Op Str Nat)) : Prop :=
  ∃ rnd orders, UnitRandom rnd ∧ List.Forall₂ List.Perm orders (chunkTokens g rnd 0 chunk) ∧
    program = orders.flatMap fun tokens => Parallel.shardedAdds shard (tokens.map fun t => (t, 1))

/-- A possible result of `feed`, src/generate.rs:54-139. -/
def Feed (g : Generator F) (shard : Str → Nat) (samples : List Str) (g' : Generator F) : Prop :=
  ∃ val entries, ParCount (Worker g shard) samples val ∧ Iteration val entries ∧
    g' = { g with frequencies := entries.foldl (fun t e => t.add e.1 e.2) g.frequencies }

/-- `current_size`, src/generate.rs:142-144. -/
def currentSize (g : Generator F) : Nat := g.frequencies.length

/-! ### generate -/

/-- Vocabulary and `seen`. -/
structure Acc (F : Type) where
  vocab : List (ScoredToken F)
  seen : List Token

/-- The 255 byte tokens, src/generate.rs:164-169. -/
def bytes (highestFreq : Nat) : Acc F :=
  { vocab := (List.range 255).map fun b => ⟨[UInt8.ofNat b], ofNat highestFreq, true⟩
    seen := (List.range 255).map fun b => [UInt8.ofNat b] }

/-- The loop of src/generate.rs:172-194.  `freq * len` is a natural number here; C114 bounds it. -/
def addListed (freqs : FreqTable Str) (size : Nat) : List (Str × Bool) → Acc F → Res (Acc F)
  | [], acc => .ok acc
  | (token, keep) :: rest, acc =>
    if acc.vocab.length ≥ size then .ok acc
    else if enc token ∉ acc.seen ∧ (enc token).length > 1 then
      match freqs.get? token with
      | none => .error .panic
      | some freq =>
        addListed freqs size rest
          { vocab := acc.vocab ++ [⟨enc token, ofNat (freq * (enc token).length), keep⟩], seen := acc.seen ++ [enc token] }
    else addListed freqs size rest acc

/-- The loop of src/generate.rs:197-210. -/
def addFrequent (size : Nat) : List (Str × Nat) → Acc F → Acc F
  | [], acc => acc
  | (token, freq) :: rest, acc =>
    if acc.vocab.length ≥ size then acc
    else if enc token ∉ acc.seen ∧ (enc token).length > 1 then
      addFrequent size rest
        { vocab := acc.vocab ++ [⟨enc token, ofNat (freq * (enc token).length), false⟩], seen := acc.seen ++ [enc token] }
    else addFrequent size rest acc

/-- `logprobs`, src/generate.rs:237-243. -/
def logprobs (pieces : List (ScoredToken F)) : List (ScoredToken F) :=
  let sum := pieces.foldl (fun acc t => add acc t.score) zero
  pieces.map fun t => { t with score := sub (ln t.score) (ln sum) }

/-- `generate` once the table has been listed in the order `entries`, src/generate.rs:151-235. -/
def generateFrom (g : Generator F) (byFreq : Sorter (Str × Nat)) (byScore : Sorter (ScoredToken F)) (size : Nat)
    (entries : List (Str × Nat)) : Res (List (ScoredToken F)) := do
  let frequent := byFreq.run (fun a b => compare b.2 a.2) entries
  let highest := (frequent.head?.map (·.2)).getD 1
  let acc ← addListed g.frequencies size
    (g.addedTokens.map (fun t => (t, true)) ++ g.suggestedTokens.map (fun t => (t, false))) (bytes highest)
  let acc := addFrequent size frequent acc
  let vocab := byScore.run (fun a b => ((partialCmp a.score b.score).getD .eq).swap) acc.vocab
  let vocab := logprobs vocab
  if vocab.all (fun t => TrainOps.isNormal t.score) then pure vocab else .error .panic

/-- A possible result of `generate`, src/generate.rs:148-235: `HashMap::iter` lists the entries in any order. -/
def Generate (g : Generator F) (byFreq : Sorter (Str × Nat)) (byScore : Sorter (ScoredToken F)) (size : Nat)
    (vocab : List (ScoredToken F)) : Prop :=
  ∃ entries, entries.Perm g.frequencies ∧ g.generateFrom byFreq byScore size entries = .ok vocab

end Generator
end Tokengeex
