# A machine-checked model of tokengeex in Lean 4

`/repo` (Rust) is read as text and re-expressed, function by function, as Lean definitions under
`lean/Verif/Model/`; every definition cites the file and lines it models.  Specifications that do not mention the
model's helpers are in `lean/Verif/Spec/`, helper lemmas in `lean/Verif/Proofs/`, and the property theorems (one file
per group, each with a concrete `example` meeting its hypotheses) in `lean/Verif/Props/`.  A theorem for property
Cnn is named `Cnn_…`; `MANIFEST.json` lists the ones that make up each claim.

Contents: [conventions](#modelling-conventions) · [trusted base](#trusted-base) · [what is and is not
modelled](#what-is-modelled) · [plan per property](#plan-per-property) · [what the model says about the
code](#what-the-model-says-about-the-code) · [wrong programs](#wrong-programs)

## Modelling conventions

* **Strings.** Rust `str`/`String` is `List Char` (Lean's `Char` is a Unicode scalar value, like Rust's);
  `as_bytes` is UTF-8 encoding `enc`, built on Lean core's `String.utf8EncodeChar`.  Bytes are `UInt8`,
  `Vec<T>`/slices are `List T`.  Where the code uses byte offsets into a `str` (the special token splitter, the candidate loops of `feed`), a
  second model with byte offsets and panicking slices is shown to compute the same (C69, C81).
* **Failure.** `Result::Err` and panics are both data: `Except Err α`, where `Err.panic` stands for any
  index-out-of-bounds / `unwrap` / `expect` / `assert` panic.  Loops without an evident bound get a fuel argument and
  yield `Err.diverge` when it runs out; termination is then a theorem (or its negation is).
* **Hash maps** that are only looked up are functions `K → Option V`; hash maps that are iterated are
  enumerated in an arbitrary order (theorems quantify over the order).
* **Unstable sorts** are an arbitrary function returning a sorted permutation whenever the comparison is a total
  preorder (`Spec.SortLaws`); theorems quantify over it.  Priority queues likewise (`Spec.HeapLaws`); C82 shows that the
  standard `BinaryHeap`, with the order the code gives it, meets these laws.
* **Floating point.** `f64` is an arbitrary type with operations (`ScoreOps`, `RealOps`, `TrainOps`) and *no laws*;
  theorems that need laws say which (`Spec.ScoreLaws`, `OrderLaws`, `TrainLaws`, `ExactArith`).  `Model/Float64.lean`
  is a model of binary64 with round-to-nearest-even; that it meets `ScoreLaws` for finite scores, and for non-NaN,
  non-positive ones, is proved (C57).  For C86 `Model/Float64Train.lean` adds
  `exp` and `ln` as arbitrary functions on doubles.  Statements about `exp`/`ln`/`digamma` are over the real numbers (exact arithmetic) and say so; those with `doubles` in their name, and C97, are about doubles and
  any `exp` and `ln` with a bounded error.
* **Randomness.** A random generator is an arbitrary infinite sequence of draws; theorems hold for all of them.  C87 and C88
  are about chances: a comparison with a drawn number is a coin, and chances are means over independent coins (`Spec/Chance.lean`).
* **Threads.** A parallel section is the set of all interleavings of its workers' atomic steps (lock operations,
  loads, stores, atomic counters).  Memory is sequentially consistent between lock operations; `Relaxed` atomics are
  immediately visible in `Model/Task.lean`, and in `Model/TaskRelaxed.lean` a load may return any value that the reader has
  not yet seen replaced (per-variable coherence, no order between variables).
* **Integers** are unbounded `Nat`; C56 relates this to `u32` by an explicit second model with all the casts.
* **Files and crashes.** A file system is a map from paths to bytes.  A command is a relation on file systems.
  `std::fs::write` truncates and then writes from the front: a crash leaves the old contents or any prefix of the
  new contents.

## Trusted base

* **Lean's kernel** (Lean 4.33.0) and, among axioms, only `propext`, `Classical.choice` and `Quot.sound`:
  `lean/Verif/Audit.lean` runs `#print axioms` on every theorem named in `MANIFEST.json` during the build.  There are no
  axioms of our own, no `sorry`, no `native_decide`, no `bv_decide`.  `decide`/`decide +kernel` is used for concrete
  examples and for whole finite tables only (for instance all 256 bytes).
* **Mathlib** definitions that occur in statements: real numbers, `Real.exp`, `Real.log`, `List.Perm`, finite sums.
* **The reading of /repo**: the model is hand-written.  Nothing is extracted from or tested against compiled Rust code
  (the sandbox has no dependencies), so a misreading of the code would go unnoticed by Lean.  As evidence that the model is
  faithful, `Props/UnitTests.lean` runs the repository's own unit tests on it, with doubles, and `C68_examples` those of
  src/regex.rs; these are tests, not proofs.
* **The behaviour of code that is not in /repo.**  It appears as follows.

| outside code | in the model |
|---|---|
| Rust `std`: `str`, `Vec`, slices, `from_utf8`, `from_utf8_lossy`, `replace`, `trim`, `split`, `is_char_boundary` | explicit definitions from the documentation (`Model/Utf8`, `Processor`, `Sources`, `SplitterBytes`) |
| `std` hash maps, sorts | laws (above); theorems quantify over everything that obeys them |
| `std` `BinaryHeap` | laws, and a definition of `push`/`pop` recalled from the published source that is proved to meet them (`Model/BinaryHeap`) |
| `f64` arithmetic | IEEE 754 definitions (`Model/Float64`), or real numbers, or abstract laws |
| `serde_json` text format, escapes, depth limit, number printing (ryu) and parsing without `float_roundtrip` | explicit definitions recalled from the published sources (`Model/Json`, `Number64`); ryu's *digits* are any shortest identifying digits (`Spec/Number64`) |
| `serde` derive / visitor protocol, untagged enums | explicit definitions (`Model/Serde`) |
| `base64` `STANDARD_NO_PAD` | explicit definitions, compared with RFC 4648 (`Spec/Base64`) |
| `regex` syntax and search | explicit lexer, parser and matcher for the part of the syntax that src/regex.rs uses, compared with a denotational semantics (`Spec/Regex`); other syntax is rejected by the model |
| `fancy-regex` | an arbitrary function from texts to lists of matches |
| `unicode-normalization` | an arbitrary function on texts (C21 assumes that it maps the empty text to itself) |
| `rayon` | transition system for `collect`; every interleaving of workers for `par_chunks` |
| `dashmap`, `RwLock`, `Mutex`, atomics | explicit lock, load, store and add operations |
| `rand` | arbitrary draws |
| `xflags` (the parser it generates) | explicit definition recalled from the published source (`Model/Flags`) |
| `std::fs::write`/`read_to_string` | as described under *Files and crashes* |

## What is modelled

| source | model | left out |
|---|---|---|
| src/lib.rs | `Basic`, `Serde`, `Messages`, `Parallel` (`par_chunk_size`) | texts of IO and JSON errors, `Debug` and `Display` of `ScoredToken` (used by log messages only) |
| src/trie.rs | `Trie` | |
| src/model.rs | `Model`, `Lattice` (`populate_nodes`), `U32` | |
| src/tokenizer.rs | `Tokenizer`, `SplitterBytes`, `Batch`, `Serde`, `U32` | |
| src/processor.rs | `Processor`, `Serde` | what Unicode normalisation does |
| src/lattice.rs | `Lattice`, `NBest`, `BinaryHeap`, `Marginal` | `Display`/debug printing |
| src/filter.rs | `Filter`, `Sort` | logging |
| src/merge.rs | `Merge`, `Parallel` | logging |
| src/prune.rs | `Prune`, `PruneCount`, `Parallel` | logging |
| src/generate.rs | `Generate`, `GenerateBytes`, `Parallel` | logging |
| src/mine.rs | `Mine`, `Parallel` | logging |
| src/task.rs | `Task`, `TaskRelaxed`, `Progress` (the numbers in the messages) | how the numbers are printed, the clock |
| src/regex.rs, data/exact.regex | `Regex`, `Patterns`, `ExactRegex` | regex syntax outside the part that the file uses |
| src/cli.rs | `Sources`, `Patterns`, `Cli`, `Flags` | logging; arguments that are not UTF-8; `encode` and `decode` are `todo!()` |
| bindings/python/src/lib.rs | `Python` (C76) | the Python object protocol (argument conversion, pickling's own format) |
| scripts/datagen.py, evaluate.py, convert.py, find.py | `Scripts` (C92–C96) | downloading, printing; `str.isdigit`, regular expressions and comparisons of quotients are parameters; numpy and tiktoken |
| scripts/plot.py | `Model/Plots.lean`: the table of evaluate.py, the averages and the bars | quotients are exact rationals; drawing |
| scripts/evaluate.sh | `Model/EvalAll.lean`: the loop, its background jobs and the files they write | the command line of evaluate.py is a function from vocabularies to outputs or failure |
| scripts/trainbpe.py | options, reading of the data (Model/TrainBpe) | the calls of the training libraries |
| scripts/compare.py, benchmark.py | not modelled: they only drive other libraries | all |

## Plan per property

| id | what is modelled | how it is proved |
|----|------------------|------------------|
| C01 | trie, `Model::from`, `encode` DP with dropout and backtracking | invariant of the DP table by induction over positions and candidates |
| C02 | plus `decode`, `String::from_utf8_lossy` | C01 and `lossy (enc s) = s` |
| C03 | same, explicit error values | closure invariant (reachability) of the DP table |
| C04 | same | one-byte candidates are never dropped |
| C05 | same, abstract score laws | relaxation invariant plus induction on competing segmentations |
| C06 | random sequence as argument | the draw is only read under the guard |
| C07, C08 | trie | trie lookup is a finite map; prefix search = lookup of all prefixes |
| C09, C10 | `add_tokens`, lookups | induction over the history |
| C11 | `Model::decode` | induction over the ids |
| C12–C14, C24 | tokenizer state machine, operation histories | invariant by induction over operations |
| C15–C17, C60 | `SpecialTokenSplitter` | induction on the remaining text; C17 is false for an empty special token: the negation and the exact condition are proved |
| C18–C22, C26, C59 | `Tokenizer::encode/decode` | induction over pieces |
| C23 | rayon `collect` as a transition system | invariant over all interleavings, and a measure for termination |
| C25 | `str::replace` | induction; false for `\r\r\n`: the negation is proved |
| C27–C30 | visitors over JSON trees, JSON text, numbers | round-trip proofs by mutual induction over values; C27/C28 are false for some scores and for special tokens needing JSON escapes: negations with concrete witnesses, and error bounds, are proved |
| C31 | base64 engine | arithmetic on groups of three bytes; comparison with RFC 4648 |
| C32, C33 | `Lattice::from/insert`, `VecPool`, `populate_nodes` | invariants over histories of reuse |
| C34, C62 | `viterbi` | it and `encode` refine one recursive specification; C34 is false when a position is unreachable: the negation is proved |
| C35 | `nbest` best-first search with agenda shrinking | agenda invariant: every segmentation not yet returned is an extension of a queued hypothesis whose priority bounds it; without the bound, that it is an extension gives completeness for any numbers; with an error term for each addition, near-optimality for doubles |
| C36, C37 | `populate_marginal`, `log_sum_exp` over the reals | forward/backward sums over paths; error bound for the e⁻⁵⁰ cut-off by induction; the same tables with doubles approximate the real ones (one error `δ` per `log_sum_exp`), for any `exp` and `ln` of bounded error |
| C38, C39 | `filter` | list lemmas over every outcome of unstable sorts |
| C40, C58, C64 | the training steps | invariants over histories of steps |
| C41–C43, C63 | `merge` | invariant over rounds; C42, C43 false in general: negations are proved |
| C44, C45, C67 | `generate`, `logprobs` | invariants of the selection loops; C45 over the reals |
| C46, C47, C50 | worker threads with locks | interleavings preserve a sum invariant; refinement to sequential counting |
| C48, C49, C65, C66 | `prune`: EM steps, prune steps, the loop | invariants; C49 false when keep tokens outnumber the target: divergence is proved; C65/C66 over the reals; C48_sorted and C49_false_doubles for doubles with any `exp` and `ln`; C49_doubles_partial: pruning with doubles returns (the first segmentation `nbest` gives is one `viterbi` may give, so a token that is strictly better than its alternatives is removable) |
| C51, C52 | chunking, atomic counters, monitor thread | arithmetic, invariant over interleavings |
| C53, C54, C68 | regex lexer, parser and matcher; pattern files | denotational semantics, text lemmas; C54 false for raw line breaks: the negation is proved |
| C55 | reading sources | list lemmas on NUL-separated parts |
| C56 | explicit `u32` casts | equality with the `Nat` model below the bound; behaviour at the bound |
| C57 | binary64 rounding | monotonicity of rounding, instance of C05; relative error 2^-53 of each addition, summed up along both segmentations |
| C61 | `encode` | the DP table holds the unique segmentation with the tie-breaking property |
| C69 | splitter on bytes with panicking slices | refinement to the splitter on characters |
| C70 | JSON reader, `std::fs::write` with crashes | no proper prefix of a written value is read (prefix lemma by mutual induction) |
| C71, C72, C74 | commands as relations on file systems | composition of the above |
| C73 | histories of commands, crashes, copies, removals | invariant over events |
| C75 | the whole JSON reader; RFC 8259's grammar as an inductive relation | soundness by induction on fuel, completeness by mutual induction on derivations |
| C76 | the methods of the Python class, sequences of calls | refinement to the Rust tokenizer, induction over the calls |
| C77 | the three ways writing a file can end, the error that `save` fetches and drops | false: `C77_false`; what holds: `C77_save_partial`, by C28 and C70 |
| C78 | EM iterations with real numbers: workers, lattices, expectations, `digamma` | a sub-probability vocabulary gives every snippet a probability in (0,1), by induction over positions; bounds on `digamma`; the condition is invariant; with doubles (C78_em_doubles) the same from error bounds, for vocabularies in which no byte ends tokens of more than 9/10 of the probability |
| C79 | what the E-step computes, over all threads and schedules | the lattice's paths are the ways of cutting (bijection), C36 for the marginals; with doubles the errors of C36_marginal_doubles accumulated over pieces, samples and workers |
| C80 | `digamma` and `run_m_step` with real numbers, against Mathlib's Gamma function, and with doubles | the error of the series telescopes; its increments are monotone because a rational function has positive coefficients; for doubles a forward error analysis of every operation, and a Lipschitz bound of the digamma function for rounded arguments |
| C81 | the candidate loops of `feed` on bytes with panicking slices | refinement to the loops on characters; counting lemma |
| C82 | `BinaryHeap` with `sift_up` and `sift_down_to_bottom`, the order of `Hypothesis` | exchanges preserve the multiset; invariant with one violated edge, for any strict weak order |
| C83 | data/exact.regex, the documented commands | equality of texts by evaluation; the language by C68; disjointness of character classes; C71 for `generate` |
| C84 | the parser that `xflags` generates, `main` with its defaults | induction on the arguments; the tables by evaluation; C73 for histories |
| C85 | the commands with the loading of training files | the relation between two file systems with equal processed samples is carried through loading and shuffling |
| C86 | the commands over doubles, with arbitrary `exp` and `ln` | scores are finite: by the checks in `generate` and in the M-step, by reading, by a bound on sums for `merge`; every finite double is printed as a text that is read as a finite double |
| C87 | `feed` with its random draws, as coins | a sample is a list of series of trials; induction over it gives the mean of any product of weights of what becomes of the strings; `match_indices` finds as many matches as fit without overlap |
| C88 | `encode` and `populate_nodes` with their random draws, as coins | coins for places that are not reached do not matter; with a fixed choice the table is that of a dynamic program over the remaining edges, which is optimal |
| C89 | numbers as serde_json prints and reads them, repeated saving and loading | between 10^-4 and 10^14 the decimals of two neighbouring doubles are rounded to doubles that are read as the same neighbour: case analysis on the grids of multiples of powers of two; false for scores near 10^-9: two tokenizers that turn into each other for ever |
| C90 | `new_default_vocab` | from C01 and C04: the only segmentation into one-byte tokens |
| C91 | the loops of the trie, `Model::encode`, `Model::decode`, the splitter and `Tokenizer::encode` again, with a step counter (Model/Cost.lean) | the counting functions return the same results; the depth of the trie bounds each search, and the item returned bounds each scan; a lower bound for the tokens a, aa, … |
| C92 | the writing loops, the tests on samples and the dictionary of files of scripts/datagen.py | an invariant of the loop: what is written is a prefix of the accepted stream; the quotas determine where it is cut; reading back with C55 |
| C93 | the pool, the chunks and the loop of `generate_infilling` for every sequence of random numbers | induction on the number of samples taken; a pool and what was taken from it are a permutation of the whole |
| C94 | the loops of scripts/evaluate.py over any tokenizer | induction over ids, samples and files; C18 and C20 for ids of this tokenizer; sums over blocks of a decreasing list; line ends by induction over the lines |
| C95 | the truncation of scripts/convert.py as a function on ranks | tokens that already have a rank are never touched; a vocabulary that loses its only frequent token |
| C96 | the counting of scripts/find.py | filtered lists are shorter; the count is the greatest number of cuts at the string, by induction on the text; a string that occurs three times in one sample |
| C97 | `generate` and `logprobs` over IEEE doubles; the logarithm of the platform is any function with a bounded error | relative error of repeated addition, by induction; `log` turns it into an absolute error; the 255 byte tokens keep every score away from zero |
| C98 | the command lines of docs/RECIPES.md (Model/Recipes.lean), from `parseArgs` through `Main` to the files | what the flags mean by C84; then C74, C44, C67, C71, C83 and C86 composed; a structure `Delivered` says what is promised; that mine and generate can succeed from C46, C47 and C97 |
| C99 | `Model::encode` | from C61: the result is the only segmentation whose initial parts are all best with the longest last token; initial parts (for exact scores any parts) inherit that; a witness in doubles for the rest |
| C100 | `add_special_tokens`, the splitter, `encode`, `decode` | induction over the loops: a token that does not occur matches nowhere |
| C101 | `Model::encode`, `VocabularyFilter::filter` | from C61: segmentations are carried over between the vocabularies with their scores and lengths |
| C102 | `Tokenizer::decode` | C59 and the lossy conversion of valid UTF-8 followed by anything |
| C103 | `Error`, its `Display` and `Debug` (Model/Messages.lean) | C03, C16, C20; decimal numbers are injective |
| C104 | `prune_vocab` (Model/Prune.lean), doubles | false: a corpus for which a loss is exactly 0, both over the reals and with doubles and a correctly rounded logarithm; partial: with doubles it returns if no loss is within 2^-22 (per occurrence and sample) of 0: error analysis of the loss |
| C105 | `Regex::new` (Model/Regex.lean) | a text is defined for every pattern (Spec/PatternText.lean); induction over the pattern, over the members of a class and the digits of a number; tokens of texts put together as in C53; members of classes in the other ways they can be written (Proofs/ClassText.lean) |
| C106 | as C05, C61 | a segmentation of x ++ y splits at the boundary if no token crosses it (induction over the ids); then C99; the counterexample is that of C99 |
| C107 | as C15, C21 | the split of `u sp v` is built from that of `v` and is unique; the loop of `encode` is a fold over the pieces, and the draws are shifted |
| C108 | as C01, C22 | induction over the ids; sums over the pieces of the split |
| C109 | as C61 | the characterisation of the returned segmentation (C61) mentions the order of totals only; totals of segmentations of the same bytes are scaled and shifted alike; rounding commutes with multiplication by a power of two |
| C110 | as C61 | with C61, from the monotonicity of addition; two inequalities between the two best segmentations; for doubles a tie that is rounded to even |
| C111 | mining, generating, merging and pruning as before | two runs are compared: without ties a list in decreasing order is determined by its elements; pruning in exact arithmetic by sums that do not depend on the order; ties give different results: witnesses |
| C112 | merging as in C41 | every new token is replaced by the old ones it is made of; a corpus that gets longer with default options |
| C113 | EM as in C78-C80, likelihood as the sum over all cuts | Jensen's inequality per piece, Gibbs' inequality for the scores, bounds on ψ; the corpus `ab` for the negation |
| C114 | any prefix of any interleaving of the workers of C46, C47, C50 and of the prune counts | the invariant of the parallel counters (C46): value plus what is still to be added is constant; per sample the ids, pairs and cut strings are bounded by the bytes |
| C115 | the framed texts as calls of `encode`, `decode` and `encode_ordinary`; the script bindings/python/example.py as a sequence of calls in a session (C76) | twice C107; the runs of C19; inversion of the session, with C23 for the batches |
| C116 | the table of evaluate.py as an association list, the averages and bars of plot.py as exact rationals | induction on the files from the end; a quotient of sums is between the quotients (mediant); C94 for what the counts are |
| C117 | the loop of evaluate.sh and its background jobs as a transition system over a directory, a crash as any reachable state | an invariant that relates the directory to the jobs that are left; a measure that falls with every step; the negation by an explicit run |
| C118 | as C88 | the dynamic program over fewer edges keeps a result all of whose edges are left (its boundaries are leftmost among the best, C61); then the chance that given coins of a list show no `true` |
| C119 | writer of Model/Serde and Model/Json, printed doubles as in Spec/Number64 | a reader that looks up which finite double is printed like this reads every file back (C27 only uses that numbers are printed as JSON numbers); printing is injective because the size of a printed number determines the double nearest to it |
| C120 | Model/CostLattice, Model/CostTrain: the loops of Model/Lattice, Model/Marginal and the E-step of Model/Prune with a counter | the counting functions return the same; at most one token per position and length (C33), so at most L tokens begin and at most L end at a position; sums over snippets, samples and chunks |
| C121 | Model/Shrink: the product of the size and the factor as doubles, and its conversion to an integer | a double below one is below it by 2^-53 at least, which is more than half of the spacing below a whole number; rounding is monotone; induction over the passes |
| C122 | Model/Progress: the arithmetic of the messages with doubles, for any reading of the clock | relative errors of products and quotients; the quotient of two different whole numbers is a double below one, and one hundred times it rounds below one hundred (as for C121); chunks are counted by induction |
| C123 | Model/Number64 (`takeInt`, `takeFrac`, `takeExp`, `fromParts`), Spec/Reading: the number that a text denotes | induction over the digits: what does not fit 64 bits is less than the 2^-60th part; three relative errors of rounding |
| C124 | Model/TrainBpe (scripts/trainbpe.py), Spec/Sources | running the straight-line script; list induction over the files; the share is the quota of C55 up to its sign |
| C125 | Model/Json, Model/Serde (the writers), Spec/Lines | induction over values: strings and numbers have no line breaks, counts of line breaks add up; the file is cut before and after the line of a score |

## What the model says about the code

Where a property that a user would expect is false of the code, the negation is a theorem with a concrete witness and
the claim is `partial`; the theorem with suffix `_partial` says what does hold.

* `Tokenizer::encode` never returns if `""` is a special token (C17).
* At a position where several special tokens match, the first registered one wins, not the longest (C16, C60).
* The CRLF processor turns `\r\r\n` into `\r\n` (C25).
* Loading fails for a tokenizer with a special token that JSON writes with an escape (quote, backslash, control
  character): the loader asks for `&str` (C28_false).
* Scores can change in the last bit when saved and loaded, which can change how a text is encoded
  (C27_false, C28_encode_false); scores that are not finite are written as `null` and make the file unloadable.
* An object without a `type` in the list of processors is read as the CRLF processor (C30_untyped).
* For scores near 10^-9 saving and loading may never settle: two tokenizers that encode a text differently turn into each
  other at every round (C89_false).  For scores between 10^-4 and 10^14 only the first round can change anything.
* `Lattice::viterbi` returns nothing if some token starts where none stops, even if the sentence has segmentations (C34).
* The order of hypotheses in `nbest` breaks the contract of `Ord` (it never says `Equal`); the standard heap works with it
  all the same (C82).
* `nbest` sums scores from the end of the sentence, `viterbi` from its beginning, so with rounding the best segmentation
  may be missing from the `n` best (C35_rounding_false).
* With infinite scores of both signs `encode` may return a segmentation that is not best (C57_infinite_false).
* `merge` does not end if no mergeable pair is left and fewer than `step` merges remain (C42), and can add a token
  twice (C43), also with the default options: scaling scores by 0.9 makes merged tokens better than the tokens they are made
  of, so that a longer token is composed again (C43_default_false).
* `prune` never ends if there are more protected tokens than the target (C49); it panics if a loss is exactly zero (C66, C104: nine short texts and four tokens are enough).
* EM panics when a snippet has probability exactly 1: with a single token (C78_single_false) or with scores that are not
  logarithms of probabilities (C78_scores_false).
* `merge --scale-factor nan` (or `inf`) goes through and writes a file that does not load: the scores are written as `null`
  (C86_merge_scale, C86_merge_false).
* `--force` of `filter` is not a switch but takes `true` or `false` (C84_force).
* Without `--min-score`, `filter` removes nothing but tokens scoring −∞ (C39_no_threshold).
* The generated vocabulary has the bytes 0–254 only (C44); added tokens may be left out when it is full (C67).
* `load_regex` deletes raw line breaks and trims, so a pattern file can be read back as another pattern (C54); the
  combination of no patterns matches everything (C53_empty); the test table in src/regex.rs has an entry that its pattern
  does not match (C68_examples).
* The command that the README gives for the pattern "fine" is the one for "exact", which admits no word with a space before it
  (C83_fine_false).
* An interrupted command destroys the previous output file, but a truncated tokenizer file never loads (C70); an
  interrupted `regex` can leave an empty file that loads as a pattern admitting every string (C70_regex).
* With exactly 2³² base tokens nothing decodes (C56_limit).
* The number of bytes that the progress log reports at the end may be too small (C52_bytes_false), with relaxed atomics even
  after `Task::finish` (C52_relaxed_bytes_false).
* In Python, `save` returns normally when the file could not be written: the exception is set, fetched and dropped (C77).
* The Python module does not export `TokenGeeXError`, and its class has no constructor, which `pickle.loads` needs; both are
  outside the model.
* The O(n) that the documentation of `encode` claims hides the length of the longest token: with tokens a, aa, aaa, … the work
  is that length times the length of the text (C91_factor, C91_not_uniform).
* `Model::decode` is documented to panic on an unknown id, but returns an error (C11).
* scripts/datagen.py: the list `["train" "test"]` has one element, so that writing the Chinese markdown data raises KeyError
  (C92_markdown_false); samples of more than 4096 lines are counted but not skipped (C92_lines_false); a sample with a NUL is read
  back as several (C92_nul); the scripts that read the files see an empty sample more (C92_scripts_readback).
* The infilling test set is made from training samples (C93_leak), and if the samples run out the script ends with ValueError
  and writes nothing more (C93_fails, C93_few).
* scripts/evaluate.py reads files in text mode, so that carriage returns are not counted (C94_newlines); vocabularies of fewer than
  fifty tokens have empty buckets (C94_small).
* scripts/convert.py does not prune by frequency: every token already has a rank, and ranks decide (C95_false); a special token
  can get the rank of another token (C95_collision_false).
* mining, generating and merging are reproducible only without ties: if candidates are equally frequent, the order of a hash table, which
  differs from run to run, decides which one gets in (C111_mine_false, C111_generate_false, C111_merge_false).
* merging can make encodings, and the whole training corpus, longer, because scaled scores make a merged token too attractive
  (C112_false).
* an EM iteration can make the training corpus less likely, because the M-step uses ψ(f) - ψ(total) instead of log f - log total: for two
  tokens of probability 1/2 and the corpus `ab` both scores become about -1 instead of staying -0.69 (C113_false).
* scripts/find.py computes the total share from occurrences, so that it can exceed 100 % (C96_total_false).
* scripts/evaluate.sh takes a half-written result for a result, in every later run (C117); in a directory without vocabularies it
  evaluates the literal name `*.json`.
* scripts/evaluate.py forgets the counts of all but the last of the files with the same base name (C116).
* scripts/trainbpe.py declares `-p` and reads `args.s`: it always fails (C124).
* Not modelled, but seen while reading: scripts/benchmark.py calls `tokengeex.load`, which the package does not have.

## Wrong programs

`seeded/LOG.jsonl` records edits of the model that imitate realistic bugs, each made in a scratch copy, with the theorems
that then fail to check.  Edits that survived led to stronger theorems; edits that are harmless are logged as such.
