{
 "claims": [
  {
   "property": "C01",
   "status": "proved",
   "theorems": [
    "Tokengeex.C01_encode_lossless"
   ],
   "note": "All vocabularies, inputs, dropouts, random sequences."
  },
  {
   "property": "C02",
   "status": "proved",
   "theorems": [
    "Tokengeex.C02_decode_encode"
   ],
   "note": ""
  },
  {
   "property": "C03",
   "status": "proved",
   "theorems": [
    "Tokengeex.C03_encode_complete",
    "Tokengeex.C03_encode_outcomes"
   ],
   "note": ""
  },
  {
   "property": "C04",
   "status": "proved",
   "theorems": [
    "Tokengeex.C04_dropout_total"
   ],
   "note": ""
  },
  {
   "property": "C05",
   "status": "proved",
   "theorems": [
    "Tokengeex.C05_encode_optimal",
    "Tokengeex.C05_encode_optimal_nodup",
    "Tokengeex.C05_duplicates_shadow_false"
   ],
   "note": "Relative to ScoreLaws; instances: integers (int_laws), IEEE binary64 on finite or non-positive values (C57). Competitors use the ids token_to_id returns; for duplicated entries the unrestricted claim is refuted."
  },
  {
   "property": "C06",
   "status": "proved",
   "theorems": [
    "Tokengeex.C06_deterministic",
    "Tokengeex.C06_full_dropout"
   ],
   "note": ""
  },
  {
   "property": "C07",
   "status": "proved",
   "theorems": [
    "Tokengeex.C07_encode_canonical"
   ],
   "note": ""
  },
  {
   "property": "C08",
   "status": "proved",
   "theorems": [
    "Tokengeex.C08_common_prefix_search"
   ],
   "note": ""
  },
  {
   "property": "C09",
   "status": "proved",
   "theorems": [
    "Tokengeex.C09_growth_eq_rebuild"
   ],
   "note": ""
  },
  {
   "property": "C10",
   "status": "proved",
   "theorems": [
    "Tokengeex.C10_lookups"
   ],
   "note": ""
  },
  {
   "property": "C11",
   "status": "proved",
   "theorems": [
    "Tokengeex.C11_decode"
   ],
   "note": ""
  },
  {
   "property": "C12",
   "status": "proved",
   "theorems": [
    "Tokengeex.C12_partition"
   ],
   "note": ""
  },
  {
   "property": "C13",
   "status": "proved",
   "theorems": [
    "Tokengeex.C13_registry"
   ],
   "note": ""
  },
  {
   "property": "C14",
   "status": "proved",
   "theorems": [
    "Tokengeex.C14_stability"
   ],
   "note": ""
  },
  {
   "property": "C15",
   "status": "proved",
   "theorems": [
    "Tokengeex.C15_split_partition"
   ],
   "note": "For non-empty special tokens; see C17 for the empty one."
  },
  {
   "property": "C16",
   "status": "proved",
   "theorems": [
    "Tokengeex.C16_split_leftmost"
   ],
   "note": ""
  },
  {
   "property": "C17",
   "status": "partial",
   "theorems": [
    "Tokengeex.C17_terminates_partial",
    "Tokengeex.C17_terminates_false",
    "Tokengeex.C17_diverges_iff"
   ],
   "note": "False as stated: with \"\" registered as a special token encode loops forever. Proved: termination without it, and exactly when it diverges."
  },
  {
   "property": "C18",
   "status": "proved",
   "theorems": [
    "Tokengeex.C18_round_trip",
    "Tokengeex.C18_round_trip_plain"
   ],
   "note": ""
  },
  {
   "property": "C19",
   "status": "proved",
   "theorems": [
    "Tokengeex.C19_decode_runs",
    "Tokengeex.C19_same_failures"
   ],
   "note": ""
  },
  {
   "property": "C20",
   "status": "proved",
   "theorems": [
    "Tokengeex.C20_decode_errors"
   ],
   "note": ""
  },
  {
   "property": "C21",
   "status": "proved",
   "theorems": [
    "Tokengeex.C21_encode_ordinary"
   ],
   "note": "Assumes the normalisation of the external crate maps the empty text to itself."
  },
  {
   "property": "C22",
   "status": "proved",
   "theorems": [
    "Tokengeex.C22_special_ids"
   ],
   "note": ""
  },
  {
   "property": "C23",
   "status": "proved",
   "theorems": [
    "Tokengeex.C23_encode_batch",
    "Tokengeex.C23_encode_ordinary_batch",
    "Tokengeex.C23_decode_batch",
    "Tokengeex.C23_encode_batch_forced",
    "Tokengeex.C23_batch_terminates",
    "Tokengeex.C23_encode_batch_terminates"
   ],
   "note": "rayon collect as a transition system; every interleaving."
  },
  {
   "property": "C24",
   "status": "proved",
   "theorems": [
    "Tokengeex.C24_token_to_id"
   ],
   "note": ""
  },
  {
   "property": "C25",
   "status": "partial",
   "theorems": [
    "Tokengeex.C25_crlf_exact",
    "Tokengeex.C25_crlf_unchanged",
    "Tokengeex.C25_crlf_residual",
    "Tokengeex.C25_crlf_free_false",
    "Tokengeex.C25_crlf_free_partial"
   ],
   "note": "\"The output contains no \\r\\n\" is false: \\r\\r\\n leaves one. Proved: exact effect, and the output contains \\r\\n iff the input contains \\r\\r\\n."
  },
  {
   "property": "C26",
   "status": "proved",
   "theorems": [
    "Tokengeex.C26_processors"
   ],
   "note": ""
  },
  {
   "property": "C27",
   "status": "partial",
   "theorems": [
    "Tokengeex.C27_token_partial",
    "Tokengeex.C27_false",
    "Tokengeex.C27_digits_partial",
    "Tokengeex.C27_close_partial"
   ],
   "note": "Bytes and keep flag survive for every byte string and both layouts (C27_token_partial). False for scores: with serde_json without float_roundtrip, the score -9.200009999999999 is read back as -9.20001 (C27_false, for every way of printing the fewest digits). Scores with at most 15 digits between 1e-5 and 1e15 survive exactly (C27_digits_partial), all scores in that range up to a factor 1 +- 2^-51 (C27_close_partial); non-finite scores cannot be read."
  },
  {
   "property": "C28",
   "status": "partial",
   "theorems": [
    "Tokengeex.C28_reload_partial",
    "Tokengeex.C28_loaded",
    "Tokengeex.C28_false",
    "Tokengeex.C28_encode_false",
    "Tokengeex.C28_digits_partial",
    "Tokengeex.C28_finite"
   ],
   "note": "False in full: loading fails when a special token needs a JSON escape (C28_false), and saving and loading can change how a text is encoded because scores change in the last digit (C28_encode_false). C28_reload_partial, C28_digits_partial: otherwise the loaded tokenizer equals the saved one. C28_loaded: exact condition for success and what is preserved in general."
  },
  {
   "property": "C29",
   "status": "proved",
   "theorems": [
    "Tokengeex.C29_loader",
    "Tokengeex.C29_order",
    "Tokengeex.C29_rejects",
    "Tokengeex.C29_tokens"
   ],
   "note": ""
  },
  {
   "property": "C30",
   "status": "proved",
   "theorems": [
    "Tokengeex.C30_processors",
    "Tokengeex.C30_decoder",
    "Tokengeex.C30_untyped"
   ],
   "note": "C30_untyped records that objects without a type are read as the CRLF processor."
  },
  {
   "property": "C31",
   "status": "proved",
   "theorems": [
    "Tokengeex.C31_base64"
   ],
   "note": ""
  },
  {
   "property": "C32",
   "status": "proved",
   "theorems": [
    "Tokengeex.C32_reuse"
   ],
   "note": ""
  },
  {
   "property": "C33",
   "status": "proved",
   "theorems": [
    "Tokengeex.C33_populate"
   ],
   "note": ""
  },
  {
   "property": "C34",
   "status": "partial",
   "theorems": [
    "Tokengeex.C34_iff",
    "Tokengeex.C34_same_tokens_partial",
    "Tokengeex.C34_same_score_partial",
    "Tokengeex.C34_no_gaps",
    "Tokengeex.C34_false"
   ],
   "note": "False as stated: viterbi gives up when a token starts where none stops. C34_iff: it agrees with encode exactly if there are no such gaps, and is empty otherwise. Same tokens in exact arithmetic, same score under rounding."
  },
  {
   "property": "C35",
   "status": "proved",
   "theorems": [
    "Tokengeex.C35_sound",
    "Tokengeex.C35_complete",
    "Tokengeex.C35_nbest",
    "Tokengeex.C35_small",
    "Tokengeex.C35_rounding_false",
    "Tokengeex.C35_near"
   ],
   "note": "C35_sound and C35_complete hold for any number type and need only that the queue neither loses nor invents elements. C35_nbest is about exact arithmetic (no rounding) with a queue that pops a largest element; it shows that shrinking the agenda is harmless for n <= 512, which the code does not say. C35_rounding_false shows with finite doubles that exactness is needed there: nbest(2) leaves out what nbest(1) returns. C35_near bounds the loss for finite doubles with the actual agenda; it asks for at most 100000 endings."
  },
  {
   "property": "C36",
   "status": "proved",
   "theorems": [
    "Tokengeex.C36_marginal",
    "Tokengeex.C36_marginal_doubles",
    "Tokengeex.C36_lengths",
    "Tokengeex.C36_populated",
    "Tokengeex.C36_gap_false"
   ],
   "note": "Real arithmetic, including the e^-50 cut-off of log_sum_exp, with explicit error bounds; C36_marginal_doubles: IEEE doubles with exp and ln of any accuracy up to 1/8. C36_gap_false shows the reachability condition is needed."
  },
  {
   "property": "C37",
   "status": "proved",
   "theorems": [
    "Tokengeex.C37_log_sum_exp",
    "Tokengeex.C37_doubles"
   ],
   "note": "C37_log_sum_exp: real arithmetic. C37_doubles: IEEE doubles with exp and ln of any accuracy up to 1/8."
  },
  {
   "property": "C38",
   "status": "proved",
   "theorems": [
    "Tokengeex.C38_filter"
   ],
   "note": "For every score type whose comparison is a total preorder on the scores at hand (binary64 without NaN) and every sorting function."
  },
  {
   "property": "C39",
   "status": "proved",
   "theorems": [
    "Tokengeex.C39_filter",
    "Tokengeex.C39_no_threshold"
   ],
   "note": "Every outcome of the unstable sorts. C39_no_threshold: without min_score only tokens scoring -inf can go, so filtering by size alone does nothing."
  },
  {
   "property": "C40",
   "status": "proved",
   "theorems": [
    "Tokengeex.C40_history"
   ],
   "note": ""
  },
  {
   "property": "C41",
   "status": "proved",
   "theorems": [
    "Tokengeex.C41_merge"
   ],
   "note": ""
  },
  {
   "property": "C42",
   "status": "partial",
   "theorems": [
    "Tokengeex.C42_merge_partial",
    "Tokengeex.C42_false"
   ],
   "note": "C42_false: the claim is false, merging does not end when no mergeable pair is left and fewer than step merges remain. C42_merge_partial: this is the only way not to end."
  },
  {
   "property": "C43",
   "status": "partial",
   "theorems": [
    "Tokengeex.C43_merge_partial",
    "Tokengeex.C43_false",
    "Tokengeex.C43_default_false"
   ],
   "note": "C43_false: the claim is false; C43_default_false: also with the default options in double arithmetic, where scaling by 0.9 makes a merged token too good. C43_merge_partial: true, for every step, with exact unscaled scores from a vocabulary in which no token scores less than some way of composing it."
  },
  {
   "property": "C44",
   "status": "proved",
   "theorems": [
    "Tokengeex.C44_generate"
   ],
   "note": ""
  },
  {
   "property": "C45",
   "status": "proved",
   "theorems": [
    "Tokengeex.C45_logprobs"
   ],
   "note": "Over the real numbers."
  },
  {
   "property": "C46",
   "status": "proved",
   "theorems": [
    "Tokengeex.C46_feed",
    "Tokengeex.C46_exact"
   ],
   "note": ""
  },
  {
   "property": "C47",
   "status": "proved",
   "theorems": [
    "Tokengeex.C47_mine"
   ],
   "note": "The regular expression is an arbitrary function from samples to matches; every chunking, interleaving, iteration order and sort."
  },
  {
   "property": "C48",
   "status": "proved",
   "theorems": [
    "Tokengeex.C48_prune_step",
    "Tokengeex.C48_em_step",
    "Tokengeex.C48_run",
    "Tokengeex.C48_sorted",
    "Tokengeex.C48_no_em"
   ],
   "note": "C48_no_em: without EM iterations pruning only removes, scores stay and texts stay encodable. C48_sorted: for doubles, any exp and ln, the vocabulary after a pass is sorted by score and has no NaN or infinite score."
  },
  {
   "property": "C49",
   "status": "partial",
   "theorems": [
    "Tokengeex.C49_prune_partial",
    "Tokengeex.C49_returns_partial",
    "Tokengeex.C49_doubles_partial",
    "Tokengeex.C49_false",
    "Tokengeex.C49_false_doubles",
    "Tokengeex.C49_never"
   ],
   "note": "C49_false, C49_never: the claim is false, pruning never ends when there are more protected tokens than the target. C49_prune_partial: what bounds the number of passes. C49_returns_partial: over the real numbers it returns, and no pass panics, if additionally no loss is exactly zero. C49_doubles_partial: with doubles and the agenda of the code it returns, and no pass panics, if additionally no loss is close to zero and no byte ends tokens of more than 9/10 of the probability."
  },
  {
   "property": "C50",
   "status": "proved",
   "theorems": [
    "Tokengeex.C50_pairs",
    "Tokengeex.C50_tokens",
    "Tokengeex.C50_progress"
   ],
   "note": "Workers are programs over lock/load/store operations, so the additions are correct only because of the locks."
  },
  {
   "property": "C51",
   "status": "proved",
   "theorems": [
    "Tokengeex.C51_chunks"
   ],
   "note": ""
  },
  {
   "property": "C52",
   "status": "proved",
   "theorems": [
    "Tokengeex.C52_counters",
    "Tokengeex.C52_monitor",
    "Tokengeex.C52_relaxed",
    "Tokengeex.C52_relaxed_monitor",
    "Tokengeex.C52_bytes_false",
    "Tokengeex.C52_relaxed_bytes_false"
   ],
   "note": "C52_counters and C52_monitor take stores to be visible at once; C52_relaxed and C52_relaxed_monitor let the monitor see old values, with coherence per counter. C52_bytes_false: the byte count logged at the end may be too small."
  },
  {
   "property": "C53",
   "status": "proved",
   "theorems": [
    "Tokengeex.C53_allow",
    "Tokengeex.C53_mine",
    "Tokengeex.C53_empty",
    "Tokengeex.C53_isMatch"
   ],
   "note": "For the modelled part of the regex syntax (see Model/Regex.lean); texts with flags, comments or named groups are outside it, and with (?x) comments or duplicate group names the crate may reject the combination of valid patterns."
  },
  {
   "property": "C54",
   "status": "partial",
   "theorems": [
    "Tokengeex.C54_partial",
    "Tokengeex.C54_exact",
    "Tokengeex.C54_loaded",
    "Tokengeex.C54_outer",
    "Tokengeex.C54_lines",
    "Tokengeex.C54_split_lines",
    "Tokengeex.C54_false"
   ],
   "note": "True exactly for patterns without raw line breaks in their text (C54_exact), in particular for all named patterns (C68_command); refuted in general: load_regex deletes raw line breaks."
  },
  {
   "property": "C55",
   "status": "proved",
   "theorems": [
    "Tokengeex.C55_samples",
    "Tokengeex.C55_parts",
    "Tokengeex.C55_invalid",
    "Tokengeex.C55_rejoin",
    "Tokengeex.C55_proportion",
    "Tokengeex.C55_format",
    "Tokengeex.C55_loads",
    "Tokengeex.C55_shuffled"
   ],
   "note": "For fewer than 2^53 samples (their number is converted to a double). A file that is not UTF-8 panics."
  },
  {
   "property": "C56",
   "status": "proved",
   "theorems": [
    "Tokengeex.C56_lossless",
    "Tokengeex.C56_limit",
    "Tokengeex.C56_overflow"
   ],
   "note": "Ids as 32-bit words with the casts of the code: below the limits the 32-bit tokenizer computes what the unbounded one does (C56_lossless); at exactly 2^32 base tokens nothing decodes (C56_limit) and special ids overflow beyond (C56_overflow)."
  },
  {
   "property": "C57",
   "status": "proved",
   "theorems": [
    "Tokengeex.C57_encode_optimal",
    "Tokengeex.C57_rounding",
    "Tokengeex.C57_add",
    "Tokengeex.C57_add_special",
    "Tokengeex.C57_compare",
    "Tokengeex.C57_viterbi",
    "Tokengeex.C57_infinite_false",
    "Tokengeex.C57_error",
    "Tokengeex.C57_mul",
    "Tokengeex.C57_mul_special",
    "Tokengeex.C57_div",
    "Tokengeex.C57_div_special",
    "Tokengeex.C57_of_nat",
    "Tokengeex.C57_normal"
   ],
   "note": "C57_infinite_false: with infinite scores of both signs it does not hold."
  },
  {
   "property": "C58",
   "status": "proved",
   "theorems": [
    "Tokengeex.C58_generated"
   ],
   "note": ""
  },
  {
   "property": "C59",
   "status": "proved",
   "theorems": [
    "Tokengeex.C59_decode_piecewise"
   ],
   "note": ""
  },
  {
   "property": "C60",
   "status": "proved",
   "theorems": [
    "Tokengeex.C60_shadowed_never_emitted",
    "Tokengeex.C60_unshadowed_emitted"
   ],
   "note": ""
  },
  {
   "property": "C61",
   "status": "proved",
   "theorems": [
    "Tokengeex.C61_ties"
   ],
   "note": ""
  },
  {
   "property": "C62",
   "status": "proved",
   "theorems": [
    "Tokengeex.C62_viterbi"
   ],
   "note": "Relative to ScoreLaws."
  },
  {
   "property": "C63",
   "status": "proved",
   "theorems": [
    "Tokengeex.C63_rounds"
   ],
   "note": ""
  },
  {
   "property": "C64",
   "status": "proved",
   "theorems": [
    "Tokengeex.C64_prune_encodable"
   ],
   "note": ""
  },
  {
   "property": "C65",
   "status": "proved",
   "theorems": [
    "Tokengeex.C65_least_loss",
    "Tokengeex.C65_doubles"
   ],
   "note": "C65_least_loss over the real numbers; C65_doubles with doubles, up to rounding, if no loss is close to 0."
  },
  {
   "property": "C66",
   "status": "proved",
   "theorems": [
    "Tokengeex.C66_prune_returns",
    "Tokengeex.C66_no_panic"
   ],
   "note": "Over the real numbers."
  },
  {
   "property": "C67",
   "status": "proved",
   "theorems": [
    "Tokengeex.C67_greedy",
    "Tokengeex.C67_added",
    "Tokengeex.C67_suggested"
   ],
   "note": ""
  },
  {
   "property": "C68",
   "status": "proved",
   "theorems": [
    "Tokengeex.C68_named",
    "Tokengeex.C68_simple",
    "Tokengeex.C68_command",
    "Tokengeex.C68_meaning",
    "Tokengeex.C68_escape",
    "Tokengeex.C68_examples"
   ],
   "note": "C68_examples also records that the test table in the repository has one entry its pattern does not match."
  },
  {
   "property": "C69",
   "status": "proved",
   "theorems": [
    "Tokengeex.C69_split",
    "Tokengeex.C69_no_panic",
    "Tokengeex.C69_encode"
   ],
   "note": "The splitter with byte offsets and slices that panic off a character boundary refines the splitter on characters."
  },
  {
   "property": "C70",
   "status": "proved",
   "theorems": [
    "Tokengeex.C70_save",
    "Tokengeex.C70_idioms",
    "Tokengeex.C70_stops",
    "Tokengeex.C70_regex"
   ],
   "note": "C70_regex proves the exception stated in the property."
  },
  {
   "property": "C71",
   "status": "proved",
   "theorems": [
    "Tokengeex.C71_processors",
    "Tokengeex.C71_files",
    "Tokengeex.C71_prune",
    "Tokengeex.C71_filter",
    "Tokengeex.C71_merge",
    "Tokengeex.C71_generate"
   ],
   "note": "Commands as relations on file systems (Model/Cli.lean). Prune is limited to 2^32 - 2 tokens."
  },
  {
   "property": "C72",
   "status": "proved",
   "theorems": [
    "Tokengeex.C72_generate",
    "Tokengeex.C72_merge"
   ],
   "note": "Patterns within the modelled part of the regex syntax. With line breaks in a pattern it is false (C54_false)."
  },
  {
   "property": "C73",
   "status": "proved",
   "theorems": [
    "Tokengeex.C73_history"
   ],
   "note": "Prune commands are limited to inputs of 2^32 - 2 tokens; files from elsewhere may appear if they do not load as tokenizers lacking protected bytes."
  },
  {
   "property": "C74",
   "status": "proved",
   "theorems": [
    "Tokengeex.C74_idioms",
    "Tokengeex.C74_pipeline",
    "Tokengeex.C74_patterns"
   ],
   "note": "C74_patterns assumes that the search of the crate regex yields real matches and at least one if there is any."
  },
  {
   "property": "C75",
   "status": "proved",
   "theorems": [
    "Tokengeex.C75_reader",
    "Tokengeex.C75_loads",
    "Tokengeex.C75_unique",
    "Tokengeex.C75_saved"
   ],
   "note": "The grammar of RFC 8259 with values is Spec/JsonGrammar.lean; C75_reader proves the reader sound and complete for it, for texts of any length. serde_json itself is outside /repo: the reader models its documented behaviour."
  },
  {
   "property": "C76",
   "status": "proved",
   "theorems": [
    "Tokengeex.C76_reachable",
    "Tokengeex.C76_created",
    "Tokengeex.C76_answers",
    "Tokengeex.C76_changes",
    "Tokengeex.C76_settled",
    "Tokengeex.C76_round_trip",
    "Tokengeex.C76_effects",
    "Tokengeex.C76_raises",
    "Tokengeex.C76_pickle"
   ],
   "note": "Calls happen one after the other because every method holds the lock of the interpreter. PyO3 itself (argument conversion, object construction by pickle) is not modelled. A call that does not return (C17) has no reply."
  },
  {
   "property": "C77",
   "status": "partial",
   "theorems": [
    "Tokengeex.C77_false",
    "Tokengeex.C77_save_partial"
   ],
   "note": "False as stated: save drops the error of the crate, so that it returns normally when the file could not be written. C77_save_partial says what holds: the file is as it was, or does not load, or loads as the tokenizer."
  },
  {
   "property": "C78",
   "status": "proved",
   "theorems": [
    "Tokengeex.C78_em",
    "Tokengeex.C78_run",
    "Tokengeex.C78_e_step",
    "Tokengeex.C78_m_step",
    "Tokengeex.C78_generated",
    "Tokengeex.C78_single_false",
    "Tokengeex.C78_scores_false",
    "Tokengeex.C78_e_step_doubles",
    "Tokengeex.C78_em_doubles",
    "Tokengeex.C78_certain_false"
   ],
   "note": "Over the real numbers, and C78_e_step_doubles and C78_em_doubles for doubles (exp and ln accurate to 2^-40; no byte may end tokens of more than 9/10 of the probability, which the theorems ask of every iteration anew). C78_single_false, C78_scores_false and C78_certain_false: why the conditions are needed."
  },
  {
   "property": "C79",
   "status": "proved",
   "theorems": [
    "Tokengeex.C79_expected_uses",
    "Tokengeex.C79_total",
    "Tokengeex.C79_any_order",
    "Tokengeex.C79_expected_uses_doubles"
   ],
   "note": "C79_any_order for any arithmetic; C79_expected_uses_doubles for doubles, with an explicit error bound in terms of the accuracy of exp and ln; the others over the real numbers; vocabularies of at most 2^32 tokens."
  },
  {
   "property": "C80",
   "status": "proved",
   "theorems": [
    "Tokengeex.C80_digamma",
    "Tokengeex.C80_m_step",
    "Tokengeex.C80_em_step",
    "Tokengeex.C80_digamma_doubles",
    "Tokengeex.C80_m_step_doubles"
   ],
   "note": "Over the real numbers, and C80_digamma_doubles and C80_m_step_doubles for doubles, assuming that ln is accurate to 2^-40 absolutely; for doubles the M-step is moreover shown not to panic."
  },
  {
   "property": "C81",
   "status": "proved",
   "theorems": [
    "Tokengeex.C81_candidates",
    "Tokengeex.C81_refines"
   ],
   "note": "Candidate loops of feed on byte offsets."
  },
  {
   "property": "C82",
   "status": "proved",
   "theorems": [
    "Tokengeex.C82_agenda",
    "Tokengeex.C82_any",
    "Tokengeex.C82_order",
    "Tokengeex.C82_nbest",
    "Tokengeex.C82_sound",
    "Tokengeex.C82_complete"
   ],
   "note": "Model of the standard BinaryHeap with the order that nbest gives it."
  },
  {
   "property": "C83",
   "status": "proved",
   "theorems": [
    "Tokengeex.C83_file",
    "Tokengeex.C83_admits",
    "Tokengeex.C83_promises",
    "Tokengeex.C83_fine_false",
    "Tokengeex.C83_generate"
   ],
   "note": "The shipped pattern file, byte by byte, and its language."
  },
  {
   "property": "C84",
   "status": "proved",
   "theorems": [
    "Tokengeex.C84_reads",
    "Tokengeex.C84_unambiguous",
    "Tokengeex.C84_main",
    "Tokengeex.C84_force",
    "Tokengeex.C84_history"
   ],
   "note": "Exact characterisation of the accepted command lines and of what they ask for; the parser is that of the crate xflags."
  },
  {
   "property": "C85",
   "status": "proved",
   "theorems": [
    "Tokengeex.C85_encode",
    "Tokengeex.C85_prune",
    "Tokengeex.C85_merge",
    "Tokengeex.C85_generate",
    "Tokengeex.C85_mine"
   ],
   "note": "Stated as independence of everything but the processed samples; SourceTexts in Spec/Cli.lean says what the samples are."
  },
  {
   "property": "C86",
   "status": "proved",
   "theorems": [
    "Tokengeex.C86_loaded",
    "Tokengeex.C86_prune",
    "Tokengeex.C86_filter",
    "Tokengeex.C86_generate",
    "Tokengeex.C86_merge",
    "Tokengeex.C86_merge_scale",
    "Tokengeex.C86_merge_false",
    "Tokengeex.C28_finite"
   ],
   "note": "exp and ln are arbitrary functions on doubles. C86_merge_scale and C86_merge_false: with a scale factor that is NaN or infinite, merge writes files that do not load."
  },
  {
   "property": "C87",
   "status": "proved",
   "theorems": [
    "Tokengeex.C87_independent",
    "Tokengeex.C87_chance",
    "Tokengeex.C87_mean"
   ],
   "note": "Chances are means over independent coins (Spec/Chance.lean); that a number drawn is below the probability with chance p is the assumption about the random generator. Added and suggested tokens are assumed non-empty."
  },
  {
   "property": "C88",
   "status": "proved",
   "theorems": [
    "Tokengeex.C88_encode",
    "Tokengeex.C88_lattice"
   ],
   "note": "The law of the result is that of independent striking; which best segmentation is taken among equals is left open here (C61 settles it without dropout)."
  },
  {
   "property": "C89",
   "status": "partial",
   "theorems": [
    "Tokengeex.C89_stable_partial",
    "Tokengeex.C89_false"
   ],
   "note": "False for scores near 1e-9 (two tokenizers that turn into each other for ever). Proved for scores that are zero or between 1e-4 and 1e14 in absolute value."
  },
  {
   "property": "C90",
   "status": "proved",
   "theorems": [
    "Tokengeex.C90_bytes",
    "Tokengeex.C90_filter"
   ],
   "note": ""
  },
  {
   "property": "C91",
   "status": "proved",
   "theorems": [
    "Tokengeex.C91_encode",
    "Tokengeex.C91_decode",
    "Tokengeex.C91_tokenizer",
    "Tokengeex.C91_crlf",
    "Tokengeex.C91_factor",
    "Tokengeex.C91_not_uniform"
   ],
   "note": "steps are bytes read, candidates, table entries, positions, bytes compared or copied; the processors themselves (standard library, Unicode crate) are not counted; C91_factor and C91_not_uniform show the constant must depend on the longest token"
  },
  {
   "property": "C92",
   "status": "proved",
   "theorems": [
    "Tokengeex.C92_split",
    "Tokengeex.C92_unique",
    "Tokengeex.C92_accepts",
    "Tokengeex.C92_readback",
    "Tokengeex.C92_scripts_readback",
    "Tokengeex.C92_nul",
    "Tokengeex.C92_lines_false",
    "Tokengeex.C92_markdown_false",
    "Tokengeex.C92_markdown_comma"
   ],
   "note": "the tests use str.isdigit, regular expressions and comparisons of quotients, which are parameters"
  },
  {
   "property": "C93",
   "status": "proved",
   "theorems": [
    "Tokengeex.C93_infilling",
    "Tokengeex.C93_pool",
    "Tokengeex.C93_fails",
    "Tokengeex.C93_few",
    "Tokengeex.C93_leak"
   ],
   "note": "random numbers are an arbitrary sequence"
  },
  {
   "property": "C94",
   "status": "proved",
   "theorems": [
    "Tokengeex.C94_counts",
    "Tokengeex.C94_fails",
    "Tokengeex.C94_tokengeex",
    "Tokengeex.C94_newlines",
    "Tokengeex.C94_newlines_same",
    "Tokengeex.C94_newlines_crlf",
    "Tokengeex.C94_newlines_cr",
    "Tokengeex.C94_samples",
    "Tokengeex.C94_buckets",
    "Tokengeex.C94_small"
   ],
   "note": "the displayed ratio and the output format are not modelled"
  },
  {
   "property": "C95",
   "status": "partial",
   "theorems": [
    "Tokengeex.C95_partial",
    "Tokengeex.C95_bytes",
    "Tokengeex.C95_false",
    "Tokengeex.C95_collision_false"
   ],
   "note": "false as documented: which tokens are kept depends on their ranks only (C95_false); what holds is that every byte is kept and a token is kept if its rank is below the size"
  },
  {
   "property": "C96",
   "status": "partial",
   "theorems": [
    "Tokengeex.C96_file_partial",
    "Tokengeex.C96_occurrences",
    "Tokengeex.C96_counts",
    "Tokengeex.C96_totals",
    "Tokengeex.C96_never_all",
    "Tokengeex.C96_total_false"
   ],
   "note": "the total share is made from occurrences and can exceed 100 % (C96_total_false), and in files written by datagen an empty sample is counted too (C96_never_all); the rest of the statement is proved"
  },
  {
   "property": "C97",
   "status": "proved",
   "theorems": [
    "Tokengeex.C97_generate"
   ],
   "note": "IEEE doubles as modelled in Model/Float64; the platform logarithm is any function within 2^-40 of the logarithm (ln_exists shows that there are such functions, also monotone ones). generate_f64_case meets the hypotheses."
  },
  {
   "property": "C98",
   "status": "proved",
   "theorems": [
    "Tokengeex.C98_mine_flags",
    "Tokengeex.C98_generate_flags",
    "Tokengeex.C98_prune_flags",
    "Tokengeex.C98_mine",
    "Tokengeex.C98_generate",
    "Tokengeex.C98_prune",
    "Tokengeex.C98_text",
    "Tokengeex.C98_pipeline",
    "Tokengeex.C98_mine_succeeds",
    "Tokengeex.C98_generate_succeeds"
   ],
   "note": "Given that the commands exit with code 0. That pruning succeeds is not claimed. C98_generate_succeeds assumes a logarithm with an absolute error of at most 2^-40 and bounded sizes. The crate regex is assumed to find only matches (FindLaws)."
  },
  {
   "property": "C99",
   "status": "proved",
   "theorems": [
    "Tokengeex.C99_prefix",
    "Tokengeex.C99_part",
    "Tokengeex.C99_part_false"
   ],
   "note": "C99_part_false: with doubles, ids other than the first ones need not be the encoding of what they spell."
  },
  {
   "property": "C100",
   "status": "proved",
   "theorems": [
    "Tokengeex.C100_encode",
    "Tokengeex.C100_ordinary",
    "Tokengeex.C100_decode"
   ],
   "note": ""
  },
  {
   "property": "C101",
   "status": "proved",
   "theorems": [
    "Tokengeex.C101_unused",
    "Tokengeex.C101_order",
    "Tokengeex.C101_more",
    "Tokengeex.C101_filter"
   ],
   "note": "Relative to ScoreLaws, which doubles satisfy (C57)."
  },
  {
   "property": "C102",
   "status": "proved",
   "theorems": [
    "Tokengeex.C102_decode",
    "Tokengeex.C102_inside_false"
   ],
   "note": ""
  },
  {
   "property": "C103",
   "status": "proved",
   "theorems": [
    "Tokengeex.C103_encode",
    "Tokengeex.C103_ordinary",
    "Tokengeex.C103_decode",
    "Tokengeex.C103_message"
   ],
   "note": "Texts of IO and JSON errors come from other crates and are not modelled."
  },
  {
   "property": "C104",
   "status": "partial",
   "theorems": [
    "Tokengeex.C104_doubles_partial",
    "Tokengeex.C66_no_panic",
    "Tokengeex.C104_panics",
    "Tokengeex.C104_false",
    "Tokengeex.C104_prune_false",
    "Tokengeex.C104_false_doubles",
    "Tokengeex.C104_prune_false_doubles"
   ],
   "note": "False in general (C104_false over the reals, C104_false_doubles with doubles and a correctly rounded logarithm). Over the reals it panics if the loss of a token that is worth more than its alternatives is 0 and returns if no loss is 0. With doubles it returns if no loss is close to 0; between the two nothing is proved."
  },
  {
   "property": "C105",
   "status": "proved",
   "theorems": [
    "Tokengeex.C105_write",
    "Tokengeex.C105_compose",
    "Tokengeex.C105_reject",
    "Tokengeex.C105_number",
    "Tokengeex.C105_class",
    "Tokengeex.C105_escape"
   ],
   "note": "About the modelled part of the syntax of the crate regex. C68_escape says how literal text is written."
  },
  {
   "property": "C106",
   "status": "proved",
   "theorems": [
    "Tokengeex.C106_join",
    "Tokengeex.C106_gain",
    "Tokengeex.C106_pieces",
    "Tokengeex.C106_rounded",
    "Tokengeex.C106_lines",
    "Tokengeex.C106_pieces_false"
   ],
   "note": "C106_pieces_false: with doubles the second part can differ."
  },
  {
   "property": "C107",
   "status": "proved",
   "theorems": [
    "Tokengeex.C107_piecewise",
    "Tokengeex.C107_plain",
    "Tokengeex.C107_messages"
   ],
   "note": "Assumes that normalisation maps the empty text to itself."
  },
  {
   "property": "C108",
   "status": "proved",
   "theorems": [
    "Tokengeex.C108_model",
    "Tokengeex.C108_full_dropout",
    "Tokengeex.C108_tokenizer"
   ],
   "note": ""
  },
  {
   "property": "C109",
   "status": "proved",
   "theorems": [
    "Tokengeex.C109_order",
    "Tokengeex.C109_scale",
    "Tokengeex.C109_doubles"
   ],
   "note": ""
  },
  {
   "property": "C110",
   "status": "proved",
   "theorems": [
    "Tokengeex.C110_worse",
    "Tokengeex.C110_worse_doubles",
    "Tokengeex.C110_better",
    "Tokengeex.C110_rounding_false"
   ],
   "note": ""
  },
  {
   "property": "C111",
   "status": "partial",
   "theorems": [
    "Tokengeex.C111_mine_partial",
    "Tokengeex.C111_mine_false",
    "Tokengeex.C111_generate_partial",
    "Tokengeex.C111_generate_doubles_partial",
    "Tokengeex.C111_generate_false",
    "Tokengeex.C111_merge_partial",
    "Tokengeex.C111_merge_false",
    "Tokengeex.C111_prune"
   ],
   "note": "False in general: where candidates tie, the order of a hash table decides (C111_mine_false, C111_generate_false, C111_merge_false). Proved without ties; pruning is proved in exact arithmetic with ties too, with doubles the sums of threads depend on their order."
  },
  {
   "property": "C112",
   "status": "partial",
   "theorems": [
    "Tokengeex.C112_merge_partial",
    "Tokengeex.C112_false"
   ],
   "note": "C112_false: the claim is false, with the default scale factor merging the most frequent pair can make the corpus itself longer. C112_merge_partial: true in exact arithmetic, with unscaled scores, for texts with only one best segmentation."
  },
  {
   "property": "C113",
   "status": "partial",
   "theorems": [
    "Tokengeex.C113_em_partial",
    "Tokengeex.C113_false"
   ],
   "note": "C113_false: the claim is false, because the M-step uses the digamma function instead of the logarithm: for two tokens of probability 1/2 and the corpus \"ab\" every iteration lowers the likelihood. C113_em_partial: with real arithmetic, no dropout and no token dropped, the log-likelihood falls by at most twice the size of the vocabulary plus the number of bytes divided by 200000. Missing: iterations that drop tokens."
  },
  {
   "property": "C114",
   "status": "proved",
   "theorems": [
    "Tokengeex.C114_merge",
    "Tokengeex.C114_prune",
    "Tokengeex.C114_mine",
    "Tokengeex.C114_feed",
    "Tokengeex.C114_generate"
   ],
   "note": "Mining assumes at most one match per byte and one more. The sum start size + num_merges in merge overflows only if 2^64 minus the vocabulary size or more merges are asked for."
  },
  {
   "property": "C115",
   "status": "proved",
   "theorems": [
    "Tokengeex.C115_framed",
    "Tokengeex.C115_unframed",
    "Tokengeex.C115_ordinary",
    "Tokengeex.C115_example",
    "Tokengeex.C115_returns"
   ],
   "note": "The printing in the example, and the calls before line 28 and after line 66, are left out: they assert nothing but that the vocabulary has the token Hello."
  },
  {
   "property": "C116",
   "status": "proved",
   "theorems": [
    "Tokengeex.C116_name",
    "Tokengeex.C116_table",
    "Tokengeex.C116_average",
    "Tokengeex.C116_whole",
    "Tokengeex.C116_subset",
    "Tokengeex.C116_percentages"
   ],
   "note": "Quotients are exact rationals; the scripts divide doubles. Drawing, labels and the order of the bars by language are not modelled."
  },
  {
   "property": "C117",
   "status": "partial",
   "theorems": [
    "Tokengeex.C117_run",
    "Tokengeex.C117_stopped",
    "Tokengeex.C117_ends",
    "Tokengeex.C117_again_false",
    "Tokengeex.C117_again_partial"
   ],
   "note": "The last sentence is false: a run stopped just after the output file of a vocabulary was opened leaves an empty file, which all later runs take for its result (C117_again_false). If no file was half written when the run was stopped, it holds (C117_again_partial)."
  },
  {
   "property": "C118",
   "status": "proved",
   "theorems": [
    "Tokengeex.C118_same",
    "Tokengeex.C118_spelled"
   ],
   "note": "Random numbers are modelled by the outcomes of their comparisons with the dropout, as in C88."
  },
  {
   "property": "C119",
   "status": "proved",
   "theorems": [
    "Tokengeex.C119_text",
    "Tokengeex.C119_bytes",
    "Tokengeex.C119_not_finite"
   ],
   "note": "Relative to SerdeDoubles, the specification of how serde_json prints doubles. C119_not_finite: with scores that are not finite it is false."
  },
  {
   "property": "C120",
   "status": "proved",
   "theorems": [
    "Tokengeex.C120_linear",
    "Tokengeex.C120_square",
    "Tokengeex.C120_e_step"
   ],
   "note": "Steps are positions, bytes read, candidates, nodes and pairs of nodes visited, entries of tables initialised. Re-initialising a lattice and nbest are not counted. C120_square is stated for real numbers."
  },
  {
   "property": "C121",
   "status": "proved",
   "theorems": [
    "Tokengeex.C121_shrinks",
    "Tokengeex.C121_stays",
    "Tokengeex.C121_default",
    "Tokengeex.C121_keeps",
    "Tokengeex.C121_never",
    "Tokengeex.C121_forever",
    "Tokengeex.C121_passes"
   ],
   "note": "Sizes below 2^53, for C121_default below 2^32 (ids are u32). C121_forever assumes ln up to 2^-40. C121_passes assumes ln and exp up to 2^-40 and a vocabulary and corpus fit for doubles, as C49_doubles_partial does, whose first condition C121_shrinks discharges."
  },
  {
   "property": "C122",
   "status": "proved",
   "theorems": [
    "Tokengeex.C122_stop",
    "Tokengeex.C122_says",
    "Tokengeex.C122_messages",
    "Tokengeex.C122_silent",
    "Tokengeex.C122_finished",
    "Tokengeex.C122_chunks"
   ],
   "note": "Counts below 2^53 and times of at most 2^64 seconds. The times are any doubles, so that the clock need not be modelled; that at least a second has passed is because the monitor sleeps first. How the numbers are printed is not modelled. The announced number of chunks is one too many if the chunk size divides the number of samples, which C122_chunks states exactly."
  },
  {
   "property": "C123",
   "status": "proved",
   "theorems": [
    "Tokengeex.C123_accurate",
    "Tokengeex.C123_zero",
    "Tokengeex.C123_order"
   ],
   "note": "serde_json is not part of the repository; its reading of numbers (without the feature float_roundtrip) is modelled from its published code. Numbers of more extreme magnitude are not covered, except that what is read is finite (C28_finite)."
  },
  {
   "property": "C124",
   "status": "proved",
   "theorems": [
    "Tokengeex.C124_never",
    "Tokengeex.C124_documented",
    "Tokengeex.C124_samples",
    "Tokengeex.C124_same",
    "Tokengeex.C124_proportion",
    "Tokengeex.C124_invalid"
   ],
   "note": "argparse is modelled on options already cut into letter and value; the libraries that train are a parameter and, by C124_never, are never reached."
  },
  {
   "property": "C125",
   "status": "proved",
   "theorems": [
    "Tokengeex.C125_one_line",
    "Tokengeex.C125_lines",
    "Tokengeex.C125_score",
    "Tokengeex.C125_added"
   ],
   "note": "The layout is that of serde_json (to_string and to_string_pretty), which is not part of the repository. Other characters that some programs treat as line ends, such as U+2028, are written as they are."
  }
 ]
}