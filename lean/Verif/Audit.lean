import Verif.Props.Base64
import Verif.Props.Batch
import Verif.Props.BinaryHeap
import Verif.Props.Cli
import Verif.Props.CliHistory
import Verif.Props.Concat
import Verif.Props.Cost
import Verif.Props.CostLattice
import Verif.Props.CostTrain
import Verif.Props.CountF64
import Verif.Props.Counting
import Verif.Props.Datagen
import Verif.Props.DefaultVocab
import Verif.Props.Distinct
import Verif.Props.Dropout
import Verif.Props.EM
import Verif.Props.EncodePieces
import Verif.Props.EvalAll
import Verif.Props.EvalScripts
import Verif.Props.ExactRegex
import Verif.Props.Filter
import Verif.Props.FindScripts
import Verif.Props.Flags
import Verif.Props.Float64
import Verif.Props.Float64Ops
import Verif.Props.Framing
import Verif.Props.Generate
import Verif.Props.GenerateBytes
import Verif.Props.GenerateF64
import Verif.Props.History
import Verif.Props.Infilling
import Verif.Props.InsertChance
import Verif.Props.JsonGrammar
import Verif.Props.Lattice
import Verif.Props.Likelihood
import Verif.Props.Lines
import Verif.Props.Locality
import Verif.Props.LogSumExp
import Verif.Props.LseF64
import Verif.Props.Marginal
import Verif.Props.MarginalF64
import Verif.Props.Merge
import Verif.Props.MergeDefault
import Verif.Props.MergeLength
import Verif.Props.Messages
import Verif.Props.Model
import Verif.Props.Monotone
import Verif.Props.NBest
import Verif.Props.NBestAny
import Verif.Props.Number64
import Verif.Props.Overflow
import Verif.Props.PatternLines
import Verif.Props.PatternText
import Verif.Props.Plots
import Verif.Props.Processor
import Verif.Props.Progress
import Verif.Props.Prune
import Verif.Props.PruneF64
import Verif.Props.PruneLossF64
import Verif.Props.PruneOnly
import Verif.Props.PrunePanic
import Verif.Props.PrunePanicF64
import Verif.Props.Python
import Verif.Props.Reading
import Verif.Props.RecipeFlags
import Verif.Props.Recipes
import Verif.Props.Reestimate
import Verif.Props.ReestimateF64
import Verif.Props.Regex
import Verif.Props.Relative
import Verif.Props.RelativeF64
import Verif.Props.Reproducible
import Verif.Props.ReturnsF64
import Verif.Props.Rounding
import Verif.Props.Serde
import Verif.Props.Shrink
import Verif.Props.Size
import Verif.Props.Sources
import Verif.Props.Spared
import Verif.Props.SplitterBytes
import Verif.Props.Stable
import Verif.Props.Streaming
import Verif.Props.Task
import Verif.Props.TaskRelaxed
import Verif.Props.Tokenizer
import Verif.Props.TrainBpe
import Verif.Props.TrainF64
import Verif.Props.TrainingTexts
import Verif.Props.U32
import Verif.Props.UnitTests
import Verif.Props.WrittenFiles
/-
Axioms of every theorem named in MANIFEST.json (printed by the build).
-/
#print axioms Tokengeex.C01_encode_lossless
#print axioms Tokengeex.C02_decode_encode
#print axioms Tokengeex.C03_encode_complete
#print axioms Tokengeex.C03_encode_outcomes
#print axioms Tokengeex.C04_dropout_total
#print axioms Tokengeex.C05_encode_optimal
#print axioms Tokengeex.C05_encode_optimal_nodup
#print axioms Tokengeex.C05_duplicates_shadow_false
#print axioms Tokengeex.C06_deterministic
#print axioms Tokengeex.C06_full_dropout
#print axioms Tokengeex.C07_encode_canonical
#print axioms Tokengeex.C08_common_prefix_search
#print axioms Tokengeex.C09_growth_eq_rebuild
#print axioms Tokengeex.C10_lookups
#print axioms Tokengeex.C11_decode
#print axioms Tokengeex.C12_partition
#print axioms Tokengeex.C13_registry
#print axioms Tokengeex.C14_stability
#print axioms Tokengeex.C15_split_partition
#print axioms Tokengeex.C16_split_leftmost
#print axioms Tokengeex.C17_terminates_partial
#print axioms Tokengeex.C17_terminates_false
#print axioms Tokengeex.C17_diverges_iff
#print axioms Tokengeex.C18_round_trip
#print axioms Tokengeex.C18_round_trip_plain
#print axioms Tokengeex.C19_decode_runs
#print axioms Tokengeex.C19_same_failures
#print axioms Tokengeex.C20_decode_errors
#print axioms Tokengeex.C21_encode_ordinary
#print axioms Tokengeex.C22_special_ids
#print axioms Tokengeex.C23_encode_batch
#print axioms Tokengeex.C23_encode_ordinary_batch
#print axioms Tokengeex.C23_decode_batch
#print axioms Tokengeex.C23_encode_batch_forced
#print axioms Tokengeex.C23_batch_terminates
#print axioms Tokengeex.C23_encode_batch_terminates
#print axioms Tokengeex.C24_token_to_id
#print axioms Tokengeex.C25_crlf_exact
#print axioms Tokengeex.C25_crlf_unchanged
#print axioms Tokengeex.C25_crlf_residual
#print axioms Tokengeex.C25_crlf_free_false
#print axioms Tokengeex.C25_crlf_free_partial
#print axioms Tokengeex.C26_processors
#print axioms Tokengeex.C27_token_partial
#print axioms Tokengeex.C27_false
#print axioms Tokengeex.C27_digits_partial
#print axioms Tokengeex.C27_close_partial
#print axioms Tokengeex.C28_reload_partial
#print axioms Tokengeex.C28_loaded
#print axioms Tokengeex.C28_false
#print axioms Tokengeex.C28_encode_false
#print axioms Tokengeex.C28_digits_partial
#print axioms Tokengeex.C28_finite
#print axioms Tokengeex.C29_loader
#print axioms Tokengeex.C29_order
#print axioms Tokengeex.C29_rejects
#print axioms Tokengeex.C29_tokens
#print axioms Tokengeex.C30_processors
#print axioms Tokengeex.C30_decoder
#print axioms Tokengeex.C30_untyped
#print axioms Tokengeex.C31_base64
#print axioms Tokengeex.C32_reuse
#print axioms Tokengeex.C33_populate
#print axioms Tokengeex.C34_iff
#print axioms Tokengeex.C34_same_tokens_partial
#print axioms Tokengeex.C34_same_score_partial
#print axioms Tokengeex.C34_no_gaps
#print axioms Tokengeex.C34_false
#print axioms Tokengeex.C35_sound
#print axioms Tokengeex.C35_complete
#print axioms Tokengeex.C35_nbest
#print axioms Tokengeex.C35_small
#print axioms Tokengeex.C35_rounding_false
#print axioms Tokengeex.C35_near
#print axioms Tokengeex.C36_marginal
#print axioms Tokengeex.C36_marginal_doubles
#print axioms Tokengeex.C36_lengths
#print axioms Tokengeex.C36_populated
#print axioms Tokengeex.C36_gap_false
#print axioms Tokengeex.C37_log_sum_exp
#print axioms Tokengeex.C37_doubles
#print axioms Tokengeex.C38_filter
#print axioms Tokengeex.C39_filter
#print axioms Tokengeex.C39_no_threshold
#print axioms Tokengeex.C40_history
#print axioms Tokengeex.C41_merge
#print axioms Tokengeex.C42_merge_partial
#print axioms Tokengeex.C42_false
#print axioms Tokengeex.C43_merge_partial
#print axioms Tokengeex.C43_false
#print axioms Tokengeex.C43_default_false
#print axioms Tokengeex.C44_generate
#print axioms Tokengeex.C45_logprobs
#print axioms Tokengeex.C46_feed
#print axioms Tokengeex.C46_exact
#print axioms Tokengeex.C47_mine
#print axioms Tokengeex.C48_prune_step
#print axioms Tokengeex.C48_em_step
#print axioms Tokengeex.C48_run
#print axioms Tokengeex.C48_sorted
#print axioms Tokengeex.C48_no_em
#print axioms Tokengeex.C49_prune_partial
#print axioms Tokengeex.C49_returns_partial
#print axioms Tokengeex.C49_doubles_partial
#print axioms Tokengeex.C49_false
#print axioms Tokengeex.C49_false_doubles
#print axioms Tokengeex.C49_never
#print axioms Tokengeex.C50_pairs
#print axioms Tokengeex.C50_tokens
#print axioms Tokengeex.C50_progress
#print axioms Tokengeex.C51_chunks
#print axioms Tokengeex.C52_counters
#print axioms Tokengeex.C52_monitor
#print axioms Tokengeex.C52_relaxed
#print axioms Tokengeex.C52_relaxed_monitor
#print axioms Tokengeex.C52_bytes_false
#print axioms Tokengeex.C52_relaxed_bytes_false
#print axioms Tokengeex.C53_allow
#print axioms Tokengeex.C53_mine
#print axioms Tokengeex.C53_empty
#print axioms Tokengeex.C53_isMatch
#print axioms Tokengeex.C54_partial
#print axioms Tokengeex.C54_exact
#print axioms Tokengeex.C54_loaded
#print axioms Tokengeex.C54_outer
#print axioms Tokengeex.C54_lines
#print axioms Tokengeex.C54_split_lines
#print axioms Tokengeex.C54_false
#print axioms Tokengeex.C55_samples
#print axioms Tokengeex.C55_parts
#print axioms Tokengeex.C55_invalid
#print axioms Tokengeex.C55_rejoin
#print axioms Tokengeex.C55_proportion
#print axioms Tokengeex.C55_format
#print axioms Tokengeex.C55_loads
#print axioms Tokengeex.C55_shuffled
#print axioms Tokengeex.C56_lossless
#print axioms Tokengeex.C56_limit
#print axioms Tokengeex.C56_overflow
#print axioms Tokengeex.C57_encode_optimal
#print axioms Tokengeex.C57_rounding
#print axioms Tokengeex.C57_add
#print axioms Tokengeex.C57_add_special
#print axioms Tokengeex.C57_compare
#print axioms Tokengeex.C57_viterbi
#print axioms Tokengeex.C57_infinite_false
#print axioms Tokengeex.C57_error
#print axioms Tokengeex.C57_mul
#print axioms Tokengeex.C57_mul_special
#print axioms Tokengeex.C57_div
#print axioms Tokengeex.C57_div_special
#print axioms Tokengeex.C57_of_nat
#print axioms Tokengeex.C57_normal
#print axioms Tokengeex.C58_generated
#print axioms Tokengeex.C59_decode_piecewise
#print axioms Tokengeex.C60_shadowed_never_emitted
#print axioms Tokengeex.C60_unshadowed_emitted
#print axioms Tokengeex.C61_ties
#print axioms Tokengeex.C62_viterbi
#print axioms Tokengeex.C63_rounds
#print axioms Tokengeex.C64_prune_encodable
#print axioms Tokengeex.C65_least_loss
#print axioms Tokengeex.C65_doubles
#print axioms Tokengeex.C66_prune_returns
#print axioms Tokengeex.C66_no_panic
#print axioms Tokengeex.C67_greedy
#print axioms Tokengeex.C67_added
#print axioms Tokengeex.C67_suggested
#print axioms Tokengeex.C68_named
#print axioms Tokengeex.C68_simple
#print axioms Tokengeex.C68_command
#print axioms Tokengeex.C68_meaning
#print axioms Tokengeex.C68_escape
#print axioms Tokengeex.C68_examples
#print axioms Tokengeex.C69_split
#print axioms Tokengeex.C69_no_panic
#print axioms Tokengeex.C69_encode
#print axioms Tokengeex.C70_save
#print axioms Tokengeex.C70_idioms
#print axioms Tokengeex.C70_stops
#print axioms Tokengeex.C70_regex
#print axioms Tokengeex.C71_processors
#print axioms Tokengeex.C71_files
#print axioms Tokengeex.C71_prune
#print axioms Tokengeex.C71_filter
#print axioms Tokengeex.C71_merge
#print axioms Tokengeex.C71_generate
#print axioms Tokengeex.C72_generate
#print axioms Tokengeex.C72_merge
#print axioms Tokengeex.C73_history
#print axioms Tokengeex.C74_idioms
#print axioms Tokengeex.C74_pipeline
#print axioms Tokengeex.C74_patterns
#print axioms Tokengeex.C75_reader
#print axioms Tokengeex.C75_loads
#print axioms Tokengeex.C75_unique
#print axioms Tokengeex.C75_saved
#print axioms Tokengeex.C76_reachable
#print axioms Tokengeex.C76_created
#print axioms Tokengeex.C76_answers
#print axioms Tokengeex.C76_changes
#print axioms Tokengeex.C76_settled
#print axioms Tokengeex.C76_round_trip
#print axioms Tokengeex.C76_effects
#print axioms Tokengeex.C76_raises
#print axioms Tokengeex.C76_pickle
#print axioms Tokengeex.C77_false
#print axioms Tokengeex.C77_save_partial
#print axioms Tokengeex.C78_em
#print axioms Tokengeex.C78_run
#print axioms Tokengeex.C78_e_step
#print axioms Tokengeex.C78_m_step
#print axioms Tokengeex.C78_generated
#print axioms Tokengeex.C78_single_false
#print axioms Tokengeex.C78_scores_false
#print axioms Tokengeex.C78_e_step_doubles
#print axioms Tokengeex.C78_em_doubles
#print axioms Tokengeex.C78_certain_false
#print axioms Tokengeex.C79_expected_uses
#print axioms Tokengeex.C79_total
#print axioms Tokengeex.C79_any_order
#print axioms Tokengeex.C79_expected_uses_doubles
#print axioms Tokengeex.C80_digamma
#print axioms Tokengeex.C80_m_step
#print axioms Tokengeex.C80_em_step
#print axioms Tokengeex.C80_digamma_doubles
#print axioms Tokengeex.C80_m_step_doubles
#print axioms Tokengeex.C81_candidates
#print axioms Tokengeex.C81_refines
#print axioms Tokengeex.C82_agenda
#print axioms Tokengeex.C82_any
#print axioms Tokengeex.C82_order
#print axioms Tokengeex.C82_nbest
#print axioms Tokengeex.C82_sound
#print axioms Tokengeex.C82_complete
#print axioms Tokengeex.C83_file
#print axioms Tokengeex.C83_admits
#print axioms Tokengeex.C83_promises
#print axioms Tokengeex.C83_fine_false
#print axioms Tokengeex.C83_generate
#print axioms Tokengeex.C84_reads
#print axioms Tokengeex.C84_unambiguous
#print axioms Tokengeex.C84_main
#print axioms Tokengeex.C84_force
#print axioms Tokengeex.C84_history
#print axioms Tokengeex.C85_encode
#print axioms Tokengeex.C85_prune
#print axioms Tokengeex.C85_merge
#print axioms Tokengeex.C85_generate
#print axioms Tokengeex.C85_mine
#print axioms Tokengeex.C86_loaded
#print axioms Tokengeex.C86_prune
#print axioms Tokengeex.C86_filter
#print axioms Tokengeex.C86_generate
#print axioms Tokengeex.C86_merge
#print axioms Tokengeex.C86_merge_scale
#print axioms Tokengeex.C86_merge_false
#print axioms Tokengeex.C28_finite
#print axioms Tokengeex.C87_independent
#print axioms Tokengeex.C87_chance
#print axioms Tokengeex.C87_mean
#print axioms Tokengeex.C88_encode
#print axioms Tokengeex.C88_lattice
#print axioms Tokengeex.C89_stable_partial
#print axioms Tokengeex.C89_false
#print axioms Tokengeex.C90_bytes
#print axioms Tokengeex.C90_filter
#print axioms Tokengeex.C91_encode
#print axioms Tokengeex.C91_decode
#print axioms Tokengeex.C91_tokenizer
#print axioms Tokengeex.C91_crlf
#print axioms Tokengeex.C91_factor
#print axioms Tokengeex.C91_not_uniform
#print axioms Tokengeex.C92_split
#print axioms Tokengeex.C92_unique
#print axioms Tokengeex.C92_accepts
#print axioms Tokengeex.C92_readback
#print axioms Tokengeex.C92_scripts_readback
#print axioms Tokengeex.C92_nul
#print axioms Tokengeex.C92_lines_false
#print axioms Tokengeex.C92_markdown_false
#print axioms Tokengeex.C92_markdown_comma
#print axioms Tokengeex.C93_infilling
#print axioms Tokengeex.C93_pool
#print axioms Tokengeex.C93_fails
#print axioms Tokengeex.C93_few
#print axioms Tokengeex.C93_leak
#print axioms Tokengeex.C94_counts
#print axioms Tokengeex.C94_fails
#print axioms Tokengeex.C94_tokengeex
#print axioms Tokengeex.C94_newlines
#print axioms Tokengeex.C94_newlines_same
#print axioms Tokengeex.C94_newlines_crlf
#print axioms Tokengeex.C94_newlines_cr
#print axioms Tokengeex.C94_samples
#print axioms Tokengeex.C94_buckets
#print axioms Tokengeex.C94_small
#print axioms Tokengeex.C95_partial
#print axioms Tokengeex.C95_bytes
#print axioms Tokengeex.C95_false
#print axioms Tokengeex.C95_collision_false
#print axioms Tokengeex.C96_file_partial
#print axioms Tokengeex.C96_occurrences
#print axioms Tokengeex.C96_counts
#print axioms Tokengeex.C96_totals
#print axioms Tokengeex.C96_never_all
#print axioms Tokengeex.C96_total_false
#print axioms Tokengeex.C97_generate
#print axioms Tokengeex.C98_mine_flags
#print axioms Tokengeex.C98_generate_flags
#print axioms Tokengeex.C98_prune_flags
#print axioms Tokengeex.C98_mine
#print axioms Tokengeex.C98_generate
#print axioms Tokengeex.C98_prune
#print axioms Tokengeex.C98_text
#print axioms Tokengeex.C98_pipeline
#print axioms Tokengeex.C98_mine_succeeds
#print axioms Tokengeex.C98_generate_succeeds
#print axioms Tokengeex.C99_prefix
#print axioms Tokengeex.C99_part
#print axioms Tokengeex.C99_part_false
#print axioms Tokengeex.C100_encode
#print axioms Tokengeex.C100_ordinary
#print axioms Tokengeex.C100_decode
#print axioms Tokengeex.C101_unused
#print axioms Tokengeex.C101_order
#print axioms Tokengeex.C101_more
#print axioms Tokengeex.C101_filter
#print axioms Tokengeex.C102_decode
#print axioms Tokengeex.C102_inside_false
#print axioms Tokengeex.C103_encode
#print axioms Tokengeex.C103_ordinary
#print axioms Tokengeex.C103_decode
#print axioms Tokengeex.C103_message
#print axioms Tokengeex.C104_doubles_partial
#print axioms Tokengeex.C66_no_panic
#print axioms Tokengeex.C104_panics
#print axioms Tokengeex.C104_false
#print axioms Tokengeex.C104_prune_false
#print axioms Tokengeex.C104_false_doubles
#print axioms Tokengeex.C104_prune_false_doubles
#print axioms Tokengeex.C105_write
#print axioms Tokengeex.C105_compose
#print axioms Tokengeex.C105_reject
#print axioms Tokengeex.C105_number
#print axioms Tokengeex.C105_class
#print axioms Tokengeex.C105_escape
#print axioms Tokengeex.C106_join
#print axioms Tokengeex.C106_gain
#print axioms Tokengeex.C106_pieces
#print axioms Tokengeex.C106_rounded
#print axioms Tokengeex.C106_lines
#print axioms Tokengeex.C106_pieces_false
#print axioms Tokengeex.C107_piecewise
#print axioms Tokengeex.C107_plain
#print axioms Tokengeex.C107_messages
#print axioms Tokengeex.C108_model
#print axioms Tokengeex.C108_full_dropout
#print axioms Tokengeex.C108_tokenizer
#print axioms Tokengeex.C109_order
#print axioms Tokengeex.C109_scale
#print axioms Tokengeex.C109_doubles
#print axioms Tokengeex.C110_worse
#print axioms Tokengeex.C110_worse_doubles
#print axioms Tokengeex.C110_better
#print axioms Tokengeex.C110_rounding_false
#print axioms Tokengeex.C111_mine_partial
#print axioms Tokengeex.C111_mine_false
#print axioms Tokengeex.C111_generate_partial
#print axioms Tokengeex.C111_generate_doubles_partial
#print axioms Tokengeex.C111_generate_false
#print axioms Tokengeex.C111_merge_partial
#print axioms Tokengeex.C111_merge_false
#print axioms Tokengeex.C111_prune
#print axioms Tokengeex.C112_merge_partial
#print axioms Tokengeex.C112_false
#print axioms Tokengeex.C113_em_partial
#print axioms Tokengeex.C113_false
#print axioms Tokengeex.C114_merge
#print axioms Tokengeex.C114_prune
#print axioms Tokengeex.C114_mine
#print axioms Tokengeex.C114_feed
#print axioms Tokengeex.C114_generate
#print axioms Tokengeex.C115_framed
#print axioms Tokengeex.C115_unframed
#print axioms Tokengeex.C115_ordinary
#print axioms Tokengeex.C115_example
#print axioms Tokengeex.C115_returns
#print axioms Tokengeex.C116_name
#print axioms Tokengeex.C116_table
#print axioms Tokengeex.C116_average
#print axioms Tokengeex.C116_whole
#print axioms Tokengeex.C116_subset
#print axioms Tokengeex.C116_percentages
#print axioms Tokengeex.C117_run
#print axioms Tokengeex.C117_stopped
#print axioms Tokengeex.C117_ends
#print axioms Tokengeex.C117_again_false
#print axioms Tokengeex.C117_again_partial
#print axioms Tokengeex.C118_same
#print axioms Tokengeex.C118_spelled
#print axioms Tokengeex.C119_text
#print axioms Tokengeex.C119_bytes
#print axioms Tokengeex.C119_not_finite
#print axioms Tokengeex.C120_linear
#print axioms Tokengeex.C120_square
#print axioms Tokengeex.C120_e_step
#print axioms Tokengeex.C121_shrinks
#print axioms Tokengeex.C121_stays
#print axioms Tokengeex.C121_default
#print axioms Tokengeex.C121_keeps
#print axioms Tokengeex.C121_never
#print axioms Tokengeex.C121_forever
#print axioms Tokengeex.C121_passes
#print axioms Tokengeex.C122_stop
#print axioms Tokengeex.C122_says
#print axioms Tokengeex.C122_messages
#print axioms Tokengeex.C122_silent
#print axioms Tokengeex.C122_finished
#print axioms Tokengeex.C122_chunks
#print axioms Tokengeex.C123_accurate
#print axioms Tokengeex.C123_zero
#print axioms Tokengeex.C123_order
#print axioms Tokengeex.C124_never
#print axioms Tokengeex.C124_documented
#print axioms Tokengeex.C124_samples
#print axioms Tokengeex.C124_same
#print axioms Tokengeex.C124_proportion
#print axioms Tokengeex.C124_invalid
#print axioms Tokengeex.C125_one_line
#print axioms Tokengeex.C125_lines
#print axioms Tokengeex.C125_score
#print axioms Tokengeex.C125_added
