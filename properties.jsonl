{"id": "C01", "title": "Encoding is lossless on bytes", "statement": "Whenever Model::encode returns Ok(ids), every id is below vocab_size and the concatenation of the byte values of the tokens named by ids is exactly the UTF-8 byte sequence of the input.", "quantifier": "every vocabulary (duplicates, empty and invalid-UTF-8 entries included), every input string, every dropout value, every sequence of random draws", "why_tests_cant": "The domain (all vocabularies x all strings x all random draws) is infinite; a test samples it.", "anchors": ["src/model.rs:Model::encode", "src/trie.rs:TrieIterator::next"]}
{"id": "C02", "title": "decode inverts encode", "statement": "For every string s, if Model::encode(s, dropout) is Ok(ids) then Model::decode(ids) is Ok(s): no character is lost, replaced or reordered, although decode is lossy on invalid UTF-8 and tokens may cut characters in half.", "quantifier": "every vocabulary, every Unicode string, every dropout, every random sequence", "why_tests_cant": "The domain (all vocabularies x all strings x all random draws) is infinite; a test samples it.", "anchors": ["src/model.rs:Model::encode", "src/model.rs:Model::decode"]}
{"id": "C03", "title": "Encoding fails exactly when no segmentation exists", "statement": "With dropout <= 0, Model::encode(s) succeeds if and only if the bytes of s can be cut into non-empty vocabulary entries; when it fails the error is NoPath(len, len) with len the byte length of s, never another error and never a panic.", "quantifier": "every vocabulary, every input string", "why_tests_cant": "The domain (all vocabularies x all strings x all random draws) is infinite; a test samples it. Absence of any segmentation is itself a universally quantified statement.", "anchors": ["src/model.rs:Model::encode", "src/lib.rs:Error::NoPath"]}
{"id": "C04", "title": "Dropout never makes a byte-complete vocabulary fail", "statement": "If every byte of the input is present in the vocabulary as a one-byte token, Model::encode succeeds for every dropout value and every outcome of the random draws.", "quantifier": "every vocabulary, every input, every dropout (including NaN and > 1), every random sequence", "why_tests_cant": "Random outcomes cannot be enumerated by a test; the failing draw may have negligible probability.", "anchors": ["src/model.rs:Model::encode (line 100)"]}
{"id": "C05", "title": "encode returns a maximum-score segmentation", "statement": "With dropout <= 0, the segmentation returned by Model::encode has a total score (left-to-right sum of its token scores) that is not smaller than the total score of any other segmentation of the input into vocabulary tokens. (If the same bytes are listed several times, the last entry is the token: the one whose id token_to_id returns.)", "quantifier": "every vocabulary whose scores are ordered and summable without NaN, every input, every competing segmentation", "why_tests_cant": "The number of competing segmentations is exponential in the input length.", "anchors": ["src/model.rs:Model::encode"]}
{"id": "C06", "title": "Randomness is consulted only when asked for", "statement": "With dropout <= 0 the result of encode does not depend on the random generator at all; with dropout >= 1 (draws are in [0,1)) every emitted token is exactly one byte long.", "quantifier": "every vocabulary, every input, every two random sequences", "why_tests_cant": "A test cannot vary the generator over all of its outputs.", "anchors": ["src/model.rs:Model::encode (line 100)"]}
{"id": "C07", "title": "encode emits only canonical ids", "statement": "Every id emitted by Model::encode is the id token_to_id returns for its own byte value (for duplicated entries: the last one), and is never the id of an empty token.", "quantifier": "every vocabulary including ones with duplicates, every input", "why_tests_cant": "The domain (all vocabularies x all strings x all random draws) is infinite; a test samples it.", "anchors": ["src/model.rs:Model::encode", "src/model.rs:Model::token_to_id"]}
{"id": "C08", "title": "common_prefix_search is exact", "statement": "Model::common_prefix_search(s) yields exactly one (id, len) pair per distinct non-empty vocabulary value that is a prefix of s, in strictly increasing length order, with id = token_to_id(prefix) and len its length.", "quantifier": "every vocabulary, every byte sequence", "why_tests_cant": "The domain (all vocabularies x all strings x all random draws) is infinite; a test samples it.", "anchors": ["src/trie.rs:Trie::push", "src/trie.rs:Trie::common_prefix_search", "src/trie.rs:TrieIterator::next", "src/model.rs:Model::common_prefix_search"]}
{"id": "C09", "title": "Incremental growth equals rebuilding", "statement": "A model that was grown by any sequence of add_tokens calls answers encode, decode, token_to_id, id_to_token, vocab_size and common_prefix_search exactly as a model built at once from the concatenated vocabulary.", "quantifier": "every initial vocabulary, every finite history of add_tokens calls, every query", "why_tests_cant": "Histories are unbounded.", "anchors": ["src/model.rs:Model::add_tokens", "src/model.rs:Model::from"]}
{"id": "C10", "title": "Base id/token lookups are mutually inverse", "statement": "id_to_token(i) is Some exactly for i < vocab_size and returns the i-th vocabulary entry; token_to_id(v) = Some(i) exactly when i is the largest index holding v; hence token_to_id and id_to_token are mutually inverse when the vocabulary has no duplicate values.", "quantifier": "every vocabulary, every id, every byte string", "why_tests_cant": "The domain (all vocabularies x all strings x all random draws) is infinite; a test samples it.", "anchors": ["src/model.rs:Model::token_to_id", "src/model.rs:Model::id_to_token"]}
{"id": "C11", "title": "Model::decode validates ids and decodes the concatenation", "statement": "Model::decode(ids) is Err(TokenIdOutOfBounds(i)) with i the first id that is >= vocab_size, if there is one, and otherwise Ok of the lossy UTF-8 decoding of the concatenated token bytes; it never panics.", "quantifier": "every vocabulary, every sequence of ids", "why_tests_cant": "The domain (all vocabularies x all strings x all random draws) is infinite; a test samples it.", "anchors": ["src/model.rs:Model::decode"]}
{"id": "C12", "title": "Ids are partitioned into base, special and invalid", "statement": "For every id exactly one of is_base, is_special, id >= vocab_size() holds; id_to_base_token, id_to_special_token and id_to_token are Some exactly on the corresponding parts, and vocab_size = base_vocab_size + special_vocab_size.", "quantifier": "every tokenizer reachable through the API, every u32 id", "why_tests_cant": "The domain (all vocabularies x all strings x all random draws) is infinite; a test samples it.", "anchors": ["src/tokenizer.rs:Tokenizer::is_special", "src/tokenizer.rs:Tokenizer::is_base", "src/tokenizer.rs:Tokenizer::id_to_token", "src/tokenizer.rs:Tokenizer::vocab_size"]}
{"id": "C13", "title": "Special-token registry invariant", "statement": "After any history of construction, add_special_tokens and add_base_tokens calls, special_tokens() has no duplicates, lists tokens in first-registration order, and special_token_to_id(t) = Some(id) iff id_to_special_token(id) = Some(t).", "quantifier": "every initial model, every history of operations", "why_tests_cant": "Operation histories are unbounded.", "anchors": ["src/tokenizer.rs:Tokenizer::new", "src/tokenizer.rs:Tokenizer::add_special_tokens", "src/tokenizer.rs:Tokenizer::add_base_tokens"]}
{"id": "C14", "title": "Id stability under growth", "statement": "add_special_tokens never changes the id of any already known base or special token; add_base_tokens never changes what an existing base id decodes to but shifts every special id up by exactly the number of added tokens.", "quantifier": "every tokenizer, every list of added tokens, every id", "why_tests_cant": "Histories and token lists are unbounded.", "anchors": ["src/tokenizer.rs:Tokenizer::add_special_tokens", "src/tokenizer.rs:Tokenizer::add_base_tokens", "src/tokenizer.rs:Tokenizer::special_token_to_id"]}
{"id": "C15", "title": "Special splitting partitions the text", "statement": "Tokenizer::encode cuts its input into consecutive non-empty pieces whose concatenation is the input; each piece marked special is a registered special token and no two consecutive pieces are both ordinary.", "quantifier": "every set of non-empty special tokens, every input string", "why_tests_cant": "The domain (all vocabularies x all strings x all random draws) is infinite; a test samples it.", "anchors": ["src/tokenizer.rs:SpecialTokenSplitter::next"]}
{"id": "C16", "title": "Special splitting is leftmost and exhaustive", "statement": "No registered special token occurs at any character position inside an ordinary piece (even if it would extend past the piece), and at a position where several special tokens match the first registered one is taken.", "quantifier": "every set of special tokens, every input string", "why_tests_cant": "The domain (all vocabularies x all strings x all random draws) is infinite; a test samples it.", "anchors": ["src/tokenizer.rs:SpecialTokenSplitter::next"]}
{"id": "C17", "title": "encode terminates", "statement": "Tokenizer::encode returns (Ok or Err) after finitely many steps on every input.", "quantifier": "every tokenizer reachable through the API, every input string", "why_tests_cant": "Non-termination cannot be observed by a finite test; the offending registry may never be sampled.", "anchors": ["src/tokenizer.rs:SpecialTokenSplitter::next", "src/tokenizer.rs:Tokenizer::encode"]}
{"id": "C18", "title": "Tokenizer round trip", "statement": "If encode(s, dropout) is Ok(ids) then decode(ids, true) is Ok of the text obtained from s by applying the processors to its ordinary pieces and leaving special tokens untouched; with no processors it is s itself.", "quantifier": "every vocabulary, every processor list, every set of special tokens, every input, every dropout, every random sequence", "why_tests_cant": "The domain (all vocabularies x all strings x all random draws) is infinite; a test samples it.", "anchors": ["src/tokenizer.rs:Tokenizer::encode", "src/tokenizer.rs:Tokenizer::decode"]}
{"id": "C19", "title": "include_special_tokens = false removes exactly the special tokens", "statement": "decode(ids, false) fails exactly when decode(ids, true) fails, and otherwise returns the decodings of the maximal runs of base ids, concatenated, with every special token's text left out.", "quantifier": "every tokenizer, every id sequence", "why_tests_cant": "The domain (all vocabularies x all strings x all random draws) is infinite; a test samples it.", "anchors": ["src/tokenizer.rs:Tokenizer::decode"]}
{"id": "C20", "title": "Tokenizer::decode rejects exactly the unknown ids", "statement": "decode(ids, flag) is an error iff some id is >= vocab_size(); the error is TokenIdOutOfBounds of the first such id; no underflow or panic is possible.", "quantifier": "every tokenizer, every id sequence", "why_tests_cant": "The domain (all vocabularies x all strings x all random draws) is infinite; a test samples it.", "anchors": ["src/tokenizer.rs:Tokenizer::decode"]}
{"id": "C21", "title": "encode and encode_ordinary agree without special tokens", "statement": "If no registered special token occurs in s then encode(s, d) and encode_ordinary(s, d) return the same result for the same random draws.", "quantifier": "every tokenizer, every string, every dropout, every random sequence", "why_tests_cant": "The domain (all vocabularies x all strings x all random draws) is infinite; a test samples it.", "anchors": ["src/tokenizer.rs:Tokenizer::encode", "src/tokenizer.rs:Tokenizer::encode_ordinary"]}
{"id": "C22", "title": "Special ids appear only for special text", "statement": "encode_ordinary never emits a special id; encode emits special ids exactly for the special pieces of the input, in order, and base ids for everything else.", "quantifier": "every tokenizer, every string, every dropout, every random sequence", "why_tests_cant": "The domain (all vocabularies x all strings x all random draws) is infinite; a test samples it.", "anchors": ["src/tokenizer.rs:Tokenizer::encode", "src/tokenizer.rs:Tokenizer::encode_ordinary"]}
{"id": "C23", "title": "Batch calls equal element-wise calls under every schedule", "statement": "encode_batch / encode_ordinary_batch / decode_batch return Ok of the element-wise results in input order when every element succeeds, and otherwise an error that one of the elements produces, whatever the thread schedule.", "quantifier": "every tokenizer, every list of inputs, every scheduling of the parallel workers", "why_tests_cant": "Thread schedules cannot be enumerated by tests.", "anchors": ["src/tokenizer.rs:Tokenizer::encode_batch", "src/tokenizer.rs:Tokenizer::encode_ordinary_batch", "src/tokenizer.rs:Tokenizer::decode_batch"]}
{"id": "C24", "title": "Tokenizer-level lookups are consistent", "statement": "token_to_id(v) is Some iff v is a base token or a special token; if Some(i) then id_to_token(i) = Some(v); a base token shadows an equal special token.", "quantifier": "every tokenizer, every byte string", "why_tests_cant": "The domain (all vocabularies x all strings x all random draws) is infinite; a test samples it.", "anchors": ["src/tokenizer.rs:Tokenizer::token_to_id", "src/tokenizer.rs:Tokenizer::id_to_token"]}
{"id": "C25", "title": "CRLF processor removes all CRLF", "statement": "CrlfProcessor::preprocess leaves text without \\r\\n unchanged, only ever deletes \\r characters that precede \\n, and its output contains no \\r\\n.", "quantifier": "every string", "why_tests_cant": "The domain (all vocabularies x all strings x all random draws) is infinite; a test samples it.", "anchors": ["src/processor.rs:CrlfProcessor::preprocess"]}
{"id": "C26", "title": "Processors run in order and never alter decoded text", "statement": "encode_ordinary(s) equals Model::encode of the processors applied first to last; and decode(encode_ordinary(s)) is exactly that processed text because post-processing is the identity for every shipped processor.", "quantifier": "every processor list (normalisation forms treated as arbitrary string functions), every vocabulary, every string", "why_tests_cant": "The domain (all vocabularies x all strings x all random draws) is infinite; a test samples it.", "anchors": ["src/tokenizer.rs:Tokenizer::encode_ordinary", "src/tokenizer.rs:Tokenizer::decode", "src/processor.rs"]}
{"id": "C27", "title": "Scored tokens survive serialisation", "statement": "Serialising a ScoredToken and deserialising it returns the same bytes, score and keep flag, for tokens that are valid UTF-8 and for tokens that are not (base64).", "quantifier": "every byte string, every finite score, both keep values", "why_tests_cant": "The domain (all vocabularies x all strings x all random draws) is infinite; a test samples it.", "anchors": ["src/lib.rs:Serialize for ScoredToken", "src/lib.rs:Deserialize for ScoredToken"]}
{"id": "C28", "title": "Saving and loading a tokenizer preserves it", "statement": "from_str(to_string(t)) (and save/from_file, pickle) succeeds and yields a tokenizer with the same vocabulary, special tokens and processors, hence identical encode/decode/lookup behaviour.", "quantifier": "every tokenizer reachable through the API", "why_tests_cant": "The domain (all vocabularies x all strings x all random draws) is infinite; a test samples it.", "anchors": ["src/tokenizer.rs:Serialize for Tokenizer", "src/tokenizer.rs:TokenizerVisitor::visit_map", "src/tokenizer.rs:Tokenizer::save", "src/tokenizer.rs:Tokenizer::from_file"]}
{"id": "C29", "title": "The loader accepts exactly version 2.0 files with known fields", "statement": "Loading fails on a missing version, a version other than \"2.0\", or an unknown top-level field; the order of the fields is irrelevant and a repeated field takes its last value.", "quantifier": "every JSON object", "why_tests_cant": "The domain (all vocabularies x all strings x all random draws) is infinite; a test samples it.", "anchors": ["src/tokenizer.rs:TokenizerVisitor::visit_map"]}
{"id": "C30", "title": "Processors survive serialisation", "statement": "Every processor configuration deserialises back to itself although the enum is untagged.", "quantifier": "every processor list", "why_tests_cant": "The untagged decoder tries variants in order on arbitrary objects; tests sample a few.", "anchors": ["src/processor.rs:ProcessorWrapper", "src/processor.rs:Deserialize for CrlfProcessor", "src/processor.rs:Deserialize for UnicodeProcessor"]}
{"id": "C31", "title": "Base64 payloads are decoded exactly", "statement": "Unpadded base64 decoding inverts encoding on every byte string and rejects every string that is not the canonical encoding of some byte string.", "quantifier": "every byte string, every candidate text", "why_tests_cant": "The domain (all vocabularies x all strings x all random draws) is infinite; a test samples it.", "anchors": ["src/lib.rs:Serialize for ScoredToken (line 120)", "src/lib.rs:Deserialize for ScoredToken (line 182)"]}
{"id": "C32", "title": "Lattice and pool reuse leave no trace", "statement": "Re-initialising a lattice for a new sentence gives the same observable lattice whatever sentences, insertions and pool traffic happened before; every vector handed out by the pool is empty.", "quantifier": "every history of get/put/from/insert operations, every sentence", "why_tests_cant": "Histories are unbounded.", "anchors": ["src/lattice.rs:Lattice::from", "src/lattice.rs:VecPool::get", "src/lattice.rs:VecPool::put"]}
{"id": "C33", "title": "Lattice population is exact", "statement": "Without dropout the lattice holds exactly one node per (position, vocabulary token starting there), with the right id, length and score; with dropout it holds a subset that still contains every one-byte token.", "quantifier": "every vocabulary, every sentence, every dropout, every random sequence", "why_tests_cant": "The domain (all vocabularies x all strings x all random draws) is infinite; a test samples it.", "anchors": ["src/model.rs:Model::populate_nodes", "src/lattice.rs:Lattice::insert"]}
{"id": "C34", "title": "Lattice Viterbi agrees with encode", "statement": "On a lattice populated without dropout, Lattice::viterbi returns the tokens encode returns (followed by the end-of-sentence node) whenever encode succeeds.", "quantifier": "every vocabulary, every sentence", "why_tests_cant": "The domain (all vocabularies x all strings x all random draws) is infinite; a test samples it.", "anchors": ["src/lattice.rs:Lattice::viterbi", "src/model.rs:Model::encode"]}
{"id": "C35", "title": "n-best is sound, ordered and optimal", "statement": "nbest(n) for n >= 2 ends without a panic and returns pairwise distinct segmentations of the sentence, at most n of them; if fewer than n are returned they are all segmentations there are. This holds for scores of any kind, rounded, infinite or NaN. In exact arithmetic, and if no token starts where none stops, they come in non-increasing score order and no segmentation left out scores higher than one returned; with rounding that can fail, but with finite doubles both hold up to an error of (N+1)(N+2)B/2^50 in the exact sums, for N bytes and scores of magnitude at most B. The limit on the agenda does not affect this for n <= 512. nbest(0) is empty and nbest(1) is the Viterbi path.", "quantifier": "every lattice after every history of its pool, every n, every order in which the priority queue returns hypotheses of equal score; optimality for n <= 512 or lattices with at most 100000 endings", "why_tests_cant": "The set of segmentations is exponential.", "anchors": ["src/lattice.rs:Lattice::nbest", "src/lattice.rs:Hypothesis"]}
{"id": "C36", "title": "populate_marginal computes posterior expected counts", "statement": "In exact arithmetic the returned constant is the log of the sum over all segmentations of exp(score), and each token's expected count grows by the sum of the posterior probabilities of its occurrences; weighted by token length these add up to the sentence length. With doubles, and whatever the accuracy of the platform's exp and ln, nothing panics, the constant and the counts stay finite, and both are close to these values, with explicit error bounds.", "quantifier": "every lattice whose every node is reachable, every sentence", "why_tests_cant": "Exponentially many segmentations; requires a proof by induction on the lattice.", "anchors": ["src/lattice.rs:Lattice::populate_marginal", "src/lattice.rs:log_sum_exp"]}
{"id": "C37", "title": "log_sum_exp is accurate", "statement": "log_sum_exp(x, y) is between max(x,y) and log(e^x + e^y), and differs from the latter by at most e^-50; it is symmetric. With finite doubles of magnitude at most M the result is finite, and the error is at most those of exp and ln plus (M+320)/2^53.", "quantifier": "every pair of real numbers, every pair of finite doubles", "why_tests_cant": "Continuum of inputs.", "anchors": ["src/lattice.rs:log_sum_exp"]}
{"id": "C38", "title": "Vocabulary filtering respects its limits", "statement": "filter never invents or alters tokens, never goes below vocab_size entries, never removes a keep token unless force is set, never removes a token scoring above min_score, and is the identity when the vocabulary is already small enough.", "quantifier": "every vocabulary with comparable scores, every filter configuration", "why_tests_cant": "The domain (all vocabularies x all strings x all random draws) is infinite; a test samples it.", "anchors": ["src/filter.rs:VocabularyFilter::filter"]}
{"id": "C39", "title": "Filtering removes the worst tokens first and sorts", "statement": "Among removable tokens those removed never score higher than those kept, as many as allowed are removed, and the resulting vocabulary is in non-increasing score order.", "quantifier": "every vocabulary, every filter configuration, every outcome of the unstable sort", "why_tests_cant": "The domain (all vocabularies x all strings x all random draws) is infinite; a test samples it.", "anchors": ["src/filter.rs:VocabularyFilter::filter"]}
{"id": "C40", "title": "Training steps preserve encodability", "statement": "If every byte used by a text is present as a one-byte keep token, then after any sequence of filter (without force), prune and merge steps the resulting model still encodes that text.", "quantifier": "every vocabulary, every sequence of training steps, every random outcome, every text", "why_tests_cant": "Histories are unbounded.", "anchors": ["src/filter.rs", "src/prune.rs", "src/merge.rs"]}
{"id": "C41", "title": "Merging only appends allowed concatenations", "statement": "merge keeps all previous entries and ids, appends at most num_merges tokens, and each appended token is the concatenation of two earlier entries, has at most max_token_length bytes, matches the allow pattern, has score (a+b)*scale_factor and keep = false.", "quantifier": "every model, every corpus, every configuration, every order of equally frequent pairs", "why_tests_cant": "The domain (all vocabularies x all strings x all random draws) is infinite; a test samples it.", "anchors": ["src/merge.rs:ModelVocabularyMerger::merge"]}
{"id": "C42", "title": "Merging terminates", "statement": "merge returns for every corpus and configuration: when no allowed merge is left it stops.", "quantifier": "every model, corpus and configuration", "why_tests_cant": "Non-termination cannot be observed by a finite test.", "anchors": ["src/merge.rs:ModelVocabularyMerger::merge (line 128)"]}
{"id": "C43", "title": "Merging keeps the vocabulary duplicate-free", "statement": "If the vocabulary has no two entries with the same bytes before merge, it has none after.", "quantifier": "every model, corpus and configuration", "why_tests_cant": "The domain (all vocabularies x all strings x all random draws) is infinite; a test samples it.", "anchors": ["src/merge.rs:ModelVocabularyMerger::merge"]}
{"id": "C44", "title": "Generated vocabularies are well formed", "statement": "generate(size) returns at most max(255, size) tokens with pairwise distinct byte values, contains every byte 0..=254 as a keep token, and every other entry is an added, suggested or observed string longer than one byte; added entries are keep.", "quantifier": "every generator state, every size, every iteration order of the frequency table", "why_tests_cant": "The domain (all vocabularies x all strings x all random draws) is infinite; a test samples it.", "anchors": ["src/generate.rs:VocabularyGenerator::generate"]}
{"id": "C45", "title": "Generated scores are normalised log-probabilities", "statement": "In exact arithmetic the scores produced by logprobs satisfy sum(exp(score)) = 1, preserve the frequency order and are strictly negative, so the final validity check never panics.", "quantifier": "every non-empty list of positive frequencies", "why_tests_cant": "Continuum of inputs.", "anchors": ["src/generate.rs:logprobs", "src/generate.rs:VocabularyGenerator::generate"]}
{"id": "C46", "title": "Feeding counts samples, independent of threads", "statement": "After feed, the frequency of a string has grown by the number of samples that selected it (at most one per sample; with insert_probability = 1 exactly the samples containing it as an allowed candidate of at most max_token_length bytes), for every chunking and interleaving of the workers.", "quantifier": "every generator, every sample list, every chunk size, every thread interleaving, every random sequence", "why_tests_cant": "Interleavings cannot be enumerated by tests.", "anchors": ["src/generate.rs:VocabularyGenerator::feed"]}
{"id": "C47", "title": "Idiom mining reports exact top counts", "statement": "mine returns min(num_idioms, #distinct) distinct matches with their exact number of matches over all samples, in non-increasing count order, none of the omitted ones being more frequent, for every chunking and interleaving.", "quantifier": "every sample list, every matcher, every chunk size, every thread interleaving", "why_tests_cant": "Interleavings cannot be enumerated by tests.", "anchors": ["src/mine.rs:IdiomMiner::mine"]}
{"id": "C48", "title": "Pruning only removes non-keep tokens", "statement": "A prune step returns a sub-collection of the vocabulary that contains every keep token, in non-increasing score order; EM steps rescore but never add tokens and never drop keep tokens.", "quantifier": "every model, every corpus, every configuration, every random outcome", "why_tests_cant": "The domain (all vocabularies x all strings x all random draws) is infinite; a test samples it.", "anchors": ["src/prune.rs:ModelVocabularyPruner::prune_vocab", "src/prune.rs:ModelVocabularyPruner::run_m_step"]}
{"id": "C49", "title": "Pruning terminates at the requested size", "statement": "prune returns with a vocabulary of at most vocab_size entries for every model, corpus and configuration.", "quantifier": "every model, corpus and configuration", "why_tests_cant": "Non-termination cannot be observed by a finite test.", "anchors": ["src/prune.rs:ModelVocabularyPruner::prune", "src/prune.rs:ModelVocabularyPruner::prune_vocab (line 310)"]}
{"id": "C50", "title": "Parallel frequency counts are schedule independent", "statement": "The token frequencies used by prune and the pair frequencies used by merge equal the sequential counts over all samples, for every chunk size and every order in which workers acquire the lock.", "quantifier": "every corpus, every chunk size, every lock acquisition order", "why_tests_cant": "Thread schedules cannot be enumerated by tests.", "anchors": ["src/prune.rs:ModelVocabularyPruner::prune_vocab", "src/merge.rs:ModelVocabularyMerger::merge"]}
{"id": "C51", "title": "Chunking covers every sample exactly once", "statement": "par_chunk_size is at least 1 for every positive factor and thread count, and cutting the samples into chunks of that size loses, duplicates or reorders nothing.", "quantifier": "every sample count, every thread count, every factor >= 1", "why_tests_cant": "The domain (all vocabularies x all strings x all random draws) is infinite; a test samples it.", "anchors": ["src/task.rs:par_chunk_size"]}
{"id": "C52", "title": "Task progress counters are exact and bounded", "statement": "At every instant the processed-sample counter is the sum over finished chunks and never exceeds the number of samples; when all workers have finished it equals it, so the monitor thread stops. Whatever stale values the monitor sees, the progress it logs never goes back and lies strictly between none and all of the samples.", "quantifier": "every interleaving of workers and monitor, every chunk assignment", "why_tests_cant": "Thread schedules cannot be enumerated by tests.", "anchors": ["src/task.rs:Task", "src/task.rs:LocalTask"]}
{"id": "C53", "title": "Combined allow patterns accept exactly the full matches", "statement": "A string matches the regex built from a non-empty pattern list iff the whole string is matched by one of the patterns.", "quantifier": "every pattern list, every string", "why_tests_cant": "The domain (all vocabularies x all strings x all random draws) is infinite; a test samples it.", "anchors": ["src/regex.rs:build_allow_regex"]}
{"id": "C54", "title": "Saved allow patterns load back unchanged", "statement": "Loading a file written by the regex command gives the same pattern text.", "quantifier": "every pattern list", "why_tests_cant": "The domain (all vocabularies x all strings x all random draws) is infinite; a test samples it.", "anchors": ["src/cli.rs:regex_cmd", "src/cli.rs:load_regex", "src/regex.rs:build_allow_regex"]}
{"id": "C55", "title": "Sample loading loses nothing but separators", "statement": "Samples read from a source file are exactly the non-empty NUL-separated parts, in order; re-joining them gives back the file contents up to empty samples. A source loads exactly if it is name:path or name:path:number and the file exists and is UTF-8.", "quantifier": "every file content", "why_tests_cant": "The domain (all vocabularies x all strings x all random draws) is infinite; a test samples it.", "anchors": ["src/cli.rs:load_sources"]}
{"id": "C56", "title": "Token ids fit u32", "statement": "As long as there are fewer than 2^32 base tokens, at most 2^32 tokens in all and no token of 2^32 bytes or more, no id computation wraps: every cast to u32 in construction, growth, encode, decode and lookups is lossless.", "quantifier": "every tokenizer of at most 2^32 tokens, every text and id list", "why_tests_cant": "Vocabularies of that size are never built by tests.", "anchors": ["src/model.rs:Model::from", "src/model.rs:Model::add_tokens", "src/tokenizer.rs:Tokenizer::encode", "src/tokenizer.rs:Tokenizer::decode"]}
{"id": "C57", "title": "encode is optimal for IEEE doubles", "statement": "The optimality of encode holds for binary64 round-to-nearest-even addition: with finite scores, and also with non-positive scores that are not NaN, no segmentation has a larger floating-point score than the returned one. With finite scores of magnitude at most B, no segmentation of a text of N bytes has an exact sum larger than that of the returned one by more than N(N+1)B/2^51.", "quantifier": "every vocabulary with finite f64 scores or with non-positive non-NaN f64 scores, every input, every competing segmentation", "why_tests_cant": "Rounding interacts with every path; exponentially many segmentations.", "anchors": ["src/model.rs:Model::encode (line 98)"]}
{"id": "C58", "title": "A generated tokenizer encodes every string", "statement": "A model built from generate's output encodes every Unicode string with every dropout, and keeps doing so after any sequence of prune, merge and unforced filter steps.", "quantifier": "every generator state, every training history, every string, every random sequence", "why_tests_cant": "Universally quantified over histories and strings.", "anchors": ["src/generate.rs:VocabularyGenerator::generate", "src/model.rs:Model::encode"]}
{"id": "C59", "title": "Decoding is piecewise at special tokens", "statement": "decode(xs ++ [special] ++ ys, flag) equals decode(xs, flag) followed by the special text (if included) followed by decode(ys, flag).", "quantifier": "every tokenizer, every pair of id sequences, every special id", "why_tests_cant": "The domain (all vocabularies x all strings x all random draws) is infinite; a test samples it.", "anchors": ["src/tokenizer.rs:Tokenizer::decode"]}
{"id": "C60", "title": "A shadowed special token is never emitted", "statement": "A special token that has an earlier registered special token as a prefix is never emitted by encode; a special token without such a prefix is emitted when it is the whole input.", "quantifier": "every registry, every input string", "why_tests_cant": "The domain (all vocabularies x all strings x all random draws) is infinite; a test samples it.", "anchors": ["src/tokenizer.rs:SpecialTokenSplitter::next"]}
{"id": "C61", "title": "Ties between best segmentations are broken one way", "statement": "With dropout <= 0, every initial part of the ids encode returns is a best-scoring segmentation of the bytes it spells and, among the best ones, has the longest possible last token; the result is the only segmentation of the input with that property, so it is determined by vocabulary and text alone.", "quantifier": "every vocabulary with ordered scores (rounding allowed), every input, every competing segmentation", "why_tests_cant": "Exponentially many competing segmentations.", "anchors": ["src/model.rs:Model::encode (line 100)"]}
{"id": "C62", "title": "Lattice::viterbi returns a best path or nothing", "statement": "On any lattice built with from and insert, viterbi returns a segmentation of the sentence by inserted tokens followed by the end-of-sentence node, such that no other segmentation scores higher, unless some token starts (or the sentence stops) at a position where no token stops, and then it returns an empty path; it never panics nor loops.", "quantifier": "every history of the lattice and its pool, every sentence, every sequence of inserted non-empty tokens, every competing path", "why_tests_cant": "Exponentially many paths, unbounded histories.", "anchors": ["src/lattice.rs:Lattice::viterbi", "src/lattice.rs:Lattice::insert"]}
{"id": "C63", "title": "Merging proceeds greedily by frequency", "statement": "A successful merge is a sequence of rounds; each round merges distinct pairs of neighbouring tokens of the samples as encoded at its start, at most step of them, in order of decreasing frequency, so that no mergeable pair that occurs and is left out is more frequent than a merged one, and pairs are left out only because of the limit. Merging stops when num_merges merges were made or no mergeable pair occurs (or step is 0).", "quantifier": "every model, every corpus, every configuration, every chunking and thread schedule, every order of the table, every unstable sort", "why_tests_cant": "Schedules, table orders and corpora are unbounded.", "anchors": ["src/merge.rs:ModelVocabularyMerger::merge"]}
{"id": "C64", "title": "A prune step never makes a text unencodable", "statement": "Whatever text the model could encode before a prune step, it can still encode after it: every byte string that can be cut into tokens can still be cut into the tokens that stay.", "quantifier": "every model, every corpus, every configuration, every chunking and thread schedule, every unstable sort, every text", "why_tests_cant": "Which tokens go depends on the corpus, and every text must stay encodable.", "anchors": ["src/prune.rs:ModelVocabularyPruner::prune_vocab"]}
{"id": "C65", "title": "A prune step removes the tokens whose loss is least", "statement": "With exact arithmetic, every removable token that a prune step drops for lack of room would have lost at most as much likelihood, as estimated from the token counts and from its best alternative segmentation, as every removable token it keeps.", "quantifier": "every model, every corpus, every configuration, every chunking and schedule, every unstable sort", "why_tests_cant": "All pairs of tokens of arbitrary vocabularies.", "anchors": ["src/prune.rs:ModelVocabularyPruner::prune_vocab"]}
{"id": "C66", "title": "A prune step returns unless a loss is zero", "statement": "With exact arithmetic, a prune step on an encodable corpus returns a model, unless the estimated loss of some removable token is exactly zero (the code then panics on its is_normal assertion).", "quantifier": "every model, every encodable corpus, every configuration", "why_tests_cant": "Arbitrary vocabularies and corpora.", "anchors": ["src/prune.rs:ModelVocabularyPruner::prune_vocab"]}
{"id": "C67", "title": "Generation prefers added, then suggested, then frequent strings", "statement": "generate leaves out an added, suggested or counted string of more than one byte only if the vocabulary is full; then every longer token in it is an added string, or the omitted one is not added and the token is suggested, or the omitted one is neither and its count is no higher than the token's. So none of the added strings is missing if there is room for them, nor of the suggested ones if there is room for both.", "quantifier": "every generator history, every size, every iteration order of the table, every unstable sort, every omitted string", "why_tests_cant": "The domain (all vocabularies x all strings x all random draws) is infinite; a test samples it.", "anchors": ["src/generate.rs:VocabularyGenerator::generate"]}
{"id": "C68", "title": "Named patterns do what their names say", "statement": "Every pattern listed by the regex command is valid and has its own name; the command succeeds for every non-empty list of names, and the file it writes loads as a pattern that accepts exactly the strings one of the named patterns matches as a whole.", "quantifier": "every list of names, every string", "why_tests_cant": "The domain (all vocabularies x all strings x all random draws) is infinite; a test samples it.", "anchors": ["src/regex.rs:PATTERNS", "src/cli.rs:load_patterns", "src/cli.rs:regex_cmd", "src/cli.rs:load_regex"]}
{"id": "C69", "title": "Splitting at special tokens never cuts a character", "statement": "Encode looks for special tokens at byte offsets of the text, yet on every text, with every list of special tokens, it only slices at character boundaries: no step panics, every piece is valid UTF-8, and the pieces are the leftmost first-registered split of the characters.", "quantifier": "every text and every list of special tokens, including ones that share bytes with other characters", "why_tests_cant": "The domain (all vocabularies x all strings x all random draws) is infinite; a test samples it.", "anchors": ["src/tokenizer.rs:SpecialTokenSplitter", "src/tokenizer.rs:Tokenizer::encode"]}
{"id": "C70", "title": "An interrupted command leaves no file that loads as something else", "statement": "Save and the commands write files without any protection against crashes. If one is interrupted after any number of bytes, every other file is unchanged, and the output file is unchanged, complete, or cannot be loaded: a truncated tokenizer file is never accepted as a tokenizer nor a truncated list of idioms as a list of tokens. The regex command is the exception: it can be interrupted so that its output loads and admits every string.", "quantifier": "every tokenizer, every list of idioms, every command and its arguments, every file system, every crash point", "why_tests_cant": "Every crash point of every file content.", "anchors": ["src/tokenizer.rs:Tokenizer::save", "src/tokenizer.rs:Tokenizer::from_file", "src/cli.rs:mine_cmd", "src/cli.rs:load_tokens", "src/cli.rs:regex_cmd"]}
{"id": "C71", "title": "Commands change only what they promise", "statement": "A command writes the file given as its output and no other file. The file written by prune, filter or merge loads if and only if the new scores can be read back, and then has the processors and special tokens of the input file; prune leaves at most vocab_size tokens, all from the input and rescored, with every protected one; filter leaves at least vocab_size tokens, unaltered, with every protected one unless forced; merge keeps the input tokens in place and appends at most num_merges allowed concatenations. The file written by generate has the requested processors and special tokens, every byte below 255, and otherwise only added, suggested or allowed strings.", "quantifier": "every input file, every training data, every flag values, every schedule and random outcome", "why_tests_cant": "File contents, corpora, schedules and random outcomes are unbounded.", "anchors": ["src/cli.rs:generate_cmd", "src/cli.rs:prune_cmd", "src/cli.rs:filter_cmd", "src/cli.rs:merge_cmd"]}
{"id": "C72", "title": "The allow patterns govern the vocabulary", "statement": "If the regex command writes a pattern file from patterns without line breaks and generate or merge use it as allow file, every token of the generated file is a single byte, an added or suggested token or a string that one of the patterns matches as a whole, and so is the text of every token that merge appends.", "quantifier": "every list of patterns, every training data, every flags, every schedule and random outcome", "why_tests_cant": "Patterns, corpora and schedules are unbounded.", "anchors": ["src/cli.rs:regex_cmd", "src/cli.rs:load_regex", "src/cli.rs:generate_cmd", "src/cli.rs:merge_cmd"]}
{"id": "C73", "title": "No history of commands yields a tokenizer that fails to encode", "statement": "Start with no tokenizer files (or only ones with every byte below 255 as a protected token). After any sequence of commands with any arguments (filter not forced), each successful or interrupted at any point, and of copies and removals of files, every file that loads as a tokenizer encodes every text, with any dropout, and decodes it back to the processed text; encode with special tokens succeeds too unless the empty string is one of them.", "quantifier": "every history of commands, crashes and file operations, every text, every dropout and random outcome", "why_tests_cant": "Histories and texts are unbounded.", "anchors": ["src/cli.rs:generate_cmd", "src/cli.rs:prune_cmd", "src/cli.rs:filter_cmd", "src/cli.rs:merge_cmd", "src/tokenizer.rs:Tokenizer::encode"]}
{"id": "C74", "title": "Mined idioms reach the vocabulary unchanged", "statement": "The list of idioms that mine writes is read back by generate as exactly that list, whatever characters the idioms contain; if they are given as added tokens, a token of the generated file is protected if and only if it is a single byte or one of the idioms. Every idiom is a piece of a training sample that one of the given patterns matches there, and there is one if any pattern matches anywhere.", "quantifier": "every training data, every idioms, every flags, every schedule", "why_tests_cant": "The domain (all vocabularies x all strings x all random draws) is infinite; a test samples it.", "anchors": ["src/cli.rs:mine_cmd", "src/cli.rs:load_tokens", "src/cli.rs:generate_cmd"]}
{"id": "C75", "title": "The loader accepts exactly the JSON texts of tokenizer documents", "statement": "from_str (and from_file on the contents of the file) succeeds exactly when the text is a JSON text of RFC 8259 (white space, literals, numbers without leading zeros, strings with their escapes and paired surrogates, arrays, objects) with at most 127 nested arrays and objects, whose value is a tokenizer document; the tokenizer is the one the document describes, and a text describes only one value. Conversely whatever to_string and save write is a JSON text.", "quantifier": "every text, every tokenizer", "why_tests_cant": "The domain (all vocabularies x all strings x all random draws) is infinite; a test samples it.", "anchors": ["src/tokenizer.rs: Tokenizer::from_str, Tokenizer::from_file, Tokenizer::to_string, Tokenizer::save", "src/lib.rs: ScoredToken", "src/processor.rs: ProcessorWrapper"]}
{"id": "C76", "title": "A Python program sees one consistent tokenizer", "statement": "Whatever sequence of calls a Python program makes on its objects, and whatever other programs do to the files in between: every object is a tokenizer the crate can build; it changes only by its own add_special_tokens and __setstate__; what an id stands for, the id of a token, the text of decoded ids and everything about the base vocabulary, once answered, is answered the same at every later time (until __setstate__); ids from encode decode to the text at every later time; a call that raises changes nothing, and no call panics; __getstate__ and __setstate__ carry the tokenizer over.", "quantifier": "every sequence of calls, arguments and outcomes, every interference with the files", "why_tests_cant": "The domain (all vocabularies x all strings x all random draws) is infinite; a test samples it.", "anchors": ["bindings/python/src/lib.rs:PyTokenizer"]}
{"id": "C77", "title": "After save returns without raising, the file holds the tokenizer", "statement": "In Python, once save(path) has returned without an exception, from_file(path) gives the saved tokenizer.", "quantifier": "every object, path and outcome of writing", "why_tests_cant": "The domain (all vocabularies x all strings x all random draws) is infinite; a test samples it.", "anchors": ["bindings/python/src/lib.rs:save", "bindings/python/src/lib.rs:from_file"]}
{"id": "C78", "title": "Expectation maximisation never panics", "statement": "With exact arithmetic, from a vocabulary that generate returns (or any vocabulary without duplicates and empty tokens whose scores are logarithms of probabilities with sum at most 1, with at least two protected tokens, all bytes of tokens and samples being protected tokens) any number of EM iterations can be made without a panic, whatever the dropout, the random numbers and the division of the work; the vocabulary stays of this kind during the whole of pruning and every new score is negative. With doubles, and exp and ln accurate to 2^-40: a vocabulary of at most 2^24 tokens with finite scores of absolute value at most 64 and protected bytes stays of this kind during any number of iterations over a corpus of at most 2^40 bytes, the frequencies are finite, the M-step always returns, and no worker panics in an iteration from a vocabulary in which no byte ends tokens of more than 9/10 of the probability. Outside these conditions EM can panic.", "quantifier": "every such vocabulary, corpus, dropout, sequence of random numbers, schedule and number of iterations", "why_tests_cant": "The domain (all vocabularies x all strings x all random draws) is infinite; a test samples it.", "anchors": ["src/prune.rs:ModelVocabularyPruner::prune", "src/prune.rs:run_e_step", "src/prune.rs:run_m_step", "src/prune.rs:digamma"]}
{"id": "C79", "title": "The E-step computes expected numbers of uses", "statement": "With exact arithmetic and without dropout, the frequency the E-step gives to each token is, up to one part in a million, the expected number of its uses when each piece (81920 bytes) of each sample is cut into tokens at random, with probability proportional to the product of the probabilities of the tokens; with any dropout, the frequencies weighted by the lengths of the tokens add up to the size of the corpus. With any arithmetic, the frequencies are the sums of the workers' results in some order, whatever the schedule. With doubles the frequencies have an explicit error bound, relative to the expected number of uses, that depends on the accuracy of exp and ln, the lengths of pieces and tokens and the size of the corpus.", "quantifier": "every such vocabulary, corpus, number of threads and schedule", "why_tests_cant": "The domain (all vocabularies x all strings x all random draws) is infinite; a test samples it.", "anchors": ["src/prune.rs:run_e_step", "src/lattice.rs:populate_marginal"]}
{"id": "C80", "title": "The M-step re-estimates scores with the digamma function", "statement": "With exact arithmetic, the implemented digamma differs from the logarithmic derivative of the Gamma function by at most 1e-10 at every positive number, and the M-step keeps exactly the protected tokens and those with an expected frequency of at least 1/2, in order, each with score digamma(f) - digamma(total) up to 1e-10. With doubles, for up to 2^24 tokens whose frequencies are finite and at most 2^64, the M-step does not panic and does the same with an error of at most 1e-7.", "quantifier": "every positive real number; every vocabulary and list of frequencies; every function ln that is accurate to 2^-40", "why_tests_cant": "The domain (all vocabularies x all strings x all random draws) is infinite; a test samples it.", "anchors": ["src/prune.rs:run_m_step", "src/prune.rs:digamma"]}
{"id": "C81", "title": "Feeding cuts candidates at character boundaries only", "statement": "While feeding samples to the vocabulary generator, which works with byte offsets, no slice falls inside a character (no panic), and the candidates it draws for are exactly the non-empty pieces of whole characters of a text of at most the maximal number of bytes, once for every place where the piece occurs.", "quantifier": "all texts and all maximal lengths", "why_tests_cant": "The domain (all vocabularies x all strings x all random draws) is infinite; a test samples it.", "anchors": ["src/generate.rs: VocabularyGenerator::feed"]}
{"id": "C82", "title": "The n-best agenda works despite its inconsistent order", "statement": "The order by which n-best search ranks hypotheses never reports equality, so two hypotheses with equal estimates are each greater than the other. Nevertheless, after any history of pushes and pops the agenda holds exactly what was pushed and not popped, answers nothing only when it is empty, and otherwise answers a hypothesis with the largest estimate; so n-best search with it ends and returns the best segmentations in order.", "quantifier": "all histories of pushes and pops, all lattices, all n", "why_tests_cant": "The domain (all vocabularies x all strings x all random draws) is infinite; a test samples it.", "anchors": ["src/lattice.rs: Hypothesis::cmp, Agenda, Lattice::nbest"]}
{"id": "C83", "title": "The shipped pattern admits what the README says", "statement": "The shipped file data/exact.regex is what the documented command writes. Of every string it admits: a digit stands alone, upper and lower case are mixed only in capitalised words, letters and punctuation are mixed only in English contractions, letters are never mixed with spaces or tabs, and a line feed never occurs. A vocabulary generated with it has only single bytes, added and suggested tokens and such strings. (The command documented for the pattern \"fine\" is the same, so that it admits no word with a space before it, although the README says it does.)", "quantifier": "all strings; all corpora, configurations and random outcomes of generate", "why_tests_cant": "The domain (all vocabularies x all strings x all random draws) is infinite; a test samples it.", "anchors": ["data/exact.regex", "README.md: Regexes, Exact, Fine", "src/regex.rs: PATTERNS, build_allow_regex", "src/cli.rs: regex_cmd, load_regex, generate_cmd"]}
{"id": "C84", "title": "Command lines mean what the usage text says", "statement": "A command line is accepted exactly if it is a subcommand followed by flags of that subcommand, each with a value, where what is required is given once, what is optional at most once, and numbers are numbers; flags come in any order. It then asks for the values given, those of repeated flags in order, and for the documented defaults of what is left out. A command line that is refused changes no file; any other changes no file except the one given as output. Whatever command lines without --force are used, every tokenizer that is produced encodes every text. (The option --force is no switch: it is refused without a value.)", "quantifier": "all lists of arguments, all file systems, all histories of runs of the program", "why_tests_cant": "The domain (all vocabularies x all strings x all random draws) is infinite; a test samples it.", "anchors": ["src/cli.rs: flags, main, load_processors"]}
{"id": "C85", "title": "Training sees the text that encoding sees", "statement": "What prune, merge and generate learn from a training file is the text of its NUL-separated samples as the processors of the tokenizer change it, which is the text encode chooses tokens from. Everything else about the files is irrelevant: two sets of training files with the same processed samples lead to the same possible results, for prune, merge and mine (which has no processors) whatever the order of the samples and their distribution over files, for generate with the samples of each source in order.", "quantifier": "for every two file systems, lists of training sources, tokenizers, processors, Unicode normalisation functions and numbers", "why_tests_cant": "A test has one pair of training files; that nothing but the processed text matters is a statement about all pairs of files with equal processed text.", "anchors": ["src/cli.rs load_sources", "src/cli.rs shuffled_train_samples", "src/cli.rs prune_cmd", "src/cli.rs merge_cmd", "src/cli.rs generate_cmd", "src/cli.rs mine_cmd", "src/tokenizer.rs encode_ordinary"]}
{"id": "C86", "title": "What the commands write can be loaded", "statement": "With doubles for scores, printed and read as serde_json does, and whatever the platform computes for exp and ln: a saved tokenizer loads exactly if its scores are finite and no special token needs an escape in JSON; everything prune and filter write can be loaded; what generate writes can be loaded exactly if no requested special token needs an escape; what merge writes can be loaded if the scale factor is at most 1 in absolute value and the input has no empty token and no astronomic score. (merge --scale-factor nan writes a file that does not load.)", "quantifier": "for every environment, every file system, all flags, all training texts, all random choices and schedules, all functions exp and ln on doubles", "why_tests_cant": "A test loads the result of one run. Whether some run ends with a score that has no text depends on all inputs and on rounding and overflow.", "anchors": ["src/prune.rs run_m_step", "src/generate.rs generate", "src/merge.rs merge", "src/filter.rs filter", "src/tokenizer.rs save", "src/tokenizer.rs from_file", "src/cli.rs prune_cmd", "src/cli.rs generate_cmd", "src/cli.rs merge_cmd", "src/cli.rs filter_cmd"]}
{"id": "C87", "title": "insert_probability is an independent chance per place", "statement": "If each random number is below insert_probability with chance p, independently of the others, then the strings that feed takes from the samples of a chunk are independent of each other, within a sample and between samples: a string is left out of a sample with chance (1-p)^n, where n is the number of places where it can be cut out of the sample (allowed, not longer than max_token_length) plus, for added and suggested tokens, the number of matches that do not overlap; the mean number of samples of the chunk it is counted for is the sum of 1-(1-p)^n.", "quantifier": "for every generator, every list of samples, every probability, every set of strings and every combination of outcomes", "why_tests_cant": "A test with random numbers can only estimate frequencies; independence and exact chances are statements about all sequences of draws.", "anchors": ["src/generate.rs feed"]}
{"id": "C88", "title": "Dropout strikes places independently", "statement": "If each random number is at most the dropout with chance p, independently of the others, then encode with dropout returns each result with the chance that it is the best segmentation after every place of a vocabulary token of several bytes in the text is struck with chance p independently of the others (no segmentation left: the error NoPath), although no number is drawn for places that are not reached. In the lattice used for training exactly the nodes whose own random number is below the dropout are left out.", "quantifier": "for every vocabulary, every text, every dropout and chance, every set of results; scores obeying the laws of weak order and monotone addition", "why_tests_cant": "The claim is about the distribution over all sequences of random draws; a test sees a few runs.", "anchors": ["src/model.rs encode", "src/model.rs populate_nodes", "src/lattice.rs Lattice"]}
{"id": "C89", "title": "Only the first save can change a tokenizer", "statement": "Saving a tokenizer and loading the file can change scores in the last digit (C27, C28), but what was loaded is stable: saving and loading it again, any number of times, with to_string or save, gives exactly the same tokenizer, so that copies of copies encode like the first copy.", "quantifier": "for every tokenizer however it was built, every number of rounds and every mix of the two formats, all scores that are doubles", "why_tests_cant": "A test checks a few scores. Whether some double keeps drifting depends on the shortest digits of every double and on two roundings per round.", "anchors": ["src/tokenizer.rs save", "src/tokenizer.rs to_string", "src/tokenizer.rs from_str", "src/tokenizer.rs from_file", "src/lib.rs ScoredToken"]}
{"id": "C90", "title": "The default vocabulary spells bytes", "statement": "A model made from new_default_vocab encodes every text, and the ids are exactly its UTF-8 bytes, with or without dropout. None of the tokens is protected: filtering leaves exactly the requested size.", "quantifier": "for every text, every dropout value, every sequence of random numbers, every filter size", "why_tests_cant": "A test tries a few strings; dropout and random numbers are only sampled.", "anchors": ["src/lib.rs new_default_vocab", "src/model.rs encode", "src/filter.rs filter"]}
{"id": "C91", "title": "Encode and decode take linear time", "statement": "Encoding a text takes a number of elementary steps bounded by a constant times its length in bytes, and decoding a list of ids by a constant times its length, as documented. The constant depends only on the vocabulary (its longest token), the special tokens and how much the processors may lengthen a text, provided the empty string is not a special token. It does depend on the longest token: with tokens a, aa, ... it is quadratic in the length of the longest one.", "quantifier": "for every vocabulary, history of add calls, text, dropout value, random sequence, list of ids", "why_tests_cant": "A benchmark measures some texts; a text with many nested candidates at each position could still blow up.", "anchors": ["src/model.rs encode decode", "src/trie.rs common_prefix_search", "src/tokenizer.rs SpecialTokenSplitter encode"]}
{"id": "C92", "title": "The data script divides the stream by the two quotas", "statement": "datagen writes to the test file the samples that pass its tests, in order, until it has at least the requested number of bytes, then to the training file until the requested sum is reached, each sample followed by NUL; the rest is left out. Loading the file gives back the samples that were written, if none contains a NUL. (It is not so that samples of more than 4096 lines are left out, and the Chinese markdown data is never written: the names of the two files are one string.)", "quantifier": "for every stream of samples, all quotas and every language", "why_tests_cant": "A test uses a few samples; the place where the stream is cut depends on all lengths.", "anchors": ["scripts/datagen.py generate_the_stack", "scripts/datagen.py generate_chinese_markdown", "src/cli.rs load_sources"]}
{"id": "C93", "title": "Infilling data is made of shuffled chunks of training samples", "statement": "Each infilling sample is made from four samples among the first fifth of those of each training file, each used at most once: of those that are long enough ten different chunks, in random order, separated by DEL. The two files are divided by the quotas as for the other data. It fails exactly when the samples run out before the quotas are reached, in particular with fewer than four samples. The test file is made from training samples too.", "quantifier": "for every sequence of random numbers, all quotas and all training files", "why_tests_cant": "Random numbers are only sampled by a test.", "anchors": ["scripts/datagen.py generate_infilling"]}
{"id": "C94", "title": "The evaluation script counts every token", "statement": "For any tokenizer the table gives for each file the number of tokens and characters of its samples, and the frequency of an id is the number of its occurrences in all files. The script fails exactly if an id is not below the vocabulary size, which a TokenGeeX tokenizer never returns, or a file has no tokens. The fifty buckets decrease and hold the counts of all tokens but the (vocabulary size modulo 50) rarest; for fewer than fifty tokens they are all zero. What is counted are the NUL-separated samples of the text with every line end (CRLF or CR) replaced by a line feed.", "quantifier": "for every tokenizer, all files, all lists of frequencies", "why_tests_cant": "Sums over arbitrary files; a test sees a few.", "anchors": ["scripts/evaluate.py", "bindings/python/src/lib.rs encode"]}
{"id": "C95", "title": "The conversion script prunes low frequency tokens", "statement": "Truncating a BPE vocabulary to a size keeps its most frequent tokens and every byte.", "quantifier": "for every vocabulary, all frequencies, every size", "why_tests_cant": "A test uses one vocabulary.", "anchors": ["scripts/convert.py"]}
{"id": "C96", "title": "The search script reports shares of samples", "statement": "For each file find reports the number of occurrences that do not overlap and the share of the samples that contain the string, at most 100 %, and the totals are sums over the files.", "quantifier": "for every string and all files", "why_tests_cant": "Sums over arbitrary files; a test sees a few.", "anchors": ["scripts/find.py"]}
{"id": "C97", "title": "generate does not panic and its scores are log-probabilities, with real doubles", "statement": "With 64-bit floating-point numbers and a logarithm whose absolute error is at most 2^-40, generate never panics on an invalid frequency: every score it returns is a finite negative number within 2^-27 of the logarithm of the share that the token has of the total weight (the weight of a byte is the highest count, of another token its count times its length), the exponentials of the scores add up to 1 within 2^-26, and if the logarithm never decreases the vocabulary is sorted. (Up to 2^24 tokens, strings of at most a mebibyte, counts that do not overflow.)", "quantifier": "for every way of feeding, schedule, random outcome, listing order of the hash map, sorting algorithm, size and every such logarithm", "why_tests_cant": "Rounding errors accumulate over the vocabulary; a test sees one platform logarithm and a few frequency tables.", "anchors": ["src/generate.rs generate", "src/generate.rs logprobs"]}
{"id": "C98", "title": "The documented recipes deliver what they promise", "statement": "Run as written in docs/RECIPES.md, mine leaves a list of distinct strings of 1 to 32 spaces; generate, with the allow file of the repository, leaves a tokenizer that loads, with at most 500000 distinct tokens of finite scores, the processors crlf and nfc and the seven special tokens in the order of the command line, in which every byte and every added string of several bytes is a protected token, nothing else is protected, and any other token is a suggested string or a string of at most 16 bytes in the pattern exact that occurs in a training text; and each of the prune commands then leaves such a tokenizer of at most 32000 tokens. It encodes every text, with any dropout, and decodes to the text in NFC with LF for CRLF. No other file is touched. If the training and token files can be read, mine and generate can succeed.", "quantifier": "for all contents of the training files and the token lists, every schedule and random outcome, every text", "why_tests_cant": "The recipes take hours on a large corpus; a test sees one corpus, one schedule and some texts.", "anchors": ["docs/RECIPES.md", "src/cli.rs main", "src/cli.rs generate_cmd prune_cmd mine_cmd", "data/exact.regex"]}
{"id": "C99", "title": "Every part of an encoding is the encoding of that part", "statement": "With dropout <= 0: if the first ids of an encoding spell a text by themselves, encoding that text gives exactly these ids, also with floating-point scores. In exact arithmetic the same holds for any consecutive ids of an encoding.", "quantifier": "for every vocabulary, every text, every place where its encoding is cut", "why_tests_cant": "All texts and all cuts; rounding matters only for particular scores.", "anchors": ["src/model.rs:encode"]}
{"id": "C100", "title": "Adding special tokens changes nothing else", "statement": "add_special_tokens changes the result of encode only for texts that contain one of the new tokens, never that of encode_ordinary, and whatever could be decoded before is decoded to the same text afterwards.", "quantifier": "for every tokenizer, all new tokens, every text and all ids", "why_tests_cant": "All texts and registries; also for texts on which encode fails or does not end.", "anchors": ["src/tokenizer.rs:add_special_tokens", "src/tokenizer.rs:encode", "src/tokenizer.rs:decode", "src/tokenizer.rs:encode_ordinary"]}
{"id": "C101", "title": "Only the tokens that are used matter", "statement": "With dropout <= 0 and no duplicates: the order of the vocabulary does not change into which tokens a text is cut, nor does the removal of tokens that the encoding of the text does not use (filter is an example). Adding tokens never lowers the total score of an encoding. All this also with floating-point scores.", "quantifier": "for every vocabulary, every smaller or reordered vocabulary, every text", "why_tests_cant": "All pairs of vocabularies and all texts; ties and rounding could make it fail for particular ones.", "anchors": ["src/model.rs:encode", "src/filter.rs:filter"]}
{"id": "C102", "title": "Decoding in pieces", "statement": "If a list of ids is cut where a text ends (the base ids since the last special token spell a text), the decoded text is the concatenation of what the two parts decode to, and fails as one of them fails. If it is cut inside a character this need not hold.", "quantifier": "for every tokenizer, all ids, every such cut", "why_tests_cant": "All ids and cuts.", "anchors": ["src/tokenizer.rs:decode", "src/model.rs:decode"]}
{"id": "C103", "title": "When encoding fails and what the message says", "statement": "With dropout <= 0 and no empty special token, encode fails exactly if an ordinary piece of the text, processed, cannot be cut into tokens; the message is \"no path to position N/N\" where N is the number of bytes of the first such piece. decode fails with \"token id I is out of bounds\" where I is the first unknown id. The message determines the error and its numbers.", "quantifier": "for every tokenizer, every text, all ids", "why_tests_cant": "All texts and ids.", "anchors": ["src/lib.rs:Error", "src/tokenizer.rs:encode", "src/tokenizer.rs:decode", "bindings/python/src/lib.rs:PyTokenGeeXError"]}
{"id": "C104", "title": "Pruning does not panic on a corpus it can encode", "statement": "If every text of the corpus can be encoded, a prune step returns: it does not panic, fail or loop. (False: removing a token can have an estimated loss of exactly 0, which the program takes for an invalid number. It holds as long as no loss is close to 0.)", "quantifier": "for every vocabulary, corpus, schedule and random outcome, every logarithm of the platform with a small error", "why_tests_cant": "Whether a loss vanishes depends on the counts of the whole corpus; a test sees a few.", "anchors": ["src/prune.rs:prune_vocab"]}
{"id": "C105", "title": "Patterns mean what they say", "statement": "Anything that can be built from characters, ranges, beginning and end, by sequence, alternatives and repetition can be written as a pattern for the command line or an allow file and is read back as exactly that, at any depth of nesting. For any valid patterns a and b, (?:a)(?:b) matches a and then b, a|b what one of them matches, and (?:a) with ?, *, +, {m}, {m,} or {m,n}, also followed by a question mark, a in a row that often. A class matches what its members name (characters, ranges, white space, punctuation, a bracket in the first place, a hyphen in the last), or with ^ anything else. A range or count in the wrong order and a parenthesis too many are rejected.", "quantifier": "for all patterns, all characters, all numbers", "why_tests_cant": "All patterns of any depth; tests try some of them.", "anchors": ["src/cli.rs:load_patterns", "src/cli.rs:load_regex", "src/regex.rs:build_allow_regex"]}
{"id": "C106", "title": "Texts can be encoded in pieces where no token crosses", "statement": "With dropout <= 0: two texts that can be encoded can be encoded together, and in exact arithmetic this scores at least as much as the two encodings. Where no token lies across the boundary, the encoding of both together is, in exact arithmetic, the encoding of the first followed by that of the second, and exists only if both exist; so a text can be encoded line by line if line breaks occur only at the end of tokens. With floating-point scores the encoding of both begins with that of the first and exists exactly if both exist, but the rest may differ.", "quantifier": "for every vocabulary, all pairs and lists of texts", "why_tests_cant": "All texts and places to cut; rounding makes the difference visible only on rare inputs.", "anchors": ["src/model.rs:encode"]}
{"id": "C107", "title": "Encoding is piecewise at special tokens", "statement": "If sp is the special token that is found first in a text u sp v (none begins inside u, and sp is the first registered one that begins after u), and the empty string is not a special token, then encode gives the ids of encode_ordinary(u), the id of sp and the ids of encode(v), with the random numbers used one after the other; it fails as the first part that fails. So a conversation of plain messages separated by special tokens, none the beginning of another, is encoded message by message.", "quantifier": "for every tokenizer and history, all texts, every dropout and sequence of random numbers", "why_tests_cant": "All texts, registries and random numbers.", "anchors": ["src/tokenizer.rs:encode", "src/tokenizer.rs:encode_ordinary"]}
{"id": "C108", "title": "How many tokens a text can have", "statement": "An encoding has at most as many ids as the (processed) text has bytes, and at least as many as its bytes divided by the length of the longest token; with full dropout exactly as many as bytes. The same holds with special tokens.", "quantifier": "for every tokenizer and history, every text, every dropout and sequence of random numbers", "why_tests_cant": "All texts, vocabularies and random numbers.", "anchors": ["src/model.rs:encode", "src/tokenizer.rs:encode"]}
{"id": "C109", "title": "Only the order of the total scores matters", "statement": "With dropout <= 0: two vocabularies with the same tokens that agree which of two segmentations of the same bytes scores more encode every text alike, also with floating-point scores and if one is computed in another arithmetic. So in exact arithmetic multiplying all scores by a positive number and adding a fixed amount per byte changes no encoding; with floating-point scores multiplying by a power of two does not, as long as nothing overflows.", "quantifier": "for every vocabulary, all scores, every text", "why_tests_cant": "All texts and all scores.", "anchors": ["src/model.rs:encode"]}
{"id": "C110", "title": "How an encoding responds to a change of scores", "statement": "With dropout <= 0: making tokens worse that the encoding of a text does not use leaves this encoding unchanged, also with floating-point scores. In exact arithmetic, raising the score of one token never makes an encoding use it fewer times; with floating-point scores it can.", "quantifier": "for every vocabulary, all changes of scores, every text", "why_tests_cant": "All vocabularies and texts; ties and rounding matter only for particular scores.", "anchors": ["src/model.rs:encode"]}
{"id": "C111", "title": "Training is reproducible", "statement": "Without randomness the same inputs and options give the same result whatever the order of hash tables, the schedule of threads, the order of the samples or the unstable sorts do: mining and generating give the same vocabulary, merging the same merges, pruning the same vocabulary.", "quantifier": "for all inputs and options, every order of the tables, every chunking and thread schedule, every unstable sort, every order of the samples", "why_tests_cant": "Hash orders, schedules and unstable sorts differ from run to run; no test can try them all.", "anchors": ["src/mine.rs:mine", "src/generate.rs:VocabularyGenerator::generate", "src/merge.rs:ModelVocabularyMerger::merge", "src/prune.rs:ModelVocabularyPruner::prune"]}
{"id": "C112", "title": "Merging never makes encodings longer", "statement": "After merge no text, and so no corpus, is encoded with more tokens than before.", "quantifier": "every model, corpus, configuration and text", "why_tests_cant": "Whether a merged token displaces a longer one depends on all the scores and the text.", "anchors": ["src/merge.rs:ModelVocabularyMerger::merge", "src/model.rs:encode"]}
{"id": "C113", "title": "An EM iteration does not make the corpus less likely", "statement": "After an EM iteration the scores give the training corpus at least the log-likelihood it had before, summing over all ways of cutting it into tokens.", "quantifier": "every vocabulary and corpus, and all schedules of the E-step", "why_tests_cant": "The likelihood sums over exponentially many segmentations, and the digamma function of the M-step is not the maximiser of textbook EM.", "anchors": ["src/prune.rs:run_e_step", "src/prune.rs:run_m_step", "src/prune.rs:digamma"]}
{"id": "C114", "title": "Counting never overflows", "statement": "While merge, prune, mine and feed count in parallel, no counter exceeds at any moment what the size of the corpus allows: the number of its bytes for pairs and for tokens (and for the sum over all tokens), one match more per sample for matches, the number of samples for candidate strings. The product of frequency and length that generate turns into a score is at most the number of bytes of all samples and given tokens. So with a corpus of fewer than 2^64 bytes no counter wraps around and no build with overflow checks panics.", "quantifier": "for every vocabulary, corpus, chunking, schedule and moment, every history of feed calls", "why_tests_cant": "Overflow would only show on a corpus and a schedule that no test runs.", "anchors": ["src/merge.rs:ModelVocabularyMerger::merge", "src/prune.rs:prune_vocab", "src/mine.rs:IdiomMiner::mine", "src/generate.rs:VocabularyGenerator::feed", "src/generate.rs:VocabularyGenerator::generate"]}
{"id": "C115", "title": "Framed texts, and the example of the Python package", "statement": "If no special token is empty or the beginning of another, a text without first characters of special tokens, put between two special tokens, is encoded as the id of the first, the ids of encode_ordinary of the text and the id of the second; decoding gives it back as the processors left it, with or without the two tokens; encode_ordinary never gives the id of a special token. So for every object of every program whose vocabulary has the bytes of the two sentences and whose special tokens and processors do not interfere, the calls of bindings/python/example.py return and all its assertions hold.", "quantifier": "for every tokenizer, text, dropout and sequence of random numbers; for the example, for every history of the object and everything other programs do to the files", "why_tests_cant": "The example is run, if at all, with one vocabulary.", "anchors": ["bindings/python/example.py", "bindings/python/src/lib.rs", "src/tokenizer.rs:encode", "src/tokenizer.rs:decode"]}
{"id": "C116", "title": "What the plots of the evaluation show", "statement": "The table that scripts/evaluate.py writes has one line for every base name (the file name without directories, up to the first dot), with the counts of the last file of that name. If no two files share a base name, the average that scripts/plot.py draws is the number of characters of all samples of all files divided by the number of their tokens; in any case it lies between the smallest and the largest ratio of a language. The averages over a group of languages are drawn exactly if all languages of the group are in the table, and depend on no others. The bars of the second plot add up to 100 percent, each is the share of its bucket, and they fail exactly if all buckets are empty.", "quantifier": "for every list of files, all their names and texts, every encoding and all buckets", "why_tests_cant": "The unit tests do not run the scripts; files that share a base name, groups with a missing language and empty buckets are cases that no single run shows.", "anchors": ["scripts/evaluate.py:150-171", "scripts/plot.py:55-130"]}
{"id": "C117", "title": "Evaluating all vocabularies, interrupted and repeated", "statement": "scripts/evaluate.sh, run to its end, keeps every result that exists, writes for every other vocabulary what evaluate.py gives (nothing if it fails) and touches nothing else, in whatever order the background jobs run; every run ends. A run that is stopped at any moment loses no result that existed, and running the script again gives what one undisturbed run would have given.", "quantifier": "for every set of vocabularies, all existing results, every behaviour of evaluate.py, every interleaving of the jobs and every moment of a crash", "why_tests_cant": "It is about crash points and schedules of background jobs, and repeated runs; no test runs the script at all.", "anchors": ["scripts/evaluate.sh:1-19", "scripts/evaluate.py:150-180"]}
{"id": "C118", "title": "How often dropout leaves an encoding as it is", "statement": "encode with dropout returns the encoding that it returns without dropout with chance (1 - p)^m, where p is the chance that a random number does not exceed the dropout and m is the number of tokens of several bytes in that encoding, however many other tokens occur in the text and also if several segmentations are best. If all bytes of the text are tokens, it spells the text byte by byte with a chance of at least p to the number of places at which the text has a token of several bytes.", "quantifier": "for every vocabulary, text, dropout above 0 and every source of independent random numbers, with exact or floating-point scores", "why_tests_cant": "A chance is not observable in one run, and tests that sample do not cover all texts and vocabularies.", "anchors": ["src/model.rs:encode", "src/tokenizer.rs:encode_ordinary"]}
{"id": "C119", "title": "Different tokenizers are saved as different files", "statement": "Two tokenizers with finite scores that are saved to files with the same bytes, or written as the same text by to_string, are the same: same tokens, scores, keep flags, order, processors and special tokens. This also holds if the scores change when they are read back and if the special tokens need escapes. Scores that are not finite are all written alike.", "quantifier": "for all tokenizers that any sequence of calls builds", "why_tests_cant": "It is about all pairs of tokenizers and the texts of all doubles.", "anchors": ["src/tokenizer.rs:Tokenizer::save", "src/tokenizer.rs:Tokenizer::to_string", "src/tokenizer.rs:Tokenizer::serialize", "src/lib.rs:ScoredToken"]}
{"id": "C120", "title": "Lattices stay small and training on them takes linear time", "statement": "For a sentence of n bytes and tokens of at most L bytes, whatever the scores, the dropout and the earlier uses of the lattice: the lattice has at most L n + 2 nodes; populate_nodes takes at most (2 L + 2) n steps, viterbi at most (L + 4)^2 (n + 1) and populate_marginal at most 2 (L + 3)^2 (n + 1). So an E-step of pruning takes at most one step for each sample and 5 (L + 3)^2 for each byte of the corpus, all workers together. The square cannot be avoided: there are vocabularies and sentences for which populate_marginal takes L^2 (n - 2 L) steps.", "quantifier": "for every vocabulary, sentence, dropout, random sequence and history of the pool", "why_tests_cant": "It bounds the work for all sentences and vocabularies; a benchmark measures a few.", "anchors": ["src/lattice.rs:Lattice::viterbi", "src/lattice.rs:Lattice::populate_marginal", "src/model.rs:Model::populate_nodes"]}
{"id": "C121", "title": "What the shrink factor of prune does", "statement": "A pass of pruning asks for fewer tokens than there are exactly if the shrink factor is not at least one (NaN and negative factors included), even if it is the double next to one. With the default 0.8 it asks for exactly four fifths of the tokens, rounded down, and so the number of passes is logarithmic in the quotient of the sizes, unless too many tokens are forced. With a factor of at least one a prune step drops no token that occurs in the encodings of the corpus, and pruning need not return.", "quantifier": "for every factor that is a double, every number of tokens, every vocabulary and corpus", "why_tests_cant": "A product of doubles is rounded; a test sees a few factors and sizes, and cannot see that a loop never ends.", "anchors": ["src/prune.rs:prune_vocab", "src/prune.rs:prune", "src/cli.rs:main"]}
{"id": "C122", "title": "What the progress messages of a task say", "statement": "While some but not all of the samples have been processed, every message shows finite numbers: a percentage strictly between 0 and 100, a remaining time that is not negative, and throughputs, all of them accurate up to rounding; the percentages never go back. Before the first sample is counted nothing is shown, and nothing is divided by zero. The number of chunks that is announced at the start is the number of chunks or one more: one more exactly if the chunk size divides the number of samples.", "quantifier": "for every number of samples and bytes below 2^53, every state of the counters, every time of at least a second and every number of threads", "why_tests_cant": "A test does not wait for messages, and sees neither all counts nor all roundings.", "anchors": ["src/task.rs:Task::new", "src/task.rs:Task::start", "src/task.rs:mb_per_sec"]}
{"id": "C123", "title": "How accurately scores are read", "statement": "However a score is written in a file, with any number of digits before and after the point and any exponent, it is read as the number that the text denotes, up to a relative error of 2^-50; zero is read as zero with its sign, whatever the exponent. So two scores that differ by more than that are read in the right order.", "quantifier": "for every text of a number with fewer than 2^30 digits on each side of the point that denotes zero or a number between 10^-280 and 10^280 in magnitude", "why_tests_cant": "Files may be written by other programs with any number of digits; a test tries a few texts.", "anchors": ["src/tokenizer.rs:Tokenizer::from_str", "src/lib.rs:ScoredToken::deserialize"]}
{"id": "C124", "title": "What the script for baseline tokenizers reads", "statement": "scripts/trainbpe.py as it stands never trains anything: with the options it documents it fails on an option it did not declare. Its reader of the data, with proportion one, gives every sample of every file, and the training commands see exactly the non-empty ones of them; a proportion between zero and one takes that share of each file from its start, rounded down or up; a negative one leaves samples out at the end, where the training commands take none; a file that is not UTF-8 is an error.", "quantifier": "for all options, all libraries, all files of fewer than 2^53 samples and all proportions between minus one and one", "why_tests_cant": "A comparison of tokenizers assumes that both sides saw the same data, whatever is in the files; a test runs the script on a few.", "anchors": ["scripts/trainbpe.py:load_samples", "scripts/trainbpe.py:main", "src/cli.rs:load_sources"]}
{"id": "C125", "title": "Saved tokenizers have one line per score", "statement": "The text that to_string gives is a single line, whatever is in the tokens, so that it can be a record of a line-based format. The file that save writes has a number of lines that follows from the counts alone, and two tokenizers that differ only in the score of one token have files that differ in at most the one line with this score, so that line-based comparisons show what training changed; adding base tokens only inserts lines and a comma.", "quantifier": "for every tokenizer, however it was built, every content of its tokens and special tokens, every token of the vocabulary and all scores", "why_tests_cant": "Whether a line break of a token gets into the file depends on every character of every token; a test compares a few files.", "anchors": ["src/tokenizer.rs:Tokenizer::save", "src/tokenizer.rs:Tokenizer::to_string", "src/tokenizer.rs:Serialize for Tokenizer", "src/lib.rs:Serialize for ScoredToken", "src/processor.rs:Serialize for CrlfProcessor"]}
