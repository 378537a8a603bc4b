{"id": "C01", "title": "Multi-byte integers are stored most-significant byte first and read back unchanged", "statement": "Every 16-, 32- and 64-bit unsigned value written to a happyml binary file is stored as its bytes from most to least significant, and converting it back yields exactly the value written.", "quantifier": "all 2^16, 2^32 and 2^64 values", "why_tests_cant": "the 64-bit domain cannot be enumerated; a single wrong shift or mask corrupts only some values", "anchors": ["src/util/portable_bytes.hpp: portableBytes"]}
{"id": "C02", "title": "16-bit floats: storing a float keeps sign, infinities and NaN-ness and truncates toward zero to the nearest 16-bit value", "statement": "Converting a 32-bit float to the 16-bit format and back keeps the sign; +/-infinity stay themselves; NaN stays NaN; every other value becomes the representable value with the largest magnitude not exceeding it; the conversion is monotone; and values already representable in 16 bits are returned bit for bit.", "quantifier": "all 2^32 float bit patterns", "why_tests_cant": "four billion inputs with special classes (NaN payloads, denormals, infinities); tests sample a few", "anchors": ["src/types/half_float.hpp: floatToHalf, halfToFloat"]}
{"id": "C03", "title": "8-bit floats: decoding a code and encoding it again gives the same code", "statement": "For every quarter-float bias used by the library (4..15), every 8-bit code other than the reserved ones decodes to a float that encodes to the same code.", "quantifier": "all 256 codes at every bias", "why_tests_cant": "a small number of codes at particular biases misbehave; unit tests only probe a handful of decimal values", "anchors": ["src/types/quarter_float.hpp: floatToQuarter, quarterToFloat"]}
{"id": "C04", "title": "8-bit floats: encoding never flips the sign of a number", "statement": "For every finite float, the value read back after storing it as an 8-bit float is zero or has the same sign.", "quantifier": "all 2^32 float bit patterns and all biases 4..15", "why_tests_cant": "only numbers below the smallest representable magnitude are affected", "anchors": ["src/types/quarter_float.hpp: floatToQuarter, quarterToFloat"]}
{"id": "C05", "title": "8-bit floats: out-of-range values saturate, in-range values are rounded by at most one step, specials are preserved", "statement": "For every float and bias: values at or above the largest 8-bit magnitude store as the largest finite value of that sign; +/-infinity and the two canonical NaNs are preserved; every value in the normal range is stored with its own exponent and a mantissa off by at most one unit.", "quantifier": "all 2^32 float bit patterns and all biases 4..15", "why_tests_cant": "rounding and saturation boundaries differ per bias", "anchors": ["src/types/quarter_float.hpp: floatToQuarter, quarterToFloat"]}
{"id": "C06", "title": "The word trie behaves as a map from words to codes", "statement": "After any sequence of insertions, looking a word up returns the code most recently inserted for that word (or not-found), independent of all other words, and completing a prefix returns a longest stored word with that prefix, or the empty string when there is none.", "quantifier": "all insertion histories and all query words", "why_tests_cant": "sharing of prefixes between words makes interference possible only for particular word sets", "anchors": ["src/types/trie.hpp: Trie"]}
{"id": "C07", "title": "The de-duplication cache never exceeds its capacity and remembers exactly the most recently inserted distinct keys", "statement": "After any sequence of insertions the cache holds at most `capacity` keys, and a key is reported as present exactly when it is one of the last `capacity` inserted keys.", "quantifier": "all insertion histories, all capacities", "why_tests_cant": "eviction order errors appear only after particular repeat patterns", "anchors": ["src/util/lru_cache.h: LruCache"]}
{"id": "C08", "title": "Escaping text for storage loses nothing", "statement": "Decoding the encoded form of any string, with any delimiter character, returns the original string, and the encoded form contains neither the delimiter nor a line break.", "quantifier": "all strings and all delimiter characters", "why_tests_cant": "escape sequences interact only for particular adjacent characters (e.g. text that already looks like an escape)", "anchors": ["src/util/text_encoder_decoder.hpp: TextEncoderDecoder::encodeString, decodeString"]}
{"id": "C09", "title": "Replace-all performs exactly the leftmost non-overlapping replacements", "statement": "Replacing a non-empty pattern in a string substitutes every leftmost, non-overlapping occurrence, copies everything else unchanged, never rescans replacement text, and terminates.", "quantifier": "all strings, patterns and replacements", "why_tests_cant": "overlapping and self-similar patterns, and replacements that contain the pattern", "anchors": ["src/util/data_util.hpp: string_replace_all, u16string_replace_all_to_buffer"]}
{"id": "C10", "title": "Byte-pair encoding loses nothing", "statement": "For any trained (or manually configured, with distinct fresh codes) byte-pair encoder and any text, decoding the encoded text returns the text.", "quantifier": "all training histories and all input strings (all byte values)", "why_tests_cant": "greedy merges of overlapping pairs and nested codes can only be exercised on a vanishing fraction of strings", "anchors": ["src/ml/byte_pair_encoder.hpp: BytePairEncoderModel::encode, decode, setBpeCodes"]}
{"id": "C11", "title": "Byte-pair training terminates and assigns fresh, pairwise distinct codes above the delimiter, never the reserved range", "statement": "Every training call finishes, and afterwards every code in the table is greater than the delimiter code, all are pairwise different, none collides with a raw character, and none reaches the reserved value 0x7FFF.", "quantifier": "all training texts, vocabularies, merge limits and repeated training calls", "why_tests_cant": "code exhaustion and repeated-training interactions need tens of thousands of merges", "anchors": ["src/ml/byte_pair_encoder.hpp: BytePairEncoderModel::train, updateCodeForMostFrequentPair"]}
{"id": "C12", "title": "Saving and loading a byte-pair encoder gives an equivalent encoder", "statement": "An encoder loaded from a saved file encodes and decodes every text exactly like the encoder that was saved.", "quantifier": "all code tables and all texts", "why_tests_cant": "depends on the ordering and on delimiter handling of particular code tables", "anchors": ["src/ml/byte_pair_encoder.hpp: BytePairEncoderModel::save, load"]}
{"id": "C13", "title": "Tokenizing text into words keeps every character, in order", "statement": "Concatenating the tokens produced from a text gives back the text (apart from the characters the tokenizer is documented to drop), and no produced token is empty.", "quantifier": "all strings", "why_tests_cant": "the flush rules depend on neighbouring character classes and on position", "anchors": ["src/util/data_util.hpp: append_character, string_to_tokens"]}
{"id": "C14", "title": "Reading tokens from a file in chunks gives the same tokens as tokenizing the whole text", "statement": "The token sequence obtained from a file does not depend on how the bytes are split into reads, and equals the token sequence of the file content as one string.", "quantifier": "all texts and all chunk boundaries", "why_tests_cant": "a boundary can fall inside any token", "anchors": ["src/util/data_util.hpp: load_file_to_tokens, string_to_tokens, append_character"]}
{"id": "C15", "title": "Records written to a delimited text file are read back unchanged", "statement": "Reading a line written by the delimited text writer returns the same list of fields.", "quantifier": "all records and all delimiters", "why_tests_cant": "quotes, numeric-looking text and delimiter characters interact", "anchors": ["src/util/file_writer.hpp: DelimitedTextFileWriter::writeRecord", "src/util/file_reader.hpp: DelimitedTextFileReader::nextRecord"]}
{"id": "C16", "title": "Reading a directory of text files returns every line of every file", "statement": "The multi-file line reader yields the concatenation of the lines of all its files, in order, each exactly once.", "quantifier": "all lists of files and all contents, including empty files", "why_tests_cant": "only particular file orders (an empty file in the middle) fail", "anchors": ["src/util/file_reader.hpp: TextLinePathReader"]}
{"id": "C17", "title": "External sort returns the input lines in order, none lost or invented, whatever the chunk size", "statement": "Sorting a file with any chunk size yields a sorted file with the same multiset of lines (or, with duplicate removal, the same set of lines each exactly once); a header line stays first.", "quantifier": "all files, all chunk sizes, with and without header and duplicate removal", "why_tests_cant": "chunk boundaries and ties across chunks", "anchors": ["src/util/text_file_sorter.hpp: FileSorter::sort, merge_chunks"]}
{"id": "C18", "title": "Shuffling is a permutation", "statement": "After any number of shuffles with any random choices, the shuffler maps the record numbers 0..n-1 one-to-one onto themselves.", "quantifier": "all sizes, all random choices, all numbers of shuffles", "why_tests_cant": "the random generator makes exhaustive testing impossible", "anchors": ["src/util/shuffler.hpp: Shuffler::shuffle, getShuffledIndex"]}
{"id": "C19", "title": "Training and test splits of one dataset never share a record and together cover it", "statement": "Opening the same dataset with split s (0<s<1) and with split s-1 gives two views whose records are disjoint and together are all records.", "quantifier": "all record counts and all split fractions", "why_tests_cant": "rounding at the boundary affects single records for particular counts", "anchors": ["src/training_data/training_dataset.hpp: BinaryDataSet::BinaryDataSet, nextRecord, recordCount"]}
{"id": "C20", "title": "Splitting a file of sentences into train and test loses nothing", "statement": "splitData distributes every line to exactly one of the two outputs, in any order; sampleData returns a sub-collection of the input of the requested size.", "quantifier": "all inputs, fractions and random choices", "why_tests_cant": "random choices", "anchors": ["src/util/data_util.hpp: splitData, sampleData"]}
{"id": "C21", "title": "An epoch over a dataset visits every record exactly once, shuffled or not", "statement": "Between two restarts, repeatedly asking a dataset for the next record returns every record exactly once, in shuffler order if a shuffler is set, and then reports the end.", "quantifier": "all datasets, all permutations, all interleavings of restart and read", "why_tests_cant": "depends on cursor/permutation interplay", "anchors": ["src/training_data/training_dataset.hpp: InMemoryTrainingDataSet::nextRecord, BinaryDataSet::nextRecord, restart"]}
{"id": "C22", "title": "One-hot encoding marks exactly the requested position and never writes outside the row", "statement": "Each encoded row has exactly one 1 at the position of its token (or is all zero for unknown/padding as documented) and no access is out of bounds.", "quantifier": "all token lists and vocabularies", "why_tests_cant": "boundary: token equal to the largest code", "anchors": ["src/util/one_hot_encoder.hpp: one_hot_encode_bpe_tokens, one_hot_encode_characters, one_hot_encode_words"]}
{"id": "C23", "title": "Padding or truncating a token list gives exactly the requested length and keeps the prefix", "statement": "pad_or_truncate_tokens returns a list of exactly the requested length whose common prefix with the input is as long as possible and whose remainder is padding.", "quantifier": "all token lists and lengths", "why_tests_cant": "length boundary cases", "anchors": ["src/util/one_hot_encoder.hpp: pad_or_truncate_tokens"]}
{"id": "C24", "title": "A binary dataset file describes its own columns: header written is header read", "statement": "Opening a dataset written by the dataset writer (at least one given column and at least one value per row) recovers the same given and expected columns with all their metadata.", "quantifier": "all column descriptions", "why_tests_cant": "field widths and ordering; long names", "anchors": ["src/util/file_writer.hpp: BinaryDatasetWriter::writeHeader, writeColumnMetadata", "src/util/file_reader.hpp: BinaryDatasetReader::readHeader"]}
{"id": "C25", "title": "Every row of a binary dataset can be read back by index, and the row count is the number of rows written", "statement": "After writing any sequence of rows, the reader reports exactly the number of rows written, and reading row i returns the i-th row's values bit for bit for number and text columns, for 0 and 1 in label columns and for the 256 pixel levels in image columns.", "quantifier": "all schemas, all row sequences, all indices", "why_tests_cant": "offset arithmetic over variable schemas", "anchors": ["src/util/file_writer.hpp: BinaryDatasetWriter::writeRow", "src/util/file_reader.hpp: BinaryDatasetReader::readRow, rowCount"]}
{"id": "C26", "title": "De-duplicating writer drops only rows whose inputs repeat recent ones", "statement": "With de-duplication on, the rows stored are a subsequence of the rows written, and a row is dropped only if the same given values were written recently; rows with new given values are always stored.", "quantifier": "all row sequences and hash functions", "why_tests_cant": "depends on eviction history and hash collisions", "anchors": ["src/util/file_writer.hpp: BinaryDatasetWriter::writeRow, compute_given_hash", "src/util/lru_cache.h"]}
{"id": "C27", "title": "Reading a dataset with new normalization constants re-expresses each column with its own constants", "statement": "When a dataset is read for a model trained with other constants, every column's values are first restored with the column's own stored constants and then standardized and normalized with the constants of the corresponding target column.", "quantifier": "all schemas, constants and values", "why_tests_cant": "only datasets with several columns with different constants show a mix-up", "anchors": ["src/util/file_reader.hpp: BinaryDatasetReader::readRow", "src/util/tensor_utils.hpp: renormalizeAndStandardize"]}
{"id": "C28", "title": "A tensor saved to a file loads back identical", "statement": "For every tensor, the file written by save loads to a tensor of the same shape with the same value at every position.", "quantifier": "all shapes and all float values", "why_tests_cant": "shape-dependent loop order", "anchors": ["src/types/base_tensors.hpp: BaseTensor::save", "src/types/tensor_impls/full_tensor.hpp: FullTensor"]}
{"id": "C29", "title": "Element addressing is a bijection and reshape/flatten keep every value in order", "statement": "For every shape, the linear offset of (row, column, channel) enumerates 0..size-1 exactly once, and reshaping or flattening a tensor gives a tensor with the same linear sequence of values.", "quantifier": "all shapes", "why_tests_cant": "index arithmetic with div/mod over three dimensions", "anchors": ["src/types/base_tensors.hpp: getValue(offset)", "src/types/tensor_views/reshape_tensor_view.hpp", "src/types/tensor_views/row_flatten_tensor_view.hpp"]}
{"id": "C30", "title": "Transposing twice, or rotating by 180 degrees twice, gives the original tensor", "statement": "The transposed view of the transposed view and the rotated view of the rotated view have the same shape and values as the original tensor.", "quantifier": "all tensors", "why_tests_cant": "all shapes", "anchors": ["src/types/tensor_views/transpose_tensor_view.hpp", "src/types/tensor_views/rotate_180_tensor_view.hpp"]}
{"id": "C31", "title": "Concatenating tensors side by side and cutting them apart are inverse", "statement": "The wide concatenation of tensors has each input's columns in order, and the backward pass of the concatenation layer hands each input exactly the error columns that belong to it.", "quantifier": "all numbers and shapes of inputs", "why_tests_cant": "offset bookkeeping over any number of inputs", "anchors": ["src/ml/layers/concatenate_wide_layer.hpp", "src/types/tensor_views/concat_wide_tensor_view.h", "src/types/tensor_views/window_tensor_view.hpp"]}
{"id": "C32", "title": "Zero padding surrounds the tensor with zeros and keeps the interior", "statement": "The padded view has the extended shape, the original values at the shifted positions and zero everywhere else.", "quantifier": "all shapes and pad sizes", "why_tests_cant": "boundary indices on four sides", "anchors": ["src/types/tensor_views/zero_pad_tensor_view.hpp"]}
{"id": "C33", "title": "Matrix product view equals the mathematical matrix product", "statement": "For compatible shapes every element of the product view is the sum of products along the inner dimension, incompatible shapes are rejected, and the product is associative and reverses under transposition (over exact arithmetic).", "quantifier": "all shapes and values", "why_tests_cant": "all shapes", "anchors": ["src/types/tensor_views/matrix_multiply_tensor_view.hpp"]}
{"id": "C34", "title": "Matrix inverse is an inverse", "statement": "Whenever the inverse of a square matrix is returned, multiplying it with the matrix gives the identity (over exact arithmetic); singular matrices are rejected.", "quantifier": "all square matrices of every size", "why_tests_cant": "pivoting paths depend on data", "anchors": ["src/types/tensor_views/inverse_tensor_view.hpp"]}
{"id": "C35", "title": "Masked select picks from the second tensor where the mask holds and from the third elsewhere", "statement": "Each element of the masked-select view is the element of the first alternative if the mask exceeds the threshold and of the second alternative otherwise.", "quantifier": "all tensors", "why_tests_cant": "a test using equal alternatives cannot see it", "anchors": ["src/types/base_tensors.hpp: BaseTensorTrinaryOperatorView", "src/types/tensor_views/masked_select_tensor_view.hpp"]}
{"id": "C36", "title": "Standardizing a tensor subtracts its mean and divides by its standard deviation", "statement": "The standardized view of a tensor has mean zero and unit variance whenever the tensor is not constant.", "quantifier": "all tensors of every size", "why_tests_cant": "size-dependent numerical formula", "anchors": ["src/types/tensor_views/standardize_tensor_view.hpp"]}
{"id": "C37", "title": "Running statistics equal the exact statistics of all values seen", "statement": "After feeding any sequence of values one at a time the running count, mean, variance, minimum and maximum equal those of the whole sequence (over exact arithmetic).", "quantifier": "all finite sequences", "why_tests_cant": "incremental formula over unbounded sequences", "anchors": ["src/util/tensor_utils.hpp: update_standardization_normalization_values_calculation, calcStandardizationValuesForEntireSet"]}
{"id": "C38", "title": "Normalized columns lie between zero and one", "statement": "After dataset normalization every stored value of a normalized column lies in [0,1].", "quantifier": "all datasets", "why_tests_cant": "depends on the interplay of two separately computed passes", "anchors": ["src/util/dataset_utils.hpp: normalize_and_standardize_dataset, standardize_and_normalize"]}
{"id": "C39", "title": "Decoding undoes encoding of standardized/normalized values", "statement": "Un-standardizing and de-normalizing an encoded value returns the original value for every column configuration with non-zero range and deviation.", "quantifier": "all values and column constants", "why_tests_cant": "order of the two affine maps matters", "anchors": ["src/util/dataset_utils.hpp: standardize_and_normalize, unstandardize_and_denormalize", "src/training_data/data_decoder.hpp: RawDecoder::decode"]}
{"id": "C40", "title": "Top-n returns the n largest positions in descending order", "statement": "topIndices(n) returns the positions of the n largest values in non-increasing order, each position once, and maxIndex returns the first position of the maximum.", "quantifier": "all tensors and all n", "why_tests_cant": "ties, n larger than the row", "anchors": ["src/types/base_tensors.hpp: topIndices, maxIndex"]}
{"id": "C41", "title": "Valid cross-correlation equals its definition and has shape (rows-k+1, cols-k+1)", "statement": "For kernels not larger than the input each element is the sum over the kernel window; the convolution layer's output is the sum over the input channels.", "quantifier": "all shapes and values", "why_tests_cant": "all shapes", "anchors": ["src/types/tensor_views/valid_2d_cross_correlation_tensor_view.hpp", "src/ml/layers/convolution_2d_valid_layer.hpp: forward"]}
{"id": "C42", "title": "Lexing tiles the source text with longest matches", "statement": "When lexing succeeds, the lexed pieces (including skipped whitespace and comments) concatenate to the source text, each piece is the longest match at its position with ties resolved in favour of the earlier pattern, and otherwise a syntax error is reported.", "quantifier": "all source texts", "why_tests_cant": "pattern interactions (keyword prefix of word, digits and dots)", "anchors": ["src/lang/lexer/lexer.hpp: Lexer::lex, findLongestMatch", "src/lang/happyml_script_init.hpp"]}
{"id": "C43", "title": "Lexing terminates on every source text", "statement": "The lexer finishes with tokens or an error on every input.", "quantifier": "all source texts", "why_tests_cant": "an empty match would loop forever", "anchors": ["src/lang/lexer/lexer.hpp: Lexer::lex", "src/lang/lexer/lexer_patterns.hpp"]}
{"id": "C44", "title": "Keywords are recognised only as whole words", "statement": "An identifier that merely starts with a keyword is lexed as one word token; the exact keyword is lexed as the keyword.", "quantifier": "all identifiers", "why_tests_cant": "every identifier extending every keyword", "anchors": ["src/lang/happyml_script_init.hpp: initializeHappymlLexer", "src/lang/lexer/lexer.hpp: findLongestMatch"]}
{"id": "C45", "title": "Parsing never throws: every script yields a parse result", "statement": "The parser returns either a program or an error message for every token sequence.", "quantifier": "all token sequences", "why_tests_cant": "truncated statements at every possible point", "anchors": ["src/lang/parser/parser.hpp: Parser::parse"]}
{"id": "C46", "title": "Quoted string literals denote exactly the quoted text", "statement": "Quoting any text (escaping the quote character with a backslash) and parsing it returns the text.", "quantifier": "all texts and both quote characters", "why_tests_cant": "backslashes adjacent to quotes", "anchors": ["src/lang/parser/parser.hpp: unescapeString", "src/lang/lexer/lexer_patterns.hpp: createStringPattern"]}
{"id": "C47", "title": "A script stops at the first failing statement or at exit", "statement": "Running a script executes statements in order until the first failure or exit statement and reports that outcome.", "quantifier": "all scripts", "why_tests_cant": "all statement sequences", "anchors": ["src/lang/statements/code_block.hpp: CodeBlock::execute"]}
{"id": "C48", "title": "Column groups that share a source column are rejected", "statement": "Dataset creation reports an overlap exactly when two column groups cover a common source column.", "quantifier": "all lists of column groups", "why_tests_cant": "off-by-one at the shared edge column", "anchors": ["src/util/dataset_utils.hpp: has_overlap, sort_and_check_overlaps"]}
{"id": "C49", "title": "Re-arranging columns keeps every selected value", "statement": "Records re-arranged to the given-first layout contain exactly the selected source columns in the documented order, and each group's new start index points at its own values.", "quantifier": "all column group lists and records", "why_tests_cant": "offset bookkeeping over any number of groups", "anchors": ["src/training_data/training_dataset.hpp: update_column_positions", "src/lang/statements/create_dataset_statement.hpp"]}
{"id": "C50", "title": "Converting text files to a delimited file keeps every token exactly once", "statement": "The cells written by the text-to-csv conversion concatenate to the token sequence of the input.", "quantifier": "all texts and cell limits", "why_tests_cant": "depends on where sentence ends fall relative to the cell limit", "anchors": ["src/util/dataset_utils.hpp: convert_txt_to_csv"]}
{"id": "C51", "title": "Values passed to a task are encoded in the same layout as the training data", "statement": "Encoding values supplied by a script gives the same tensor (shape and positions) as the dataset encoder gives for the same values.", "quantifier": "all shapes and values", "why_tests_cant": "only non-square multi-row shapes differ", "anchors": ["src/training_data/data_encoder.hpp: HappyMLVariantEncoder::encode"]}
{"id": "C52", "title": "Decoding a label vector returns the label that was encoded", "statement": "For every category table, encoding a known label and decoding the resulting tensor returns that label; unknown labels are rejected.", "quantifier": "all category tables and labels", "why_tests_cant": "all table sizes", "anchors": ["src/training_data/data_encoder.hpp: TextToUniqueCategoryEncoder", "src/training_data/data_decoder.hpp: BestTextCategoryDecoder"]}
{"id": "C53", "title": "Automatic 8-bit bias selection picks the most precise range that fits", "statement": "The estimated bias is the largest bias whose representable range strictly contains the values, or the minimum bias if none does.", "quantifier": "all value ranges", "why_tests_cant": "boundaries between twelve ranges", "anchors": ["src/util/tensor_utils.hpp: estimateBias"]}
{"id": "C54", "title": "Training stops within its limits", "statement": "The default exit strategy never stops before the minimum number of epochs, always stops once the minimum and maximum number of epochs, the time limit after the minimum, or the patience is reached, and the reported reason is always a condition that holds.", "quantifier": "all sequences of losses (including NaN and infinity), times and all limits", "why_tests_cant": "loss sequences are unbounded and float-special", "anchors": ["src/ml/exit_strategy.hpp: DefaultExitStrategy::isDone, whyDone"]}
{"id": "C55", "title": "A forward pass evaluates every layer exactly once with all of its inputs", "statement": "For every layer graph, running a prediction evaluates every reachable layer exactly once, after all of its inputs are available, and leaves no stale input behind.", "quantifier": "all acyclic layer graphs and input orders", "why_tests_cant": "branch/join patterns", "anchors": ["src/ml/neural_network_node.hpp: doForward, forwardFromConnection"]}
{"id": "C56", "title": "The error sent back to a layer with several consumers is the average of the consumers' errors", "statement": "The error propagated to a layer that feeds several layers is the arithmetic mean of the errors they return.", "quantifier": "all fan-outs and errors", "why_tests_cant": "only fan-out of two or more", "anchors": ["src/ml/neural_network_node.hpp: backward"]}
{"id": "C57", "title": "Gradient clipping bounds the norm and keeps the direction", "statement": "Clipped errors have norm at most the threshold, are a non-negative multiple of the original, and are unchanged if already within the threshold.", "quantifier": "all errors and thresholds", "why_tests_cant": "all vectors", "anchors": ["src/ml/neural_network_node.hpp: clip"]}
{"id": "C58", "title": "The parameter count counts every layer exactly once", "statement": "The reported number of parameters is the sum over the distinct layers reachable from the inputs.", "quantifier": "all layer graphs", "why_tests_cant": "shared layers in branching graphs", "anchors": ["src/ml/neural_network_node.hpp: get_parameter_count"]}
{"id": "C59", "title": "Saving a model under a name stores the weights next to its configuration", "statement": "After saveAs, the model folder that holds the configuration also holds the weights.", "quantifier": "all names, overwrite choices and pre-existing folders", "why_tests_cant": "needs an already existing target", "anchors": ["src/ml/neural_network.hpp: saveAs"]}
{"id": "C60", "title": "Loading a saved model gives every layer its own weights back", "statement": "After saving a model and loading it, every layer has the weights it had when saved.", "quantifier": "all model graphs and creation orders", "why_tests_cant": "depends on the order in which the layers were created", "anchors": ["src/ml/happyml_dsl.hpp: loadNeuralNetworkForTraining, createVertexFromMetadata, buildLayer"]}
{"id": "C61", "title": "Every training record contributes to exactly one weight update per epoch, in batches of the requested size", "statement": "In every epoch all records are fed, in batches of exactly the requested size except possibly the last, with one weight update per batch; batch sizes larger than the dataset are rejected.", "quantifier": "all dataset sizes and positive batch sizes", "why_tests_cant": "remainder batches", "anchors": ["src/ml/neural_network.hpp: NeuralNetworkForTraining::train"]}
{"id": "C62", "title": "The reported epoch loss is the mean of the batch losses", "statement": "The training loss reported for an epoch is the arithmetic mean of the losses of its batches.", "quantifier": "all dataset sizes, batch sizes and losses", "why_tests_cant": "only when the batch size does not divide the dataset size", "anchors": ["src/ml/neural_network.hpp: NeuralNetworkForTraining::train"]}
{"id": "C63", "title": "Training with the best-retention policy ends with the weights of the lowest test loss", "statement": "After training, the weights are those of the epoch with the lowest test loss (the earliest such).", "quantifier": "all loss sequences", "why_tests_cant": "all loss sequences", "anchors": ["src/ml/neural_network.hpp: NeuralNetworkForTraining::train"]}
{"id": "C64", "title": "Hyperparameter search rounds keep the best configurations", "statement": "Each elimination round keeps the best-scoring configurations.", "quantifier": "all score lists and both metric directions", "why_tests_cant": "ordering direction per metric", "anchors": ["src/ml/hyperband/hyperband.hpp: eliminateConfigurations"]}
{"id": "C65", "title": "Hyperparameter search terminates and allots at least the minimum resources", "statement": "For every reduction factor of at least two the number of configurations reaches one after finitely many rounds and every round gets at least 2 resources.", "quantifier": "all configuration counts, reduction factors and budgets", "why_tests_cant": "integer power/division corner cases", "anchors": ["src/ml/hyperband/hyperband.hpp: run"]}
{"id": "C66", "title": "Creating a label task terminates", "statement": "The search performed by task creation finishes after finitely many training attempts.", "quantifier": "all training outcomes", "why_tests_cant": "needs attempts that never reach the target accuracy", "anchors": ["src/util/task_utils.hpp: create_label_task"]}
{"id": "C67", "title": "Loss gradients point uphill", "statement": "For each loss function the reported derivative has the sign of the true derivative of the loss, so a descent step reduces the loss.", "quantifier": "all predictions and truths", "why_tests_cant": "continuous domain", "anchors": ["src/ml/losses/*.hpp"]}
{"id": "C68", "title": "Activation derivatives are the derivatives of the activations", "statement": "For every activation function the reported derivative is the mathematical derivative wherever it exists, and outputs stay in the documented range.", "quantifier": "all real inputs", "why_tests_cant": "continuous domain", "anchors": ["src/ml/activators/*.hpp"]}
{"id": "C69", "title": "Softmax yields a probability distribution", "statement": "Softmax outputs are positive, sum to one, keep the order of the inputs and do not change when a constant is added to all inputs.", "quantifier": "all non-empty real vectors", "why_tests_cant": "continuous domain", "anchors": ["src/ml/activators/softmax_activation_function.hpp"]}
{"id": "C70", "title": "Optimizer steps follow their update rules over any number of steps", "statement": "Plain gradient descent moves each weight by -rate*gradient; momentum keeps the exponentially weighted sum of all past gradients; layers registered separately never share optimizer state.", "quantifier": "all gradient histories", "why_tests_cant": "unbounded histories", "anchors": ["src/ml/optimizers/*.hpp"]}
{"id": "C71", "title": "Tensor statistics do not depend on thread scheduling", "statement": "The per-bucket statistics of a tensor are the same for every order in which worker threads merge their partial results.", "quantifier": "all schedules and partial results", "why_tests_cant": "schedule dependent", "anchors": ["src/util/tensor_stats.hpp: populateBagsByCol, populateBagsByRow, populateBagsByChannel"]}
{"id": "C72", "title": "Names of layer, activation, loss and optimizer kinds round-trip through a model file", "statement": "Converting each kind to its name and back returns the same kind; unknown names are rejected.", "quantifier": "all kinds and all strings", "why_tests_cant": "finite table plus all unknown strings", "anchors": ["src/ml/enums.hpp"]}
{"id": "C73", "title": "Dropout drops each value with the configured rate during training", "statement": "During training exactly the positions whose random draw does not exceed the configured rate are zeroed, and the configured rate is the one requested.", "quantifier": "all inputs, rates and random draws", "why_tests_cant": "random draws", "anchors": ["src/ml/layers/dropout_layer.hpp", "src/ml/happyml_dsl.hpp: addDropoutLayer"]}
{"id": "C74", "title": "Printing a dataset shows the requested number of rows", "statement": "Printing with a limit shows min(limit, rows) rows, and -1 shows all of them; headers and rows use the same column order.", "quantifier": "all row counts and limits", "why_tests_cant": "limit boundary values", "anchors": ["src/util/pretty_print_row.hpp: pretty_print"]}
{"id": "C75", "title": "Reading one row of a tensor returns that row of that channel", "statement": "getRowValues(row, channel) returns the values of the requested row of the requested channel, one per column, in order.", "quantifier": "all shapes, rows and channels", "why_tests_cant": "shape dependent indexing", "anchors": ["src/types/base_tensors.hpp: getRowValues"]}
{"id": "C76", "title": "The diagonal view of a vector is the diagonal matrix of that vector", "statement": "The diagonal view of a vector with n values is the n by n matrix with the vector's values on the diagonal and zeros elsewhere.", "quantifier": "all vectors, row and column", "why_tests_cant": "all lengths and both orientations", "anchors": ["src/types/tensor_views/diagonal_tensor_view.hpp"]}
{"id": "C77", "title": "Channel selection and channel summation views read exactly the right channels", "statement": "Selecting a channel yields that channel as a one-channel tensor; summing channels yields the sum over all channels at each position; summing into a channel puts the sum at the requested channel.", "quantifier": "all shapes and values", "why_tests_cant": "all shapes", "anchors": ["src/types/tensor_views/channel_to_tensor_view.hpp", "src/types/tensor_views/sum_channels_tensor_view.hpp", "src/types/tensor_views/sum_to_channel_tensor_view.hpp"]}
{"id": "C78", "title": "Dividing by a matrix multiplies by its inverse", "statement": "For an invertible right operand the quotient A / B is the matrix product of A and the inverse of B; in particular (A / B) times B is A.", "quantifier": "all sizes and values (exact arithmetic)", "why_tests_cant": "all matrices", "anchors": ["src/types/tensor_views/matrix_divide_tensor_view.hpp"]}
{"id": "C79", "title": "Element-wise operations act position by position on equal shapes only", "statement": "Adding, subtracting, multiplying and dividing two tensors is accepted exactly for equal shapes and acts on each position separately; subtraction undoes addition and division undoes multiplication where the divisor is not zero (exact arithmetic).", "quantifier": "all shapes and values", "why_tests_cant": "all shapes", "anchors": ["src/types/tensor_views/add_tensor_view.hpp", "src/types/tensor_views/subtract_tensor_view.hpp", "src/types/tensor_views/element_wise_multiply_tensor_view.hpp", "src/types/tensor_views/element_wise_divide_tensor_view.hpp"]}
{"id": "C80", "title": "Full cross-correlation and convolution have shape (rows+k-1, cols+k-1) and the standard values", "statement": "For every non-empty kernel the full cross-correlation and the full convolution have the standard shape and each element is the standard sum over the kernel, the tensor being continued by zeros.", "quantifier": "all shapes and values", "why_tests_cant": "all kernel sizes", "anchors": ["src/types/tensor_views/full_2d_cross_correlation_tensor_view.hpp", "src/types/tensor_views/full_2d_convolve_tensor_view.hpp"]}
{"id": "C81", "title": "Tensor statistics are the exact statistics of all elements", "statement": "sum, product, min, max, range, arithmetic mean, variance and standard deviation of a tensor are the mathematical statistics of all its elements (exact arithmetic), each element counted once.", "quantifier": "all shapes and values", "why_tests_cant": "all shapes and running update formulas", "anchors": ["src/types/base_tensors.hpp: product, sum, max, min, range, arithmeticMean, variance, standardDeviation"]}
{"id": "C82", "title": "The Euclidean norm of a tensor is the root of the sum of squares", "statement": "euclidean_norm returns the square root of the sum of the squares of all elements for every tensor, including the zero tensor.", "quantifier": "all shapes and values", "why_tests_cant": "scaled summation with special cases", "anchors": ["src/types/base_tensors.hpp: euclidean_norm"]}
{"id": "C83", "title": "Every documented statement is parsed to exactly that statement", "statement": "A script that is a sequence of statements in the documented forms is parsed to exactly those statements, in order and with exactly the written names, numbers, lists, shapes and options.", "quantifier": "all sequences of documented statements", "why_tests_cant": "all statement forms, values and sequences", "anchors": ["src/lang/parser/parser.hpp", "src/lang/statements/help_statement.hpp"]}
{"id": "C84", "title": "An interactive session interprets each command once and in order until exit", "statement": "The interactive interpreter joins lines that end in a backslash, interprets every command exactly once and in order, and stops at the first command that requests an exit; empty lines are harmless.", "quantifier": "all sequences of input lines", "why_tests_cant": "all line sequences", "anchors": ["src/lang/interpreter.hpp: interactiveInterpret"]}
{"id": "C85", "title": "The time limit covers the whole training", "statement": "Once the time since training started exceeds the limit of the exit strategy (and the minimum number of epochs is reached), training stops at the end of the epoch.", "quantifier": "all epoch durations, losses and limits", "why_tests_cant": "Tests train for a fixed number of epochs and never reach a time limit.", "anchors": ["src/ml/neural_network.hpp: NeuralNetworkForTraining::train", "src/util/timers.hpp: ElapsedTimer::getMilliseconds", "src/ml/exit_strategy.hpp: DefaultExitStrategy::isDone"]}
{"id": "C86", "title": "A network can be trained again", "statement": "Calling train a second time on the same network trains it further and does not fail for lack of a new exit strategy.", "quantifier": "all networks, datasets and sequences of losses", "why_tests_cant": "Whether the second training fails depends on the losses of both trainings.", "anchors": ["src/ml/neural_network.hpp: NeuralNetworkForTraining::train", "src/ml/exit_strategy.hpp: DefaultExitStrategy::isDone"]}
{"id": "C87", "title": "The reported final test loss belongs to the returned weights", "statement": "The final test loss in the training result is the test loss of the weights that the network has after training.", "quantifier": "both retention policies, all sequences of losses", "why_tests_cant": "Tests only look at the size of the loss.", "anchors": ["src/ml/neural_network.hpp: NeuralNetworkForTraining::train"]}
{"id": "C88", "title": "The test loss is the mean loss over the test records", "statement": "The loss returned by test is the arithmetic mean over all test records of the mean loss over the outputs.", "quantifier": "all networks and non-empty test datasets", "why_tests_cant": "The running mean would have to be compared for every number of records.", "anchors": ["src/ml/neural_network.hpp: NeuralNetworkForTraining::test"]}
{"id": "C89", "title": "A weight update applies every layer exactly once", "statement": "Applying the collected errors after a batch updates every layer that leads to an output exactly once.", "quantifier": "all acyclic layer graphs", "why_tests_cant": "Only networks with shared layers behave differently, and none of the tests has one with weights.", "anchors": ["src/ml/neural_network_node.hpp: NeuralNetworkNode::apply", "src/ml/layers/fully_connected_layer.hpp: FullyConnectedLayer::apply"]}
{"id": "C90", "title": "The error handed down by an activation layer is the gradient at its input", "statement": "When the error given to an activation layer is the gradient of the loss with respect to the layer's output, the error it returns is the gradient with respect to its input; together with the loss functions, a small step against it makes the loss smaller.", "quantifier": "all inputs, all activation functions, all differentiable losses", "why_tests_cant": "continuous domain; wrong for some signs of the inputs only", "anchors": ["src/ml/layers/activation_layer.hpp: backward", "src/ml/activators/*.hpp", "src/ml/losses/categorical_cross_entropy_loss.hpp"]}
{"id": "C91", "title": "Backpropagation computes the gradient", "statement": "For dense, bias, activation and flatten layers in a chain, or in branches that are joined by concatenation, without clipping, the error that backward returns for the input of a chain is the gradient of the loss with respect to the input, and the error kept by each dense or bias layer is the gradient of the loss plus the layer's L2 penalty with respect to its parameters.", "quantifier": "all networks of any depth and shape, all parameters, inputs and differentiable losses", "why_tests_cant": "continuous domain and unbounded family of networks; tests look at the loss after training", "anchors": ["src/ml/layers/fully_connected_layer.hpp", "src/ml/layers/bias_layer.hpp", "src/ml/layers/activation_layer.hpp", "src/ml/layers/flatten_layer.hpp", "src/ml/layers/concatenate_wide_layer.hpp", "src/ml/neural_network_node.hpp: backward"]}
{"id": "C92", "title": "A batch moves the parameters against the gradient of the mean loss", "statement": "One batch of training calls the optimizer once per layer with the gradient of the mean loss of its records plus the penalties; with gradient descent and small enough learning rates the objective becomes smaller unless it is stationary.", "quantifier": "all networks, batches of any size, learning rates in any proportion", "why_tests_cant": "a wrong factor or a missing record still trains most networks", "anchors": ["src/ml/neural_network.hpp: train", "src/ml/layers/fully_connected_layer.hpp: apply", "src/ml/layers/bias_layer.hpp: apply", "src/ml/optimizers/mbgd_optimizer.hpp"]}
{"id": "C93", "title": "The convolution layer learns from the gradient", "statement": "When the error given to a convolution layer is the gradient of the loss with respect to its result, the changes it keeps are the gradients with respect to its kernels and the error it returns is the gradient with respect to its input; a batch moves each kernel against the mean of the changes.", "quantifier": "all kernel sizes, depths, filters, inputs and differentiable losses", "why_tests_cant": "continuous domain; several channels and kernel sizes behave differently", "anchors": ["src/ml/layers/convolution_2d_valid_layer.hpp"]}
{"id": "C94", "title": "Predictions leave no trace", "statement": "After any number of predictions a network predicts and trains exactly as if the predictions had not been made.", "quantifier": "all networks, inputs and later batches", "why_tests_cant": "the effect shows only in later training", "anchors": ["src/ml/neural_network.hpp: predict", "src/ml/layers/*.hpp: forward"]}
{"id": "C95", "title": "Layers start with random weights that tell neurons apart", "statement": "Start values lie within the requested bounds (for layers, the bounds of Xavier's rule), and no two neurons, filters or layers of the same shape start with the same weights.", "quantifier": "all shapes, bounds, seeds, positions, optimizers", "why_tests_cant": "symmetric starts still train, only badly; all seeds and shapes", "anchors": ["src/types/tensor_impls/tensor_from_random.hpp", "src/types/tensor_impls/tensor_from_xavier.hpp", "src/ml/layers/fully_connected_layer.hpp: constructor", "src/ml/layers/convolution_2d_valid_layer.hpp: constructor"]}
{"id": "C96", "title": "The normalization layer centres, scales and hands down the gradient", "statement": "The layer maps every tensor that has elements to one with the same shape and order of elements, constant tensors to zero, and the error it hands down is the gradient at its input.", "quantifier": "all tensors and errors", "why_tests_cant": "all shapes and values; continuous domain", "anchors": ["src/ml/layers/normalization_layer.hpp", "src/types/tensor_views/standardize_tensor_view.hpp", "src/types/tensor_views/standardize_derivative_tensor_view.hpp"]}
{"id": "C97", "title": "A hyperparameter search returns the best model it evaluated", "statement": "The search returns the parameters of an evaluation whose metric no other evaluation of any round beat, whatever the order in which parallel evaluations finish.", "quantifier": "all metrics, schedules, configuration counts of at least one and both directions of the metric", "why_tests_cant": "schedule dependent, and corner cases such as one configuration or NaN metrics", "anchors": ["src/ml/hyperband/configuration_evaluator.hpp: updateBestConfiguration", "src/ml/hyperband/hyperband.hpp: run"]}
{"id": "C98", "title": "The budget allotted to a configuration limits its training", "statement": "Training of a configuration during a search stops within the epochs, time and patience that the search allotted to it.", "quantifier": "all budgets", "why_tests_cant": "training time is not observable in a unit test", "anchors": ["src/ml/hyperband/configuration_evaluator.hpp: trainModel"]}
{"id": "C99", "title": "A hyperparameter search tries configurations from its space, without repetition", "statement": "Batch sizes that are tried fit the dataset or are one, the number of initial configurations is what was asked for or between ten and all, and the initial configurations differ from each other unless a thousand draws in a row were repeats.", "quantifier": "all dataset sizes, requested counts and random draws", "why_tests_cant": "randomised", "anchors": ["src/ml/hyperband/hyperband_space.hpp", "src/ml/hyperband/hyperband_random_search.hpp: generateRandomConfiguration"]}
{"id": "C100", "title": "Quantiles in tensor statistics are quantiles", "statement": "The five quartile values and the five values around the middle eighty percent that tensor statistics compute are the values at which the running count of the elements passes the named shares, in ascending order.", "quantifier": "all non-empty bags of counted values", "why_tests_cant": "depends on how elements spread over buckets", "anchors": ["src/util/tensor_stats.hpp: calculateQuarters, calculateEightyPercent"]}
{"id": "C101", "title": "Numeric settings of a model survive being saved", "statement": "Whole numbers, truth values and floating point settings (learning rate, biases, decays) that are written to a model's configuration file are the same numbers when the model is loaded.", "quantifier": "all 64-bit whole numbers, all 32-bit floats", "why_tests_cant": "four billion floats; which of them fifteen decimals determine is a question of rounding", "anchors": ["src/util/portable_bytes.hpp: asString, asBool", "src/ml/neural_network.hpp: saveAs", "src/ml/happyml_dsl.hpp: loadNeuralNetworkForTraining"]}
{"id": "C102", "title": "Saving writes and loading reads the weights of every layer", "statement": "Whatever sequence of training, saving and loading went before, saving a network writes the weights of every layer reachable from its inputs and loading reads them all.", "quantifier": "all layer graphs, all sequences of training batches, saves and loads", "why_tests_cant": "the saved flags carry history from one operation to the next, and the traversal stops at flags", "anchors": ["src/ml/neural_network_node.hpp: markUnsaved, saveKnowledge, loadKnowledge, apply", "src/ml/neural_network.hpp: saveKnowledge, loadKnowledge"]}
{"id": "C103", "title": "Saving without overwriting leaves everything on disk as it was", "statement": "Saving a model or knowledge without permission to overwrite changes no file and removes no folder that existed before.", "quantifier": "all disks, models, folders, time stamps", "why_tests_cant": "depends on what is on disk and on the clock", "anchors": ["src/ml/neural_network.hpp: saveAs, saveWithoutOverwrite", "src/util/data_util.hpp: initialize_knowledge_path_directory"]}
{"id": "C104", "title": "Saving a model again keeps knowledge saved under other labels", "statement": "When a model is saved over its earlier version, knowledge that was saved under labels other than the default one can still be loaded.", "quantifier": "all disks, models and labels", "why_tests_cant": "needs two saves under different labels and any disk", "anchors": ["src/ml/neural_network.hpp: saveAs, saveKnowledge, loadKnowledge"]}
{"id": "C105", "title": "Knowledge under one label is independent of other labels", "statement": "Knowledge saved under a label is what loading that label gives back, and neither saving nor removing a label changes what loading any other label gives.", "quantifier": "all disks, networks, weights and labels", "why_tests_cant": "unbounded labels and file contents", "anchors": ["src/ml/neural_network.hpp: saveKnowledge, loadKnowledge, removeKnowledge", "src/ml/neural_network_node.hpp: saveKnowledge, loadKnowledge"]}
{"id": "C106", "title": "A built network maps inputs of the declared shapes to outputs of the declared shapes", "statement": "If a network is described by calls of the builder that are all accepted, then a prediction for inputs of the shapes declared for the input layers raises no exception and delivers, for every output layer, a tensor of the shape declared for it.", "quantifier": "all sequences of builder calls, all weights, all inputs of the declared shapes", "why_tests_cant": "descriptions, shapes and numbers of layers are unbounded", "anchors": ["src/ml/happyml_dsl.hpp: build, buildLayer, add_concatenated_layer", "src/ml/neural_network.hpp: predict", "src/ml/layers"]}
{"id": "C107", "title": "Inputs are taken and outputs are delivered in the order of their description", "statement": "If a network is described by calls of the builder, then a prediction assigns its inputs to the input layers in the order in which these were described, every layer works on the results of the layers it was made from, in the order in which they were listed, and the results are delivered in the order in which the output layers were described.", "quantifier": "all sequences of builder calls, all weights and inputs", "why_tests_cant": "numbers and arrangements of layers are unbounded", "anchors": ["src/ml/happyml_dsl.hpp: build, build_node", "src/ml/neural_network.hpp: predict"]}
{"id": "C108", "title": "A concatenation joins its inputs in the listed order and its error reaches each as its own part", "statement": "When results are joined by a concatenation, they stand in the joined tensor in the order in which the layers were listed, and of the error of the joined tensor every layer gets back exactly the columns in which its own result stood.", "quantifier": "all descriptions with concatenations, all results", "why_tests_cant": "numbers, widths and arrangements of the joined layers are unbounded", "anchors": ["src/ml/happyml_dsl.hpp: add_concatenated_layer, build_node", "src/ml/layers/concatenate_wide_layer.hpp: forward, backward", "src/ml/neural_network_node.hpp: backward"]}
{"id": "C109", "title": "The network made for a label task fits its dataset", "statement": "For every dataset from which a label task is made, the network that is built for it accepts every record of the dataset and predicts a tensor of the shape of each expected column, in the order of the columns.", "quantifier": "all given and expected columns, goals, complexities, weights and records", "why_tests_cant": "shapes and numbers of columns are unbounded", "anchors": ["src/util/task_utils.hpp: build_neural_network_for_label, estimate_layer_output_size, create_label_task", "src/ml/happyml_dsl.hpp: add_concatenated_input_layer"]}
{"id": "C110", "title": "Layers of a label network have units", "statement": "Every layer of the network built for a label task delivers at least one value, so that its predictions can depend on the inputs.", "quantifier": "all columns, goals and complexities that the search tries", "why_tests_cant": "the search tries unboundedly many complexities", "anchors": ["src/util/task_utils.hpp: estimate_layer_output_size, create_label_task"]}
{"id": "C111", "title": "Named inputs reach the columns they name", "statement": "Executing a task with named inputs predicts from exactly one value for every given column, in the order of the columns: the one written last under the name of the column, whatever its case. If a column has no value, or one that cannot be encoded, the statement fails and reports the columns without a value and the names that are no columns.", "quantifier": "all columns, names and values", "why_tests_cant": "unbounded names, orders and repetitions", "anchors": ["src/util/task_utils.hpp: build_given, execute_task_with_inputs", "src/lang/parser/parser.hpp: parseInput"]}
{"id": "C112", "title": "Named inputs predict like records", "statement": "Executing a label task with named inputs predicts the same as the network predicts for a record of a dataset whose columns hold the same numbers and labels, for every trained network.", "quantifier": "all given columns, values, names, weights and parameters of layers", "why_tests_cant": "unbounded shapes, values and weights", "anchors": ["src/util/task_utils.hpp: execute_task_with_inputs, build_given, build_neural_network_for_label", "src/training_data/data_encoder.hpp: HappyMLVariantEncoder"]}
{"id": "C113", "title": "Categorical accuracy is the fraction of right records", "statement": "compute_categorical_accuracy(dataset, decoders, limit) returns the number of considered records (all of them, or the first `limit`) for which every decoded prediction equals the decoded expected value, divided by the number of considered records; for label columns this is the fraction of records whose highest-scoring label is the label in the record.", "quantifier": "For all datasets, networks, decoders and limits.", "why_tests_cant": "The counters are floats whose behaviour changes with the number of records, and the fraction must be right for any network and dataset.", "anchors": ["src/ml/neural_network.hpp:319-346", "src/training_data/data_decoder.hpp"]}
{"id": "C114", "title": "Binary accuracy compares whole predictions", "statement": "compute_binary_accuracy(dataset, limit) returns the fraction of the considered records for which every element of every predicted tensor rounds to the same number as the expected element.", "quantifier": "For all datasets with any number of expected columns of any shape, all networks and limits.", "why_tests_cant": "The number of compared elements depends on the number of outputs; a test with a single output of one element cannot tell the difference.", "anchors": ["src/ml/neural_network.hpp:288-317"]}
{"id": "C115", "title": "Embeddings have the promised shape", "statement": "embed_tokens returns as many rows as calculate_result_shape promises, each with as many numbers as promised; row j is token j plus the encoding of position j.", "quantifier": "For all sequence lengths, dimensionalities and lists of tokens that fit.", "why_tests_cant": "Lengths and sizes are arbitrary; a test prints one embedding.", "anchors": ["src/ml/rotary_positional_embedding.hpp:33-127"]}
{"id": "C116", "title": "Embeddings tell tokens and positions apart", "statement": "Two one-hot tokens of the same length, at positions of the sequence, that have the same embedding are the same token at the same position.", "quantifier": "For all tokens, positions, sequence lengths and dimensionalities.", "why_tests_cant": "The number of pairs of tokens and positions is quadratic in the size of the vocabulary times the length; that no sines coincide is a fact about real numbers.", "anchors": ["src/ml/rotary_positional_embedding.hpp:84-127"]}
{"id": "C117", "title": "The embedding of a text tells which text it is", "statement": "text_to_tensor_bpe_rotary succeeds for every text that fits, and two texts with the same embedding have the same content (white space collapsed and unprintable characters replaced, as the tokenizer does).", "quantifier": "For all texts, and all byte-pair encoders that were trained, or saved and loaded.", "why_tests_cant": "The claim speaks about all pairs of texts, and about encoders after any training history.", "anchors": ["src/util/text_embedder.hpp:20-38", "src/ml/byte_pair_encoder.hpp:72-105", "src/ml/byte_pair_encoder.hpp:371-373", "src/ml/byte_pair_encoder.hpp:549-583", "src/util/one_hot_encoder.hpp:33-49"]}
{"id": "C118", "title": "Images are shown with the shades of their brightness", "statement": "decodeImage turns an image into text with one line for every two rows and one character for every column; the character is the shade for the mean brightness of the two rows, relative to the brightest place, so brighter places never get a lighter character.", "quantifier": "For all images with any number of rows, columns and channels.", "why_tests_cant": "The text depends on all pixels through the largest value; wrong weights of odd rows or unusual channel counts only show in some shapes.", "anchors": ["src/training_data/data_decoder.hpp:149-219"]}
{"id": "C119", "title": "Executing a task on a dataset shows its answers", "statement": "Executing a task with a dataset shows, for every row in order, what the task predicts for the values of the row, and the values of the row themselves.", "quantifier": "all tasks, networks, datasets with any columns, ranges and labels", "why_tests_cant": "The constants with which values are scaled are recomputed when a dataset is opened; whether they agree depends on every combination of columns and ranges, while tests use the training data with one column.", "anchors": ["src/util/task_utils.hpp:166-209 execute_task_with_dataset", "src/util/file_reader.hpp:256-283", "src/util/tensor_utils.hpp:248-269"]}
{"id": "C120", "title": "The accuracy on test data counts right predictions", "statement": "The accuracy of a label task on a separate test dataset is the fraction of its rows for which the task predicts the labels of the row.", "quantifier": "all label tasks, test datasets, rows and predictions", "why_tests_cant": "Test data in tests has the same labels in the same order as the training data; other labels are read with the wrong names without any error.", "anchors": ["src/util/task_utils.hpp:417-432", "src/util/task_utils.hpp:354-355", "src/ml/neural_network.hpp compute_categorical_accuracy"]}
{"id": "C121", "title": "A dataset says what its source file says", "statement": "Creating a dataset from a csv file leaves the file as it is and makes a dataset whose columns have the kinds, shapes, labels and ranges of the data, with a row for every distinct record and no row that is not a record.", "quantifier": "all files, column groups in any order, records, labels, numbers, with and without a header", "why_tests_cant": "The result is the composition of reading, rearranging, writing, sorting, encoding, deduplication and scaling; tests check single steps on small files without repeated values.", "anchors": ["src/lang/statements/create_dataset_statement.hpp:34-206 execute", "src/util/dataset_utils.hpp:176-436", "src/training_data/training_dataset.hpp:334-364 update_column_positions", "src/util/file_writer.hpp"]}
{"id": "C122", "title": "A picture kept in eight bits per point is the picture", "statement": "A PixelTensor made from any tensor, vector or nested vectors has their shape, and each element read back is a number from 0 to 1: for every float between 0 and 1 it is lowered by at most one step of 1/255 and never noticeably raised, what is brighter is never stored darker, what is not a number or not above 0 becomes 0 and what is not below 1 becomes 1. The 256 levels k/255 are distinct and kept exactly, so storing again what was read changes nothing. Nested vectors that are shorter than the first one are filled with black, longer ones are refused with an exception.", "quantifier": "all 2^32 float bit patterns; all tensors and nested vectors", "why_tests_cant": "A test stores a few values; there are 2^32 floats, the product with 255 is rounded, and truncation afterwards could lose a level anywhere.", "anchors": ["src/types/tensor_impls/pixel_tensor.hpp:27-161", "src/types/tensor_impls/tensor_allocators.hpp:14-31", "src/util/tensor_utils.hpp:30-32"]}
{"id": "C123", "title": "A prediction that fails leaves no trace", "statement": "After a prediction that ended with an exception, because a layer rejected an input, the network answers later questions as a network that was not used before: the outputs are those that the layers compute for the inputs of that prediction.", "quantifier": "for all acyclic networks of layers that may throw, all sequences of predictions with failures at any layer, and all inputs", "why_tests_cant": "A test would have to cause an exception in the middle of a network with several inputs and use the same object again; what the connections still hold is not visible, and the wrong answers look like answers.", "anchors": ["src/ml/neural_network_node.hpp:120-168 doForward, forwardFromConnection", "src/ml/neural_network.hpp:87-101 predict"]}
{"id": "C124", "title": "Storing a tensor again with the same number of bits changes nothing", "statement": "materializeTensor(t, bits) of a tensor that is already the result of materializeTensor(_, bits) has the same shape and the same elements, for bits 32, 16 and 8. Saving such a tensor and loading it with loadTensor(path, bits) gives the same tensor again. (Layers store their weights with the configured number of bits after every update, so otherwise weights would drift without any training signal.)", "quantifier": "all shapes, all finite float elements, any number of repetitions", "why_tests_cant": "With 8 bits the bias of the format is estimated from the elements to be stored, so a second storing may use another bias; whether that happens depends on all elements together, and only for particular ones. Tests store once and compare with a tolerance.", "anchors": ["src/util/tensor_utils.hpp:70-117", "src/types/tensor_impls/quarter_tensor.hpp:17-35", "src/types/tensor_impls/half_tensor.hpp:18-35", "src/types/quarter_float.hpp:78-136"]}
{"id": "C125", "title": "Training a linear model approaches the least-squares fit", "statement": "A network of one full layer with the linear activation, trained with the mean squared error and the sgd optimizer on the whole dataset as one batch, gets as close as one likes to the smallest possible mean squared error (plus the L2 penalty, if used): after e epochs it is at most a constant divided by e above that of any other weights and biases, and it never grows from one epoch to the next, however the epochs shuffle the records. If some weights and biases fit all records exactly, the same goes for batches of any size: the error over the whole dataset goes to zero.", "quantifier": "for all datasets, weights, biases, epochs, orders of the records, batch sizes and learning rates that are small enough for the inputs (exact arithmetic)", "why_tests_cant": "A test trains on one small dataset for some number of epochs and checks that the error is small; it cannot show convergence for all datasets, nor the bound after any number of epochs, nor for which learning rates training diverges.", "anchors": ["src/ml/neural_network.hpp:445-507", "src/ml/layers/fully_connected_layer.hpp:50-157", "src/ml/layers/bias_layer.hpp:44-84", "src/ml/optimizers/mbgd_optimizer.hpp:53-71", "src/ml/happyml_dsl.hpp:49-52"]}
{"id": "C126", "title": "A prediction in 32-bit floats is close to the exact one", "statement": "For a chain of full layers, biases, flatten layers and relu, leaky relu or linear activations with 32-bit weights, every number predict returns for a finite input is finite and differs from the number the same network gives in exact arithmetic by at most (number of roundings on a path) / 2^23 times the sum of the absolute values that are added up for it, plus a multiple of 2^-149 for products that underflow. If two outputs differ in exact arithmetic by more than their bounds, predict orders them the same way, so the decoded label is the same. For one full layer with n inputs and all numbers at most 1 the error is at most (n+2)(n+1)/2^23 + n/2^149.", "quantifier": "for all networks of these layers with finite parameters, all finite inputs, all shapes", "why_tests_cant": "rounding errors depend on all bits of all weights and inputs; tests compare a few numbers with a tolerance", "anchors": ["src/ml/neural_network.hpp:87-101", "src/ml/layers/fully_connected_layer.hpp:50-69", "src/ml/layers/bias_layer.hpp:44-51", "src/ml/activators/leaky_relu_activation_function.hpp:15-18", "src/types/tensor_views/matrix_multiply_tensor_view.hpp"]}
{"id": "C127", "title": "Training a tokenizer learns the most frequent pairs and shortens texts", "statement": "BytePairEncoderModel::train keeps the codes it has and gives the next codes to pairs of neighbouring codes of the training texts, the most frequent first, none less frequent than min_frequency, at most num_merges of them, until no pair is frequent enough. After more training no text has a longer encoding, no learned pair is left in an encoded text, and validate_compression_rate does not get worse. Training on files or a folder does the same with the tokens of the files.", "quantifier": "for all encoders reached by training and reloading, all training texts, all iteration orders of the hash maps, all early-stopping decisions", "why_tests_cant": "the result depends on all counts in the training data and on the order of hash maps; tests train on a few words", "anchors": ["src/ml/byte_pair_encoder.hpp:127-203", "src/ml/byte_pair_encoder.hpp:217-359", "src/ml/byte_pair_encoder.hpp:379-519", "src/ml/byte_pair_encoder.hpp:601-649"]}
{"id": "C128", "title": "An update moves each weight against its gradient", "statement": "A learning step with the sgd optimizer changes every weight by minus the learning rate times its gradient, up to the rounding of the number format of its layer: a weight never moves along its gradient, a weight without gradient stays as it is, and changes that cancel out over several steps leave the weight where it was.", "quantifier": "all learning rates, weights and gradients that are finite and do not overflow, all numbers of updates", "why_tests_cant": "the smallest change that has an effect depends on the bits of both numbers; drift shows only over many updates, and only for formats other than 32 bits", "anchors": ["src/ml/optimizers/mbgd_optimizer.hpp:53-71", "src/ml/layers/fully_connected_layer.hpp:153-156", "src/ml/layers/bias_layer.hpp:80-83", "src/util/tensor_utils.hpp:70-84", "src/types/half_float.hpp:27-47"]}
{"id": "C129", "title": "Every call of build returns a network of the described layers", "statement": "Calling build on a description returns a network with one layer chain per described vertex, whose inputs, outputs, connections and saved configuration are those of the description, also when build was called on it before (for instance to get a second, fresh network, or after adding layers).", "quantifier": "all descriptions, all sequences of description calls and builds on one builder", "why_tests_cant": "Whether a later network has its outputs depends on everything that was built before; a test that builds once never sees it.", "anchors": ["src/ml/happyml_dsl.hpp:91-119", "src/ml/happyml_dsl.hpp:374-387", "src/ml/happyml_dsl.hpp:502-527", "src/ml/happyml_dsl.hpp:562-570"]}
{"id": "C130", "title": "Storing parameters with fewer bits moves predictions by a bounded amount", "statement": "A layer with 16 or 8 bits keeps materializeTensor of its weights and biases. For a chain of full layers, biases, flatten layers and activations, predict then returns numbers of the same shape that differ from those with the unrounded parameters by at most ((1+g)^n - 1) times the sum of the absolute values that are added up for the number, where n counts the layers with parameters and g is 1/128 for 16 bits and 1/8 for 8 bits (0 for 32 bits: nothing changes). Outputs that are farther apart than their bounds keep their order, so the same label wins, and predictions keep their sign.", "quantifier": "for all networks of these layers with finite parameters and any of the seven element-wise activations, all inputs", "why_tests_cant": "how errors of the parameters add up through several layers depends on all parameters and on the input; tests of a 16- or 8-bit network see a few predictions", "anchors": ["src/util/tensor_utils.hpp:70-84", "src/ml/layers/fully_connected_layer.hpp:153-156", "src/ml/layers/bias_layer.hpp:80-83", "src/types/half_float.hpp:27-47", "src/types/quarter_float.hpp:78-136", "src/ml/neural_network.hpp:87-101"]}
{"id": "C131", "title": "Interrupted and failed saves", "statement": "Saving a model never destroys the last usable one unnoticed. At every moment at which the program may be stopped during saveAs, and after a saveAs that the disk had no room for, either the model that was saved before or the new one can be loaded, or the caller is told of the failure (by an exception or by save returning false). Without overwriting, everything that was on the disk stays as it is at every moment. Saving a checkpoint under another label never affects the model.", "quantifier": "all disks (trees of folders and files), all paths, labels, models, all points at which the program is stopped (each removed entry, each created folder, each written byte), all numbers of bytes the disk takes of each file", "why_tests_cant": "A test would have to stop the program or fill the disk at every single byte; it observes only the state after a complete call on a working disk.", "anchors": ["src/ml/neural_network.hpp:213-263", "src/util/data_util.hpp:36-54", "src/types/base_tensors.hpp:132-169", "src/util/file_writer.hpp:27-46"]}
{"id": "C132", "title": "Networks of the search take the records and answer every column", "statement": "Every network that the hyperparameter search builds for a configuration of its search space takes every record of the dataset and predicts, for each expected column in order, a tensor of the shape of the column with numbers between 0 and 1 (adding up to 1 for categories), whatever its weights; so no configuration is lost to exceptions. Different values of a hyperparameter give different networks.", "quantifier": "all datasets (any number and shapes of given and expected columns, images or not), all configurations of the search space, all weights and records", "why_tests_cant": "the space has over a hundred thousand configurations and each combines with every dataset shape; a test trains a few of them on one dataset", "anchors": ["src/ml/hyperband/configuration_evaluator.hpp:110-210", "src/ml/hyperband/configuration_evaluator.hpp:264-278", "src/ml/hyperband/hyperband_space.hpp:67-86", "src/ml/happyml_dsl.hpp:281-344"]}
{"id": "C133", "title": "Activation functions on every 32-bit float", "statement": "Whatever 32-bit float an activation function gets, and however the C library rounds, the result is a number in the documented range (0 to 1 for the sigmoids, -1 to 1 for the hyperbolic tangents, not negative for relu), a larger input never gives a smaller result, 0 is mapped to the middle of the range, the derivative used in training is positive and at most the steepest slope of the function, and a NaN stays a NaN.", "quantifier": "all 2^32 inputs of each of the seven functions (infinities and NaN included), all pairs of inputs for the order, all C libraries whose exp and tanh are monotone and in range", "why_tests_cant": "the order is a statement about 2^64 pairs for every C library, and rounding breaks it (if at all) only between neighbouring floats that a test would have to hit", "anchors": ["src/ml/activators/sigmoid_activation_function.hpp:13-28", "src/ml/activators/sigmoid_approx_activation_function.hpp:13-29", "src/ml/activators/leaky_relu_activation_function.hpp:12-26", "src/ml/activators/relu_activation_function.hpp:14-30", "src/ml/activators/tanh_activation_function.hpp:14-35", "src/ml/activators/tanh_approx_activation_function.hpp:17-43"]}
{"id": "C134", "title": "Cross-entropy on 32-bit floats", "statement": "For a truth between 0 and 1 and any prediction, infinite ones included, the cross-entropy losses return a finite error: 0 for a right answer, never smaller for a prediction further from the truth. The derivative of a prediction between 0 and 1 is finite and points away from the truth, and what a sigmoid hands down to the layers below is finite, has that direction and is not 0, so that every wrong answer is corrected.", "quantifier": "all 32-bit floats as predictions and (for the error) truths between 0 and 1, all pairs of predictions for the order, all inputs of the sigmoid, all C libraries whose exp and log are monotone and in range", "why_tests_cant": "the claims range over 2^64 pairs of floats and over C libraries; the failures lie at saturated and at subnormal predictions that a test with typical values never meets", "anchors": ["src/ml/losses/binary_cross_entropy.hpp:21-71", "src/ml/losses/categorical_cross_entropy_loss.hpp:28-58", "src/types/tensor_views/log_tensor_view.hpp:24-27", "src/types/tensor_views/element_wise_divide_tensor_view.hpp:56-62", "src/ml/layers/activation_layer.hpp:30-56"]}
{"id": "C135", "title": "Softmax on 32-bit floats", "statement": "For every tensor without NaN and without infinity (minus infinity is allowed next to a finite element) softmax returns numbers from 0 to 1, a larger input never gets a smaller output, the outputs add up to 1 up to 2^-22 for up to 2^20 elements, and the largest input gets at least one n-th of that sum; for all other tensors every output is NaN. Documented more strongly (not met): the outputs sum to 1 and represent the importance of each element.", "quantifier": "all tensors of 32-bit floats of all shapes (up to 2^20 elements for the sum), all C libraries whose exp is monotone, in range and exact at 0", "why_tests_cant": "the error of the sum depends on the roundings of a double sum, of one conversion and of all quotients; no finite set of tensors bounds it, and the infinite and NaN inputs that appear when training diverges are never tested", "anchors": ["src/ml/activators/softmax_activation_function.hpp:15-27", "src/types/base_tensors.hpp:236-249", "src/types/base_tensors.hpp:266-279", "src/types/tensor_views/scalar_subtract_tensor_view.hpp:34-40", "src/types/tensor_views/exponential_tensor_view.hpp:19-22", "src/types/tensor_views/scalar_divide_tensor_view.hpp:33-38"]}
{"id": "C136", "title": "Adam on 32-bit floats", "statement": "However often the adam optimizer updates a weight: with gradients of at most 2^62 the first moment is at most 2^62 and the second lies between 0 and 2^124; with learning rates of at most 1 a finite weight then stays finite, and while all gradients have one sign the weight never moves in their direction. The decayed learning rate lies between 1e-5 and 1e-1 whatever it is computed from, NaN included. Expected as well (not met): after a single gradient that is too large (2^64 or more), or infinite, training recovers.", "quantifier": "all finite weights, all sequences of gradients and learning rates of any length, all C libraries whose square root and squares have the right range and order", "why_tests_cant": "the claims quantify over unbounded sequences of updates, rounded at every step; the failures need one gradient beyond 2^64, and show only in that nothing is learned any more", "anchors": ["src/ml/optimizers/adam_optimizer.hpp:28-36", "src/ml/optimizers/adam_optimizer.hpp:47-84", "src/ml/optimizers/adam_optimizer.hpp:101-162", "src/types/tensor_views/element_wise_inverse_tensor_view.hpp:16-24", "src/types/tensor_views/power_tensor_view.hpp:20-23", "src/types/tensor_views/sqrt_tensor_view.hpp:19-22", "src/ml/neural_network_node.hpp:40"]}
{"id": "C137", "title": "Momentum on 32-bit floats stays bounded, follows the gradient and comes to rest", "statement": "However often the sgdm optimizer updates a weight: with learning rates of at most 1 and gradients of at most 2^94 the momentum is at most 2^98 and a finite weight stays finite; while all gradients have one sign the weight never moves in their direction; without gradients the momentum dies down from any finite value to at most 2^-147, and then weights of at least 2^-121 do not move any more. The decayed learning rate lies between 1e-5 and 1e-1 whatever it is computed from. Expected as well (not met): without gradients every weight comes to rest, training recovers from an infinite gradient, and the decayed learning rate depends on the size of the momentum, not on its sign.", "quantifier": "all finite weights, all finite momenta, all sequences of gradients and learning rates of any length, all C libraries whose square root is never negative", "why_tests_cant": "the claims quantify over unbounded sequences of updates, rounded at every step; that 0.9 times 2^-147 is rounded back to 2^-147 shows only after thousands of updates without gradient", "anchors": ["src/ml/optimizers/sgdm_optimizer.hpp:18-27", "src/ml/optimizers/sgdm_optimizer.hpp:39-91", "src/ml/optimizers/sgdm_optimizer.hpp:105-124", "src/types/tensor_views/scalar_multiply_tensor_view.hpp:32-34", "src/types/tensor_views/add_tensor_view.hpp:44-46", "src/types/tensor_views/subtract_tensor_view.hpp:45-47"]}
{"id": "C138", "title": "Distance losses measure the distance on every float", "statement": "For finite 32-bit floats, what the losses mse, mae and smae average is a number of at least 0, it is 0 for a right prediction and positive for every wrong one, it never gets smaller when the prediction is further from the truth, and it is finite. The derivative that training starts from is positive if the prediction is above the truth, negative if it is below, and 0 if they are equal, however small the difference is.", "quantifier": "for all finite floats as truth and as predictions, all three losses, and every C library whose powf squares are monotone and exact at three points", "why_tests_cant": "There are 2^64 pairs of floats for each loss; the cases that go wrong are those whose difference or square leaves the range of a float.", "anchors": ["src/ml/losses/mse_loss.hpp:12-30", "src/ml/losses/mae_loss.hpp:16-37", "src/ml/losses/smae_loss.hpp:19-59", "src/types/tensor_views/power_tensor_view.hpp:20-23", "src/types/tensor_views/masked_select_tensor_view.hpp:18-25", "src/types/base_tensors.hpp:733-741"]}
{"id": "C139", "title": "Training a linear model of labels in floats settles near what it is shown", "statement": "For a network with one full layer (linear activation, no bias, no L2 regularization) on one-hot labels, trained on 32-bit floats with the mse loss and the sgd optimizer in batches of one: the prediction for a label is its row of weights; training on a record changes nothing for other labels and moves the row of its label towards the expected numbers, never past them; whatever is trained, a row stays within the range of its initial values and of what is expected for its label; and a label that is always shown with the same numbers ends up predicting them.", "quantifier": "for all numbers of labels and columns, all weights and expected values up to 2^90 in absolute value, all positive learning rates, all finite and infinite sequences of records", "why_tests_cant": "Training is a loop without bound whose state is a table of floats; where it ends depends on every rounding. Tests run a few hundred epochs from a few random starts and compare with a tolerance.", "anchors": ["src/ml/layers/fully_connected_layer.hpp:50-157", "src/ml/layers/activation_layer.hpp:30-57", "src/ml/losses/mse_loss.hpp:24-30", "src/ml/optimizers/mbgd_optimizer.hpp:53-62", "src/ml/neural_network.hpp:464-493", "src/types/tensor_views/matrix_multiply_tensor_view.hpp:49-57"]}
{"id": "C140", "title": "Arithmetic on 8-bit floats gives the nearest codes", "statement": "Adding, subtracting, multiplying and dividing 8-bit floats gives the code of the exact result up to the coarseness of the codes: off by at most about an eighth of the result, the largest code where the result is too large, zero where it is too small, never an infinity or a NaN except for infinities, NaNs and division by zero; sums and products do not depend on the order of operands, zero and one are neutral, a number minus itself is zero and divided by itself one, signs are right and a larger operand never gives a smaller sum. The range of a bias is twice its largest number.", "quantifier": "all codes, all biases of the operands and of the result", "why_tests_cant": "256 x 256 pairs of codes times 15^3 biases times four operations, each rounded twice; the tests add one pair", "anchors": ["src/types/quarter_float.hpp:138-170"]}
{"id": "C141", "title": "The recommended bias and offset of tensor statistics fit the elements", "statement": "TensorStats(tensor, FIT_BIAS_FOR_100) with zero required recommends the most precise of the biases 14, 8, 4, 1 for which an offset exists such that every element, and zero, shifted by the offset lies within the range of 8-bit floats with that bias; the recommended offset is the middle between the largest and the smallest (counting zero). Only if none of the four is enough is -4 recommended. The elements therefore do not saturate when stored as recommended.", "quantifier": "every non-empty tensor of finite elements, every assignment of elements to the 256 entries of the five bags", "why_tests_cant": "Tests construct statistics for a few regular or random tensors and compare the recommendation with recorded numbers; they cannot show that it is the most precise one, or that no element falls out of the range, for all tensors.", "anchors": ["src/util/tensor_stats.hpp:28-189", "src/util/tensor_stats.hpp:416-468", "src/util/tensor_stats.hpp:532-552"]}
{"id": "C142", "title": "Creating a task touches only its folder and leaves it complete", "statement": "create task leaves everything outside the folder of the task and the log as it was, also when the program is stopped at any moment during the call: the other tasks and all datasets in particular. If a network is found, the folder then has the network, its weights and the description of the columns of the given dataset, and nothing else, whatever was in it before; what a stopped call left is replaced by calling again. A task that is there stays as it is, whatever is created afterwards.", "quantifier": "all names, disks, datasets, goals, all sequences of checkpoints and results of the search, every moment at which the program can be stopped, all later calls", "why_tests_cant": "Stopping at every moment, every state of a half-written folder and every name cannot be tried; the tests of the task functions create one or two tasks in a fresh folder.", "anchors": ["src/util/task_utils.hpp:390-424", "src/util/task_utils.hpp:646-665", "src/lang/statements/create_task_statement.hpp:31-56", "src/lang/execution_context.hpp:12-59", "src/lang/parser/parser.hpp:171-228", "src/ml/neural_network.hpp:203-263"]}
{"id": "C143", "title": "Creating a dataset touches only its own files and can be repeated", "statement": "create dataset leaves every file as it was except the dataset and the files it makes on the way (the columns put in order, the sorted lines and its chunks beside the source, the raw dataset beside the dataset), also when the program is stopped at any moment; the source and all other datasets are never changed. When it succeeds, the dataset is made of the lines of the source in order, each once, without empty lines, and none of the files made on the way is left. Stopped before the dataset was begun, the same call gives the same dataset later, whatever the stopped call left.", "quantifier": "all sources, names, disks, all sets of files that can be written, every moment at which the program can be stopped, whatever the columns make of the lines", "why_tests_cant": "No test stops the program between two files or has other files beside the source; the tests create a dataset in an empty folder and count its records.", "anchors": ["src/lang/statements/create_dataset_statement.hpp:34-206", "src/util/text_file_sorter.hpp:28-156", "src/util/dataset_utils.hpp:176-446", "src/lang/execution_context.hpp:12-59"]}
{"id": "C144", "title": "Statistics survive rounding", "statement": "The mean of a non-empty tensor of finite elements is finite, lies between the smallest and the largest element, and differs from the exact mean by at most ((n+1)*2^-51 + 2^-24)*M + 2^-150 for n elements of size at most M; a tensor with one value everywhere has exactly this mean and no deviation; what the deviation is the root of is never negative and at most the square of the range (up to 2^-50). For the values of a column all elements are counted, the smallest and the largest value are exact, the mean lies between them and has an error of at most (n+1)*2^-51*M, and the spread is a number that is zero exactly if all values are equal. Normalizing to the range of a column gives numbers from 0 to 1, exactly 0 and 1 at the ends, in the order of the values, and undoing it gives the value back up to M*2^-21 + 2^-149.", "quantifier": "all tensors and columns of finite 32-bit floats (at most 2^53 elements for columns), with the roundings of `double` and `float`", "why_tests_cant": "The tests compare a few small tensors with known results; they cannot show that no sequence of roundings makes the mean leave the range of the elements, makes the number under the root negative or makes the spread of different values zero.", "anchors": ["src/types/base_tensors.hpp:411-430", "src/types/base_tensors.hpp:467-495", "src/util/tensor_utils.hpp:161-201", "src/types/tensor_views/normalize_tensor_view.hpp:12-31", "src/types/tensor_views/denormalize_tensor_view.hpp:13-23"]}
{"id": "C145", "title": "Numbers of a dataset survive standardizing and normalizing", "statement": "If a dataset has a column of finite numbers that are not all equal, then the stored values are finite, and what is shown for a stored value is the original number up to an error that is small against the differences of the numbers in the column; so different enough numbers are stored as different numbers.", "quantifier": "all columns with up to 2^53 finite elements of size at most 2^70, all roundings of float and double", "why_tests_cant": "the loss depends on the size of the numbers against their spread; tests use small numbers, where the error cannot be seen", "anchors": ["src/util/dataset_utils.hpp: standardize_and_normalize, unstandardize_and_denormalize, normalize_and_standardize_dataset", "src/util/tensor_utils.hpp: update_standardization_normalization_values_calculation", "src/training_data/data_decoder.hpp: RawDecoder::decode"]}
{"id": "C146", "title": "The normalization layer computes finite numbers", "statement": "Given finite input elements of ordinary size, every output of the normalization layer is a finite float of bounded size, and so is the error its backward step hands down for bounded errors; equal-to-zero inputs and single elements give zero, never NaN.", "quantifier": "for all shapes, all finite element values in the stated range, and all errors", "why_tests_cant": "Whether one of about ten roundings per element overflows, or the rounded deviation becomes zero, depends on all elements at once; tests sample a few tensors and never hit the extreme exponents.", "anchors": ["src/types/tensor_views/standardize_tensor_view.hpp:14-42", "src/ml/layers/normalization_layer.hpp:23-60", "src/types/tensor_views/standardize_derivative_tensor_view.hpp:24-43"]}
{"id": "C147", "title": "Loading a delimited file gives one training pair per record that says what the record says", "statement": "loadDelimitedValuesDataset turns a delimited text file into a dataset with exactly one pair for every record, in file order and without the header; the given and the expected tensor hold exactly what the given and expected columns of that record say, in every encoder, and it makes no difference whether the expected columns stand first or last. Files that cannot be opened and records with missing columns are reported.", "quantifier": "for all file contents, delimiters, column counts, shapes, encoders and both column orders", "why_tests_cant": "Line reading, quoting, splitting and encoding interact on every record; a test fixes one file and one shape and cannot show that no record is lost, merged or attached to the wrong columns.", "anchors": ["src/util/dataset_utils.hpp:449-487", "src/util/file_reader.hpp:24-199", "src/training_data/data_encoder.hpp:153-283"]}
{"id": "C148", "title": "The search draws different configurations, and the first values of a list most often", "statement": "Drawing notices that a configuration was used before by comparing texts with eight digits after the point. For the values the search can draw this is exact: two configurations with the same text are the same. So the configurations a search begins with are as many as were asked for, all from the space, and pairwise different, unless 1001 draws in a row gave configurations that were already taken. getNumConfigurations is the number of different configurations that can be drawn. The weights of the values of a list are not negative, add up to one, and each is the one before times the favor: below one the first values are favored, one is uniform, above one the last values are favored, zero leaves only the first.", "quantifier": "all sequences of draws, all counts, all sizes of the dataset, all lengths of lists and all favors that are not negative (exact arithmetic)", "why_tests_cant": "a test draws a few of 149 million configurations with a random seed; that no two of them share a text, and that repetitions need 1001 failures, are statements about all of them", "anchors": ["src/ml/hyperband/hyperband_space.hpp:33-49", "src/ml/hyperband/hyperband_space.hpp:64-105", "src/ml/hyperband/hyperband_random_search.hpp:19-91"]}
{"id": "C149", "title": "The largest and smallest elements are found whatever the floats are, and equality of tensors has a fixed tolerance", "statement": "Searching a row or column of a tensor of floats passes over NaN and returns the first of the largest (smallest) numbers, or all of them in order; the check for invalid values answers false exactly if every element is finite; a label is decoded without an exception whenever there is a label for every column. assertEqual accepts two tensors exactly if the shapes agree and every two elements differ by at most 1000 * 2^-23 (up to the rounding of the difference); the order of the arguments does not matter.", "quantifier": "all 32-bit floats including infinities, NaN and zeros of both signs, all shapes", "why_tests_cant": "a test tries a few tidy rows; ties, NaN in the first place, infinities, and differences next to the tolerance are not enumerated", "anchors": ["src/types/base_tensors.hpp:121-130", "src/types/base_tensors.hpp:335-409", "src/util/tensor_utils.hpp:119-159", "src/types/quarter_float.hpp:173-177", "src/training_data/data_decoder.hpp:117-124"]}
{"id": "C150", "title": "Converting a tab-separated file to csv keeps its rows and cells", "statement": "convert_tsv_to_csv returns true and writes a csv file whose rows and cells are those of the tab-separated file, without whitespace at the ends of the cells. It returns false if the file cannot be opened or is empty.", "quantifier": "for every file whose cells contain no quotation marks and no escapes of happyml, and every text to number test; with the restriction that cells that begin like a number contain no comma", "why_tests_cant": "Whether a cell survives depends on its bytes (commas, spaces, what looks like a number) and on the reader and writer agreeing about quoting; a test converts a few files.", "anchors": ["src/util/dataset_utils.hpp:75-88", "src/util/file_writer.hpp:70-94", "src/util/file_reader.hpp:144-200"]}
{"id": "C151", "title": "A model's name keeps its files inside its own folder", "statement": "The builder refuses names with other characters than ASCII letters, digits and underscores. Saving a model changes nothing outside the folder with its name in the repository, so that models with different names do not touch each other's files; the names that happyml generates itself are accepted.", "quantifier": "for every name, every sequence of setModelName and setModelRepo, every disk, network and time", "why_tests_cant": "The harm depends on the name and on what is on the disk; a test tries a few names, none of them removes what it should not.", "anchors": ["src/ml/happyml_dsl.hpp:40-60", "src/ml/happyml_dsl.hpp:77-89", "src/ml/neural_network.hpp:203-242", "src/ml/hyperband/hyperband_space.hpp:51-61", "src/util/task_utils.hpp:242-244"]}
{"id": "C152", "title": "The program runs its scripts in order and its exit code tells whether they succeeded", "statement": "Started with names of scripts, the program runs their statements once and in order. It ends with code 0 after the last one or after an exit at the end of a script, and with code 1 if a statement throws; a script that cannot be run is reported by the exit code.", "quantifier": "for all scripts, all files (which statements may change), all statements, whatever they do", "why_tests_cant": "All sequences of scripts and all ways to fail; the tests do not run the program.", "anchors": ["src/main.cpp:12-33", "src/lang/interpreter.hpp:24-67", "src/lang/statements/code_block_statement.hpp:20-32"]}
{"id": "C153", "title": "A network reports the number of its parameters and trainable layers", "statement": "A built network reports as its number of parameters the number of weights, kernel elements and biases of all layers that were described, and as its number of trainable layers the number of layers that have such numbers; training does not change either.", "quantifier": "for all descriptions whose shapes fit together, all sizes, shared and joined layers, all values of the parameters", "why_tests_cant": "All graphs and sizes; the tests never look at the numbers that are printed.", "anchors": ["src/ml/neural_network.hpp:348-370", "src/ml/neural_network_node.hpp:89-116", "src/ml/happyml_dsl.hpp:382-527"]}
{"id": "C154", "title": "The geometric mean is the root of the product", "statement": "geometricMean of a tensor of n positive numbers is the positive number whose n-th power is their product; it lies between the smallest and the largest of them, is at most arithmeticMean, and scales with the numbers. It is NaN exactly if the tensor is empty or one of its numbers is not positive.", "quantifier": "for all tensors of finite numbers, in exact arithmetic", "why_tests_cant": "All shapes and numbers; the tests compare one tensor with a constant.", "anchors": ["src/types/base_tensors.hpp:497-571"]}
{"id": "C155", "title": "A label that is a number can be named without quotes", "statement": "When a column's labels are numbers, a script can name one as it is written in the data: the parser reads it as a float and the encoder prints the float to find the label. The printed text equals the written one exactly if the number has at most six significant digits, no needless zeros, and is zero or at least 0.0001; the one-hot vector of that label is then delivered. Any other number that is a label should be found too.", "quantifier": "for all texts of digits with an optional point, all lists of labels", "why_tests_cant": "All decimal numbers, each rounded twice; 0.01 is found only because the rounded digits carry into a new one.", "anchors": ["src/lang/happyml_variant.hpp:56-80", "src/lang/parser/parser.hpp:349-355", "src/training_data/data_encoder.hpp:115-140"]}
{"id": "C156", "title": "A single word needs no quotes", "statement": "In execute task with input, a column and a value that are single words are taken as they are written, without quotes. Keywords such as text, label or speed are words too; as a column or value they should be accepted, or at least be refused with an error message.", "quantifier": "for all words, in any mixture of upper and lower case", "why_tests_cant": "All words and keywords; tests use a handful of words.", "anchors": ["src/lang/parser/parser.hpp:308-390", "src/lang/lexer/lexer_patterns.hpp:341-361", "src/lang/happyml_script_init.hpp:16-88"]}
{"id": "C157", "title": "Printed records show their numbers to three decimals", "statement": "When a record of numbers is printed, there is one line for each row, with its numbers in order, separated by commas and with the channels of a column in parentheses; each number is shown with three decimals, differs from the value by at most half a thousandth, and has its sign. The line can be taken apart again, and numbers below each other are aligned.", "quantifier": "for all shapes and all finite floats", "why_tests_cant": "All floats and shapes; there is no test of the printing.", "anchors": ["src/types/base_tensors.hpp:573-633", "src/util/pretty_print_row.hpp:75-95"]}
{"id": "C158", "title": "The text of a tensor has each number at its place", "statement": "The text that a decoder of numbers returns, and the text that print writes, have an empty first line and then one line for each row of each channel, with a line before and behind the rows of a channel if there are several. On that line, between brackets for a single row and between bars otherwise, are the numbers of the row in order, separated by commas, and no number contains a comma, blank or newline. Each number can be read back exactly from the text of a decoder (15 decimals) and is shown to half a thousandth by print.", "quantifier": "For all tensors of any shape with any floats, all rows and channels.", "why_tests_cant": "The shape changes which lines there are and which characters enclose them; tests look at one printed tensor, and the limits of the decimals depend on all 2^32 floats.", "anchors": ["src/types/base_tensors.hpp:635-669", "src/training_data/data_decoder.hpp:71-75"]}
{"id": "C159", "title": "A printed dataset shows the numbers it was created from", "statement": "When a dataset is created from a column of numbers and its records are printed, each record has one line for each row of numbers, and the numbers on it, in order and separated by commas, are those of the source: each differs from the number in the source by at most half a thousandth, plus a small multiple of the size of the numbers that comes from storing them standardized and normalized.", "quantifier": "For all columns of finite numbers that are not all equal, with up to 2^53 numbers of size up to 2^70, all records.", "why_tests_cant": "Statistics, standardizing, normalizing, storing, undoing and printing each round; tests print a few numbers, the bound is about all columns.", "anchors": ["src/util/dataset_utils.hpp:126-140", "src/util/dataset_utils.hpp:233-254", "src/training_data/data_decoder.hpp:56-69", "src/util/pretty_print_row.hpp:75-95", "src/types/base_tensors.hpp:573-633"]}
{"id": "C160", "title": "A layer that is used several times learns from the mean of its inputs", "statement": "If forward of a fully connected layer or of a convolution is called several times for training before backward, then backward, for every error, returns and leaves what it would have done after a single call with the mean of the inputs, element by element. The order of the calls does not matter and the weights do not change before apply.", "quantifier": "All weights, all numbers of calls, all inputs of a fitting shape, all errors.", "why_tests_cant": "The queue can have any length; tests use it with one input, for which the code takes another branch.", "anchors": ["src/ml/layers/fully_connected_layer.hpp:50-132", "src/ml/layers/convolution_2d_valid_layer.hpp:55-161"]}
